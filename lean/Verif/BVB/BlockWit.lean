import Verif.BVB.BlockThm3
import Mathlib.Analysis.Matrix.LDL
import Mathlib.Analysis.Matrix.Spectrum
import Mathlib.LinearAlgebra.Matrix.Block
/-!
C112: the contracts can be met, examples, and what is false of the code.
-/
set_option linter.all false
namespace Verif.BVB.Block
open scoped ComplexOrder
variable {𝕜 : Type} [RCLike 𝕜] {E : Type} [NormedAddCommGroup E] [InnerProductSpace 𝕜 E]

/-- Entries of a matrix as a function of numbers. -/
def ofM {n : ℕ} (A : Matrix (Fin n) (Fin n) 𝕜) : ℕ → ℕ → 𝕜 := fun i j => if h : i < n ∧ j < n then A ⟨i, h.1⟩ ⟨j, h.2⟩ else 0

theorem toM_ofM {n : ℕ} (A : Matrix (Fin n) (Fin n) 𝕜) : toM n (ofM A) = A := by
  ext i j; simp [toM, ofM]

theorem up_ofM {n : ℕ} (A : Matrix (Fin n) (Fin n) 𝕜) (h : ∀ i j, j < i → A i j = 0) : up n (ofM A) = A := by
  ext i j
  unfold up
  by_cases hij : i.1 ≤ j.1
  · rw [if_pos hij]; simp [ofM]
  · rw [if_neg hij, h i j (by rw [Fin.lt_def]; omega)]

/-- Every positive definite matrix has a Cholesky factor. -/
theorem exists_chol {n : ℕ} {A : Matrix (Fin n) (Fin n) 𝕜} (hA : A.PosDef) :
    ∃ C : Matrix (Fin n) (Fin n) 𝕜, (∀ i j, j < i → C i j = 0) ∧ (∀ i, C i i ≠ 0) ∧ C.conjTranspose * C = A := by
  have hlow : Matrix.BlockTriangular (LDL.lower hA) OrderDual.toDual := by
    have h1 : Matrix.BlockTriangular (LDL.lowerInv hA) OrderDual.toDual := fun i j hij => LDL.lowerInv_triangular hA hij
    exact Matrix.blockTriangular_inv_of_blockTriangular h1
  have hd : ∀ i, 0 < LDL.diagEntries hA i := by
    intro i
    have hinj : Function.Injective ((LDL.lowerInv hA).conjTranspose).mulVec := by
      apply Matrix.mulVec_injective_of_isUnit
      rw [Matrix.isUnit_conjTranspose]
      exact isUnit_of_invertible _
    have h1 := hA.conjTranspose_mul_mul_same hinj
    rw [Matrix.conjTranspose_conjTranspose, ← LDL.diag_eq_lowerInv_conj] at h1
    have h2 := h1.diag_pos (i := i)
    unfold LDL.diag at h2
    rw [Matrix.diagonal_apply_eq] at h2
    exact h2
  obtain ⟨d, hdd⟩ : ∃ d : Fin n → ℝ, ∀ i, 0 < d i ∧ LDL.diagEntries hA i = (d i : 𝕜) := by
    refine ⟨fun i => RCLike.re (LDL.diagEntries hA i), fun i => ?_⟩
    have := RCLike.pos_iff.1 (hd i)
    refine ⟨this.1, ?_⟩
    apply RCLike.ext
    · simp
    · simp [this.2]
  obtain ⟨Sq, hSq⟩ : ∃ Sq : Matrix (Fin n) (Fin n) 𝕜, Sq = Matrix.diagonal (fun i => ((Real.sqrt (d i) : ℝ) : 𝕜)) := ⟨_, rfl⟩
  have hSqh : Sq.conjTranspose = Sq := by
    rw [hSq, Matrix.diagonal_conjTranspose]
    congr 1
    funext i
    exact RCLike.conj_ofReal _
  have hSS : Sq * Sq = LDL.diag hA := by
    rw [hSq, Matrix.diagonal_mul_diagonal]
    unfold LDL.diag
    congr 1
    funext i
    rw [(hdd i).2, ← RCLike.ofReal_mul, Real.mul_self_sqrt (hdd i).1.le]
  have hprod : (Sq * (LDL.lower hA).conjTranspose).conjTranspose * (Sq * (LDL.lower hA).conjTranspose) = A := by
    rw [Matrix.conjTranspose_mul, Matrix.conjTranspose_conjTranspose, hSqh]
    calc LDL.lower hA * Sq * (Sq * (LDL.lower hA).conjTranspose) = LDL.lower hA * (Sq * Sq) * (LDL.lower hA).conjTranspose := by simp only [Matrix.mul_assoc]
      _ = A := by rw [hSS, LDL.lower_conj_diag]
  have hup : ∀ i j, j < i → (Sq * (LDL.lower hA).conjTranspose) i j = 0 := by
    intro i j hij
    rw [hSq, Matrix.diagonal_mul, Matrix.conjTranspose_apply, hlow hij, star_zero, mul_zero]
  refine ⟨_, hup, fun i h0 => ?_, hprod⟩
  have h1 : (Sq * (LDL.lower hA).conjTranspose).det = ∏ i, (Sq * (LDL.lower hA).conjTranspose) i i := Matrix.det_of_upperTriangular (fun i j hij => hup i j hij)
  have h2 : IsUnit (Sq * (LDL.lower hA).conjTranspose) := by
    have := hA.isUnit
    rw [← hprod] at this
    exact isUnit_right this
  have h3 : (Sq * (LDL.lower hA).conjTranspose).det = 0 := h1.trans (Finset.prod_eq_zero (Finset.mem_univ i) h0)
  rw [Matrix.isUnit_iff_isUnit_det, h3] at h2
  exact not_isUnit_zero h2

/-- The contracts of the LAPACK routines can be met. -/
theorem exists_kern : ∃ K : Kern 𝕜, IsKern K := by
  classical
  have hsy : ∀ (n : ℕ) (A : Matrix (Fin n) (Fin n) 𝕜), ∃ f : (ℕ → ℕ → 𝕜) × (ℕ → ℝ), A.IsHermitian →
      (toM n f.1).conjTranspose * toM n f.1 = 1 ∧ A * toM n f.1 = toM n f.1 * Matrix.diagonal (fun i : Fin n => ((f.2 i : ℝ) : 𝕜)) := by
    intro n A
    by_cases hA : A.IsHermitian
    · refine ⟨(ofM (hA.eigenvectorUnitary : Matrix (Fin n) (Fin n) 𝕜), fun i => if h : i < n then hA.eigenvalues ⟨i, h⟩ else 0), fun _ => ?_⟩
      dsimp only
      rw [toM_ofM]
      have h1 : (hA.eigenvectorUnitary : Matrix (Fin n) (Fin n) 𝕜).conjTranspose * (hA.eigenvectorUnitary : Matrix (Fin n) (Fin n) 𝕜) = 1 :=
        Unitary.coe_star_mul_self hA.eigenvectorUnitary
      refine ⟨h1, ?_⟩
      have h2 := hA.spectral_theorem
      rw [Unitary.conjStarAlgAut_apply] at h2
      have h4 := congrArg (fun X => X * (hA.eigenvectorUnitary : Matrix (Fin n) (Fin n) 𝕜)) h2
      rw [h4, Matrix.mul_assoc]
      have h5 : (star (hA.eigenvectorUnitary : Matrix (Fin n) (Fin n) 𝕜)) * (hA.eigenvectorUnitary : Matrix (Fin n) (Fin n) 𝕜) = 1 := h1
      rw [h5, Matrix.mul_one]
      congr 2
      funext i
      simp
    · exact ⟨(0, 0), fun h => absurd h hA⟩
  choose sy hsy using hsy
  have htr : ∀ (n : ℕ) (A : ℕ → ℕ → 𝕜), ∃ X : ℕ → ℕ → 𝕜, (∀ i < n, A i i ≠ 0) → up n A * up n X = 1 := by
    intro n A
    by_cases hd : ∀ i < n, A i i ≠ 0
    · have hu : Matrix.BlockTriangular (up n A) id := by
        intro i j hij
        unfold up
        rw [if_neg]
        have : j < i := hij
        rw [Fin.lt_def] at this
        omega
      have hdet : IsUnit (up n A).det := by
        rw [Matrix.det_of_upperTriangular hu, isUnit_iff_ne_zero, Finset.prod_ne_zero_iff]
        intro i _
        unfold up
        rw [if_pos le_rfl]
        exact hd i i.2
      haveI := Matrix.invertibleOfIsUnitDet _ hdet
      have hi := Matrix.blockTriangular_inv_of_blockTriangular hu
      refine ⟨ofM (up n A)⁻¹, fun _ => ?_⟩
      rw [up_ofM _ (fun i j hij => hi hij)]
      exact Matrix.mul_nonsing_inv _ hdet
    · exact ⟨0, fun h => absurd h hd⟩
  choose tr htr using htr
  have hch : ∀ (n : ℕ) (A : ℕ → ℕ → 𝕜), ∃ C : Option (ℕ → ℕ → 𝕜), (∀ X, C = some X → (∀ i < n, X i i ≠ 0) ∧ (up n X).conjTranspose * up n X = toM n A)
      ∧ ((toM n A).PosDef → C ≠ none) := by
    intro n A
    by_cases hA : (toM n A).PosDef
    · obtain ⟨C, c1, c2, c3⟩ := exists_chol hA
      refine ⟨some (ofM C), fun X hX => ?_, fun _ => by simp⟩
      obtain rfl := Option.some.inj hX
      refine ⟨fun i hi => ?_, by rw [up_ofM C c1]; exact c3⟩
      unfold ofM
      rw [dif_pos ⟨hi, hi⟩]
      exact c2 _
    · exact ⟨none, fun X hX => absurd hX (by simp), fun h => absurd h hA⟩
  choose ch hch using hch
  exact ⟨⟨ch, tr, fun n A => sy n (toM n A)⟩, fun n A C _ h => (hch n A).1 C h, fun n A h => (hch n A).2 h, htr, fun n A h => hsy n _ h⟩

/-- Three columns, the first one orthonormal: the hypotheses can be met. -/
noncomputable def exV : ℕ → EuclideanSpace ℝ (Fin 3) := fun j => if j = 0 then EuclideanSpace.single 0 1 else if j = 1 then EuclideanSpace.single 0 2 + EuclideanSpace.single 1 1
  else EuclideanSpace.single 0 3 + EuclideanSpace.single 1 4 + EuclideanSpace.single 2 5

theorem exV_li : LinearIndependent ℝ (fun i : Fin 3 => exV i) := by
  rw [Fintype.linearIndependent_iff]
  intro g hg
  rw [Fin.sum_univ_three] at hg
  have h0 := congrArg (fun x : EuclideanSpace ℝ (Fin 3) => x 0) hg
  have h1 := congrArg (fun x : EuclideanSpace ℝ (Fin 3) => x 1) hg
  have h2 := congrArg (fun x : EuclideanSpace ℝ (Fin 3) => x 2) hg
  simp [exV] at h0 h1 h2
  intro i
  fin_cases i
  · show g 0 = 0
    rw [h2] at h1 h0
    simp at h1
    rw [h1] at h0
    simpa using h0
  · show g 1 = 0
    rw [h2] at h1
    simpa using h1
  · exact h2

theorem exV_orth : Orthonormal (𝕜 := ℝ) 1 exV := by
  intro i hi j hj
  have hi : i = 0 := by omega
  have hj : j = 0 := by omega
  subst hi; subst hj
  simp [exV]

example : ∃ (K : Kern ℝ) (o : Out ℝ (EuclideanSpace ℝ (Fin 3))), chol K 1 3 1 3 exV (fun _ => 9) (some ⟨4, 4, fun _ => 7⟩) = some o ∧ Orthonormal (𝕜 := ℝ) 3 o.V := by
  obtain ⟨K, hK⟩ := exists_kern (𝕜 := ℝ)
  obtain ⟨o, h⟩ := (chol_partial hK 1 (m := 3) (l := 1) (k := 3) (by decide) le_rfl exV (fun _ => 9) (some ⟨4, 4, fun _ => 7⟩)
    (fun u hu => by obtain rfl := Option.some.inj hu; exact ⟨rfl, by decide⟩)).2 exV_li exV_orth
  exact ⟨K, o, h⟩

example : ∃ K : Kern ℝ, Orthonormal (𝕜 := ℝ) 3 (svqb K 3 1 3 exV (fun _ => 9) (some ⟨4, 4, fun _ => 7⟩)).V := by
  obtain ⟨K, hK⟩ := exists_kern (𝕜 := ℝ)
  exact ⟨K, (svqb_partial hK (by decide) le_rfl exV (fun _ => 9) (some ⟨4, 4, fun _ => 7⟩)
    (fun u hu => by obtain rfl := Option.some.inj hu; decide) exV_li exV_orth).2.1⟩

/-! ### What is false -/

/-- The full statement for SVQB with complex scalars. -/
def SvqbFactor (𝕜 E : Type) [RCLike 𝕜] [NormedAddCommGroup E] [InnerProductSpace 𝕜 E] (K : Kern 𝕜) (m l k : ℕ) (V : ℕ → E) (B : ℕ → 𝕜) (u : User 𝕜) : Prop :=
  ∃ R, (svqb K m l k V B (some u)).R = some R ∧ IsFactor l k u.lda V (svqb K m l k V B (some u)).V R

/-- For linearly independent columns and no leading columns, the factor of SVQB is right only if all inner products are real. -/
theorem svqb_factor_real {K : Kern 𝕜} (hK : IsKern K) {m k : ℕ} (hm : k ≤ m) (V : ℕ → E) (B : ℕ → 𝕜) (u : User 𝕜) (hu : k ≤ u.lda)
    (hli : LinearIndependent 𝕜 (fun i : Fin k => V i)) (hf : SvqbFactor 𝕜 E K m 0 k V B u) : ∀ i < k, ∀ j < k, star (inner 𝕜 (V i) (V j)) = inner 𝕜 (V i) (V j) := by
  obtain ⟨R, hR, hfac⟩ := hf
  have hlk : 0 ≤ k := Nat.zero_le k
  obtain ⟨B1, hB1⟩ : ∃ B1, B1 = dotInto (start m 0 k V B).1 0 k 0 k m (start m 0 k V B).2 := ⟨_, rfl⟩
  have hproj : ∀ j, proj (𝕜 := 𝕜) 0 k V j = V j := by intro j; unfold proj; simp
  have hG : ∀ i < k, ∀ j < k, blk B1 m 0 i j = inner 𝕜 (V i) (V j) := fun i hi j hj => by
    rw [hB1, dot_blk V B hlk hm (by omega) (by omega)]
    unfold gramW
    rw [hproj, hproj, zero_add, zero_add]
  have hpd : (toM k (blk B1 m 0)).PosDef := by
    have h1 := gramW_posDef V hlk hli
    have : toM k (blk B1 m 0) = toM k (gramW (𝕜 := 𝕜) 0 k V) := toM_congr (fun i hi j hj => by rw [hB1]; exact dot_blk V B hlk hm (by omega) (by omega))
    rw [this]
    exact h1
  have hscl : ∀ i : Fin k, 0 < scl B1 m 0 i := by
    intro i
    have h1 := hpd.diag_pos (i := i)
    have h2 : 0 < RCLike.re (blk B1 m 0 i i) := (RCLike.pos_iff.1 h1).1
    exact one_div_pos.2 (Real.sqrt_pos.2 h2)
  have hDne : ∀ i : Fin k, (scl B1 m 0 i : 𝕜) ≠ 0 := fun i => RCLike.ofReal_ne_zero.2 (hscl i).ne'
  obtain ⟨A, a1, a2, a3, _, _⟩ := svqb_entries K hlk hm hu B1 u.a
  rw [Nat.sub_zero] at a1 a2 a3
  obtain ⟨U, hU⟩ : ∃ U, U = toM k (K.syev k A).1 := ⟨_, rfl⟩
  obtain ⟨e, he⟩ : ∃ e : Fin k → ℝ, e = fun i : Fin k => (K.syev k A).2 i := ⟨_, rfl⟩
  have hAh : (toM k A).IsHermitian := by
    ext i j
    show star (A j i) = A i j
    rw [a1 j j.2 i i.2, a1 i i.2 j j.2, star_mul', star_mul']
    have e1 : star (blk B1 m 0 j i) = blk B1 m 0 i j := congrFun (congrFun hpd.1 i) j
    have e2 : ∀ t : ℕ, star (scl B1 m 0 t : 𝕜) = (scl B1 m 0 t : 𝕜) := fun t => RCLike.conj_ofReal _
    rw [e1, e2, e2]
    ring
  have hAm : toM k A = Matrix.diagonal (fun i : Fin k => (scl B1 m 0 i : 𝕜)) * toM k (blk B1 m 0) * Matrix.diagonal (fun i : Fin k => (scl B1 m 0 i : 𝕜)) := by
    ext i j
    rw [Matrix.mul_diagonal, Matrix.diagonal_mul]
    show A i j = _
    rw [a1 i i.2 j j.2, mul_comm (blk B1 m 0 i j)]
    rfl
  obtain ⟨s1, s2⟩ := hK.syev k A hAh
  rw [← hU] at s1 s2
  obtain ⟨S, hS⟩ : ∃ S, S = blk (svqbArr K m u.lda 0 k B1 u.a).2 u.lda 0 := ⟨_, rfl⟩
  obtain ⟨X, hX⟩ : ∃ X, X = blk (svqbArr K m u.lda 0 k B1 u.a).1 m 0 := ⟨_, rfl⟩
  have s2' := s2
  rw [hAm] at s2'
  obtain ⟨hpos, _, _⟩ := svqb_algebra (S := toM k S) (R := toM k X) (e := e) hpd hscl s1 (by rw [he]; exact s2')
    (fun i j => by rw [hS, hU, he]; exact a2 i i.2 j j.2) (fun i j => by rw [hX, hU, he]; exact a3 i i.2 j j.2)
  -- the factor is the inverse
  have hV : (svqb K m 0 k V B (some u)).V = comb 0 k V S := by
    rw [hS, ← multIn_comb V B _ hlk hm, hB1]
    rfl
  have hR' : R = store false m 0 k (svqbArr K m u.lda 0 k B1 u.a).1 u.lda (svqbArr K m u.lda 0 k B1 u.a).2 := by
    have : (svqb K m 0 k V B (some u)).R = some (store false m 0 k (svqbArr K m u.lda 0 k B1 u.a).1 u.lda (svqbArr K m u.lda 0 k B1 u.a).2) := by rw [hB1]; rfl
    rw [this] at hR
    exact (Option.some.inj hR).symm
  have hRX : ∀ i < k, ∀ j < k, R (i + j * u.lda) = X i j := by
    intro i hi j hj
    rw [hR', store_addr _ _ _ (by omega) hu, if_pos (by simp; omega), hX]
    unfold blk
    rw [zero_add, zero_add]
  have hcomb : ∀ i < k, comb 0 k V S i = ∑ t ∈ Finset.range k, S t i • V t := by
    intro i hi
    unfold comb
    rw [if_pos ⟨Nat.zero_le _, hi⟩, ← Fin.sum_univ_eq_sum_range (fun t => S t i • V t) k]
    apply Finset.sum_congr rfl
    intro t _
    show S t (i - 0) • proj (𝕜 := 𝕜) 0 k V (0 + t) = S t i • V t
    rw [hproj, zero_add]
    rfl
  have hSX : toM k S * toM k X = 1 := by
    ext a b
    rw [hV] at hfac
    have h1 := hfac b (Nat.zero_le _) b.2
    have h2 : ∑ t ∈ Finset.range k, ((∑ i ∈ Finset.range k, S t i * X i b) - if t = b.1 then 1 else 0) • V t = 0 := by
      simp only [sub_smul, Finset.sum_sub_distrib, ite_smul, one_smul, zero_smul, Finset.sum_ite_eq', Finset.mem_range, b.2, if_true]
      rw [sub_eq_zero]
      conv_rhs => rw [h1]
      have : ∀ i ∈ Finset.range k, R (i + b.1 * u.lda) • comb 0 k V S i = ∑ t ∈ Finset.range k, (S t i * X i b) • V t := by
        intro i hi
        rw [Finset.mem_range] at hi
        rw [hRX i hi b b.2, hcomb i hi, Finset.smul_sum]
        exact Finset.sum_congr rfl (fun t _ => by rw [smul_smul, mul_comm])
      rw [Finset.sum_congr rfl this, Finset.sum_comm]
      exact Finset.sum_congr rfl (fun t _ => by rw [Finset.sum_smul])
    have h3 := li_iff hli (fun t => (∑ i ∈ Finset.range k, S t i * X i b) - if t = b.1 then 1 else 0) h2 a a.2
    rw [sub_eq_zero] at h3
    rw [Matrix.mul_apply, Matrix.one_apply]
    have h4 : ∑ j : Fin k, toM k S a j * toM k X j b = ∑ i ∈ Finset.range k, S a i * X i b := Fin.sum_univ_eq_sum_range (fun i => S a i * X i b) k
    rw [h4, h3]
    by_cases hab : a = b
    · rw [if_pos hab, if_pos (congrArg Fin.val hab)]
    · rw [if_neg hab, if_neg (fun h => hab (Fin.ext h))]
  -- hence U U^T = I
  have hsq' : ∀ i, ((Real.sqrt (e i) : ℝ) : 𝕜) ≠ 0 := fun i => RCLike.ofReal_ne_zero.2 (Real.sqrt_pos.2 (hpos i)).ne'
  have hUT : U * U.transpose = 1 := by
    ext a b
    have h1 := congrFun (congrFun hSX a) b
    rw [Matrix.mul_apply] at h1
    have h2 : ∀ t : Fin k, toM k S a t * toM k X t b = (U a t * U b t) * ((scl B1 m 0 a : 𝕜) / (scl B1 m 0 b : 𝕜)) := by
      intro t
      have e1 : toM k S a t = U a t * (scl B1 m 0 a : 𝕜) / ((Real.sqrt (e t) : ℝ) : 𝕜) := by rw [hS, hU, he]; exact a2 a a.2 t t.2
      have e2 : toM k X t b = U b t * ((Real.sqrt (e t) : ℝ) : 𝕜) / (scl B1 m 0 b : 𝕜) := by rw [hX, hU, he]; exact a3 t t.2 b b.2
      rw [e1, e2]
      have := hsq' t
      have := hDne b
      field_simp
    rw [Finset.sum_congr rfl (fun t _ => h2 t), ← Finset.sum_mul, Matrix.one_apply] at h1
    rw [Matrix.mul_apply, Matrix.one_apply]
    show ∑ t, U a t * U b t = _
    by_cases hab : a = b
    · subst hab
      rw [if_pos rfl, div_self (hDne a), mul_one] at h1
      rw [if_pos rfl, h1]
    · rw [if_neg hab] at h1 ⊢
      exact (mul_eq_zero.1 h1).resolve_right (div_ne_zero (hDne a) (hDne b))
  have hreal : ∀ a b, star (U a b) = U a b := by
    have : U.conjTranspose = U.transpose := by
      calc U.conjTranspose = U.conjTranspose * (U * U.transpose) := by rw [hUT, Matrix.mul_one]
        _ = U.transpose := by rw [← Matrix.mul_assoc, s1, Matrix.one_mul]
    intro a b
    exact congrFun (congrFun this b) a
  have hAr : ∀ i < k, ∀ j < k, star (A i j) = A i j := by
    intro i hi j hj
    have hAU : toM k A = U * Matrix.diagonal (fun i => (e i : 𝕜)) * U.conjTranspose := by
      have := congrArg (fun Y => Y * U.conjTranspose) s2
      rw [Matrix.mul_assoc, mul_eq_one_comm.1 s1, Matrix.mul_one] at this
      rw [this, he]
    have h1 : A i j = ∑ t, U ⟨i, hi⟩ t * (e t : 𝕜) * star (U ⟨j, hj⟩ t) := by
      have := congrFun (congrFun hAU ⟨i, hi⟩) ⟨j, hj⟩
      rw [Matrix.mul_apply] at this
      rw [show A i j = toM k A ⟨i, hi⟩ ⟨j, hj⟩ from rfl, this]
      apply Finset.sum_congr rfl
      intro t _
      rw [Matrix.mul_diagonal]
      rfl
    rw [h1, star_sum]
    apply Finset.sum_congr rfl
    intro t _
    rw [star_mul', star_mul', hreal, hreal, hreal]
    congr 2
    exact RCLike.conj_ofReal _
  intro i hi j hj
  have h1 := hAr i hi j hj
  rw [a1 i hi j hj, star_mul', star_mul'] at h1
  have e2 : ∀ t : ℕ, star (scl B1 m 0 t : 𝕜) = (scl B1 m 0 t : 𝕜) := fun t => RCLike.conj_ofReal _
  rw [e2, e2] at h1
  have h2 := mul_right_cancel₀ (hDne ⟨i, hi⟩) (mul_right_cancel₀ (hDne ⟨j, hj⟩) h1)
  rw [hG i hi j hj] at h2
  exact h2

/-- Two columns whose inner product is the imaginary unit. -/
noncomputable def cxV : ℕ → EuclideanSpace ℂ (Fin 2) :=
  fun j => if j = 0 then EuclideanSpace.single 0 1 else EuclideanSpace.single 0 Complex.I + EuclideanSpace.single 1 1

theorem cxV_li : LinearIndependent ℂ (fun i : Fin 2 => cxV i) := by
  rw [Fintype.linearIndependent_iff]
  intro g hg
  rw [Fin.sum_univ_two] at hg
  have h0 := congrArg (fun x : EuclideanSpace ℂ (Fin 2) => x 0) hg
  have h1 := congrArg (fun x : EuclideanSpace ℂ (Fin 2) => x 1) hg
  simp [cxV] at h0 h1
  intro i
  fin_cases i
  · show g 0 = 0
    rw [h1] at h0
    simpa using h0
  · exact h1

/-- With complex scalars the factor of SVQB is wrong: line 312 of bvlapack.c transposes the eigenvectors without conjugation. -/
theorem svqb_complex_false {K : Kern ℂ} (hK : IsKern K) (m : ℕ) (hm : 2 ≤ m) (B : ℕ → ℂ) (u : User ℂ) (hu : 2 ≤ u.lda) :
    ¬ SvqbFactor ℂ (EuclideanSpace ℂ (Fin 2)) K m 0 2 cxV B u := by
  intro h
  have := svqb_factor_real hK hm cxV B u hu cxV_li h 0 (by decide) 1 (by decide)
  simp [cxV, EuclideanSpace.inner_single_left] at this
  have h2 := congrArg Complex.im this
  simp at h2
  norm_num at h2

theorem chol_user (K : Kern 𝕜) (eps : ℝ) (m l k : ℕ) (V : ℕ → E) (B : ℕ → 𝕜) (u : User 𝕜) {B1 B2 U1 : ℕ → 𝕜}
    (hB1 : B1 = dotInto (start m l k V B).1 l k l k m (start m l k V B).2) (hU1 : U1 = setBlk u.rows l (k - l) (blk B1 m l) u.a)
    (hB2 : cholFactor K eps m l k (blk U1 u.rows l) B1 = some B2) :
    chol K eps m l k V B (some u) = some ⟨multIn l k u.lda (zeroBelow u.rows l k (invInto K m u.rows l k B2 U1)) (start m l k V B).1,
      some (store true m l k (zeroBelow m l k B2) u.lda (zeroBelow u.rows l k (invInto K m u.rows l k B2 U1)))⟩ := by
  have h : chol K eps m l k V B (some u) = (match cholInv1 K eps m u.rows l k B1 u.a with
      | none => none | some (R, S) => some ⟨multIn l k u.lda S (start m l k V B).1, some (store true m l k R u.lda S)⟩) := by rw [hB1]; rfl
  have h2 : cholInv1 K eps m u.rows l k B1 u.a = some (zeroBelow m l k B2, zeroBelow u.rows l k (invInto K m u.rows l k B2 U1)) := by
    unfold cholInv1
    dsimp only
    rw [← hU1, hB2]
  rw [h, h2]

/-- Two orthonormal columns. -/
noncomputable def onV : ℕ → EuclideanSpace ℝ (Fin 2) := fun j => if j = 0 then EuclideanSpace.single 0 1 else EuclideanSpace.single 1 1

/-- With a matrix `R` of 2 rows and leading dimension 3 (a submatrix, for instance), CHOL spoils columns that are orthonormal: the inverse of the triangular factor is
stored with leading dimension 2 (bvlapack.c:157) and read with 3. -/
theorem chol_lda_false {K : Kern ℝ} (hK : IsKern K) (eps : ℝ) (B : ℕ → ℝ) :
    ∃ o, chol K eps 2 0 2 onV B (some ⟨2, 3, fun _ => 0⟩) = some o ∧ ¬ Orthonormal (𝕜 := ℝ) 2 o.V := by
  have hli : LinearIndependent ℝ (fun i : Fin 2 => onV i) := by
    rw [Fintype.linearIndependent_iff]
    intro g hg
    rw [Fin.sum_univ_two] at hg
    have h0 := congrArg (fun x : EuclideanSpace ℝ (Fin 2) => x 0) hg
    have h1 := congrArg (fun x : EuclideanSpace ℝ (Fin 2) => x 1) hg
    simp [onV] at h0 h1
    intro i
    fin_cases i
    · exact h0
    · exact h1
  obtain ⟨B1, hB1⟩ : ∃ B1, B1 = dotInto (start 2 0 2 onV B).1 0 2 0 2 2 (start 2 0 2 onV B).2 := ⟨_, rfl⟩
  have hpd : (toM (2 - 0) (blk B1 2 0)).PosDef := by
    have h1 := gramW_posDef onV (Nat.zero_le 2) hli
    have : toM (2 - 0) (blk B1 2 0) = toM (2 - 0) (gramW (𝕜 := ℝ) 0 2 onV) := toM_congr (fun i hi j hj => by rw [hB1]; exact dot_blk onV B (Nat.zero_le 2) le_rfl hi hj)
    rw [this]
    exact h1
  obtain ⟨U1, hU1⟩ : ∃ U1, U1 = setBlk 2 0 (2 - 0) (blk B1 2 0) (fun _ => (0 : ℝ)) := ⟨_, rfl⟩
  obtain ⟨B2, hB2⟩ := cholFactor_ne hK (eps := eps) (saved := blk U1 2 0) hpd
  obtain ⟨S, hS⟩ : ∃ S, S = zeroBelow 2 0 2 (invInto K 2 2 0 2 B2 U1) := ⟨_, rfl⟩
  have hdef : chol K eps 2 0 2 onV B (some ⟨2, 3, fun _ => 0⟩) = some ⟨multIn 0 2 3 S (start 2 0 2 onV B).1, some (store true 2 0 2 (zeroBelow 2 0 2 B2) 3 S)⟩ := by
    rw [hS]
    exact chol_user K eps 2 0 2 onV B ⟨2, 3, fun _ => 0⟩ hB1 hU1 hB2
  refine ⟨_, hdef, fun ho => ?_⟩
  have hS1 : S 1 = 0 := by
    have := zeroBelow_addr (ld := 2) (l := 0) (k := 2) (i := 1) 0 (invInto K 2 2 0 2 B2 U1) (by omega) le_rfl
    rw [if_pos (by omega), ← hS] at this
    exact this
  have hS4 : S 4 = 0 := by
    have := zeroBelow_addr (ld := 2) (l := 0) (k := 2) (i := 0) 2 (invInto K 2 2 0 2 B2 U1) (by omega) le_rfl
    rw [if_neg (by omega), ← hS, invInto_outside B2 U1 (by omega) le_rfl (by omega) (by omega), hU1, setBlk_addr _ _ _ (by omega) (by omega), if_neg (by omega)] at this
    exact this
  have hst : (start 2 0 2 onV B).1 = onV := by unfold start; simp
  have h00 := ho 0 (by decide) 0 (by decide)
  have h01 := ho 0 (by decide) 1 (by decide)
  have h11 := ho 1 (by decide) 1 (by decide)
  have e0 : multIn 0 2 3 S (start 2 0 2 onV B).1 0 = S 0 • onV 0 := by
    unfold multIn
    rw [if_pos (by omega), hst, Finset.sum_Ico_eq_sum_range, Finset.sum_range_succ, Finset.sum_range_succ, Finset.sum_range_zero]
    simp [hS1]
  have e1 : multIn 0 2 3 S (start 2 0 2 onV B).1 1 = S 3 • onV 0 := by
    unfold multIn
    rw [if_pos (by omega), hst, Finset.sum_Ico_eq_sum_range, Finset.sum_range_succ, Finset.sum_range_succ, Finset.sum_range_zero]
    simp [hS4]
  have hn : inner ℝ (onV 0) (onV 0) = (1 : ℝ) := by simp [onV]
  simp only [e0, e1, inner_smul_left, inner_smul_right, hn] at h00 h01 h11
  simp at h00 h01 h11
  rcases h01 with h | h
  · rw [h] at h11; simp at h11
  · rw [h] at h00; simp at h00

end Verif.BVB.Block
