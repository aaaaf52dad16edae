import Verif.NEP.NleigsModel
import Verif.NEP.NleigsSpec
import Mathlib.Tactic

/-! Helper lemmas for the rational interpolation of NLEIGS. -/
set_option linter.all false

namespace Verif.NEP

variable {F : Type*} [Field F]

theorem evalNRT_eq (N : Nodes F) (z : F) (k : ℕ) : evalNRT N z k = ratBasis N.s N.beta N.rxi k z := by
  induction k with
  | zero => simp [evalNRT, ratBasis]
  | succ k ih => rw [evalNRT, ih, ratBasis, ratBasis, Finset.prod_range_succ]; ring

theorem ratBasis_succ (s beta rxi : ℕ → F) (k : ℕ) (z : F) :
    ratBasis s beta rxi (k+1) z = ratBasis s beta rxi k z * ((z - s k) / (beta (k+1) * (1 - z * rxi k))) := by
  rw [ratBasis, ratBasis, Finset.prod_range_succ]; ring

theorem ratBasis_zero_at {s beta rxi : ℕ → F} {i k : ℕ} (h : i < k) : ratBasis s beta rxi k (s i) = 0 := by
  rw [ratBasis, Finset.prod_eq_zero (Finset.mem_range.2 h) (by simp)]; simp

theorem ratBasis_ne {s beta rxi : ℕ → F} {n k : ℕ} (g : GoodNodes s beta rxi n) (h : k < n) : ratBasis s beta rxi k (s k) ≠ 0 := by
  rw [ratBasis]
  refine mul_ne_zero (one_div_ne_zero (g.scale 0 (by omega))) (Finset.prod_ne_zero_iff.2 ?_)
  intro i hi
  have hi' := Finset.mem_range.1 hi
  refine div_ne_zero (sub_ne_zero.2 ?_) (mul_ne_zero (g.scale _ (by omega)) (sub_ne_zero.2 ?_))
  · intro e; have := g.distinct k h i (by omega) e; omega
  · exact fun e => g.nopole k h i (by omega) e.symm

variable {E : Type*} [AddCommGroup E] [Module F E]

/-- The value at a node only involves the terms up to that node. -/
theorem ratValue_node {s beta rxi : ℕ → F} {n i : ℕ} (D : ℕ → E) (h : i < n) :
    ratValue s beta rxi n D (s i) = ∑ k ∈ Finset.range i, ratBasis s beta rxi k (s i) • D k + ratBasis s beta rxi i (s i) • D i := by
  rw [ratValue, ← Finset.sum_range_succ]
  symm
  apply Finset.sum_subset
  · intro k hk; simp only [Finset.mem_range] at *; omega
  · intro k hk hk'
    simp only [Finset.mem_range] at *
    rw [ratBasis_zero_at (by omega), zero_smul]

theorem ratValue_unique {s beta rxi : ℕ → F} {n : ℕ} (g : GoodNodes s beta rxi n) (D D' : ℕ → E)
    (h : ∀ i < n, ratValue s beta rxi n D (s i) = ratValue s beta rxi n D' (s i)) : ∀ k < n, D k = D' k := by
  intro k
  induction k using Nat.strong_induction_on with
  | _ k ih =>
    intro hk
    have e := h k hk
    rw [ratValue_node D hk, ratValue_node D' hk, Finset.sum_congr rfl (fun j hj => by
      rw [ih j (Finset.mem_range.1 hj) (lt_trans (Finset.mem_range.1 hj) hk)])] at e
    have e' := add_left_cancel e
    have := ratBasis_ne g hk
    calc D k = (ratBasis s beta rxi k (s k))⁻¹ • ratBasis s beta rxi k (s k) • D k := by rw [smul_smul, inv_mul_cancel₀ this, one_smul]
      _ = D' k := by rw [e', smul_smul, inv_mul_cancel₀ this, one_smul]

theorem ddiff_succ (N : Nodes F) (c : F) (T : F → E) (k : ℕ) : ddiff N c T (k+1) = (ratBasis N.s N.beta N.rxi (k+1) (N.s (k+1)))⁻¹ •
    (T (N.s (k+1)) - ∑ j ∈ Finset.range (k+1), ratBasis N.s N.beta N.rxi j (N.s (k+1)) • ddiff N c T j) := by
  rw [ddiff, Finset.sum_range]
  simp only [evalNRT_eq]

/-- The scalar scheme interpolates. -/
theorem ddiff_interp {N : Nodes F} {n : ℕ} (g : GoodNodes N.s N.beta N.rxi n) (c : F) (hc : (1 / N.beta 0) * c = 1) (T : F → E) :
    ∀ m ≤ n, ∀ i < m, ratValue N.s N.beta N.rxi m (ddiff N c T) (N.s i) = T (N.s i) := by
  intro m hm i hi
  rw [ratValue_node _ hi]
  cases i with
  | zero =>
    rw [Finset.sum_range_zero, zero_add, ddiff, smul_smul]
    have : ratBasis N.s N.beta N.rxi 0 (N.s 0) = 1 / N.beta 0 := by simp [ratBasis]
    rw [this, hc, one_smul]
  | succ k =>
    rw [ddiff_succ, smul_smul, mul_inv_cancel₀ (ratBasis_ne g (by omega)), one_smul]
    abel

/-! ### Matrix scheme -/

/-- Row vector of the basis functions. -/
def brow (N : Nodes F) (n : ℕ) (z : F) : Fin n → F := fun i => ratBasis N.s N.beta N.rxi i z

open Matrix

theorem vecMul_bidiag (n : ℕ) (b : ℕ → F) (d e : ℕ → F) (j : Fin n) :
    ((fun i : Fin n => b i) ᵥ* (Matrix.of fun i j : Fin n => if i.1 = j.1 then d j else if i.1 = j.1+1 then e j else 0)) j =
      b j * d j + if j.1+1 < n then b (j+1) * e j else 0 := by
  simp only [Matrix.vecMul, dotProduct, Matrix.of_apply]
  have h1 : ∀ i : Fin n, b i * (if i.1 = j.1 then d j else if i.1 = j.1+1 then e j else 0) =
      (if i = j then b j * d j else 0) + (if i.1 = j.1+1 then b (j+1) * e j else 0) := by
    intro i
    by_cases hij : i.1 = j.1
    · have : i = j := Fin.ext hij
      subst this
      simp
    · have hne : i ≠ j := fun h => hij (by rw [h])
      by_cases h2 : i.1 = j.1+1
      · simp [hij, hne, h2]
      · simp [hij, hne, h2]
  rw [Finset.sum_congr rfl (fun i _ => h1 i), Finset.sum_add_distrib, Finset.sum_ite_eq' Finset.univ j]
  simp only [Finset.mem_univ, if_true]
  congr 1
  by_cases h : j.1+1 < n
  · rw [if_pos h]
    have : ∀ i : Fin n, (if i.1 = j.1+1 then b (j+1) * e j else 0) = if i = ⟨j.1+1, h⟩ then b (j+1) * e j else 0 := by
      intro i
      by_cases hi : i.1 = j.1+1
      · rw [if_pos hi, if_pos (Fin.ext hi)]
      · rw [if_neg hi, if_neg (fun h' => hi (by rw [h']))]
    rw [Finset.sum_congr rfl (fun i _ => this i), Finset.sum_ite_eq' Finset.univ]
    simp
  · rw [if_neg h]
    apply Finset.sum_eq_zero
    intro i _
    rw [if_neg]
    have := i.2; omega

/-- At a node the row of basis functions is a left eigenvector of the pencil. -/
theorem brow_pencil {N : Nodes F} {n : ℕ} (g : GoodNodes N.s N.beta N.rxi n) {i : ℕ} (hi : i < n) :
    brow N n (N.s i) ᵥ* pH N n = N.s i • (brow N n (N.s i) ᵥ* pK N n) := by
  funext j
  have e1 := vecMul_bidiag n (fun k => ratBasis N.s N.beta N.rxi k (N.s i)) N.s (fun k => N.beta (k+1)) j
  have e2 := vecMul_bidiag n (fun k => ratBasis N.s N.beta N.rxi k (N.s i)) (fun _ => 1) (fun k => N.beta (k+1) * N.rxi k) j
  rw [Pi.smul_apply]
  change (((fun k : Fin n => ratBasis N.s N.beta N.rxi k (N.s i)) ᵥ* (Matrix.of _ : Matrix (Fin n) (Fin n) F)) j) =
    N.s i • (((fun k : Fin n => ratBasis N.s N.beta N.rxi k (N.s i)) ᵥ* (Matrix.of _ : Matrix (Fin n) (Fin n) F)) j)
  refine e1.trans (Eq.trans ?_ (congrArg (N.s i • ·) e2).symm)
  have hj := j.2
  by_cases h : j.1+1 < n
  · rw [if_pos h, if_pos h, ratBasis_succ]
    have hs := g.scale (j.1+1) h
    have hb' : 1 - N.s i * N.rxi j ≠ 0 := sub_ne_zero.2 (fun e => g.nopole i hi j h e.symm)
    rw [smul_eq_mul]
    field_simp
    ring
  · rw [if_neg h, if_neg h, smul_eq_mul, add_zero, add_zero]
    by_cases hij : i = j
    · rw [hij]; ring
    · rw [ratBasis_zero_at (show i < j.1 by omega)]; ring

theorem pK_det (N : Nodes F) (n : ℕ) : (pK N n).det = 1 := by
  rw [Matrix.det_of_lowerTriangular (pK N n)]
  · apply Finset.prod_eq_one
    intro i _
    simp [pK]
  · intro i j hij
    have : i.1 < j.1 := hij
    rw [pK, if_neg (by omega), if_neg (by omega)]

theorem brow_pM {N : Nodes F} {n : ℕ} (g : GoodNodes N.s N.beta N.rxi n) {i : ℕ} (hi : i < n) :
    brow N n (N.s i) ᵥ* pM N n = N.s i • brow N n (N.s i) := by
  rw [pM, ← Matrix.vecMul_vecMul, brow_pencil g hi, Matrix.smul_vecMul, Matrix.vecMul_vecMul,
    Matrix.mul_nonsing_inv _ (by rw [pK_det]; exact isUnit_one), Matrix.vecMul_one]

theorem vecMul_aeval {n : ℕ} {M : Matrix (Fin n) (Fin n) F} {w : Fin n → F} {μ : F} (h : w ᵥ* M = μ • w) (p : Polynomial F) :
    w ᵥ* (Polynomial.aeval M p) = p.eval μ • w := by
  induction p using Polynomial.induction_on' with
  | add p q hp hq => rw [map_add, Matrix.vecMul_add, hp, hq, Polynomial.eval_add, add_smul]
  | monomial k a =>
    rw [Polynomial.aeval_monomial, Polynomial.eval_monomial, Algebra.commutes, Algebra.algebraMap_eq_smul_one, mul_smul_comm, mul_one,
      Matrix.vecMul_smul]
    have : w ᵥ* M ^ k = μ ^ k • w := by
      induction k with
      | zero => simp
      | succ k ih => rw [pow_succ, ← Matrix.vecMul_vecMul, ih, Matrix.smul_vecMul, h, smul_smul, pow_succ]
    rw [this, smul_smul]

theorem coeffMat_interp {N : Nodes F} {n : ℕ} (g : GoodNodes N.s N.beta N.rxi n) {f : F → F} {Y : Matrix (Fin n) (Fin n) F}
    (hY : IsMatFun N.s f (pM N n) Y) {i : ℕ} (hi : i < n) :
    ratValue N.s N.beta N.rxi n (coeffMat N n Y) (N.s i) = f (N.s i) := by
  obtain ⟨p, rfl, hp⟩ := hY
  have h := congrFun (vecMul_aeval (brow_pM g hi) p) ⟨0, by omega⟩
  rw [hp i hi] at h
  have h0 : ratBasis N.s N.beta N.rxi 0 (N.s i) = 1 / N.beta 0 := by simp [ratBasis]
  have hb := g.scale 0 (by omega)
  rw [ratValue, Finset.sum_range]
  have : ∀ k : Fin n, ratBasis N.s N.beta N.rxi k (N.s i) • coeffMat N n (Polynomial.aeval (pM N n) p) k =
      (brow N n (N.s i) k * (Polynomial.aeval (pM N n) p) k ⟨0, by omega⟩) * N.beta 0 := by
    intro k
    rw [coeffMat, dif_pos k.2, smul_eq_mul, brow]; ring
  rw [Finset.sum_congr rfl (fun k _ => this k), ← Finset.sum_mul]
  rw [Matrix.vecMul, dotProduct] at h
  rw [h, Pi.smul_apply, smul_eq_mul, brow]
  change f (N.s i) * ratBasis N.s N.beta N.rxi 0 (N.s i) * _ = _
  rw [h0]
  field_simp

/-- The two schemes give the same coefficients. -/
theorem coeffMat_eq {N : Nodes F} {n : ℕ} (g : GoodNodes N.s N.beta N.rxi n) {f : F → F} {Y : Matrix (Fin n) (Fin n) F}
    (hY : IsMatFun N.s f (pM N n) Y) : ∀ k < n, coeffMat N n Y k = ddiff N (N.beta 0) f k := by
  apply ratValue_unique g
  intro i hi
  rw [coeffMat_interp g hY hi, ddiff_interp g _ (by rw [one_div, inv_mul_cancel₀ (g.scale 0 (by omega))]) f n le_rfl i hi]

theorem evalAll_spec {n : ℕ} {fmat : ℕ → Matrix (Fin n) (Fin n) F → Option (Matrix (Fin n) (Fin n) F)} {M : Matrix (Fin n) (Fin n) F}
    (nt : ℕ) {Y : ℕ → Matrix (Fin n) (Fin n) F} (h : evalAll fmat M nt = some Y) : ∀ j < nt, fmat j M = some (Y j) := by
  induction nt generalizing Y with
  | zero => intro j hj; omega
  | succ m ih =>
    intro j hj
    rw [evalAll] at h
    split at h
    · rename_i Y' Z e1 e2
      cases h
      by_cases hjm : j = m
      · subst hjm; simp [e2]
      · simp [hjm]; exact ih e1 j (by omega)
    · cases h

theorem GoodNodes.mono {s beta rxi : ℕ → F} {n m : ℕ} (g : GoodNodes s beta rxi n) (h : m ≤ n) : GoodNodes s beta rxi m :=
  ⟨fun i hi j hj => g.distinct i (by omega) j (by omega), fun i hi => g.scale i (by omega),
    fun i hi j hj => g.nopole i (by omega) j (by omega)⟩

theorem coeffD_eq {N : Nodes F} {nmax nt : ℕ} (g : GoodNodes N.s N.beta N.rxi nmax) {f : ℕ → F → F}
    {fmat : ℕ → Matrix (Fin nmax) (Fin nmax) F → Option (Matrix (Fin nmax) (Fin nmax) F)}
    (hf : ∀ j < nt, ∀ Y, fmat j (pM N nmax) = some Y → IsMatFun N.s (f j) (pM N nmax) Y) :
    ∀ k < nmax, ∀ j < nt, coeffD N nmax nt f fmat k j = ddiff N (N.beta 0) (f j) k := by
  intro k hk j hj
  unfold coeffD
  split
  · rename_i Y e
    exact coeffMat_eq g (hf j hj _ (evalAll_spec nt e j hj)) k hk
  · rfl

theorem ratValue_pad {s beta rxi : ℕ → F} (C : ℕ → E) {m n : ℕ} (h : m ≤ n) (z : F) :
    ratValue s beta rxi m C z = ratValue s beta rxi n (fun k => if k < m then C k else 0) z := by
  unfold ratValue
  have hsub : Finset.range m ⊆ Finset.range n := by
    intro k hk; simp only [Finset.mem_range] at *; omega
  rw [← Finset.sum_subset hsub]
  · exact Finset.sum_congr rfl fun k hk => by dsimp only; rw [if_pos (Finset.mem_range.1 hk)]
  · intro k _ hk
    dsimp only
    rw [if_neg (show ¬ k < m by simpa using hk), smul_zero]

theorem numTerms_le (ddmaxit : ℕ) (norm : ℕ → ℝ) (ddtol : ℝ) (k : ℕ) : numTerms ddmaxit norm ddtol k ≤ ddmaxit := by
  induction h : ddmaxit - k generalizing k with
  | zero => rw [numTerms, if_neg (by omega)]
  | succ m ih =>
    rw [numTerms]
    by_cases hk : k < ddmaxit
    · rw [if_pos hk]
      by_cases hc : 1 < k ∧ norm k / norm 0 < ddtol
      · rw [if_pos hc]; omega
      · rw [if_neg hc]; exact ih (k+1) (by omega)
    · rw [if_neg hk]

theorem foldl_add_sum {M : Type*} [AddCommMonoid M] (g : ℕ → M) (n : ℕ) (a : M) :
    (List.range n).foldl (fun t j => t + g j) a = a + ∑ j ∈ Finset.range n, g j := by
  induction n with
  | zero => simp
  | succ n ih => rw [List.range_succ, List.foldl_append, ih, Finset.sum_range_succ, List.foldl_cons, List.foldl_nil, add_assoc]

theorem kspSplit_eq (N : Nodes F) (nmat nt : ℕ) (c : ℕ → ℕ → F) (A : ℕ → E) (σ : F) :
    kspSplit N nmat nt c A σ = ratValue N.s N.beta N.rxi nmat (fun k => ∑ j ∈ Finset.range nt, c k j • A j) σ := by
  unfold kspSplit ratValue
  rw [foldl_add_sum (fun j => ((List.range nmat).foldl (fun a k => a + evalNRT N σ k * c k j) 0) • A j), zero_add]
  simp only [foldl_add_sum, zero_add, evalNRT_eq, Finset.smul_sum, Finset.sum_smul, smul_smul]
  exact Finset.sum_comm

theorem kspCallback_eq (N : Nodes F) (nmat : ℕ) (h : 0 < nmat) (D : ℕ → E) (σ : F) :
    kspCallback N nmat D σ = ratValue N.s N.beta N.rxi nmat D σ := by
  unfold kspCallback ratValue
  rw [foldl_add_sum (fun k => evalNRT N σ (k+1) • D (k+1))]
  obtain ⟨m, rfl⟩ : ∃ m, nmat = m+1 := ⟨nmat-1, by omega⟩
  rw [Finset.sum_range_succ', Nat.add_sub_cancel, add_comm]
  simp only [evalNRT_eq]

end Verif.NEP
