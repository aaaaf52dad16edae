import Verif.SVD.ErrorLemmas

/-!
# C73: errors of singular triplets
-/
set_option linter.all false

namespace Verif.SVD

open Verif.EPS (norm2 absEig)
open Matrix

variable {𝕜 : Type*} [RCLike 𝕜] {m n p : Type*} [Fintype m] [Fintype n] [Fintype p]

theorem absEig_eq (a b : ℝ) : absEig a b ^ 2 = a ^ 2 + b ^ 2 := by
  unfold absEig
  rw [Real.sq_sqrt (by positivity)]

theorem absEig_nonneg (a b : ℝ) : 0 ≤ absEig a b := by unfold absEig; exact Real.sqrt_nonneg _

/-- The bound for matrices with at least as many rows as columns, unit right vector. -/
theorem bound_tall (A : Matrix m n 𝕜) (hd : Fintype.card n ≤ Fintype.card m) (sg : ℝ) (hg : 0 ≤ sg) (u : m → 𝕜) (v : n → 𝕜)
    (hv : norm2 v = 1) :
    ∃ s, IsSingularValue A s ∧
      |s - sg| ≤ absEig (norm2 (A.mulVec v + (-(sg : 𝕜)) • u)) (norm2 (Aᴴ.mulVec u + (-(sg : 𝕜)) • v)) := by
  classical
  obtain ⟨s, b, hs, hb, he, hle⟩ := sv_close (Matrix.toEuclideanLin A) (WithLp.toLp 2 v) (WithLp.toLp 2 u) sg hg hv
  obtain ⟨w, hw, h1, h2⟩ := sv_exists (Matrix.toEuclideanLin A) (by simpa using hd) s hs b hb he
  refine ⟨s, ⟨hs, w.ofLp, b.ofLp, hw, hb, ?_, ?_⟩, ?_⟩
  · have := congrArg WithLp.ofLp h1
    simpa using this
  · rw [← Matrix.toEuclideanLin_conjTranspose_eq_adjoint] at h2
    have := congrArg WithLp.ofLp h2
    simpa using this
  · apply abs_le_of_sq_le_sq _ (absEig_nonneg _ _)
    rw [absEig_eq]
    refine le_trans hle (le_of_eq ?_)
    rw [← Matrix.toEuclideanLin_conjTranspose_eq_adjoint]
    congr 2
    · unfold norm2
      congr 1
      ext i
      simp [sub_eq_add_neg]
    · unfold norm2
      congr 1
      ext i
      simp [sub_eq_add_neg]

/-- The absolute error of a triplet with unit vectors, as computed for the standard SVD, is at least the distance of its
value to an exact singular value of the user's matrix, whatever its shape. -/
theorem C73_bound (A : Matrix m n 𝕜) (sg : ℝ) (hg : 0 ≤ sg) (u : m → 𝕜) (v : n → 𝕜) (hu : norm2 u = 1) (hv : norm2 v = 1)
    (nrma nrmb : ℝ) :
    ∃ s, IsSingularValue A s ∧
      |s - sg| ≤ svdError (.standard A u v : Problem 𝕜 m n p) .absolute nrma nrmb sg := by
  rcases le_total (Fintype.card n) (Fintype.card m) with h | h
  · exact bound_tall A h sg hg u v hv
  · obtain ⟨s, ⟨hs, y, x, hy, hx, h1, h2⟩, hle⟩ := bound_tall Aᴴ h sg hg v u hu
    rw [conjTranspose_conjTranspose] at h2 hle
    refine ⟨s, ⟨hs, x, y, hx, hy, h2, h1⟩, ?_⟩
    refine le_trans hle (le_of_eq ?_)
    show absEig _ _ = absEig _ _
    unfold absEig
    rw [add_comm]
    rfl

/-- The same with the relative error and the error relative to the matrix norm; both divide by the norm √2 of the
vector of the cyclic matrix. -/
theorem C73_relative (A : Matrix m n 𝕜) (sg : ℝ) (hg : 0 < sg) (u : m → 𝕜) (v : n → 𝕜) (hu : norm2 u = 1) (hv : norm2 v = 1)
    (nrma nrmb : ℝ) :
    ∃ s, IsSingularValue A s ∧
      |s - sg| / sg ≤ Real.sqrt 2 * svdError (.standard A u v : Problem 𝕜 m n p) .relative nrma nrmb sg := by
  obtain ⟨s, h1, h2⟩ := C73_bound (p := p) A sg hg.le u v hu hv nrma nrmb
  refine ⟨s, h1, ?_⟩
  have h2' : |s - sg| ≤ absEig (resid (.standard A u v : Problem 𝕜 m n p) sg).1
      (resid (.standard A u v : Problem 𝕜 m n p) sg).2 := h2
  show _ ≤ Real.sqrt 2 * (absEig _ _ / (sg * Real.sqrt 2))
  have hq : 0 < Real.sqrt 2 := by positivity
  rw [show ∀ z : ℝ, Real.sqrt 2 * (z / (sg * Real.sqrt 2)) = z / sg from fun z => by field_simp]
  exact div_le_div_of_nonneg_right h2' hg.le

theorem C73_norm (A : Matrix m n 𝕜) (sg : ℝ) (hg : 0 ≤ sg) (u : m → 𝕜) (v : n → 𝕜) (hu : norm2 u = 1) (hv : norm2 v = 1)
    (nrma : ℝ) (ha : 0 < nrma) :
    ∃ s, IsSingularValue A s ∧
      |s - sg| / nrma ≤ Real.sqrt 2 * svdError (.standard A u v : Problem 𝕜 m n p) .norm nrma 0 sg := by
  obtain ⟨s, h1, h2⟩ := C73_bound (p := p) A sg hg u v hu hv nrma 0
  refine ⟨s, h1, ?_⟩
  have h2' : |s - sg| ≤ absEig (resid (.standard A u v : Problem 𝕜 m n p) sg).1
      (resid (.standard A u v : Problem 𝕜 m n p) sg).2 := h2
  show _ ≤ Real.sqrt 2 * (absEig _ _ / (max nrma 0 * Real.sqrt 2))
  rw [max_eq_left ha.le]
  have hq : 0 < Real.sqrt 2 := by positivity
  rw [show ∀ z : ℝ, Real.sqrt 2 * (z / (nrma * Real.sqrt 2)) = z / nrma from fun z => by field_simp]
  exact div_le_div_of_nonneg_right h2' ha.le

/-- A triplet with a wrong value: `A=[2;0]`, `sigma=1`; the hypotheses hold and the error is nonzero. -/
example : norm2 (fun i : Fin 2 => if i = 0 then (1:ℝ) else 0) = 1 ∧ norm2 (fun _ : Fin 1 => (1:ℝ)) = 1 ∧
    residStandard (Matrix.of fun (i : Fin 2) (_ : Fin 1) => if i = 0 then (2:ℝ) else 0) 1
      (fun i => if i = 0 then 1 else 0) (fun _ => 1) ≠ (0, 0) := by
  refine ⟨by simp [norm2, EuclideanSpace.norm_eq], by simp [norm2, EuclideanSpace.norm_eq], ?_⟩
  intro h
  have h1 := congrArg Prod.fst h
  simp [residStandard, norm2] at h1
  have := congrArg (fun z : EuclideanSpace ℝ (Fin 2) => z.ofLp 0) h1
  simp [Matrix.mulVec, dotProduct] at this
  norm_num at this

/-- Exact triplets have error zero for every type of error. -/
theorem C73_exact_standard (A : Matrix m n 𝕜) (sg : ℝ) (u : m → 𝕜) (v : n → 𝕜) (h1 : A.mulVec v = (sg : 𝕜) • u)
    (h2 : Aᴴ.mulVec u = (sg : 𝕜) • v) (t : ErrorType) (nrma nrmb : ℝ) :
    svdError (.standard A u v : Problem 𝕜 m n p) t nrma nrmb sg = 0 := by
  have e : resid (.standard A u v : Problem 𝕜 m n p) sg = (0, 0) := by
    show residStandard A sg u v = _
    unfold residStandard
    rw [h1, h2]
    simp [norm2]
  have e0 : absEig 0 0 = 0 := by unfold absEig; simp
  cases t <;> simp [svdError, e, e0]

theorem gs_eq (c s : ℝ) (hs : 0 < s) (h : c ^ 2 + s ^ 2 = 1) : gs (c / s) = s ∧ gc (c / s) = c := by
  have h1 : gs (c / s) = s := by
    unfold gs
    have : 1 + c / s * (c / s) = (1 / s) ^ 2 := by
      have : s ≠ 0 := hs.ne'
      field_simp
      linarith
    rw [this, Real.sqrt_sq (by positivity)]
    field_simp
  refine ⟨h1, ?_⟩
  unfold gc
  rw [h1]
  field_simp

/-- Also for the generalized problem: here the error of a quadruple `U^H A X = C`, `V^H B X = S`, value `c/s`. -/
theorem C73_exact_generalized (A : Matrix m n 𝕜) (B : Matrix p n 𝕜) (c s : ℝ) (u : m → 𝕜) (v : p → 𝕜) (x : n → 𝕜)
    (h : IsGsvd A B c s u v x) (t : ErrorType) (nrma nrmb : ℝ) :
    svdError (.generalized A B u v x) t nrma nrmb (c / s) = 0 := by
  obtain ⟨hc, hs, hcs, hA, hB, w, hu, hv⟩ := h
  obtain ⟨g1, g2⟩ := gs_eq c s hs hcs
  have e : resid (.generalized A B u v x) (c / s) = (0, 0) := by
    show residGeneralized A B (c / s) u v x = _
    unfold residGeneralized
    dsimp only
    rw [g1, g2, hA, hB, Matrix.mulVec_smul, Matrix.mulVec_smul, hu, hv]
    have z1 : ((s * s : ℝ) : 𝕜) • (c : 𝕜) • w + ((-c : ℝ) : 𝕜) • (s : 𝕜) • (s : 𝕜) • w = 0 := by
      ext i
      simp only [Pi.add_apply, Pi.smul_apply, smul_eq_mul, Pi.zero_apply]
      push_cast; ring
    have z2 : ((c * c : ℝ) : 𝕜) • (s : 𝕜) • w + ((-s : ℝ) : 𝕜) • (c : 𝕜) • (c : 𝕜) • w = 0 := by
      ext i
      simp only [Pi.add_apply, Pi.smul_apply, smul_eq_mul, Pi.zero_apply]
      push_cast; ring
    rw [z1, z2]
    simp [norm2]
  have e0 : absEig 0 0 = 0 := by unfold absEig; simp
  cases t <;> simp [svdError, e, e0]

/-- A quadruple of `A=[3]`, `B=[4]`: `c=3/5`, `s=4/5`, `x=1/5`. -/
example : IsGsvd (Matrix.of fun (_ _ : Fin 1) => (3:ℝ)) (Matrix.of fun (_ _ : Fin 1) => (4:ℝ)) (3/5) (4/5) (fun _ => 1) (fun _ => 1)
    (fun _ => 1/5) := by
  refine ⟨by norm_num, by norm_num, by norm_num, ?_, ?_, fun _ => 5, ?_, ?_⟩ <;>
    (ext i; simp [Matrix.mulVec, dotProduct]; try norm_num)

/-- And for the hyperbolic one. -/
theorem C73_exact_hyperbolic (A : Matrix m n 𝕜) (om : m → 𝕜) (sg sign : ℝ) (u : m → 𝕜) (v : n → 𝕜)
    (h : IsHsvd A om sg sign u v) (t : ErrorType) (nrma nrmb : ℝ) :
    svdError (.hyperbolic A om sign u v : Problem 𝕜 m n p) t nrma nrmb sg = 0 := by
  obtain ⟨h1, h2⟩ := h
  have h2' : Aᴴ.mulVec (fun i => u i * om i) = ((sg * sign : ℝ) : 𝕜) • v := by
    rw [← h2]; congr 1; funext i; ring
  have e : resid (.hyperbolic A om sign u v : Problem 𝕜 m n p) sg = (0, 0) := by
    show residHyperbolic A om sg sign u v = _
    unfold residHyperbolic
    rw [h1, h2']
    have z : ((sg * sign : ℝ) : 𝕜) • v + ((-sg * sign : ℝ) : 𝕜) • v = 0 := by
      rw [← add_smul]; push_cast; simp
    rw [z]
    simp [norm2]
  have e0 : absEig 0 0 = 0 := by unfold absEig; simp
  cases t <;> simp [svdError, e, e0]

/-- A hyperbolic triplet with negative signature. -/
example : IsHsvd (Matrix.of fun (_ _ : Fin 1) => (2:ℝ)) (fun _ => -1) 2 (-1) (fun _ => 1) (fun _ => 1) := by
  constructor <;> (ext i; simp [Matrix.mulVec, dotProduct])

/-- Zero residual forces an exact triplet in the standard case. -/
theorem C73_zero_standard (A : Matrix m n 𝕜) (sg : ℝ) (u : m → 𝕜) (v : n → 𝕜) (nrma nrmb : ℝ)
    (h : svdError (.standard A u v : Problem 𝕜 m n p) .absolute nrma nrmb sg = 0) :
    A.mulVec v = (sg : 𝕜) • u ∧ Aᴴ.mulVec u = (sg : 𝕜) • v := by
  have hz : absEig (residStandard A sg u v).1 (residStandard A sg u v).2 = 0 := h
  have h2 := absEig_eq (residStandard A sg u v).1 (residStandard A sg u v).2
  rw [hz] at h2
  have a1 : (residStandard A sg u v).1 = 0 := by nlinarith [sq_nonneg (residStandard A sg u v).1, sq_nonneg (residStandard A sg u v).2]
  have a2 : (residStandard A sg u v).2 = 0 := by nlinarith [sq_nonneg (residStandard A sg u v).1, sq_nonneg (residStandard A sg u v).2]
  unfold residStandard norm2 at a1 a2
  simp only [norm_eq_zero] at a1 a2
  constructor
  · have := congrArg WithLp.ofLp a1
    have h3 : A.mulVec v + (-(sg : 𝕜)) • u = 0 := this
    rw [neg_smul, ← sub_eq_add_neg] at h3
    exact sub_eq_zero.mp h3
  · have := congrArg WithLp.ofLp a2
    have h3 : Aᴴ.mulVec u + (-(sg : 𝕜)) • v = 0 := this
    rw [neg_smul, ← sub_eq_add_neg] at h3
    exact sub_eq_zero.mp h3

/-- Not so in the generalized case: for `A=diag(1,2)`, `B=I` there are unit `u`, `v` and a vector `x` for which the error
with the value √2 is zero, though the generalized singular values are 1 and 2. -/
theorem C73_generalized_zero_false :
    ∃ (A B : Matrix (Fin 2) (Fin 2) ℝ) (u v x : Fin 2 → ℝ), norm2 u = 1 ∧ norm2 v = 1 ∧ x ≠ 0 ∧
      svdError (.generalized A B u v x) .absolute 0 0 (Real.sqrt 2) = 0 ∧
      ∀ y : Fin 2 → ℝ, y ≠ 0 → (Aᵀ * A).mulVec y ≠ (Real.sqrt 2) ^ 2 • (Bᵀ * B).mulVec y := by
  have q2 : Real.sqrt 2 * Real.sqrt 2 = 2 := Real.mul_self_sqrt (by norm_num)
  have q2' : Real.sqrt 2 ^ 2 = 2 := Real.sq_sqrt (by norm_num)
  have q3 : Real.sqrt 3 * Real.sqrt 3 = 3 := Real.mul_self_sqrt (by norm_num)
  have p2 : 0 < Real.sqrt 2 := by positivity
  have p3 : 0 < Real.sqrt 3 := by positivity
  have g1 : gs (Real.sqrt 2) = 1 / Real.sqrt 3 := by unfold gs; rw [q2]; norm_num
  have g2 : gc (Real.sqrt 2) = Real.sqrt 2 / Real.sqrt 3 := by unfold gc; rw [g1]; ring
  have ss : gs (Real.sqrt 2) * gs (Real.sqrt 2) = 1 / 3 := by rw [g1]; field_simp; linarith
  have cc : gc (Real.sqrt 2) * gc (Real.sqrt 2) = 2 / 3 := by rw [g2]; field_simp; nlinarith
  refine ⟨!![1, 0; 0, 2], 1, ![2 * Real.sqrt 2 / 3, 1 / 3], ![1 / 3, 2 * Real.sqrt 2 / 3],
    ![2 * Real.sqrt 3 / 9, Real.sqrt 3 * Real.sqrt 2 / 9], ?_, ?_, ?_, ?_, ?_⟩
  · simp only [norm2, EuclideanSpace.norm_eq, Fin.sum_univ_two]
    rw [Real.sqrt_eq_one]
    simp [div_pow, mul_pow, q2']; norm_num
  · simp only [norm2, EuclideanSpace.norm_eq, Fin.sum_univ_two]
    rw [Real.sqrt_eq_one]
    simp [div_pow, mul_pow, q2']; norm_num
  · intro h
    have := congrFun h 0
    simp at this
  · have e : residGeneralized (!![1, 0; 0, 2] : Matrix (Fin 2) (Fin 2) ℝ) 1 (Real.sqrt 2) ![2 * Real.sqrt 2 / 3, 1 / 3]
        ![1 / 3, 2 * Real.sqrt 2 / 3] ![2 * Real.sqrt 3 / 9, Real.sqrt 3 * Real.sqrt 2 / 9] = (0, 0) := by
      unfold residGeneralized
      dsimp only
      rw [ss, cc, g1, g2]
      have z : ∀ a b : Fin 2 → ℝ, a 0 + b 0 = 0 → a 1 + b 1 = 0 → a + b = 0 := by
        intro a b h0 h1
        ext i
        fin_cases i
        · exact h0
        · exact h1
      rw [z, z]
      · simp [norm2]
      · simp [Matrix.mulVec, dotProduct, Fin.sum_univ_two]
        field_simp; nlinarith
      · simp [Matrix.mulVec, dotProduct, Fin.sum_univ_two]
        field_simp; nlinarith
      · simp [Matrix.mulVec, dotProduct, Fin.sum_univ_two]
        field_simp; nlinarith
      · simp [Matrix.mulVec, dotProduct, Fin.sum_univ_two]
        field_simp; nlinarith
    show absEig (residGeneralized _ _ _ _ _ _).1 (residGeneralized _ _ _ _ _ _).2 = 0
    rw [e]
    unfold absEig; simp
  · intro y hy h
    rw [q2'] at h
    apply hy
    have h0 := congrFun h 0
    have h1 := congrFun h 1
    simp [Matrix.mulVec, dotProduct, Fin.sum_univ_two, Matrix.mul_apply] at h0 h1
    ext i
    fin_cases i
    · show y 0 = 0; linarith
    · show y 1 = 0; linarith

/-! ## Stored norms -/

/-- The stored norms are those of the current matrices, or not yet computed. -/
def NormsOk (s : NormSt) : Prop :=
  (s.nrma = 0 ∨ s.nrma = s.normA) ∧ (s.nrmb = 0 ∨ s.normB = some s.nrmb)

theorem fillNorms_ok (s : NormSt) (h : NormsOk s) : NormsOk (fillNorms s) ∧ (fillNorms s).nrma = s.normA ∧
    (fillNorms s).nrmb = s.normB.getD 0 ∧ (fillNorms s).normA = s.normA ∧ (fillNorms s).normB = s.normB := by
  obtain ⟨h1, h2⟩ := h
  have a : (fillNorms s).nrma = s.normA := by
    show (if s.nrma = 0 then s.normA else s.nrma) = s.normA
    split_ifs with h
    · rfl
    · rcases h1 with h1 | h1
      · exact absurd h1 h
      · exact h1
  have b : (fillNorms s).nrmb = s.normB.getD 0 := by
    unfold fillNorms
    cases hb : s.normB with
    | none =>
      rcases h2 with h2 | h2
      · simpa using h2
      · rw [hb] at h2; cases h2
    | some b =>
      show (if s.nrmb = 0 then b else s.nrmb) = b
      split_ifs with h
      · rfl
      · rcases h2 with h2 | h2
        · exact absurd h2 h
        · rw [hb] at h2; exact (Option.some.inj h2).symm
  refine ⟨⟨Or.inr a, ?_⟩, a, b, rfl, rfl⟩
  rw [b]
  show _ ∨ s.normB = _
  cases hb : s.normB with
  | none => left; rfl
  | some b => right; rfl

theorem normStep_ok (s : NormSt) (o : NormOp) (h : NormsOk s) : NormsOk (normStep s o) := by
  cases o with
  | setOperators a b => exact ⟨Or.inl rfl, Or.inl rfl⟩
  | setConv c => exact h
  | touch => exact h
  | setUp =>
    unfold normStep
    by_cases hr : s.ready = true
    · simp only [hr, if_true]; exact h
    · simp only [hr]
      by_cases hc : s.conv = .norm
      · simp only [hc, if_true]; exact (fillNorms_ok s h).1
      · simp only [hc, if_false]; exact h
  | error t =>
    unfold normStep
    by_cases ht : t = .norm
    · simp only [ht, if_true]; exact (fillNorms_ok s h).1
    · simp only [ht, if_false]; exact h

/-- Whatever was set and computed before, an error relative to the norms is computed with the norms of the current
matrices: `max(‖A‖,‖B‖)`, or `‖A‖` if there is no second matrix. -/
theorem C73_norms_current (a : ℝ) (b : Option ℝ) (c : Conv) (ops : List NormOp) :
    let s := normRun (normCreate a b c) ops
    let s' := normStep s (.error .norm)
    s'.nrma = s.normA ∧ s'.nrmb = s.normB.getD 0 := by
  have h : ∀ (ops : List NormOp) (s : NormSt), NormsOk s → NormsOk (normRun s ops) := by
    intro ops
    induction ops with
    | nil => intro s h; exact h
    | cons o os ih => intro s h; exact ih _ (normStep_ok s o h)
  have := fillNorms_ok _ (h ops (normCreate a b c) ⟨Or.inl rfl, Or.inl rfl⟩)
  exact ⟨this.2.1, this.2.2.1⟩

/-- The absolute criterion is the residual, the relative one its quotient by the value; a zero value never converges with the
relative criterion for a tolerance below the largest number. -/
theorem C73_criterion_values (s : NormSt) (big tol sg res : ℝ) (hb : tol < big) :
    (s.conv = .abs → svdConverged s big sg res = res) ∧
    (s.conv = .rel → sg ≠ 0 → svdConverged s big sg res * sg = res) ∧
    (s.conv = .rel → ¬ svdConverged s big 0 res < tol) := by
  refine ⟨?_, ?_, ?_⟩
  · intro h; simp [svdConverged, h]
  · intro h hs; simp only [svdConverged, h]; rw [if_pos hs]; exact div_mul_cancel₀ res hs
  · intro h; simp only [svdConverged, h]; rw [if_neg (by simp)]; exact not_lt.2 hb.le

example : ∃ s : NormSt, s.conv = .rel ∧ (0 : ℝ) < 1 := ⟨normCreate 1 none .rel, rfl, one_pos⟩

/-- The convergence criterion relative to the norms uses them too, if it was selected before the set-up. -/
theorem C73_criterion_partial (a : ℝ) (b : Option ℝ) (c : Conv) (ops : List NormOp) (big sg res : ℝ)
    (h : (normRun (normCreate a b c) ops).ready = false) (hc : (normRun (normCreate a b c) ops).conv = .norm) :
    let s := normRun (normCreate a b c) ops
    svdConverged (normStep s .setUp) big sg res = res / max s.normA (s.normB.getD 0) := by
  intro s
  have hh : ∀ (ops : List NormOp) (s : NormSt), NormsOk s → NormsOk (normRun s ops) := by
    intro ops
    induction ops with
    | nil => intro s h; exact h
    | cons o os ih => intro s h; exact ih _ (normStep_ok s o h)
  have hf := fillNorms_ok _ (hh ops (normCreate a b c) ⟨Or.inl rfl, Or.inl rfl⟩)
  have e : normStep s .setUp = { fillNorms s with ready := true } := by
    show (if s.ready then s else _) = _
    rw [show s.ready = false from h]
    simp only [Bool.false_eq_true, if_false]
    rw [if_pos hc]
  rw [e]
  unfold svdConverged
  have hc' : (fillNorms s).conv = .norm := hc
  simp only [hc']
  rw [hf.2.1, hf.2.2.1]

example : (normRun (normCreate 2 (some 3) .rel) [.setUp, .setConv .norm, .touch]).ready = false ∧
    (normRun (normCreate 2 (some 3) .rel) [.setUp, .setConv .norm, .touch]).conv = .norm := ⟨rfl, rfl⟩

/-- Selected after the set-up the norms are zero: the criterion divides by zero. -/
theorem C73_criterion_late_false : ∃ ops : List NormOp,
    let s := normRun (normCreate 2 none .rel) ops
    s.conv = .norm ∧ s.ready = true ∧ max s.nrma s.nrmb = 0 := by
  refine ⟨[.setUp, .setConv .norm, .setUp], rfl, ?_, ?_⟩
  · simp [normRun, normStep, normCreate]
  · simp [normRun, normStep, normCreate]

end Verif.SVD
