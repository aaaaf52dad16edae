import Verif.FN.MatModel
import Verif.FN.Lemmas
import Mathlib.LinearAlgebra.Matrix.ToLin
import Mathlib.Topology.Algebra.InfiniteSum.Basic
import Mathlib.Topology.Instances.Matrix

/-!
# FN: functions of matrices (C43 to C46)
-/

set_option linter.all false
noncomputable section
open Classical Matrix

namespace Verif.FN

variable {K : Type} [RCLike K] {n : Type} [Fintype n] [DecidableEq n]

/-- What is assumed of the dense kernels: an eigenpair `(lambda, v)` of the argument gives the
eigenpair `(f(lambda), v)` of the result. -/
def KernelsRespectEigenpairs (P : Prim K) (MP : MatPrim K n) : Prop :=
  ∀ m t A F (v : n → K) (lam y : K), MP.fn m t A = some F → A *ᵥ v = lam • v →
    evalLeaf P t lam = some y → F *ᵥ v = y • v

/-- What is assumed of the symmetric eigensolver: `A = Q D Q*` with unitary `Q`. -/
def IsEigendecomposition (A Q : Matrix n n K) (eig : n → ℝ) : Prop :=
  A = Q * Matrix.diagonal (fun i => (eig i : K)) * Qᴴ ∧ Qᴴ * Q = 1 ∧ Q * Qᴴ = 1

/-! ## Helper lemmas -/

theorem polyLoop_mulVec (A : Matrix n n K) (v : n → K) (lam : K) (hv : A *ᵥ v = lam • v)
    (cs : List K) : ∀ (P : Matrix n n K) (p : K), P *ᵥ v = p • v →
      polyLoop A P cs *ᵥ v = hornerLoop lam p cs • v := by
  induction cs with
  | nil => intro P p h; exact h
  | cons c cs ih =>
    intro P p h
    rw [polyLoop, hornerLoop]
    apply ih
    rw [add_mulVec, ← mulVec_mulVec, hv, mulVec_smul, h, smul_mulVec, one_mulVec, add_smul,
      mul_smul, add_comm]

theorem evaluatePoly_mulVec (A : Matrix n n K) (v : n → K) (lam : K) (hv : A *ᵥ v = lam • v)
    (c : List K) : evaluatePoly A c *ᵥ v = hornerP lam c • v := by
  cases c with
  | nil => simp [evaluatePoly, hornerP]
  | cons c cs =>
    apply polyLoop_mulVec A v lam hv
    simp [smul_mulVec]

theorem matSolve_eigen {Q P F : Matrix n n K} {v : n → K} {a b : K} (h : matSolve Q P = some F)
    (hP : P *ᵥ v = a • v) (hQ : Q *ᵥ v = b • v) (hb : b ≠ 0) : F *ᵥ v = (a / b) • v := by
  unfold matSolve at h
  split_ifs at h with hd
  rw [← Option.some.inj h, ← mulVec_mulVec, hP, mulVec_smul]
  have hu : IsUnit Q.det := isUnit_iff_ne_zero.2 hd
  have : Q⁻¹ *ᵥ v = b⁻¹ • v := by
    have h1 : Q⁻¹ *ᵥ (Q *ᵥ v) = v := by
      rw [mulVec_mulVec, Matrix.nonsing_inv_mul Q hu, one_mulVec]
    rw [hQ, mulVec_smul] at h1
    rw [← h1, smul_smul, inv_mul_cancel₀ hb, one_smul, h1]
  rw [this, smul_smul, div_eq_mul_inv]

theorem symMat_eigen {MP : MatPrim K n} {e : K → Option K} {h : Header K} {A F : Matrix n n K}
    (hE : IsEigendecomposition A (MP.syev A).1 (MP.syev A).2) (hF : symMat MP e h A = some F)
    {v : n → K} {lam y : K} (hv : A *ᵥ v = lam • v) (hy : e (h.alpha * lam) = some y) :
    F *ᵥ v = (h.beta * y) • v := by
  simp only [symMat, evalAll, Option.bind_eq_some_iff] at hF
  obtain ⟨g, hg, hF⟩ := hF
  split_ifs at hg with hn
  push Not at hn
  have hg := Option.some.inj hg
  rw [← Option.some.inj hF]
  clear hF
  obtain ⟨hA, h1, h2⟩ := hE
  generalize (MP.syev A).1 = Q at *
  generalize (MP.syev A).2 = eig at *
  -- coordinates of v in the basis of eigenvectors
  set u := Qᴴ *ᵥ v with hu
  have hvu : Q *ᵥ u = v := by rw [hu, mulVec_mulVec, h2, one_mulVec]
  have hd : ∀ i, (eig i : K) * u i = lam * u i := by
    intro i
    have : Qᴴ *ᵥ (A *ᵥ v) = lam • u := by rw [hv, mulVec_smul]
    rw [hA, mulVec_mulVec, ← mul_assoc, ← mul_assoc, h1, one_mul, ← mulVec_mulVec] at this
    have := congrFun this i
    rw [mulVec_diagonal] at this
    rw [← hu, Pi.smul_apply, smul_eq_mul] at this
    exact this
  have hW : (Matrix.of fun i j => star (Q j i) * h.beta * g i : Matrix n n K) *ᵥ v
      = (h.beta * y) • u := by
    ext i
    have e1 : ((Matrix.of fun i j => star (Q j i) * h.beta * g i : Matrix n n K) *ᵥ v) i
        = h.beta * g i * u i := by
      simp only [mulVec, dotProduct, hu, conjTranspose_apply, Matrix.of_apply]
      rw [Finset.mul_sum]
      exact Finset.sum_congr rfl fun j _ => by ring
    rw [e1, Pi.smul_apply, smul_eq_mul]
    by_cases hui : u i = 0
    · simp [hui]
    · have hl : (eig i : K) = lam := mul_right_cancel₀ hui (hd i)
      have : g i = y := by rw [← hg]; simp [hl, hy]
      rw [this]
  rw [← mulVec_mulVec, hW, mulVec_smul, hvu]

theorem scaled_eigen {A : Matrix n n K} {v : n → K} {lam : K} (al : K) (hv : A *ᵥ v = lam • v) :
    (if al ≠ 1 then al • A else A) *ᵥ v = (al * lam) • v := by
  split_ifs with h
  · rw [smul_mulVec, hv, smul_smul]
  · rw [hv, not_not.1 h, one_mul]

theorem eval_eq_bare (P : Prim K) (f : Fn K) (x : K) :
    eval P f x = (bare P f (f.header.alpha * x)).bind fun y => some (f.header.beta * y) := by
  cases f <;> rfl

theorem wrapMat_eigen {P : Prim K} {MP : MatPrim K n} {sym : Bool} {f : Fn K}
    {basic : Matrix n n K → Option (Matrix n n K)} {A dest F : Matrix n n K}
    (hE : sym = true → IsEigendecomposition A (MP.syev A).1 (MP.syev A).2)
    (hb : ∀ M G (v : n → K) mu y, basic M = some G → M *ᵥ v = mu • v → bare P f mu = some y →
      G *ᵥ v = y • v)
    (hF : wrapMat P MP true sym f basic A dest = some F) {v : n → K} {lam y : K}
    (hv : A *ᵥ v = lam • v) (hy : eval P f lam = some y) : F *ᵥ v = y • v := by
  rw [eval_eq_bare, Option.bind_eq_some_iff] at hy
  obtain ⟨z, hz, hy⟩ := hy
  rw [← Option.some.inj hy]
  simp only [wrapMat] at hF
  rw [if_neg (by simp)] at hF
  split_ifs at hF with hs h1
  · exact symMat_eigen (hE hs.1) hF hv hz
  · rw [Option.bind_eq_some_iff] at hF
    obtain ⟨G, hG, hF⟩ := hF
    have := hb _ G v _ z hG (by rw [smul_mulVec, hv, smul_smul]) hz
    rw [← Option.some.inj hF, smul_mulVec, this, smul_smul]
  · rw [Option.bind_eq_some_iff] at hF
    obtain ⟨G, hG, hF⟩ := hF
    have := hb _ G v _ z hG (by rw [hv, not_not.1 h1, one_mul]) hz
    rw [← Option.some.inj hF, smul_mulVec, this, smul_smul]

/-! ## C43 -/

/-- C43: matrix functions agree with the scalar function on eigenpairs.  For every nesting of
functions, if the matrix function of `A` is computed (on a process that computes), `v` is an
eigenvector of `A` for `lambda` and the scalar function is defined at `lambda` with value `y`, then
`v` is an eigenvector of the result for `y`.  `sym` tells whether the matrix is marked Hermitian. -/
theorem C43_eigenpairs {P : Prim K} {MP : MatPrim K n} (hK : KernelsRespectEigenpairs P MP)
    (f : Fn K) (sym : Bool) {A dest F : Matrix n n K}
    (hE : sym = true → IsEigendecomposition A (MP.syev A).1 (MP.syev A).2)
    (hF : evalMat P MP true sym f A dest = some F) {v : n → K} {lam y : K}
    (hv : A *ᵥ v = lam • v) (hy : eval P f lam = some y) : F *ᵥ v = y • v := by
  induction f generalizing sym A dest F v lam y with
  | leaf h t =>
    rw [evalMat] at hF
    refine wrapMat_eigen hE ?_ hF hv hy
    intro M G w mu z hG hw hz
    cases t with
    | rational p q =>
      simp only [] at hG
      split_ifs at hG with hm
      unfold rationalMat at hG
      simp only [bare, evalLeaf, evalRational] at hz
      split_ifs at hG hz with hq h0
      · rw [← Option.some.inj hG, ← Option.some.inj hz]
        exact evaluatePoly_mulVec M w mu hw p
      · rw [← Option.some.inj hz]
        exact matSolve_eigen hG (evaluatePoly_mulVec M w mu hw p)
          (evaluatePoly_mulVec M w mu hw q) h0
    | phi k => cases hG
    | exp => exact hK _ _ M G w mu z hG hw hz
    | log => exact hK _ _ M G w mu z hG hw hz
    | sqrt => exact hK _ _ M G w mu z hG hw hz
    | invsqrt => exact hK _ _ M G w mu z hG hw hz
  | combine h c f1 f2 ih1 ih2 =>
    rw [evalMat] at hF
    refine wrapMat_eigen hE ?_ hF hv hy
    intro M G w mu z hG hw hz
    split_ifs at hG with hm
    simp only [bare, Option.bind_eq_some_iff] at hz
    obtain ⟨a, ha, hz⟩ := hz
    cases c with
    | add =>
      simp only [Option.bind_eq_some_iff, combineVal] at hG hz
      obtain ⟨W, hW, B, hB, hG⟩ := hG
      obtain ⟨b, hb, hz⟩ := hz
      rw [← Option.some.inj hG, ← Option.some.inj hz, add_mulVec,
        ih1 false (by simp) hW hw ha, ih2 false (by simp) hB hw hb, ← add_smul, add_comm]
    | multiply =>
      simp only [Option.bind_eq_some_iff, combineVal] at hG hz
      obtain ⟨W, hW, B, hB, hG⟩ := hG
      obtain ⟨b, hb, hz⟩ := hz
      rw [← Option.some.inj hG, ← Option.some.inj hz, ← mulVec_mulVec,
        ih2 false (by simp) hB hw hb, mulVec_smul, ih1 false (by simp) hW hw ha, smul_smul, mul_comm]
    | divide =>
      simp only [Option.bind_eq_some_iff, combineVal] at hG hz
      obtain ⟨W, hW, B, hB, hG⟩ := hG
      obtain ⟨b, hb, hz⟩ := hz
      split_ifs at hz with h0
      rw [← Option.some.inj hz]
      exact matSolve_eigen hG (ih1 false (by simp) hB hw ha) (ih2 false (by simp) hW hw hb) h0
    | compose =>
      simp only [Option.bind_eq_some_iff, combineVal] at hG hz
      obtain ⟨W, hW, hG⟩ := hG
      exact ih2 false (by simp) hG (ih1 false (by simp) hW hw ha) hz

/-- Polynomial of a matrix, coefficients in descending powers; no coefficients means the identity. -/
def Spec.matPoly (c : List K) (A : Matrix n n K) : Matrix n n K :=
  if c = [] then 1 else ∑ i : Fin c.length, c.get i • A ^ (c.length - 1 - i)

theorem polyLoop_eq (A : Matrix n n K) (cs : List K) : ∀ P : Matrix n n K,
    polyLoop A P cs = P * A ^ cs.length + ∑ i : Fin cs.length, cs.get i • A ^ (cs.length - 1 - i) := by
  induction cs with
  | nil => intro P; simp [polyLoop]
  | cons c cs ih =>
    intro P
    rw [polyLoop, ih]
    simp only [List.length_cons, Fin.sum_univ_succ, List.get_cons_zero,
      List.get_cons_succ, Fin.val_zero, Fin.val_succ]
    have : ∀ i : Fin cs.length, cs.length + 1 - 1 - ((i : ℕ) + 1) = cs.length - 1 - i := by
      intro i; omega
    simp only [this]
    simp only [Nat.add_sub_cancel, Nat.sub_zero]
    rw [pow_succ', add_mul, mul_assoc P A, smul_mul_assoc, one_mul, ← add_assoc]
    rfl

theorem evaluatePoly_eq (A : Matrix n n K) (c : List K) : evaluatePoly A c = Spec.matPoly c A := by
  cases c with
  | nil => simp [evaluatePoly, Spec.matPoly]
  | cons c cs =>
    rw [evaluatePoly, polyLoop_eq, Spec.matPoly, if_neg (by simp)]
    simp only [List.length_cons, Fin.sum_univ_succ, List.get_cons_zero,
      List.get_cons_succ, Fin.val_zero, Fin.val_succ]
    have : ∀ i : Fin cs.length, cs.length + 1 - 1 - ((i : ℕ) + 1) = cs.length - 1 - i := by
      intro i; omega
    simp only [this]
    simp only [Nat.add_sub_cancel, Nat.sub_zero, zero_add, smul_mul_assoc, one_mul]
    rfl

theorem scaled_eq (al : K) (A : Matrix n n K) : (if al ≠ 1 then al • A else A) = al • A := by
  split_ifs with h
  · rfl
  · rw [not_not.1 h, one_smul]

theorem wrapMat_plain (P : Prim K) (MP : MatPrim K n) (f : Fn K)
    (basic : Matrix n n K → Option (Matrix n n K)) (A dest : Matrix n n K) :
    wrapMat P MP true false f basic A dest
      = (basic (f.header.alpha • A)).bind fun F => some (f.header.beta • F) := by
  unfold wrapMat
  simp only [scaled_eq]
  rw [if_neg (by simp), if_neg (by simp)]

theorem wrapVec_plain (P : Prim K) (MP : MatPrim K n) (i0 : n) (f : Fn K)
    (basic : Matrix n n K → Option (n → K)) (A : Matrix n n K) (dest : n → K) :
    wrapVec P MP i0 true false f basic A dest
      = (basic (f.header.alpha • A)).bind fun F => some (f.header.beta • F) := by
  unfold wrapVec
  simp only [scaled_eq]
  rw [if_neg (by simp), if_neg (by simp)]

/-- C43 for rational functions of an arbitrary matrix, diagonalizable or not: the result `F` solves
`q(alpha A) F = beta p(alpha A)` with the documented polynomials, and the call succeeds exactly when
`q(alpha A)` is invertible. -/
theorem C43_rational {P : Prim K} {MP : MatPrim K n} {p q : List K} {A dest : Matrix n n K}
    {h : Header K} (hm : h.method = 0) :
    (∀ F, evalMat P MP true false (.leaf h (.rational p q)) A dest = some F →
      Spec.matPoly q (h.alpha • A) * F = h.beta • Spec.matPoly p (h.alpha • A)) ∧
    ((∃ F, evalMat P MP true false (.leaf h (.rational p q)) A dest = some F) ↔
      IsUnit (Spec.matPoly q (h.alpha • A))) := by
  simp only [evalMat, wrapMat_plain, Fn.header]
  rw [if_neg (not_not.2 hm)]
  unfold rationalMat matSolve
  simp only [evaluatePoly_eq]
  by_cases hq : q = []
  · subst hq
    simp [Spec.matPoly, eq_comm]
  · rw [if_neg hq]
    by_cases hd : (Spec.matPoly q (h.alpha • A)).det = 0
    · rw [if_pos hd]
      constructor
      · intro F hF; cases hF
      · rw [Matrix.isUnit_iff_isUnit_det, hd]; simp
    · have hu : IsUnit (Spec.matPoly q (h.alpha • A)).det := isUnit_iff_ne_zero.2 hd
      rw [if_neg hd]
      constructor
      · intro F hF
        rw [Option.bind_some] at hF
        rw [← Option.some.inj hF, mul_smul_comm, ← mul_assoc, Matrix.mul_nonsing_inv _ hu, one_mul]
      · rw [Matrix.isUnit_iff_isUnit_det]
        simp only [hu, iff_true]
        exact ⟨_, rfl⟩

/-! ## C44 -/

/-- What is assumed of the dense kernels: the variant computing only the first column agrees with the
full computation. -/
def KernelsFirstColumn (MP : MatPrim K n) (i0 : n) : Prop :=
  ∀ m t A F, MP.fn m t A = some F → MP.vec m t A = some (F.col i0)

theorem vecSolve_col {Q P F : Matrix n n K} {i0 : n} (h : matSolve Q P = some F) :
    vecSolve Q (P.col i0) = some (F.col i0) := by
  unfold matSolve at h
  unfold vecSolve
  split_ifs at h ⊢ with hd
  rw [← Option.some.inj h]
  rfl

theorem wrapVec_col {P : Prim K} {MP : MatPrim K n} {i0 : n} {sym : Bool} {f : Fn K}
    {bm : Matrix n n K → Option (Matrix n n K)} {bv : Matrix n n K → Option (n → K)}
    {A dest F : Matrix n n K} {v : n → K}
    (hb : ∀ M G, bm M = some G → bv M = some (G.col i0))
    (hF : wrapMat P MP true sym f bm A dest = some F) :
    wrapVec P MP i0 true sym f bv A v = some (F.col i0) := by
  simp only [wrapMat, wrapVec] at hF ⊢
  rw [if_neg (by simp)] at hF ⊢
  by_cases hs : (sym = true ∧ f.header.method = 0)
  · rw [if_pos hs] at hF ⊢
    simp only [symMat, symVec, Option.bind_eq_some_iff] at hF ⊢
    obtain ⟨y, hy, hF⟩ := hF
    refine ⟨y, hy, ?_⟩
    rw [← Option.some.inj hF]
    rfl
  · rw [if_neg hs] at hF ⊢
    rw [Option.bind_eq_some_iff] at hF ⊢
    obtain ⟨G, hG, hF⟩ := hF
    refine ⟨_, hb _ G hG, ?_⟩
    rw [← Option.some.inj hF]
    rfl

/-- C44: FNEvaluateFunctionMatVec gives the first column of what FNEvaluateFunctionMat gives, for
every nesting of functions and whether or not the matrix is marked Hermitian. -/
theorem C44_first_column {P : Prim K} {MP : MatPrim K n} {i0 : n} (hK : KernelsFirstColumn MP i0)
    (expm : ∀ k, Matrix (n ⊕ Fin k) (n ⊕ Fin k) K → Matrix (n ⊕ Fin k) (n ⊕ Fin k) K)
    (f : Fn K) (sym : Bool) {A dest F : Matrix n n K} {v : n → K}
    (hF : evalMat P MP true sym f A dest = some F) :
    evalVec P MP i0 expm true sym f A v = some (F.col i0) := by
  induction f generalizing sym A dest F v with
  | leaf h t =>
    rw [evalMat] at hF
    rw [evalVec]
    refine wrapVec_col ?_ hF
    intro M G hG
    cases t with
    | rational p q =>
      simp only [] at hG ⊢
      split_ifs at hG ⊢ with hm
      unfold rationalMat at hG
      unfold rationalVec
      split_ifs at hG ⊢ with hq
      · rw [← Option.some.inj hG]
      · exact vecSolve_col hG
    | phi k => cases hG
    | exp => exact hK _ _ M G hG
    | log => exact hK _ _ M G hG
    | sqrt => exact hK _ _ M G hG
    | invsqrt => exact hK _ _ M G hG
  | combine h c f1 f2 ih1 ih2 =>
    rw [evalMat] at hF
    rw [evalVec]
    refine wrapVec_col ?_ hF
    intro M G hG
    split_ifs at hG ⊢ with hm
    cases c with
    | add =>
      simp only [Option.bind_eq_some_iff] at hG ⊢
      obtain ⟨W, hW, B, hB, hG⟩ := hG
      exact ⟨_, ih1 false hW, _, ih2 false hB, by rw [← Option.some.inj hG]; rfl⟩
    | multiply =>
      simp only [Option.bind_eq_some_iff] at hG ⊢
      obtain ⟨W, hW, B, hB, hG⟩ := hG
      exact ⟨_, hW, _, ih2 false hB, by rw [← Option.some.inj hG]; rfl⟩
    | divide =>
      simp only [Option.bind_eq_some_iff] at hG ⊢
      obtain ⟨W, hW, B, hB, hG⟩ := hG
      exact ⟨_, hW, _, ih1 false hB, vecSolve_col hG⟩
    | compose =>
      simp only [Option.bind_eq_some_iff] at hG ⊢
      obtain ⟨W, hW, hG⟩ := hG
      exact ⟨_, hW, ih2 false hG⟩

/-! ## C45 -/

section phi

variable (i0 : n) (k : ℕ) (al : K) (A : Matrix n n K)

theorem phiAux_single_inr (j : Fin k) (hj : 0 < (j : ℕ)) :
    phiAux i0 k al A *ᵥ Pi.single (.inr j) 1
      = al • Pi.single (.inr ⟨j - 1, by omega⟩ : n ⊕ Fin k) (1 : K) := by
  ext r
  rw [mulVec_single_one, Pi.smul_apply, smul_eq_mul]
  simp only [Matrix.col_apply]
  cases r with
  | inl i =>
    have : ¬ ((j : ℕ) = 0) := by omega
    simp [phiAux, this]
  | inr i =>
    simp only [phiAux, Pi.single_apply, Sum.inr.injEq, Fin.ext_iff]
    by_cases h : (i : ℕ) + 1 = j
    · rw [if_pos h, if_pos (by omega), mul_one]
    · rw [if_neg h, if_neg (by omega), mul_zero]

theorem phiAux_single_zero (j : Fin k) (hj : (j : ℕ) = 0) :
    phiAux i0 k al A *ᵥ Pi.single (.inr j) 1 = al • Pi.single (.inl i0 : n ⊕ Fin k) (1 : K) := by
  ext r
  rw [mulVec_single_one, Pi.smul_apply, smul_eq_mul]
  simp only [Matrix.col_apply]
  cases r with
  | inl i =>
    simp only [phiAux, Pi.single_apply, Sum.inl.injEq, hj, and_true]
    by_cases h : i = i0
    · rw [if_pos h, if_pos h, mul_one]
    · rw [if_neg h, if_neg h, mul_zero]
  | inr i =>
    simp [phiAux, hj]

theorem phiAux_inl (w : n → K) :
    phiAux i0 k al A *ᵥ Sum.elim w 0 = Sum.elim (A *ᵥ w) 0 := by
  ext r
  cases r with
  | inl i => simp [mulVec, dotProduct, phiAux]
  | inr i => simp [mulVec, dotProduct, phiAux]

theorem phiAux_pow_low (hk : 0 < k) (j : ℕ) (hj : j < k) :
    phiAux i0 k al A ^ j *ᵥ Pi.single (.inr ⟨k - 1, by omega⟩) 1
      = al ^ j • Pi.single (.inr ⟨k - 1 - j, by omega⟩ : n ⊕ Fin k) (1 : K) := by
  induction j with
  | zero => rw [pow_zero, one_mulVec, pow_zero, one_smul]; rfl
  | succ j ih =>
    rw [pow_succ', ← mulVec_mulVec, ih (by omega), mulVec_smul, phiAux_single_inr _ _ _ _ _ (by
      show 0 < k - 1 - j; omega), smul_smul, ← pow_succ]
    congr 2

theorem phiAux_pow_high (hk : 0 < k) (j : ℕ) :
    phiAux i0 k al A ^ (j + k) *ᵥ Pi.single (.inr ⟨k - 1, by omega⟩) 1
      = al ^ k • Sum.elim (A ^ j *ᵥ Pi.single i0 1) (0 : Fin k → K) := by
  induction j with
  | zero =>
    obtain ⟨k, rfl⟩ : ∃ k', k = k' + 1 := ⟨k - 1, by omega⟩
    rw [zero_add, pow_succ', ← mulVec_mulVec, phiAux_pow_low _ _ _ _ (by omega) k (by omega),
      mulVec_smul, phiAux_single_zero _ _ _ _ _ (by show k + 1 - 1 - k = 0; omega), smul_smul, ← pow_succ]
    congr 1
    ext r
    cases r with
    | inl i => simp [Pi.single_apply, one_apply]
    | inr i => simp
  | succ j ih =>
    rw [show j + 1 + k = (j + k) + 1 by omega, pow_succ', ← mulVec_mulVec, ih, mulVec_smul,
      phiAux_inl, mulVec_mulVec, ← pow_succ']

/-- C45: FNEvaluateFunctionMatVec for FNPHI gives `beta phi_k(alpha A) e_1`, where `phi_k(M)` is the
sum of the series `Σ M^i/(i+k)!`, for every index, matrix and nonzero scale factor.  Assumed: the
exponential of the auxiliary matrix is computed exactly. -/
theorem C45_phi_vec {P : Prim K} {MP : MatPrim K n} (h : Header K) (hm : h.method = 0)
    (hal : h.alpha ≠ 0)
    (expm : ∀ k, Matrix (n ⊕ Fin k) (n ⊕ Fin k) K → Matrix (n ⊕ Fin k) (n ⊕ Fin k) K)
    (hexp : ∀ (k : ℕ) (H : Matrix (n ⊕ Fin k) (n ⊕ Fin k) K) (r c : n ⊕ Fin k),
      HasSum (fun j : ℕ => (H ^ j) r c / (j.factorial : K)) (expm k H r c)) (v : n → K) :
    ∃ w : n → K,
      evalVec P MP i0 expm true false (.leaf h (.phi k)) A v = some (h.beta • w) ∧
      ∀ i, HasSum (fun j : ℕ => ((h.alpha • A) ^ j) i i0 / ((j + k).factorial : K)) (w i) := by
  simp only [evalVec, wrapVec_plain, Fn.header]
  rw [if_neg (not_not.2 hm)]
  refine ⟨_, rfl, ?_⟩
  intro i
  unfold phiVec
  by_cases hk : 0 < k
  · simp only [dif_pos hk]
    set M := h.alpha • A
    set H := phiAux i0 k h.alpha M with hH
    have h1 := hexp k H (.inl i) (.inr ⟨k - 1, by omega⟩)
    have hlow : ∀ j, j < k → (H ^ j) (.inl i) (.inr ⟨k - 1, by omega⟩) = 0 := by
      intro j hj
      have := congrFun (phiAux_pow_low i0 k h.alpha M hk j hj) (.inl i)
      rw [mulVec_single_one, Matrix.col_apply] at this
      rw [this]; simp
    have hhigh : ∀ j, (H ^ (j + k)) (.inl i) (.inr ⟨k - 1, by omega⟩)
        = h.alpha ^ k * (M ^ j) i i0 := by
      intro j
      have := congrFun (phiAux_pow_high i0 k h.alpha M hk j) (.inl i)
      rw [mulVec_single_one, Matrix.col_apply] at this
      rw [this]; simp [mulVec_single_one]
    have h2 := (hasSum_nat_add_iff' (f := fun j : ℕ =>
      (H ^ j) (.inl i) (.inr ⟨k - 1, by omega⟩) / (j.factorial : K)) k).2 h1
    rw [Finset.sum_eq_zero (fun j hj => by rw [hlow j (Finset.mem_range.1 hj), zero_div]),
      sub_zero] at h2
    have h3 := h2.mul_left (h.alpha ^ k)⁻¹
    have e : (fun j : ℕ => (h.alpha ^ k)⁻¹ * ((H ^ (j + k)) (.inl i) (.inr ⟨k - 1, by omega⟩)
        / ((j + k).factorial : K))) = fun j : ℕ => (M ^ j) i i0 / ((j + k).factorial : K) := by
      ext j
      have hp : h.alpha ^ k ≠ 0 := pow_ne_zero _ hal
      rw [hhigh j]
      field_simp
    rw [e] at h3
    exact h3
  · have : k = 0 := by omega
    subst this
    simp only [dif_neg hk, one_mul, add_zero]
    have h1 := hexp 0 (phiAux i0 0 h.alpha (h.alpha • A)) (.inl i) (.inl i0)
    have : ∀ j, (phiAux i0 0 h.alpha (h.alpha • A) ^ j) (.inl i) (.inl i0)
        = ((h.alpha • A) ^ j) i i0 := by
      intro j
      have hj : ∀ j, phiAux i0 0 h.alpha (h.alpha • A) ^ j *ᵥ
          Sum.elim (Pi.single i0 1) (0 : Fin 0 → K)
          = Sum.elim ((h.alpha • A) ^ j *ᵥ Pi.single i0 1) 0 := by
        intro j
        induction j with
        | zero => rw [pow_zero, pow_zero, one_mulVec, one_mulVec]
        | succ j ih => rw [pow_succ', ← mulVec_mulVec, ih, phiAux_inl, mulVec_mulVec, ← pow_succ']
      have := congrFun (hj j) (.inl i)
      have e : Sum.elim (Pi.single i0 1) (0 : Fin 0 → K) = Pi.single (.inl i0 : n ⊕ Fin 0) (1 : K) := by
        ext r
        cases r with
        | inl i => simp [Pi.single_apply]
        | inr i => exact i.elim0
      rw [e, mulVec_single_one, Matrix.col_apply] at this
      rw [this]; simp [mulVec_single_one]
    simp only [this] at h1
    exact h1

end phi

/-! ## C46 -/

/-- All objects of the tree are in redundant mode. -/
def AllRedundant : Fn K → Prop
  | .leaf h _ => h.pmode = .redundant
  | .combine h _ f1 f2 => h.pmode = .redundant ∧ AllRedundant f1 ∧ AllRedundant f2

theorem wrapMat_redundant {P : Prim K} {MP : MatPrim K n} {sym : Bool} {f : Fn K}
    (hr : f.header.pmode = .redundant) {b1 b2 : Matrix n n K → Option (Matrix n n K)}
    (hb : ∀ M, b1 M = b2 M) (A d1 d2 : Matrix n n K) :
    wrapMat P MP false sym f b1 A d1 = wrapMat P MP true sym f b2 A d2 := by
  unfold wrapMat
  simp only [hb]
  rw [if_neg (by simp [hr])]
  conv_rhs => rw [if_neg (by simp)]

theorem evalMat_redundant (P : Prim K) (MP : MatPrim K n) (f : Fn K) : AllRedundant f →
    ∀ (sym : Bool) (A d1 d2 : Matrix n n K),
      evalMat P MP false sym f A d1 = evalMat P MP true sym f A d2 := by
  induction f with
  | leaf h t =>
    intro hr sym A d1 d2
    exact wrapMat_redundant (f := .leaf h t) hr (fun M => rfl) A d1 d2
  | combine h c f1 f2 ih1 ih2 =>
    intro ⟨hr, hr1, hr2⟩ sym A d1 d2
    rw [evalMat, evalMat]
    refine wrapMat_redundant (f := .combine h c f1 f2) hr (fun M => ?_) A d1 d2
    by_cases hm : h.method ≠ 0
    · rw [if_pos hm, if_pos hm]
    · rw [if_neg hm, if_neg hm]
      cases c with
      | add => simp only [ih1 hr1 false M M M, ih2 hr2 false M d1 d2]
      | multiply => simp only [ih1 hr1 false M M M, ih2 hr2 false M M M]
      | divide => simp only [ih1 hr1 false M d1 d2, ih2 hr2 false M M M]
      | compose =>
        simp only [ih1 hr1 false M M M]
        congr 1
        ext1 W
        exact ih2 hr2 false W d1 d2

/-- C46: FNEvaluateFunctionMat gives every process the result of the first process, when the object
itself is in synchronized mode or when it and all functions nested in it are in redundant mode. -/
theorem C46_parallel_partial (P : Prim K) (MP : MatPrim K n) (f : Fn K) (sym : Bool)
    (A dest : Matrix n n K) (h : f.header.pmode = .synchronized ∨ AllRedundant f) :
    functionMat P MP false sym f A dest = functionMat P MP true sym f A dest := by
  rcases h with h | h
  · have h1 : evalMat P MP false sym f A dest = some dest := by
      cases f with
      | leaf hd t =>
        rw [evalMat]; unfold wrapMat; simp only []
        rw [if_pos]; simp [h]
      | combine hd c f1 f2 =>
        rw [evalMat]; unfold wrapMat; simp only []
        rw [if_pos]; simp [h]
    unfold functionMat
    rw [h1]
    simp only [if_pos h]
    cases hx : evalMat P MP true sym f A dest with
    | none => rfl
    | some F => rfl
  · unfold functionMat
    rw [evalMat_redundant P MP f h sym A dest dest]

/-- C46 is false in general: a combined function in redundant mode with a nested function in
synchronized mode gives wrong results on the processes other than the first one.  Here
`x^2 + 0` at the matrix `(2)`: the first process gets 4, the others 2. -/
theorem C46_parallel_false : ∃ (f : Fn ℝ) (A dest F G : Matrix (Fin 1) (Fin 1) ℝ),
    (∀ P MP, functionMat P MP true false f A dest = some F) ∧
    (∀ P MP, functionMat P MP false false f A dest = some G) ∧ F ≠ G := by
  refine ⟨.combine ⟨1, 1, 0, .redundant⟩ .add
    (.leaf ⟨1, 1, 0, .synchronized⟩ (.rational [1, 0, 0] []))
    (.leaf ⟨1, 1, 0, .redundant⟩ (.rational [0] [])), Matrix.diagonal (fun _ => 2), 0, Matrix.diagonal (fun _ => 4),
    Matrix.diagonal (fun _ => 2), ?_, ?_, ?_⟩
  · intro P MP
    simp [functionMat, evalMat, wrapMat, Fn.header, rationalMat, evaluatePoly, polyLoop]
    norm_num
  · intro P MP
    simp [functionMat, evalMat, wrapMat, Fn.header, rationalMat, evaluatePoly, polyLoop]
  · intro h
    have := congrFun (congrFun h 0) 0
    simp at this

/-! ## The hypotheses can be met -/

/-- `x (x+1)` as a product of two nested functions, at an upper triangular matrix: the call succeeds,
and (1,1) is an eigenvector for the eigenvalue 3, where the scalar function is 12. -/
example (P : Prim ℝ) (MP : MatPrim ℝ (Fin 2)) :
    let f : Fn ℝ := .combine ⟨1, 1, 0, .redundant⟩ .multiply
      (.leaf ⟨1, 1, 0, .redundant⟩ (.rational [1, 0] []))
      (.leaf ⟨1, 1, 0, .redundant⟩ (.rational [1, 1] []))
    (∃ F, evalMat P MP true false f !![1, 2; 0, 3] 0 = some F) ∧
    !![1, 2; 0, 3] *ᵥ ![(1 : ℝ), 1] = (3 : ℝ) • ![(1 : ℝ), 1] ∧ eval P f 3 = some 12 := by
  refine ⟨?_, ?_, ?_⟩
  · simp [evalMat, wrapMat, Fn.header, rationalMat]
  · ext i; fin_cases i <;> simp [mulVec, dotProduct, Fin.sum_univ_two] <;> norm_num
  · simp [eval, evalLeaf, evalRational, combineVal, hornerP, hornerLoop]; norm_num

/-- Kernels which compute `exp`, `log`, `sqrt` of multiples of the identity satisfy the assumptions. -/
example : ∃ MP : MatPrim ℝ (Fin 2), KernelsRespectEigenpairs primReal MP ∧
    KernelsFirstColumn MP 0 ∧ ∃ F, MP.fn 0 .exp ((2 : ℝ) • 1) = some F := by
  refine ⟨⟨fun _ t A => if A = A 0 0 • 1 then (evalLeaf primReal t (A 0 0)).map (· • 1) else none,
    fun _ t A => (if A = A 0 0 • 1 then (evalLeaf primReal t (A 0 0)).map
      (· • (1 : Matrix (Fin 2) (Fin 2) ℝ)) else none).map (fun F => F.col 0),
    fun A => (1, fun i => A i i)⟩, ?_, ?_, ?_⟩
  · intro m t A F v lam y h hv hy
    simp only [] at h
    split_ifs at h with hA
    simp only [Option.map_eq_some_iff] at h
    obtain ⟨z, hz, rfl⟩ := h
    rw [hA, smul_mulVec, one_mulVec] at hv
    by_cases hv0 : v = 0
    · simp [hv0]
    · have : A 0 0 = lam := smul_left_injective ℝ hv0 hv
      rw [this, hy] at hz
      rw [Option.some.inj hz, smul_mulVec, one_mulVec]
  · intro m t A F h
    simp only [] at h ⊢
    rw [h]; rfl
  · refine ⟨Real.exp 2 • 1, ?_⟩
    simp [evalLeaf, primReal]

end Verif.FN
