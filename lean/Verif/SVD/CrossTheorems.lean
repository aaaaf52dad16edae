import Verif.SVD.CrossLemmas
import Mathlib.LinearAlgebra.Matrix.Notation
import Mathlib.Tactic.FieldSimp
import Mathlib.Tactic.LinearCombination

/-!
# C76 (cross product solver)
-/
set_option linter.all false

namespace Verif.SVD

open Matrix
open Verif.EPS (norm2)

variable {𝕜 : Type*} [RCLike 𝕜] {m n p : Type*} [Fintype m] [Fintype n] [Fintype p]

/-- The operator is `A^H A`, or `A^H diag(omega) A` with a signature on the rows. -/
theorem C76_cross_operator [DecidableEq m] (A : Matrix m n 𝕜) (omega : m → 𝕜) (omega' : n → 𝕜) (x : n → 𝕜) :
    multCross A Aᴴ .absent x = (Aᴴ * A).mulVec x ∧ multCross A Aᴴ (.cols omega') x = (Aᴴ * A).mulVec x ∧
    multCross A Aᴴ (.rows omega) x = (Aᴴ * Matrix.diagonal omega * A).mulVec x := by
  refine ⟨by simp [multCross], by simp [multCross], ?_⟩
  show Aᴴ.mulVec (fun i => A.mulVec x i * omega i) = _
  rw [← Matrix.mulVec_mulVec, ← Matrix.mulVec_mulVec]
  congr 1
  funext i
  rw [Matrix.mulVec_diagonal, mul_comm]

/-- The explicitly formed matrix is the same operator. -/
theorem C76_cross_explicit [DecidableEq m] (A : Matrix m n 𝕜) (AT : Matrix n m 𝕜) (omega : Signature 𝕜 m n) (x : n → 𝕜) :
    (explicitCross A AT omega).mulVec x = multCross A AT omega x := by
  cases omega with
  | absent => simp [explicitCross, multCross]
  | cols w => simp [explicitCross, multCross]
  | rows w =>
    show (AT * (Matrix.diagonal w * A)).mulVec x = AT.mulVec (fun i => A.mulVec x i * w i)
    rw [← Matrix.mulVec_mulVec, ← Matrix.mulVec_mulVec]
    congr 1
    funext i
    rw [Matrix.mulVec_diagonal, mul_comm]

/-- With real scalars the diagonal given to preconditioners is the diagonal of the operator, swapped or not. -/
theorem C76_diagonal_partial [DecidableEq n] (A : Matrix m n ℝ) (swapped : Bool) (i : n) :
    diagCross A Aᴴ swapped i = multCross A Aᴴ .absent (Pi.single i 1) i := by
  unfold diagCross multCross
  dsimp only
  rw [Matrix.mulVec_single_one]
  show _ = ∑ r, Aᴴ i r * A r i
  cases swapped <;> simp [Matrix.conjTranspose_apply]

/-- With complex scalars it is not: for the matrix `[i]` the operator is 1 and the diagonal is -1. -/
theorem C76_diagonal_false :
    diagCross (Matrix.of fun (_ _ : Fin 1) => Complex.I) (Matrix.of fun (_ _ : Fin 1) => Complex.I)ᴴ false 0 = -1 ∧
    multCross (Matrix.of fun (_ _ : Fin 1) => Complex.I) (Matrix.of fun (_ _ : Fin 1) => Complex.I)ᴴ .absent (Pi.single 0 1) 0 = 1 := by
  constructor
  · simp [diagCross]
  · simp [multCross, Matrix.mulVec, dotProduct]

/-- Every unit eigenvector of the operator gives a singular triplet: the eigenvalue is accepted, its square root is the norm of
`A x`, and if it is positive `A x` normalized is the left vector. -/
theorem C76_cross_standard (A : Matrix m n 𝕜) (lambda : 𝕜) (x : n → 𝕜) (eps : ℝ) (heps : 0 < eps) (hx : norm2 x = 1)
    (h : multCross A Aᴴ .absent x = lambda • x) :
    ∃ sigma : ℝ, crossSigma false eps lambda = some sigma ∧ 0 ≤ sigma ∧ norm2 (A.mulVec x) = sigma ∧
      (0 < sigma → norm2 (vecNormalize (A.mulVec x)) = 1 ∧ A.mulVec x = (sigma : 𝕜) • vecNormalize (A.mulVec x) ∧
        Aᴴ.mulVec (vecNormalize (A.mulVec x)) = (sigma : 𝕜) • x) := by
  have h' : Aᴴ.mulVec (A.mulVec x) = lambda • x := h
  have e : (((norm2 (A.mulVec x)) ^ 2 : ℝ) : 𝕜) = lambda := by
    rw [norm2_mulVec_sq, h', dotProduct_smul, dot_self, hx]; simp
  have hre : RCLike.re lambda = (norm2 (A.mulVec x)) ^ 2 := by rw [← e, RCLike.ofReal_re]
  refine ⟨norm2 (A.mulVec x), ?_, norm2_nonneg _, rfl, ?_⟩
  · unfold crossSigma
    dsimp only
    rw [hre]
    have h1 : -(10 * eps) < norm2 (A.mulVec x) ^ 2 := by nlinarith [sq_nonneg (norm2 (A.mulVec x))]
    rw [if_pos h1, if_neg (not_lt.mpr (sq_nonneg _)), Real.sqrt_sq (norm2_nonneg _)]
    simp
  · intro hs
    have hne : A.mulVec x ≠ 0 := fun e0 => hs.ne' ((norm2_eq_zero _).mpr e0)
    refine ⟨norm2_vecNormalize _ hne, (smul_vecNormalize _).symm, ?_⟩
    rw [vecNormalize_eq _ hs.ne', Matrix.mulVec_smul, h', smul_smul, ← e]
    congr 1
    have : (norm2 (A.mulVec x) : 𝕜) ≠ 0 := by exact_mod_cast hs.ne'
    push_cast
    field_simp

/-- No singular value is lost: every singular triplet is an eigenpair of the operator, with a value whose square root is the
singular value. -/
theorem C76_cross_complete (A : Matrix m n 𝕜) (sigma eps : ℝ) (heps : 0 < eps) (hs : 0 ≤ sigma) (u : m → 𝕜) (v : n → 𝕜)
    (h1 : A.mulVec v = (sigma : 𝕜) • u) (h2 : Aᴴ.mulVec u = (sigma : 𝕜) • v) :
    ∃ lambda : 𝕜, multCross A Aᴴ .absent v = lambda • v ∧ crossSigma false eps lambda = some sigma := by
  refine ⟨((sigma ^ 2 : ℝ) : 𝕜), ?_, ?_⟩
  · show Aᴴ.mulVec (A.mulVec v) = _
    rw [h1, Matrix.mulVec_smul, h2, smul_smul]
    congr 1; push_cast; ring
  · unfold crossSigma
    dsimp only
    have h0 : -(10 * eps) < sigma ^ 2 := by nlinarith [sq_nonneg sigma]
    rw [RCLike.ofReal_re, if_neg (by simp), if_pos h0, if_neg (not_lt.mpr (sq_nonneg _)), Real.sqrt_sq hs]

/-- Left vectors: if the columns of `V` are orthonormal eigenvectors of the operator with positive values, any factorization
`A V = U R` with orthonormal `U` and upper triangular `R` with positive diagonal (what `BVOrthogonalize` by Gram-Schmidt or
Cholesky delivers) gives the left singular vectors. -/
theorem C76_left_vectors {k : ℕ} (A : Matrix m n 𝕜) (V : Matrix n (Fin k) 𝕜) (U : Matrix m (Fin k) 𝕜) (R : Matrix (Fin k) (Fin k) 𝕜)
    (sigma r : Fin k → ℝ) (hV : Vᴴ * V = 1) (hs : ∀ i, 0 < sigma i)
    (heig : Aᴴ * (A * V) = V * Matrix.diagonal fun i => ((sigma i ^ 2 : ℝ) : 𝕜))
    (hQR : A * V = U * R) (hU : Uᴴ * U = 1) (htri : ∀ i j, j < i → R i j = 0) (hr : ∀ i, 0 < r i) (hdiag : ∀ i, R i i = (r i : 𝕜)) :
    A * V = U * Matrix.diagonal (fun i => (sigma i : 𝕜)) ∧ Aᴴ * U = V * Matrix.diagonal fun i => (sigma i : 𝕜) := by
  have hG : Rᴴ * R = Matrix.diagonal fun i => ((sigma i ^ 2 : ℝ) : 𝕜) := by
    have h1 : (A * V)ᴴ * (A * V) = Matrix.diagonal fun i => ((sigma i ^ 2 : ℝ) : 𝕜) := by
      rw [Matrix.conjTranspose_mul, Matrix.mul_assoc, heig, ← Matrix.mul_assoc, hV, Matrix.one_mul]
    rw [hQR, Matrix.conjTranspose_mul, Matrix.mul_assoc, ← Matrix.mul_assoc Uᴴ, hU, Matrix.one_mul] at h1
    exact h1
  have hent : ∀ i j, ∑ l, star (R l i) * R l j = if i = j then ((sigma i ^ 2 : ℝ) : 𝕜) else 0 := by
    intro i j
    have := congrFun (congrFun hG i) j
    rw [Matrix.mul_apply, Matrix.diagonal_apply] at this
    simpa [Matrix.conjTranspose_apply] using this
  have hoff : ∀ (a : ℕ) (i : Fin k), i.val = a → ∀ j, i ≠ j → R i j = 0 := by
    intro a
    induction a using Nat.strong_induction_on with
    | _ a ih =>
      intro i hi j hij
      by_cases hji : j < i
      · exact htri i j hji
      · have h1 := hent i j
        rw [if_neg hij, Finset.sum_eq_single i] at h1
        · rcases mul_eq_zero.mp h1 with h2 | h2
          · rw [hdiag] at h2
            have : (r i : 𝕜) = 0 := by simpa using h2
            exact absurd (by exact_mod_cast this : r i = 0) (hr i).ne'
          · exact h2
        · intro l _ hl
          have : R l i = 0 := by
            rcases lt_or_gt_of_ne hl with h3 | h3
            · exact ih l.val (by rw [← hi]; exact h3) l rfl i hl
            · exact htri l i h3
          rw [this]; simp
        · simp
  have hR : R = Matrix.diagonal fun i => (sigma i : 𝕜) := by
    ext i j
    rw [Matrix.diagonal_apply]
    by_cases hij : i = j
    · subst hij
      rw [if_pos rfl, hdiag]
      have h1 := hent i i
      rw [if_pos rfl, Finset.sum_eq_single i, hdiag] at h1
      · have h2 : r i ^ 2 = sigma i ^ 2 := by
          have : ((r i ^ 2 : ℝ) : 𝕜) = ((sigma i ^ 2 : ℝ) : 𝕜) := by
            rw [← h1, RCLike.star_def, RCLike.conj_ofReal]; push_cast; ring
          exact_mod_cast this
        have := (pow_left_inj₀ (hr i).le (hs i).le two_ne_zero).mp h2
        rw [this]
      · intro l _ hl
        rw [hoff l.val l rfl i hl]; simp
      · simp
    · rw [if_neg hij, hoff i.val i rfl j hij]
  refine ⟨by rw [hQR, hR], ?_⟩
  have h3 : Aᴴ * U * Matrix.diagonal (fun i => (sigma i : 𝕜)) =
      V * Matrix.diagonal (fun i => (sigma i : 𝕜)) * Matrix.diagonal (fun i => (sigma i : 𝕜)) := by
    rw [Matrix.mul_assoc, Matrix.mul_assoc, ← hR, ← hQR, heig, hR, Matrix.diagonal_mul_diagonal]
    congr 2
    funext i
    push_cast
    ring
  ext i j
  have h4 := congrFun (congrFun h3 i) j
  rw [Matrix.mul_diagonal, Matrix.mul_diagonal] at h4
  exact mul_right_cancel₀ (by exact_mod_cast (hs j).ne') h4

/-- With the TSQR orthogonalization the diagonal of `R` can be negative (Householder reflections): the factorization is correct
but the returned vectors are not a triplet. -/
theorem C76_left_sign_false : ∃ (A : Matrix (Fin 1) (Fin 1) ℝ) (V U R : Matrix (Fin 1) (Fin 1) ℝ), Vᴴ * V = 1 ∧
    Aᴴ * (A * V) = V * Matrix.diagonal (fun _ => (1:ℝ)) ∧ A * V = U * R ∧ Uᴴ * U = 1 ∧ A * V ≠ U * Matrix.diagonal fun _ => (1:ℝ) := by
  refine ⟨1, 1, -1, -1, ?_, ?_, ?_, ?_, ?_⟩
  · simp
  · simp
  · simp
  · simp
  · intro h
    have := congrFun (congrFun h 0) 0
    simp at this
    norm_num at this

/-- Generalized problem: every eigenpair of the pencil gives a quadruple whose value is the square root of the eigenvalue. -/
theorem C76_cross_generalized (A : Matrix m n 𝕜) (B : Matrix p n 𝕜) (lambda : 𝕜) (x : n → 𝕜) (eps : ℝ) (heps : 0 < eps)
    (hB : B.mulVec x ≠ 0) (h : multCross A Aᴴ .absent x = lambda • multCross B Bᴴ .absent x) :
    ∃ sigma c s : ℝ, crossSigma false eps lambda = some sigma ∧ sigma = c / s ∧
      IsGsvd A B c s (crossGeneralized A B lambda x).1 (crossGeneralized A B lambda x).2.1 (crossGeneralized A B lambda x).2.2 ∧
      norm2 (crossGeneralized A B lambda x).2.1 = 1 ∧ (0 < sigma → norm2 (crossGeneralized A B lambda x).1 = 1) := by
  have h' : Aᴴ.mulVec (A.mulVec x) = lambda • Bᴴ.mulVec (B.mulVec x) := h
  set a := norm2 (A.mulVec x) with ha
  set b := norm2 (B.mulVec x) with hb
  have hb0 : b ≠ 0 := fun e => hB ((norm2_eq_zero _).mp e)
  have hbp : 0 < b := lt_of_le_of_ne (norm2_nonneg _) (Ne.symm hb0)
  have ha0 : 0 ≤ a := norm2_nonneg _
  have e : ((a ^ 2 : ℝ) : 𝕜) = lambda * ((b ^ 2 : ℝ) : 𝕜) := by
    rw [ha, hb, norm2_mulVec_sq, norm2_mulVec_sq, h', dotProduct_smul, smul_eq_mul]
  have hbk : (b : 𝕜) ≠ 0 := by exact_mod_cast hb0
  have el : lambda = (((a / b) ^ 2 : ℝ) : 𝕜) := by
    push_cast at e ⊢
    field_simp
    exact e.symm
  have hre : RCLike.re lambda = (a / b) ^ 2 := by rw [el, RCLike.ofReal_re]
  have hq : 0 < 1 + (a / b) ^ 2 := by positivity
  have hs : 0 < Real.sqrt (1 + (a / b) ^ 2) := Real.sqrt_pos.mpr hq
  have hss : Real.sqrt (1 + (a / b) ^ 2) ^ 2 = 1 + (a / b) ^ 2 := Real.sq_sqrt hq.le
  set q := Real.sqrt (1 + (a / b) ^ 2) with hqd
  have hqk : (q : 𝕜) ≠ 0 := by exact_mod_cast hs.ne'
  have cg : crossGeneralized A B lambda x = (vecNormalize (A.mulVec x), vecNormalize (B.mulVec x), ((1 / (q * b) : ℝ) : 𝕜) • x) := by
    unfold crossGeneralized
    dsimp only
    rw [hre]
  rw [cg]
  refine ⟨a / b, a / b / q, 1 / q, ?_, by field_simp, ⟨by positivity, by positivity, ?_, ?_, ?_,
    ((q / b : ℝ) : 𝕜) • Bᴴ.mulVec (B.mulVec x), ?_, ?_⟩, norm2_vecNormalize _ hB, ?_⟩
  · unfold crossSigma
    dsimp only
    have h0 : -(10 * eps) < (a / b) ^ 2 := by nlinarith [sq_nonneg (a / b)]
    rw [hre, if_neg (by simp), if_pos h0, if_neg (not_lt.mpr (sq_nonneg _)), Real.sqrt_sq (by positivity)]
  · have e2 : (a / b / q) ^ 2 + (1 / q) ^ 2 = (1 + (a / b) ^ 2) / q ^ 2 := by ring
    rw [e2, hss, div_self hq.ne']
  · dsimp only
    rw [Matrix.mulVec_smul]
    nth_rewrite 1 [← smul_vecNormalize (A.mulVec x)]
    rw [smul_smul, ← ha]
    congr 1; push_cast; field_simp
  · dsimp only
    rw [Matrix.mulVec_smul]
    nth_rewrite 1 [← smul_vecNormalize (B.mulVec x)]
    rw [smul_smul, ← hb]
    congr 1; push_cast; field_simp
  · dsimp only
    by_cases h0 : a = 0
    · have : A.mulVec x = 0 := (norm2_eq_zero _).mp h0
      rw [this, h0]
      simp [vecNormalize, (norm2_eq_zero (0 : m → 𝕜)).mpr rfl]
    · have hak : (a : 𝕜) ≠ 0 := by exact_mod_cast h0
      rw [vecNormalize_eq _ h0, Matrix.mulVec_smul, h', el, smul_smul, smul_smul, ← ha]
      congr 1; push_cast; field_simp
  · dsimp only
    rw [vecNormalize_eq _ hb0, Matrix.mulVec_smul, smul_smul, ← hb]
    congr 1; push_cast; field_simp
  · intro hpos
    apply norm2_vecNormalize
    intro e0
    have : a = 0 := by rw [ha, e0]; exact (norm2_eq_zero _).mpr rfl
    rw [this] at hpos; simp at hpos

/-- For the value 0 the left vector returned is the zero vector. -/
theorem C76_generalized_zero_false : ∃ (A B : Matrix (Fin 1) (Fin 1) ℝ) (x : Fin 1 → ℝ),
    multCross A Aᴴ .absent x = (0:ℝ) • multCross B Bᴴ .absent x ∧ B.mulVec x ≠ 0 ∧ (crossGeneralized A B (0:ℝ) x).1 = 0 := by
  refine ⟨0, 1, fun _ => 1, ?_, ?_, ?_⟩
  · simp [multCross]
  · intro h; have := congrFun h 0; simp at this
  · simp [crossGeneralized, vecNormalize]

/-- Hyperbolic problem: the products `A v_i` of orthonormal eigenvectors are orthogonal for the signature. -/
theorem C76_columns_orthogonal (A : Matrix m n 𝕜) (omega : m → 𝕜) (lambda : 𝕜) (v w : n → 𝕜) (hvw : star v ⬝ᵥ w = 0)
    (h : multCross A Aᴴ (.rows omega) w = lambda • w) : star (A.mulVec v) ⬝ᵥ (fun i => omega i * A.mulVec w i) = 0 := by
  have e : (fun i => omega i * A.mulVec w i) = fun i => A.mulVec w i * omega i := by funext i; ring
  rw [e, star_mulVec_dot']
  have : Aᴴ.mulVec (fun i => A.mulVec w i * omega i) = lambda • w := h
  rw [this, dotProduct_smul, hvw, smul_zero]

/-- Hyperbolic problem, more rows than columns: unit eigenvectors give triplets with the right signature element. -/
theorem C76_cross_hyperbolic (A : Matrix m n 𝕜) (omega : m → 𝕜) (homega : IsSignature omega) (lambda eps : ℝ) (v : n → 𝕜)
    (hv : norm2 v = 1) (h0 : lambda ≠ 0) (h : multCross A Aᴴ (.rows omega) v = (lambda : 𝕜) • v) :
    ∃ sigma : ℝ, crossSigma true eps (lambda : 𝕜) = some sigma ∧ 0 < sigma ∧
      IsHsvd A omega sigma (leftHyperbolic A omega v).2 (leftHyperbolic A omega v).1 v ∧
      omegaForm omega (leftHyperbolic A omega v).1 = ((leftHyperbolic A omega v).2 : 𝕜) ∧
      ((leftHyperbolic A omega v).2 = 1 ∨ (leftHyperbolic A omega v).2 = -1) := by
  have h' : Aᴴ.mulVec (fun i => omega i * A.mulVec v i) = (lambda : 𝕜) • v := by
    rw [← h]; show _ = Aᴴ.mulVec (fun i => A.mulVec v i * omega i)
    congr 1; funext i; ring
  have hf : omegaForm omega (A.mulVec v) = (lambda : 𝕜) := by
    unfold omegaForm
    rw [star_mulVec_dot', h', dotProduct_smul, dot_self, hv]; simp
  have hre : RCLike.re (omegaForm omega (A.mulVec v)) = lambda := by rw [hf, RCLike.ofReal_re]
  have hsig : 0 < Real.sqrt |lambda| := Real.sqrt_pos.mpr (abs_pos.mpr h0)
  have hsq : Real.sqrt |lambda| ^ 2 = |lambda| := Real.sq_sqrt (abs_nonneg _)
  have hL : leftHyperbolic A omega v = (((1 / Real.sqrt |lambda| : ℝ) : 𝕜) • A.mulVec v, sgn lambda) := by
    unfold leftHyperbolic
    dsimp only
    rw [sgn_signedNorm, hre]
    have hab := signedNorm_sq omega (A.mulVec v)
    rw [hre] at hab
    congr 1
    rcases lt_or_gt_of_ne h0 with hn | hp
    · have hs := sgn_signedNorm omega (A.mulVec v)
      rw [hre, sgn_of_neg hn] at hs
      have hneg : signedNorm omega (A.mulVec v) = -Real.sqrt |lambda| := by
        rw [← sgn_mul_abs (signedNorm omega (A.mulVec v)), hs, hab]; ring
      rw [sgn_of_neg hn, if_pos (by norm_num), hneg, smul_smul]
      congr 1; push_cast; ring
    · have hs := sgn_signedNorm omega (A.mulVec v)
      rw [hre, sgn_of_pos hp] at hs
      have hpos : signedNorm omega (A.mulVec v) = Real.sqrt |lambda| := by
        rw [← sgn_mul_abs (signedNorm omega (A.mulVec v)), hs, hab]; ring
      rw [sgn_of_pos hp, if_neg (by norm_num), hpos]
  rw [hL]
  have hk : ((Real.sqrt |lambda| : ℝ) : 𝕜) ≠ 0 := by exact_mod_cast hsig.ne'
  refine ⟨Real.sqrt |lambda|, ?_, hsig, ⟨?_, ?_⟩, ?_, sgn_cases _ h0⟩
  · unfold crossSigma; dsimp only; rw [if_pos rfl, RCLike.ofReal_re]
  · dsimp only
    rw [smul_smul]
    rw [show ((Real.sqrt |lambda| : ℝ) : 𝕜) * ((1 / Real.sqrt |lambda| : ℝ) : 𝕜) = 1 by push_cast; field_simp, one_smul]
  · dsimp only
    have e : (fun i => omega i * (((1 / Real.sqrt |lambda| : ℝ) : 𝕜) • A.mulVec v) i) =
        ((1 / Real.sqrt |lambda| : ℝ) : 𝕜) • fun i => omega i * A.mulVec v i := by
      funext i; simp only [Pi.smul_apply, smul_eq_mul]; ring
    rw [e, Matrix.mulVec_smul, h', smul_smul, ← RCLike.ofReal_mul]
    congr 2
    rw [div_mul_eq_mul_div, one_mul, div_eq_iff hsig.ne']
    linear_combination -(sgn_mul_abs lambda) - sgn lambda * hsq
  · dsimp only
    rw [omegaForm_smul, hf, ← RCLike.ofReal_mul]
    congr 1
    rw [div_pow, one_pow, hsq]
    nth_rewrite 2 [← sgn_mul_abs lambda]
    have : |lambda| ≠ 0 := abs_ne_zero.mpr h0
    field_simp

/-- Hyperbolic problem, more columns than rows: what holds for every eigenpair of the pencil `(A A^H, diag(omega))`. -/
theorem cross_swapped (A : Matrix m n 𝕜) (omega : m → 𝕜) (homega : IsSignature omega) (lambda : ℝ) (v : m → 𝕜)
    (hv : Aᴴ.mulVec v ≠ 0) (h : multCross Aᴴ A (.cols omega) v = (lambda : 𝕜) • fun i => omega i * v i) :
    let r := crossSwapped Aᴴ omega v
    lambda ≠ 0 ∧ r.2.2 = sgn lambda ∧ omegaForm omega r.1 = (r.2.2 : 𝕜) ∧ norm2 r.2.1 = 1 ∧
      A.mulVec r.2.1 = ((Real.sqrt |lambda| * r.2.2 : ℝ) : 𝕜) • r.1 ∧
      Aᴴ.mulVec (fun i => omega i * r.1 i) = ((Real.sqrt |lambda| : ℝ) : 𝕜) • r.2.1 := by
  have h' : A.mulVec (Aᴴ.mulVec v) = (lambda : 𝕜) • fun i => omega i * v i := h
  intro r
  set d := RCLike.re (omegaForm omega v) with hd
  have hdk : omegaForm omega v = (d : 𝕜) := (omegaForm_real homega v).symm
  have hnn : ((norm2 (Aᴴ.mulVec v) ^ 2 : ℝ) : 𝕜) = ((lambda * d : ℝ) : 𝕜) := by
    rw [norm2_mulVec_sq, Matrix.conjTranspose_conjTranspose, h', dotProduct_smul]
    show (lambda : 𝕜) • omegaForm omega v = _
    rw [hdk]; push_cast; rfl
  have hnn' : norm2 (Aᴴ.mulVec v) ^ 2 = lambda * d := by exact_mod_cast hnn
  have hpos : 0 < lambda * d := by
    rw [← hnn']
    have : norm2 (Aᴴ.mulVec v) ≠ 0 := fun e => hv ((norm2_eq_zero _).mp e)
    positivity
  have hl : lambda ≠ 0 := by rintro rfl; simp at hpos
  have hd0 : d ≠ 0 := by intro e; rw [e] at hpos; simp at hpos
  have hsg : sgn d = sgn lambda := by
    rcases lt_or_gt_of_ne hl with hn | hp
    · rw [sgn_of_neg hn, sgn_of_neg (by nlinarith)]
    · rw [sgn_of_pos hp, sgn_of_pos (by nlinarith)]
  have hsd : 0 < Real.sqrt |d| := Real.sqrt_pos.mpr (abs_pos.mpr hd0)
  have hsl : 0 < Real.sqrt |lambda| := Real.sqrt_pos.mpr (abs_pos.mpr hl)
  have hn2 : norm2 (Aᴴ.mulVec v) = Real.sqrt |lambda| * Real.sqrt |d| := by
    rw [← Real.sqrt_mul (abs_nonneg _), ← abs_mul, abs_of_pos hpos, ← hnn', Real.sqrt_sq (norm2_nonneg _)]
  have hkd : ((Real.sqrt |d| : ℝ) : 𝕜) ≠ 0 := by exact_mod_cast hsd.ne'
  have hkl : ((Real.sqrt |lambda| : ℝ) : 𝕜) ≠ 0 := by exact_mod_cast hsl.ne'
  have hy : (fun i => (((1 / Real.sqrt |d| : ℝ) : 𝕜) • fun i => omega i * v i) i * omega i) = ((1 / Real.sqrt |d| : ℝ) : 𝕜) • v := by
    funext i
    simp only [Pi.smul_apply, smul_eq_mul]
    linear_combination (((1 / Real.sqrt |d| : ℝ) : 𝕜) * v i) * homega.sq i
  have hz : Aᴴ.mulVec (((1 / Real.sqrt |d| : ℝ) : 𝕜) • v) = ((1 / Real.sqrt |d| : ℝ) : 𝕜) • Aᴴ.mulVec v := Matrix.mulVec_smul _ _ _
  have hnz : norm2 (((1 / Real.sqrt |d| : ℝ) : 𝕜) • Aᴴ.mulVec v) = Real.sqrt |lambda| := by
    rw [norm2_real_smul _ (by positivity), hn2]; field_simp
  have hr : r = (((1 / Real.sqrt |d| : ℝ) : 𝕜) • fun i => omega i * v i,
      ((1 / Real.sqrt |lambda| : ℝ) : 𝕜) • (((1 / Real.sqrt |d| : ℝ) : 𝕜) • Aᴴ.mulVec v), sgn lambda) := by
    show crossSwapped Aᴴ omega v = _
    unfold crossSwapped
    dsimp only
    rw [← omegaForm_swap homega, hdk, RCLike.ofReal_re, RCLike.norm_ofReal, hsg, hy, hz, vecNormalize_eq _ (by rw [hnz]; exact hsl.ne'), hnz, one_div (Real.sqrt |lambda|)]
  rw [hr]
  have hd2 : Real.sqrt |d| ^ 2 = |d| := Real.sq_sqrt (abs_nonneg _)
  have hl2 : Real.sqrt |lambda| ^ 2 = |lambda| := Real.sq_sqrt (abs_nonneg _)
  refine ⟨hl, rfl, ?_, ?_, ?_, ?_⟩
  · dsimp only
    rw [omegaForm_smul, omegaForm_omega homega, hdk, ← RCLike.ofReal_mul]
    congr 1
    rw [div_pow, one_pow, hd2]
    nth_rewrite 2 [← sgn_mul_abs d]
    have : |d| ≠ 0 := abs_ne_zero.mpr hd0
    rw [hsg]
    field_simp
  · dsimp only
    rw [norm2_real_smul _ (by positivity), hnz]; field_simp
  · dsimp only
    rw [Matrix.mulVec_smul, Matrix.mulVec_smul, h', smul_smul, smul_smul, smul_smul]
    congr 1
    rw [← RCLike.ofReal_mul, ← RCLike.ofReal_mul, ← RCLike.ofReal_mul]
    congr 1
    nth_rewrite 2 [← sgn_mul_abs lambda]
    nth_rewrite 2 [← hl2]
    field_simp
  · dsimp only
    rw [show (fun i => omega i * (((1 / Real.sqrt |d| : ℝ) : 𝕜) • fun i => omega i * v i) i) = ((1 / Real.sqrt |d| : ℝ) : 𝕜) • v by
      rw [← hy]; funext i; ring]
    rw [hz, smul_smul ((Real.sqrt |lambda| : ℝ) : 𝕜), ← RCLike.ofReal_mul]
    rw [show Real.sqrt |lambda| * (1 / Real.sqrt |lambda|) = 1 by field_simp]
    simp

/-- Hyperbolic problem, more columns than rows: a triplet is returned for the positive eigenvalues. -/
theorem C76_cross_swapped_partial (A : Matrix m n 𝕜) (omega : m → 𝕜) (homega : IsSignature omega) (lambda eps : ℝ) (v : m → 𝕜)
    (hv : Aᴴ.mulVec v ≠ 0) (hl : 0 < lambda) (h : multCross Aᴴ A (.cols omega) v = (lambda : 𝕜) • fun i => omega i * v i) :
    ∃ sigma : ℝ, crossSigma true eps (lambda : 𝕜) = some sigma ∧ 0 < sigma ∧
      IsHsvd A omega sigma (crossSwapped Aᴴ omega v).2.2 (crossSwapped Aᴴ omega v).1 (crossSwapped Aᴴ omega v).2.1 ∧
      omegaForm omega (crossSwapped Aᴴ omega v).1 = ((crossSwapped Aᴴ omega v).2.2 : 𝕜) ∧ norm2 (crossSwapped Aᴴ omega v).2.1 = 1 := by
  obtain ⟨k1, k2, k3, k4, k5, k6⟩ := cross_swapped A omega homega lambda v hv h
  rw [sgn_of_pos hl] at k2
  refine ⟨Real.sqrt |lambda|, ?_, Real.sqrt_pos.mpr (abs_pos.mpr k1), ⟨?_, ?_⟩, k3, k4⟩
  · unfold crossSigma; dsimp only; rw [if_pos rfl, RCLike.ofReal_re]
  · rw [k5, k2, mul_one]
  · rw [k6, k2, mul_one]

/-- For a negative eigenvalue the right vector returned has the wrong sign: with the user's matrix `[1 0]` and signature `-1`
the solver returns the value 1, `u = -1`, `v = (1,0)`, and `A v = -u`. -/
theorem C76_cross_swapped_false :
    let A : Matrix (Fin 1) (Fin 2) ℝ := !![1, 0]
    let omega : Fin 1 → ℝ := fun _ => -1
    let v : Fin 1 → ℝ := fun _ => 1
    multCross Aᴴ A (.cols omega) v = ((-1 : ℝ) • fun i => omega i * v i) ∧ crossSigma true 0 (-1 : ℝ) = some 1 ∧
      A.mulVec (crossSwapped Aᴴ omega v).2.1 ≠ (1:ℝ) • (crossSwapped Aᴴ omega v).1 := by
  intro A omega v
  have h : multCross Aᴴ A (.cols omega) v = ((-1 : ℝ) • fun i => omega i * v i) := by
    funext i
    simp [multCross, A, omega, v, Matrix.mulVec, dotProduct, Fin.sum_univ_two, Matrix.vecMul]
  have hsg : IsSignature omega := fun i => Or.inr rfl
  have hv : Aᴴ.mulVec v ≠ 0 := by
    intro e; have := congrFun e 0; simp [A, v, Matrix.mulVec, dotProduct] at this
  obtain ⟨k1, k2, k3, k4, k5, k6⟩ := cross_swapped A omega hsg (-1) v hv h
  rw [sgn_of_neg (by norm_num)] at k2
  refine ⟨h, by simp [crossSigma], ?_⟩
  intro e
  rw [k5, k2] at e
  have e2 : (crossSwapped Aᴴ omega v).1 = 0 := by
    funext i
    have := congrFun e i
    simp at this
    simp; linarith
  rw [k2, e2] at k3
  simp [omegaForm] at k3

end Verif.SVD
