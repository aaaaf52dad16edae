import Verif.SVD.CrossTheorems
import Mathlib.Data.Matrix.Block

/-!
# C76 (cyclic solver)
-/
set_option linter.all false

namespace Verif.SVD

open Matrix
open Verif.EPS (norm2)

variable {𝕜 : Type*} [RCLike 𝕜] {m n p : Type*} [Fintype m] [Fintype n] [Fintype p]

/-- The implicit operators are the block matrices `[0 A; A^H 0]` and `[I 0; 0 A^H A]`. -/
theorem C76_cyclic_operators [DecidableEq p] (A : Matrix m n 𝕜) (x : (m → 𝕜) × (n → 𝕜)) (y : (p → 𝕜) × (n → 𝕜)) :
    (Matrix.fromBlocks 0 A Aᴴ 0).mulVec (Sum.elim x.1 x.2) = Sum.elim (multCyclic A Aᴴ x).1 (multCyclic A Aᴴ x).2 ∧
    (Matrix.fromBlocks 1 0 0 (Aᴴ * A)).mulVec (Sum.elim y.1 y.2) = Sum.elim (multECross A Aᴴ y).1 (multECross A Aᴴ y).2 := by
  constructor
  · rw [Matrix.fromBlocks_mulVec]
    simp [multCyclic, Matrix.zero_mulVec]
  · rw [Matrix.fromBlocks_mulVec]
    simp [multECross, Matrix.zero_mulVec]

/-- The diagonals offered to preconditioners, real scalars. -/
theorem C76_cyclic_diagonal_partial [DecidableEq m] [DecidableEq n] (A : Matrix p n ℝ) (swapped : Bool) (i : m) (j : n) :
    (diagCyclic (𝕜 := ℝ) (m := m) (n := n)).1 i = (0 : Matrix m m ℝ) i i ∧ (diagCyclic (𝕜 := ℝ) (m := m) (n := n)).2 j = (0 : Matrix n n ℝ) j j ∧
    (diagECross (m := m) A Aᴴ swapped).1 i = (1 : Matrix m m ℝ) i i ∧ (diagECross (m := m) A Aᴴ swapped).2 j = (Aᴴ * A) j j := by
  refine ⟨rfl, rfl, by simp [diagECross], ?_⟩
  show diagCross A Aᴴ swapped j = _
  unfold diagCross
  rw [Matrix.mul_apply]
  cases swapped <;> simp [Matrix.conjTranspose_apply]

/-- Every normalized eigenvector with a positive eigenvalue gives a singular triplet with unit vectors. -/
theorem C76_cyclic_standard (A : Matrix m n 𝕜) (sigma : ℝ) (hs : 0 < sigma) (x : (m → 𝕜) × (n → 𝕜))
    (hx : norm2 x.1 ^ 2 + norm2 x.2 ^ 2 = 1) (h : multCyclic A Aᴴ x = ((sigma : 𝕜) • x.1, (sigma : 𝕜) • x.2)) :
    A.mulVec (cyclicStandard x).2 = (sigma : 𝕜) • (cyclicStandard x).1 ∧ Aᴴ.mulVec (cyclicStandard x).1 = (sigma : 𝕜) • (cyclicStandard x).2 ∧
    norm2 (cyclicStandard x).1 = 1 ∧ norm2 (cyclicStandard x).2 = 1 := by
  have h1 : A.mulVec x.2 = (sigma : 𝕜) • x.1 := congrArg Prod.fst h
  have h2 : Aᴴ.mulVec x.1 = (sigma : 𝕜) • x.2 := congrArg Prod.snd h
  have e : norm2 x.1 ^ 2 = norm2 x.2 ^ 2 := by
    have e1 : star (A.mulVec x.2) ⬝ᵥ x.1 = star x.2 ⬝ᵥ Aᴴ.mulVec x.1 := star_mulVec_dot' _ _ _
    rw [h1, h2, star_smul, smul_dotProduct, dotProduct_smul, dot_self, dot_self, RCLike.star_def, RCLike.conj_ofReal] at e1
    have e2 : sigma * norm2 x.1 ^ 2 = sigma * norm2 x.2 ^ 2 := by
      simp only [smul_eq_mul, ← RCLike.ofReal_mul] at e1
      exact_mod_cast e1
    exact mul_left_cancel₀ hs.ne' e2
  have hn : ∀ a : ℝ, 0 ≤ a → a ^ 2 = 1 / 2 → Real.sqrt 2 * a = 1 := by
    intro a ha h
    have : (Real.sqrt 2 * a) ^ 2 = 1 := by rw [mul_pow, Real.sq_sqrt (by norm_num), h]; norm_num
    have hp : 0 ≤ Real.sqrt 2 * a := by positivity
    nlinarith
  refine ⟨?_, ?_, ?_, ?_⟩
  · show A.mulVec (((Real.sqrt 2 : ℝ) : 𝕜) • x.2) = (sigma : 𝕜) • (((Real.sqrt 2 : ℝ) : 𝕜) • x.1)
    rw [Matrix.mulVec_smul, h1, smul_comm]
  · show Aᴴ.mulVec (((Real.sqrt 2 : ℝ) : 𝕜) • x.1) = (sigma : 𝕜) • (((Real.sqrt 2 : ℝ) : 𝕜) • x.2)
    rw [Matrix.mulVec_smul, h2, smul_comm]
  · show norm2 (((Real.sqrt 2 : ℝ) : 𝕜) • x.1) = 1
    rw [norm2_real_smul _ (Real.sqrt_nonneg _)]
    exact hn _ (norm2_nonneg _) (by linarith)
  · show norm2 (((Real.sqrt 2 : ℝ) : 𝕜) • x.2) = 1
    rw [norm2_real_smul _ (Real.sqrt_nonneg _)]
    exact hn _ (norm2_nonneg _) (by linarith)

/-- Every singular triplet is an eigenpair, and so is its reflection with the opposite value. -/
theorem C76_cyclic_complete (A : Matrix m n 𝕜) (sigma : ℝ) (u : m → 𝕜) (v : n → 𝕜) (h1 : A.mulVec v = (sigma : 𝕜) • u)
    (h2 : Aᴴ.mulVec u = (sigma : 𝕜) • v) :
    multCyclic A Aᴴ (u, v) = ((sigma : 𝕜) • u, (sigma : 𝕜) • v) ∧
    multCyclic A Aᴴ (u, -v) = (((-sigma : ℝ) : 𝕜) • u, ((-sigma : ℝ) : 𝕜) • -v) := by
  constructor
  · show (A.mulVec v, Aᴴ.mulVec u) = _; rw [h1, h2]
  · show (A.mulVec (-v), Aᴴ.mulVec u) = _
    rw [Matrix.mulVec_neg, h1, h2]
    simp

theorem half_norm {a b sigma : ℝ} (hs : 0 < sigma) (ha : 0 ≤ a) (h : a ^ 2 + b ^ 2 = 1) (e : sigma * a ^ 2 = sigma * b ^ 2) :
    Real.sqrt 2 * a = 1 := by
  have e' : a ^ 2 = b ^ 2 := mul_left_cancel₀ hs.ne' e
  have : (Real.sqrt 2 * a) ^ 2 = 1 := by rw [mul_pow, Real.sq_sqrt (by norm_num)]; linarith
  have hp : 0 ≤ Real.sqrt 2 * a := by positivity
  nlinarith

/-- Generalized problem, largest values: eigenvectors of `([0 A; A^H 0], [I 0; 0 B^H B])`, normalized for the second matrix. -/
theorem C76_cyclic_largest (A : Matrix m n 𝕜) (B : Matrix p n 𝕜) (sigma : ℝ) (hs : 0 < sigma) (x : (m → 𝕜) × (n → 𝕜))
    (hx : norm2 x.1 ^ 2 + norm2 (B.mulVec x.2) ^ 2 = 1)
    (h : multCyclic A Aᴴ x = ((sigma : 𝕜) • (multECross B Bᴴ x).1, (sigma : 𝕜) • (multECross B Bᴴ x).2)) :
    ∃ c s : ℝ, sigma = c / s ∧ IsGsvd A B c s (cyclicLargest B sigma x).1 (cyclicLargest B sigma x).2.1 (cyclicLargest B sigma x).2.2 ∧
      norm2 (cyclicLargest B sigma x).1 = 1 ∧ norm2 (cyclicLargest B sigma x).2.1 = 1 := by
  have h1 : A.mulVec x.2 = (sigma : 𝕜) • x.1 := congrArg Prod.fst h
  have h2 : Aᴴ.mulVec x.1 = (sigma : 𝕜) • Bᴴ.mulVec (B.mulVec x.2) := congrArg Prod.snd h
  have e : sigma * norm2 x.1 ^ 2 = sigma * norm2 (B.mulVec x.2) ^ 2 := by
    have e1 : star (A.mulVec x.2) ⬝ᵥ x.1 = star x.2 ⬝ᵥ Aᴴ.mulVec x.1 := star_mulVec_dot' _ _ _
    rw [h1, h2, star_smul, smul_dotProduct, dotProduct_smul, dot_self, ← norm2_mulVec_sq, RCLike.star_def, RCLike.conj_ofReal] at e1
    simp only [smul_eq_mul, ← RCLike.ofReal_mul] at e1
    exact_mod_cast e1
  have hq : 0 < 1 + sigma * sigma := by positivity
  have hqs : 0 < Real.sqrt (1 + sigma * sigma) := Real.sqrt_pos.mpr hq
  have hq2 : Real.sqrt (1 + sigma * sigma) ^ 2 = 1 + sigma * sigma := Real.sq_sqrt hq.le
  set q := Real.sqrt (1 + sigma * sigma) with hqd
  have hqk : (q : 𝕜) ≠ 0 := by exact_mod_cast hqs.ne'
  have hL : cyclicLargest B sigma x = (((Real.sqrt 2 : ℝ) : 𝕜) • x.1, ((Real.sqrt 2 : ℝ) : 𝕜) • B.mulVec x.2,
      ((1 / q : ℝ) : 𝕜) • (((Real.sqrt 2 : ℝ) : 𝕜) • x.2)) := by
    unfold cyclicLargest; dsimp only; rw [Matrix.mulVec_smul]
  rw [hL]
  refine ⟨sigma / q, 1 / q, by field_simp, ⟨by positivity, by positivity, ?_, ?_, ?_,
    ((q : ℝ) : 𝕜) • (((Real.sqrt 2 : ℝ) : 𝕜) • Bᴴ.mulVec (B.mulVec x.2)), ?_, ?_⟩, ?_, ?_⟩
  · have e2 : (sigma / q) ^ 2 + (1 / q) ^ 2 = (1 + sigma * sigma) / q ^ 2 := by ring
    rw [e2, hq2, div_self hq.ne']
  · dsimp only
    rw [Matrix.mulVec_smul, Matrix.mulVec_smul, h1]
    simp only [smul_smul]
    congr 1; push_cast; field_simp
  · dsimp only
    rw [Matrix.mulVec_smul, Matrix.mulVec_smul]
  · dsimp only
    rw [Matrix.mulVec_smul, h2]
    simp only [smul_smul]
    congr 1; push_cast; field_simp
  · dsimp only
    rw [Matrix.mulVec_smul]
    simp only [smul_smul]
    congr 1; push_cast; field_simp
  · dsimp only
    rw [norm2_real_smul _ (Real.sqrt_nonneg _)]
    exact half_norm hs (norm2_nonneg _) hx e
  · dsimp only
    rw [norm2_real_smul _ (Real.sqrt_nonneg _)]
    exact half_norm hs (norm2_nonneg _) (by rw [add_comm]; exact hx) e.symm

/-- Generalized problem, smallest values: eigenvectors of `([0 B; B^H 0], [I 0; 0 A^H A])`; the singular value is the inverse of
the eigenvalue. -/
theorem C76_cyclic_smallest (A : Matrix m n 𝕜) (B : Matrix p n 𝕜) (tau : ℝ) (hs : 0 < tau) (x : (p → 𝕜) × (n → 𝕜))
    (hx : norm2 x.1 ^ 2 + norm2 (A.mulVec x.2) ^ 2 = 1)
    (h : multCyclic B Bᴴ x = ((tau : 𝕜) • (multECross A Aᴴ x).1, (tau : 𝕜) • (multECross A Aᴴ x).2)) :
    ∃ c s : ℝ, 1 / tau = c / s ∧ IsGsvd A B c s (cyclicSmallest A tau x).1 (cyclicSmallest A tau x).2.1 (cyclicSmallest A tau x).2.2 ∧
      norm2 (cyclicSmallest A tau x).1 = 1 ∧ norm2 (cyclicSmallest A tau x).2.1 = 1 := by
  obtain ⟨c, s, e, ⟨g1, g2, g3, g4, g5, w, g6, g7⟩, n1, n2⟩ := C76_cyclic_largest B A tau hs x hx h
  have hc : 0 < c := by
    rcases g1.lt_or_eq with h0 | h0
    · exact h0
    · rw [← h0] at e; simp at e; linarith
  refine ⟨s, c, by rw [e]; field_simp, ⟨g2.le, hc, by linarith, g5, g4, w, g7, g6⟩, n2, n1⟩

/-- Core of the hyperbolic case. -/
theorem cyclicNormalize_spec (A : Matrix m n 𝕜) (omega : m → 𝕜) (homega : IsSignature omega) (sigma ε : ℝ) (hs : 0 < sigma)
    (hε : ε = 1 ∨ ε = -1) (u0 : m → 𝕜) (v0 : n → 𝕜) (h1 : A.mulVec v0 = (sigma : 𝕜) • fun i => omega i * u0 i)
    (h2 : Aᴴ.mulVec u0 = ((ε * sigma : ℝ) : 𝕜) • v0) (hv : v0 ≠ 0) :
    let r := cyclicNormalize omega u0 v0
    r.2.2 = ε ∧ IsHsvd A omega sigma r.2.2 r.1 r.2.1 ∧ omegaForm omega r.1 = (r.2.2 : 𝕜) ∧ norm2 r.2.1 = 1 := by
  intro r
  have hb0 : norm2 v0 ≠ 0 := fun e => hv ((norm2_eq_zero _).mp e)
  have hb : 0 < norm2 v0 := lt_of_le_of_ne (norm2_nonneg _) (Ne.symm hb0)
  set b := norm2 v0 with hbd
  have hf : omegaForm omega u0 = ((ε * b ^ 2 : ℝ) : 𝕜) := by
    have e1 : star (A.mulVec v0) ⬝ᵥ u0 = star v0 ⬝ᵥ Aᴴ.mulVec u0 := star_mulVec_dot' _ _ _
    rw [h1, h2, star_smul, smul_dotProduct, dotProduct_smul, dot_self, RCLike.star_def, RCLike.conj_ofReal,
      ← omegaForm_swap homega] at e1
    have hsk : (sigma : 𝕜) ≠ 0 := by exact_mod_cast hs.ne'
    apply mul_left_cancel₀ hsk
    rw [smul_eq_mul] at e1
    rw [e1, smul_eq_mul, ← hbd]
    push_cast; ring
  have hU : (fun i => u0 i * omega i) = fun i => omega i * u0 i := by funext i; ring
  have hre : RCLike.re (omegaForm omega (fun i => omega i * u0 i)) = ε * b ^ 2 := by
    rw [omegaForm_omega homega, hf, RCLike.ofReal_re]
  have habs : |signedNorm omega (fun i => omega i * u0 i)| = b := by
    rw [signedNorm_sq, hre]
    have : |ε * b ^ 2| = b ^ 2 := by
      rcases hε with e | e <;> rw [e] <;> simp
    rw [this, Real.sqrt_sq hb.le]
  have hsgn : sgn (signedNorm omega (fun i => omega i * u0 i)) = ε := by
    rw [sgn_signedNorm, hre]
    have hb2 : 0 < b ^ 2 := by positivity
    rcases hε with e | e <;> rw [e]
    · rw [one_mul, sgn_of_pos hb2]
    · rw [sgn_of_neg (by linarith)]
  have hr : r = (((1 / b : ℝ) : 𝕜) • fun i => omega i * u0 i, ((1 / b : ℝ) : 𝕜) • v0, ε) := by
    show cyclicNormalize omega u0 v0 = _
    unfold cyclicNormalize
    dsimp only
    rw [hU, habs, hsgn]
  rw [hr]
  refine ⟨rfl, ⟨?_, ?_⟩, ?_, ?_⟩
  · dsimp only
    rw [Matrix.mulVec_smul, h1, smul_comm]
  · dsimp only
    have e : (fun i => omega i * (((1 / b : ℝ) : 𝕜) • fun i => omega i * u0 i) i) = ((1 / b : ℝ) : 𝕜) • u0 := by
      funext i
      simp only [Pi.smul_apply, smul_eq_mul]
      linear_combination (((1 / b : ℝ) : 𝕜) * u0 i) * homega.sq i
    rw [e, Matrix.mulVec_smul, h2, smul_comm, mul_comm sigma ε]
  · dsimp only
    rw [omegaForm_smul, omegaForm_omega homega, hf, ← RCLike.ofReal_mul]
    congr 1
    field_simp
  · dsimp only
    rw [norm2_real_smul _ (by positivity), ← hbd]
    field_simp

/-- The eigenproblem handed to the eigensolver in the hyperbolic case (cyclic.c:401-419): the pencil of the cyclic matrix and the
signature completed with ones, in the block where the rows of the user's matrix are. -/
def cyclicPencil (swapped : Bool) (A : Matrix m n 𝕜) (omega : m → 𝕜) (lambda : 𝕜) (x1 : m → 𝕜) (x2 : n → 𝕜) : Prop :=
  if swapped then multCyclic Aᴴ A (x2, x1) = (lambda • x2, lambda • fun i => omega i * x1 i)
  else multCyclic A Aᴴ (x1, x2) = (lambda • fun i => omega i * x1 i, lambda • x2)

theorem cyclicPencil_iff (swapped : Bool) (A : Matrix m n 𝕜) (omega : m → 𝕜) (lambda : 𝕜) (x1 : m → 𝕜) (x2 : n → 𝕜)
    (h : cyclicPencil swapped A omega lambda x1 x2) :
    A.mulVec x2 = (lambda • fun i => omega i * x1 i) ∧ Aᴴ.mulVec x1 = lambda • x2 := by
  unfold cyclicPencil at h
  cases swapped
  · rw [if_neg (by simp)] at h
    exact ⟨congrArg Prod.fst h, congrArg Prod.snd h⟩
  · rw [if_pos rfl] at h
    exact ⟨congrArg Prod.snd h, congrArg Prod.fst h⟩

/-- Hyperbolic problem with complex scalars: every eigenvector whose eigenvalue is taken for a positive value gives a triplet;
`alpha` is an entry of largest modulus of its first block. -/
theorem C76_cyclic_hyperbolic_complex (swapped : Bool) (A : Matrix m n ℂ) (omega : m → ℂ) (homega : IsSignature omega) (lambda : ℂ)
    (x1 : m → ℂ) (x2 : n → ℂ) (hx : x1 ≠ 0 ∨ x2 ≠ 0) (h : cyclicPencil swapped A omega lambda x1 x2) (k : m)
    (hk : ∀ i, ‖x1 i‖ ≤ ‖x1 k‖) (hs : 0 < (checkEigenvalueC true lambda).1) :
    let r := cyclicHyperbolicC omega (checkEigenvalueC true lambda).2 (x1 k) x1 x2
    IsHsvd A omega (checkEigenvalueC true lambda).1 r.2.2 r.1 r.2.1 ∧ omegaForm omega r.1 = (r.2.2 : ℂ) ∧ norm2 r.2.1 = 1 ∧
      (r.2.2 = 1 ∨ r.2.2 = -1) := by
  obtain ⟨h1, h2⟩ := cyclicPencil_iff swapped A omega lambda x1 x2 h
  have hl : lambda ≠ 0 := by rintro rfl; simp [checkEigenvalueC] at hs
  have hx2 : x2 ≠ 0 := by
    intro e
    rw [e, Matrix.mulVec_zero] at h1
    have : x1 = 0 := by
      funext i
      have := congrFun h1 i
      simp only [Pi.zero_apply, Pi.smul_apply, smul_eq_mul] at this
      rcases mul_eq_zero.mp this.symm with h3 | h3
      · exact absurd h3 hl
      · rcases mul_eq_zero.mp h3 with h4 | h4
        · rcases homega i with h5 | h5 <;> rw [h5] at h4 <;> simp at h4
        · exact h4
    rcases hx with h3 | h3
    · exact h3 this
    · exact h3 e
  have hb0 : norm2 x2 ≠ 0 := fun e => hx2 ((norm2_eq_zero _).mp e)
  have hb : 0 < norm2 x2 ^ 2 := by positivity
  set d := RCLike.re (omegaForm omega x1) with hd
  have hdk : omegaForm omega x1 = (d : ℂ) := (omegaForm_real homega x1).symm
  have e1 : (starRingEnd ℂ) lambda * (d : ℂ) = lambda * ((norm2 x2 ^ 2 : ℝ) : ℂ) := by
    have e1 : star (A.mulVec x2) ⬝ᵥ x1 = star x2 ⬝ᵥ Aᴴ.mulVec x1 := star_mulVec_dot' _ _ _
    rw [h1, h2, star_smul, smul_dotProduct, dotProduct_smul, dot_self, ← omegaForm_swap homega, hdk] at e1
    simpa using e1
  have er : lambda.re * (d - norm2 x2 ^ 2) = 0 := by
    have := congrArg Complex.re e1
    simp only [Complex.mul_re, Complex.conj_re, Complex.conj_im, Complex.ofReal_re, Complex.ofReal_im, mul_zero, sub_zero] at this
    linarith
  have ei : lambda.im * (d + norm2 x2 ^ 2) = 0 := by
    have := congrArg Complex.im e1
    simp only [Complex.mul_im, Complex.conj_re, Complex.conj_im, Complex.ofReal_re, Complex.ofReal_im, mul_zero, zero_add] at this
    linarith
  intro r
  by_cases hc : |lambda.im| > 10 * |lambda.re|
  · have hce : checkEigenvalueC true lambda = (lambda.im, false) := by unfold checkEigenvalueC; rw [if_pos ⟨rfl, hc⟩]
    have hr : r = cyclicNormalize omega (((‖x1 k‖ : ℂ) / x1 k) • x1) (((‖x1 k‖ : ℂ) / (x1 k * Complex.I)) • x2) := by
      show cyclicHyperbolicC omega (checkEigenvalueC true lambda).2 (x1 k) x1 x2 = _
      rw [hce]; rfl
    rw [hce] at hs ⊢
    dsimp only at hs ⊢
    have hdm : d = -norm2 x2 ^ 2 := by
      rcases mul_eq_zero.mp ei with h3 | h3
      · exact absurd h3 hs.ne'
      · linarith
    have hre : lambda.re = 0 := by
      rcases mul_eq_zero.mp er with h3 | h3
      · exact h3
      · linarith
    have hlam : lambda = (lambda.im : ℂ) * Complex.I := by
      apply Complex.ext <;> simp [hre]
    have hxk : x1 k ≠ 0 := by
      intro e
      have : x1 = 0 := by
        funext i
        have := hk i
        rw [e, norm_zero] at this
        exact norm_le_zero_iff.mp this
      rw [this] at hd
      simp [omegaForm] at hd
      linarith
    have hn : (‖x1 k‖ : ℂ) ≠ 0 := by exact_mod_cast norm_ne_zero_iff.mpr hxk
    have hspec := cyclicNormalize_spec A omega homega lambda.im (-1) hs (Or.inr rfl) (((‖x1 k‖ : ℂ) / x1 k) • x1)
      (((‖x1 k‖ : ℂ) / (x1 k * Complex.I)) • x2) ?_ ?_ ?_
    · rw [← hr] at hspec
      obtain ⟨s1, s2, s3, s4⟩ := hspec
      exact ⟨s2, s3, s4, Or.inr s1⟩
    · rw [Matrix.mulVec_smul, h1]
      funext i
      simp only [Pi.smul_apply, smul_eq_mul]
      nth_rewrite 1 [hlam]
      show _ = (lambda.im : ℂ) * _
      have hI := Complex.I_ne_zero
      field_simp
    · rw [Matrix.mulVec_smul, h2, smul_smul, smul_smul]
      congr 1
      nth_rewrite 1 [hlam]
      show _ = ((-1 * lambda.im : ℝ) : ℂ) * _
      push_cast
      have hI := Complex.I_ne_zero
      field_simp
      rw [Complex.I_sq]
      ring
    · intro e
      rcases smul_eq_zero.mp e with h3 | h3
      · have hI := Complex.I_ne_zero
        have : (‖x1 k‖ : ℂ) / (x1 k * Complex.I) ≠ 0 := div_ne_zero hn (mul_ne_zero hxk hI)
        exact this h3
      · exact hx2 h3
  · have hce : checkEigenvalueC true lambda = (lambda.re, true) := by unfold checkEigenvalueC; rw [if_neg (by tauto)]
    have hr : r = cyclicNormalize omega x1 x2 := by
      show cyclicHyperbolicC omega (checkEigenvalueC true lambda).2 (x1 k) x1 x2 = _
      rw [hce]; rfl
    rw [hce] at hs ⊢
    dsimp only at hs ⊢
    have hdm : d = norm2 x2 ^ 2 := by
      rcases mul_eq_zero.mp er with h3 | h3
      · exact absurd h3 hs.ne'
      · linarith
    have him : lambda.im = 0 := by
      rcases mul_eq_zero.mp ei with h3 | h3
      · exact h3
      · linarith
    have hlam : lambda = ((lambda.re : ℝ) : ℂ) := by
      apply Complex.ext <;> simp [him]
    have hspec := cyclicNormalize_spec A omega homega lambda.re 1 hs (Or.inl rfl) x1 x2 ?_ ?_ hx2
    · rw [← hr] at hspec
      obtain ⟨s1, s2, s3, s4⟩ := hspec
      exact ⟨s2, s3, s4, Or.inl s1⟩
    · rw [h1]; nth_rewrite 1 [hlam]; rfl
    · rw [h2, one_mul]; nth_rewrite 1 [hlam]; rfl

theorem dot_omega_comm {omega : m → ℝ} (x y : m → ℝ) : x ⬝ᵥ (fun i => omega i * y i) = y ⬝ᵥ fun i => omega i * x i := by
  unfold dotProduct
  exact Finset.sum_congr rfl fun i _ => by ring

/-- Hyperbolic problem with real scalars: the eigenvector is given by real and imaginary parts, `er + i ei` is its eigenvalue. -/
theorem C76_cyclic_hyperbolic_real (A : Matrix m n ℝ) (omega : m → ℝ) (homega : IsSignature omega) (er ei : ℝ)
    (x1 x1i : m → ℝ) (x2 x2i : n → ℝ) (hx : x2 ≠ 0 ∨ x2i ≠ 0)
    (h1 : A.mulVec x2 = (er • fun i => omega i * x1 i) - ei • fun i => omega i * x1i i)
    (h1i : A.mulVec x2i = (ei • fun i => omega i * x1 i) + er • fun i => omega i * x1i i)
    (h2 : Aᴴ.mulVec x1 = er • x2 - ei • x2i) (h2i : Aᴴ.mulVec x1i = ei • x2 + er • x2i)
    (hs : 0 < (checkEigenvalueR true er ei).1) :
    let r := cyclicHyperbolicR omega (checkEigenvalueR true er ei).2 x1 x1i x2 x2i
    IsHsvd A omega (checkEigenvalueR true er ei).1 r.2.2 r.1 r.2.1 ∧ omegaForm omega r.1 = r.2.2 ∧ norm2 r.2.1 = 1 ∧
      (r.2.2 = 1 ∨ r.2.2 = -1) := by
  have adj : ∀ (u : m → ℝ) (v : n → ℝ), u ⬝ᵥ A.mulVec v = v ⬝ᵥ Aᴴ.mulVec u := by
    intro u v
    have := star_mulVec_dot' A v u
    simp only [star_trivial] at this
    rw [dotProduct_comm, this]
  have a1 := adj x1 x2
  have a2 := adj x1 x2i
  have a3 := adj x1i x2
  have a4 := adj x1i x2i
  rw [h1, h2] at a1
  rw [h1i, h2] at a2
  rw [h1, h2i] at a3
  rw [h1i, h2i] at a4
  simp only [dotProduct_add, dotProduct_sub, dotProduct_smul, smul_eq_mul] at a1 a2 a3 a4
  rw [dot_omega_comm x1i x1] at a3 a4
  rw [dotProduct_comm x2i x2] at a2 a4
  have n0 : ∀ v : n → ℝ, v ⬝ᵥ v = norm2 v ^ 2 := by
    intro v; have := dot_self v; simpa using this
  rw [n0] at a1 a3
  rw [n0] at a2 a4
  have hpos : 0 < norm2 x2 ^ 2 + norm2 x2i ^ 2 := by
    rcases hx with h | h
    · have : norm2 x2 ≠ 0 := fun e => h ((norm2_eq_zero _).mp e)
      positivity
    · have : norm2 x2i ≠ 0 := fun e => h ((norm2_eq_zero _).mp e)
      positivity
  set d := x1 ⬝ᵥ (fun i => omega i * x1 i) + x1i ⬝ᵥ fun i => omega i * x1i i with hd
  have e1 : er * (d - (norm2 x2 ^ 2 + norm2 x2i ^ 2)) = 0 := by rw [hd]; linear_combination a1 + a4
  have e2 : ei * (d + (norm2 x2 ^ 2 + norm2 x2i ^ 2)) = 0 := by rw [hd]; linear_combination a2 - a3
  have big : ¬ norm2 x2i > norm2 x2 → x2 ≠ 0 := by
    intro hle e
    rw [e] at hle hpos hx
    rw [(norm2_eq_zero (0 : n → ℝ)).mpr rfl] at hle hpos
    have := norm2_nonneg x2i
    nlinarith
  have bigi : norm2 x2i > norm2 x2 → x2i ≠ 0 := by
    intro hgt e
    rw [e, (norm2_eq_zero (0 : n → ℝ)).mpr rfl] at hgt
    linarith [norm2_nonneg x2]
  intro r
  by_cases hc : |ei| > 10 * |er|
  · have hce : checkEigenvalueR true er ei = (ei, false) := by unfold checkEigenvalueR; rw [if_pos ⟨rfl, hc⟩]
    have hr : r = cyclicHyperbolicR omega false x1 x1i x2 x2i := by
      show cyclicHyperbolicR omega (checkEigenvalueR true er ei).2 x1 x1i x2 x2i = _
      rw [hce]
    rw [hce] at hs ⊢
    dsimp only at hs ⊢
    have her : er = 0 := by
      rcases mul_eq_zero.mp e2 with h3 | h3
      · exact absurd h3 hs.ne'
      · rcases mul_eq_zero.mp e1 with h4 | h4
        · exact h4
        · linarith
    rw [her] at h1 h1i h2 h2i
    rw [zero_smul, zero_sub] at h1 h2
    rw [zero_smul, add_zero] at h1i h2i
    by_cases hn : norm2 x2i > norm2 x2
    · have hr' : r = cyclicNormalize omega x1 x2i := by rw [hr]; unfold cyclicHyperbolicR; rw [if_pos hn]; rfl
      have hspec := cyclicNormalize_spec A omega homega ei (-1) hs (Or.inr rfl) x1 x2i h1i
        (by rw [h2]; simp) (bigi hn)
      rw [← hr'] at hspec
      obtain ⟨s1, s2, s3, s4⟩ := hspec
      exact ⟨s2, s3, s4, Or.inr s1⟩
    · have hr' : r = cyclicNormalize omega (-x1i) x2 := by rw [hr]; unfold cyclicHyperbolicR; rw [if_neg hn]; rfl
      have hspec := cyclicNormalize_spec A omega homega ei (-1) hs (Or.inr rfl) (-x1i) x2
        (by rw [h1]; funext i; simp) (by rw [Matrix.mulVec_neg, h2i]; simp) (big hn)
      rw [← hr'] at hspec
      obtain ⟨s1, s2, s3, s4⟩ := hspec
      exact ⟨s2, s3, s4, Or.inr s1⟩
  · have hce : checkEigenvalueR true er ei = (er, true) := by unfold checkEigenvalueR; rw [if_neg (by tauto)]
    have hr : r = cyclicHyperbolicR omega true x1 x1i x2 x2i := by
      show cyclicHyperbolicR omega (checkEigenvalueR true er ei).2 x1 x1i x2 x2i = _
      rw [hce]
    rw [hce] at hs ⊢
    dsimp only at hs ⊢
    have hei : ei = 0 := by
      rcases mul_eq_zero.mp e1 with h3 | h3
      · exact absurd h3 hs.ne'
      · rcases mul_eq_zero.mp e2 with h4 | h4
        · exact h4
        · linarith
    rw [hei] at h1 h1i h2 h2i
    rw [zero_smul, sub_zero] at h1 h2
    rw [zero_smul, zero_add] at h1i h2i
    by_cases hn : norm2 x2i > norm2 x2
    · have hr' : r = cyclicNormalize omega x1i x2i := by rw [hr]; unfold cyclicHyperbolicR; rw [if_pos hn]; rfl
      have hspec := cyclicNormalize_spec A omega homega er 1 hs (Or.inl rfl) x1i x2i h1i (by rw [h2i]; simp) (bigi hn)
      rw [← hr'] at hspec
      obtain ⟨s1, s2, s3, s4⟩ := hspec
      exact ⟨s2, s3, s4, Or.inl s1⟩
    · have hr' : r = cyclicNormalize omega x1 x2 := by rw [hr]; unfold cyclicHyperbolicR; rw [if_neg hn]; rfl
      have hspec := cyclicNormalize_spec A omega homega er 1 hs (Or.inl rfl) x1 x2 h1 (by rw [h2]; simp) (big hn)
      rw [← hr'] at hspec
      obtain ⟨s1, s2, s3, s4⟩ := hspec
      exact ⟨s2, s3, s4, Or.inl s1⟩

/-! Instances of the hypotheses. -/

/-- Column `(3,4)`: eigenvalue 25 of the cross product. -/
example : norm2 (fun _ : Fin 1 => (1:ℝ)) = 1 ∧
    multCross !![(3:ℝ); 4] !![(3:ℝ); 4]ᴴ .absent (fun _ => 1) = (25:ℝ) • fun _ => 1 := by
  constructor
  · simp [norm2, EuclideanSpace.norm_eq]
  · funext i
    simp [multCross, Matrix.mulVec, dotProduct, Fin.sum_univ_two, Matrix.vecMul]
    norm_num

/-- The pair `(3),(4)`: eigenvalue 9/16. -/
example : multCross (Matrix.of fun (_ _ : Fin 1) => (3:ℝ)) (Matrix.of fun (_ _ : Fin 1) => (3:ℝ))ᴴ .absent (fun _ => 1) =
    ((9/16 : ℝ)) • multCross (Matrix.of fun (_ _ : Fin 1) => (4:ℝ)) (Matrix.of fun (_ _ : Fin 1) => (4:ℝ))ᴴ .absent (fun _ => 1) := by
  funext i
  simp [multCross, Matrix.mulVec, dotProduct, Matrix.mul_apply]
  norm_num

/-- Hyperbolic problem with column `(1,2)` and signature `(1,-1)`: eigenvalue -3. -/
example : IsSignature ![(1:ℝ), -1] ∧ multCross !![(1:ℝ); 2] !![(1:ℝ); 2]ᴴ (.rows ![1, -1]) (fun _ => 1) = (-3:ℝ) • fun _ => 1 := by
  constructor
  · intro i; fin_cases i <;> simp
  · funext i
    simp [multCross, Matrix.mulVec, dotProduct, Fin.sum_univ_two, Matrix.vecMul]
    norm_num

/-- Cyclic matrix of `[2]`: eigenvector `(1,1)/sqrt 2`. -/
example : multCyclic (Matrix.of fun (_ _ : Fin 1) => (2:ℝ)) (Matrix.of fun (_ _ : Fin 1) => (2:ℝ))ᴴ (fun _ => 1 / Real.sqrt 2, fun _ => 1 / Real.sqrt 2) =
    ((2:ℝ) • (fun _ => 1 / Real.sqrt 2), (2:ℝ) • fun _ => 1 / Real.sqrt 2) ∧
    norm2 (fun _ : Fin 1 => 1 / Real.sqrt 2) ^ 2 + norm2 (fun _ : Fin 1 => 1 / Real.sqrt 2) ^ 2 = 1 := by
  constructor
  · refine Prod.ext ?_ ?_ <;> funext i <;> simp [multCyclic, Matrix.mulVec, dotProduct]
  · rw [norm2_sq]; simp; norm_num

/-- Hyperbolic pencil with imaginary eigenvalue: `A=[1]`, signature -1, eigenvalue `i`, vector `(1, -i)`. -/
example : cyclicPencil false (Matrix.of fun (_ _ : Fin 1) => (1:ℂ)) (fun _ => -1) Complex.I (fun _ => 1) (fun _ => -Complex.I) ∧
    (checkEigenvalueC true Complex.I).1 = 1 := by
  constructor
  · unfold cyclicPencil
    rw [if_neg (by simp)]
    refine Prod.ext ?_ ?_ <;> funext i <;> simp [multCyclic, Matrix.mulVec, dotProduct]
  · simp [checkEigenvalueC]

end Verif.SVD
