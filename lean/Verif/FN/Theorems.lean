import Verif.FN.Lemmas

/-!
# FN: derivative, rational and phi functions (C18, C19, C20)
-/

set_option linter.all false
noncomputable section
open Classical Topology Filter

namespace Verif.FN

/-- C18, real scalars.  Whatever the nesting of combined functions, the types and the scale factors,
if FNEvaluateDerivative succeeds at `x` then FNEvaluateFunction succeeds in a neighbourhood of `x`
and the returned number is the derivative of the function it computes. -/
theorem C18_real (f : Fn ℝ) {x d : ℝ} (h : deriv primReal f x = some d) :
    Spec.HasDerivative (eval primReal f) d x :=
  tree_spec lawfulReal f (offCut_real f x) h

/-- C18, complex scalars: the same provided no logarithm or square root is evaluated at a point of
its branch cut (the closed negative real axis), where it has no derivative. -/
theorem C18_complex (f : Fn ℂ) {x d : ℂ}
    (hcut : OffCut primComplex (fun z => z ∉ Complex.slitPlane) f x)
    (h : deriv primComplex f x = some d) :
    Spec.HasDerivative (eval primComplex f) d x :=
  tree_spec lawfulComplex f hcut h

private def hd {K : Type} [Field K] (a b : K) : Header K := ⟨a, b, 0, .redundant⟩

/-- A nested function `3*exp(2x) / sqrt(x^2+1)` whose derivative call succeeds at 1. -/
example : ∃ d, deriv primReal
    (.combine (hd 1 3) .divide (.leaf (hd 2 1) .exp)
      (.combine (hd 1 1) .compose (.leaf (hd 1 1) (.rational [1, 0, 1] []))
        (.leaf (hd 1 1) .sqrt))) 1 = some d := by
  have h : ¬ Real.sqrt (1 + (0 + 1)) = 0 := by
    rw [Real.sqrt_eq_zero (by norm_num)]; norm_num
  simp [deriv, eval, combineDer, combineVal, derivLeaf, evalLeaf, hd, evalRational, derivRational,
    hornerP, hornerLoop, hornerD, hornerLoopD, primReal, h]
  norm_num

/-- The hypotheses of the complex statement hold for `log(x)` at `1+i`. -/
example : OffCut primComplex (fun z => z ∉ Complex.slitPlane)
      (.leaf (hd 1 1) .log) (⟨1, 1⟩ : ℂ) ∧
    ∃ d, deriv primComplex (.leaf (hd 1 1) .log) (⟨1, 1⟩ : ℂ) = some d := by
  constructor
  · intro _
    simp [Complex.slitPlane, hd]
  · have : (⟨1, 1⟩ : ℂ) ≠ 0 := by simp [Complex.ext_iff]
    simp [deriv, derivLeaf, hd, primComplex, this]

/-- C19: a rational function returns the quotient of the two polynomials, coefficients in descending
powers and no coefficients meaning the constant 1, and it fails exactly when there is a denominator
and it vanishes.  With scale factors, the argument is `alpha*x` and the result is multiplied by
`beta`. -/
theorem C19_rational {K : Type} [Field K] (P : Prim K) (h : Header K) (p q : List K) (x : K) :
    (eval P (.leaf h (.rational p q)) x = none ↔ Spec.polyOrOne q (h.alpha * x) = 0) ∧
    ∀ y, eval P (.leaf h (.rational p q)) x = some y →
      y = h.beta * (Spec.polyOrOne p (h.alpha * x) / Spec.polyOrOne q (h.alpha * x)) := by
  simp only [eval, evalLeaf, evalRational, hornerP_eq]
  by_cases hq : q = []
  · simp [hq, Spec.polyOrOne, eq_comm]
  · rw [if_neg hq]
    by_cases h0 : Spec.polyOrOne q (h.alpha * x) = 0
    · simp [h0]
    · simp [h0, eq_comm]

/-- `(2x+1)/(x^2-3)` at 3, scaled by `beta=6`: the value is 7. -/
example : eval primReal (.leaf ⟨1, 6, 0, .redundant⟩ (.rational [2, 1] [1, 0, -3])) 3
    = some 7 := by
  simp [eval, evalLeaf, evalRational, hornerP, hornerLoop]; norm_num

/-- Both builds of C20: FNPHI of index `k` returns `phi_k`: the value is the sum of the series `Σ xⁿ/(n+k)!`, it
satisfies the documented recurrence, index 0 is the exponential, and the special value at 0 is the
limit at 0 (the function is continuous there). -/
theorem phi_spec {K : Type} [RCLike K] {P : Prim K} {cut : K → Prop} (L : Lawful P cut) :
    ∃ phi : ℕ → K → K,
      (∀ (h : Header K) k x, eval P (.leaf h (.phi k)) x = some (h.beta * phi k (h.alpha * x))) ∧
      (∀ k x, Spec.IsPhi k x (phi k x)) ∧
      (∀ x, phi 0 x = P.exp x) ∧
      (∀ k x, x ≠ 0 → phi (k + 1) x = (phi k x - 1 / (k.factorial : K)) / x) ∧
      (∀ k, Tendsto (phi k) (𝓝[≠] 0) (𝓝 (phi k 0))) := by
  refine ⟨evalPhi P, fun h k x => by simp [eval, evalLeaf], evalPhi_isPhi L, ?_, ?_, ?_⟩
  · intro x
    have h1 := evalPhi_isPhi L 0 x
    have h2 := L.expSum x
    unfold Spec.IsPhi at h1
    simp only [add_zero] at h1
    exact h1.unique h2
  · intro k x hx
    simp only [evalPhi, if_neg hx, phiLoop, rfactorial]
  · intro k
    have : evalPhi P k 0 = rfactorial k := by simp [evalPhi]
    rw [this]
    exact (evalPhi_tendsto L k).mono_left nhdsWithin_le_nhds

/-- C20, real scalars: FNPHI of index `k` returns `phi_k`: the value is the sum of the series
`Σ xⁿ/(n+k)!`, it satisfies the documented recurrence, index 0 is the exponential, and the special
value at 0 is the limit at 0. -/
theorem C20_real :
    ∃ phi : ℕ → ℝ → ℝ,
      (∀ (h : Header ℝ) k x, eval primReal (.leaf h (.phi k)) x = some (h.beta * phi k (h.alpha * x))) ∧
      (∀ k x, Spec.IsPhi k x (phi k x)) ∧
      (∀ x, phi 0 x = Real.exp x) ∧
      (∀ k x, x ≠ 0 → phi (k + 1) x = (phi k x - 1 / (k.factorial : ℝ)) / x) ∧
      (∀ k, Tendsto (phi k) (𝓝[≠] 0) (𝓝 (phi k 0))) :=
  phi_spec lawfulReal

/-- C20, complex scalars: FNPHI of index `k` returns `phi_k`: the value is the sum of the series
`Σ xⁿ/(n+k)!`, it satisfies the documented recurrence, index 0 is the exponential, and the special
value at 0 is the limit at 0. -/
theorem C20_complex :
    ∃ phi : ℕ → ℂ → ℂ,
      (∀ (h : Header ℂ) k x, eval primComplex (.leaf h (.phi k)) x = some (h.beta * phi k (h.alpha * x))) ∧
      (∀ k x, Spec.IsPhi k x (phi k x)) ∧
      (∀ x, phi 0 x = Complex.exp x) ∧
      (∀ k x, x ≠ 0 → phi (k + 1) x = (phi k x - 1 / (k.factorial : ℂ)) / x) ∧
      (∀ k, Tendsto (phi k) (𝓝[≠] 0) (𝓝 (phi k 0))) :=
  phi_spec lawfulComplex

/-- Index 2 at 1 in the real build is `e-2`. -/
example : eval primReal (.leaf ⟨1, 1, 0, .redundant⟩ (.phi 2)) 1 = some (Real.exp 1 - 2) := by
  simp [eval, evalLeaf, evalPhi, phiLoop, rfactorial, primReal]; ring

/-- Every index accepted by FNPhiSetIndex stays inside the table of factorials (12 entries), also in
the derivative, which reads one entry further. -/
theorem phi_table {K : Type} {k : ℕ} {t : Leaf K} (h : phiSetIndex k = some t) : k + 1 < 12 := by
  unfold phiSetIndex maxIndex at h
  split_ifs at h with hk
  omega

/-- FNSetMethod accepts a method number which is not an index of the table of methods (the check is
`meth<=FN_MAX_SOLVE` although the tables have `FN_MAX_SOLVE` entries). -/
theorem setMethod_false : ∃ (h h' : Header ℝ) (meth : ℕ),
    setMethod h meth = some h' ∧ ¬ h'.method < maxSolve := by
  refine ⟨⟨1, 1, 0, .redundant⟩, ⟨1, 1, 16, .redundant⟩, 16, ?_, ?_⟩
  · simp [setMethod, maxSolve]
  · simp [maxSolve]

/-- Apart from that one value the check is right. -/
theorem setMethod_partial {K : Type} (h h' : Header K) (meth : ℕ) (hm : meth ≠ maxSolve) :
    setMethod h meth = some h' ↔ meth < maxSolve ∧ h' = { h with method := meth } := by
  unfold setMethod
  split_ifs with h1
  · constructor
    · intro e; exact ⟨by omega, (Option.some.inj e).symm⟩
    · rintro ⟨_, rfl⟩; rfl
  · constructor
    · intro e; cases e
    · rintro ⟨h2, _⟩; omega

/-- FNSetScale never lets a zero factor in. -/
theorem setScale_nonzero {K : Type} [Field K] {h h' : Header K} {a b : K} :
    setScale h a b = some h' ↔ a ≠ 0 ∧ b ≠ 0 ∧ h' = { h with alpha := a, beta := b } := by
  unfold setScale
  split_ifs with h1
  · constructor
    · intro e; exact ⟨h1.1, h1.2, (Option.some.inj e).symm⟩
    · rintro ⟨_, _, rfl⟩; rfl
  · constructor
    · intro e; cases e
    · rintro ⟨h2, h3, _⟩; exact absurd ⟨h2, h3⟩ h1

end Verif.FN
