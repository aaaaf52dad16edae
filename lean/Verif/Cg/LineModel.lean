import Mathlib.Tactic
import Mathlib.Analysis.InnerProductSpace.Basic
import Mathlib.Analysis.InnerProductSpace.Symmetric
import Mathlib.Analysis.Complex.Basic

/-!
# EPSRQCG: the line search

Models src/eps/impls/cg/rqcg/rqcg.c:196-229 (minimization problem of one active vector) in exact arithmetic.
-/
set_option linter.all false

namespace Verif.Cg

/-- Lines 223-227: step length from the coefficients `a`, `b`, `c`. -/
noncomputable def stepOf (a b c : ℝ) : ℝ :=
  if 0 ≤ b ∧ a ≠ 0 then (b + √|b * b - 4 * a * c|) / (2 * a)
  else if b ≠ √|b * b - 4 * a * c| then 2 * c / (b - √|b * b - 4 * a * c|)
  else 0

/-- Lines 218-227: coefficients, scaling by the largest one, step length. -/
noncomputable def rqAlpha (nu mu pax pbx pap pbp : ℂ) : ℝ :=
  if max (max |(pap * pbx - pax * pbp).re| |(nu * pbp - mu * pap).re|) |(mu * pax - nu * pbx).re| ≠ 0 then
    stepOf ((pap * pbx - pax * pbp).re / max (max |(pap * pbx - pax * pbp).re| |(nu * pbp - mu * pap).re|) |(mu * pax - nu * pbx).re|)
      ((nu * pbp - mu * pap).re / max (max |(pap * pbx - pax * pbp).re| |(nu * pbp - mu * pap).re|) |(mu * pax - nu * pbx).re|)
      ((mu * pax - nu * pbx).re / max (max |(pap * pbx - pax * pbp).re| |(nu * pbp - mu * pap).re|) |(mu * pax - nu * pbx).re|)
  else stepOf (pap * pbx - pax * pbp).re (nu * pbp - mu * pap).re (mu * pax - nu * pbx).re

variable {E : Type*} [NormedAddCommGroup E] [InnerProductSpace ℂ E]

/-- Lines 201-227: the inner products (`VecDot(x,y)` is `y^H x`) and the step length; for a standard problem `B` is the identity. -/
noncomputable def lineStep (A B : E →ₗ[ℂ] E) (v p : E) : ℝ :=
  rqAlpha (inner ℂ v (A v)) (inner ℂ v (B v)) (inner ℂ p (A v)) (inner ℂ p (B v)) (inner ℂ p (A p)) (inner ℂ p (B p))

/-- Line 229: next iterate. -/
noncomputable def lineMove (A B : E →ₗ[ℂ] E) (v p : E) : E := v + ((lineStep A B v p : ℝ) : ℂ) • p

end Verif.Cg
