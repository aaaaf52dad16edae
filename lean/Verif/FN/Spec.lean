import Mathlib.Analysis.Calculus.Deriv.Basic
import Mathlib.Analysis.RCLike.Basic

/-!
# Specification for the FN class, independent of the model
-/

set_option linter.all false
open Topology

namespace Verif.FN.Spec

/-- The partial function `e` (where `none` means "the call fails") is defined in a neighbourhood of
`x` and its derivative at `x` is `d`. -/
def HasDerivative {K : Type} [RCLike K] (e : K → Option K) (d x : K) : Prop :=
  ∃ g : K → K, (∀ᶠ y in 𝓝 x, e y = some (g y)) ∧ HasDerivAt g d x

/-- Polynomial with coefficients in descending powers: `c₀ x^(n-1) + ... + c_(n-1)`. -/
def poly {K : Type} [Field K] (c : List K) (x : K) : K :=
  ∑ i : Fin c.length, c.get i * x ^ (c.length - 1 - i)

/-- Same, where the empty list of coefficients stands for the constant 1. -/
def polyOrOne {K : Type} [Field K] (c : List K) (x : K) : K :=
  if c = [] then 1 else poly c x

/-- The phi functions, as entire functions: `phi_k(x) = Σ xⁿ/(n+k)!`. -/
def IsPhi {K : Type} [RCLike K] (k : ℕ) (x y : K) : Prop :=
  HasSum (fun n : ℕ => x ^ n / ((n + k).factorial : K)) y

end Verif.FN.Spec
