import Verif.Filt.Model
import Mathlib.Analysis.SpecialFunctions.Trigonometric.Chebyshev.Orthogonality

/-! # Specification for the Chebyshev filter -/

set_option linter.all false

namespace Verif.Filt

open Polynomial Finset

/-- The linear map that takes the range to `[-1,1]`. -/
noncomputable def toUnit (left right z : ℝ) : ℝ := (2 * z - (right + left)) / (right - left)

/-- Damped Chebyshev series of degree `n` with coefficients `c` and damping coefficients `d`. -/
noncomputable def series (d c : Arr) (n : ℕ) (x : ℝ) : ℝ :=
  ∑ k ∈ range (n + 1), d k * c k * (Chebyshev.T ℝ (k : ℤ)).eval x

/-- Chebyshev coefficients of the function that is 1 on `[a,b]` and 0 elsewhere in `[-1,1]`. -/
noncomputable def indCoef (a b : ℝ) (k : ℕ) : ℝ :=
  (if k = 0 then 1 else 2) / Real.pi *
    ∫ x, (if a ≤ x ∧ x ≤ b then (Chebyshev.T ℝ (k : ℤ)).eval x else 0) ∂Chebyshev.measureT

end Verif.Filt
