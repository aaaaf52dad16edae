import Verif.Filt.Lem

/-! # Specification for the FILTLAN filter -/

set_option linter.all false

namespace Verif.Filt

open Polynomial Finset

/-- Squared weighted distance between a piecewise polynomial and a polynomial `Q`: on interval `j`
(midpoint plus half length times `t`, `-1 ≤ t ≤ 1`) the piecewise polynomial is the Chebyshev
series in `t` with the `nb` coefficients stored from `j*nb`; the weight is `w j / sqrt(1-t^2)`. -/
noncomputable def dist2 (n : ℕ) (intv w bf : Arr) (nb : ℕ) (Q : ℝ[X]) : ℝ :=
  ∑ j ∈ range n, w j * ∫ t in (-1 : ℝ)..1,
    ((∑ i ∈ range nb, bf (j * nb + i) * (Chebyshev.T ℝ (i : ℤ)).eval t) -
      Q.eval ((intv j + intv (j + 1)) / 2 + (intv (j + 1) - intv j) / 2 * t)) ^ 2 * √(1 - t ^ 2)⁻¹

/-- `Q` is the best approximation of the piecewise polynomial among all polynomials of degree at
most `d` with value 1 at zero, and the only one. -/
structure IsBest (n : ℕ) (intv w bf : Arr) (nb d : ℕ) (Q : ℝ[X]) : Prop where
  zero : Q.eval 0 = 1
  deg : Q.natDegree ≤ d
  best : ∀ S : ℝ[X], S.eval 0 = 1 → S.natDegree ≤ d → dist2 n intv w bf nb Q ≤ dist2 n intv w bf nb S
  unique : ∀ S : ℝ[X], S.eval 0 = 1 → S.natDegree ≤ d →
    dist2 n intv w bf nb S ≤ dist2 n intv w bf nb Q → S = Q

end Verif.Filt
