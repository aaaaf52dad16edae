import Verif.Ts.Model
import Mathlib.Data.Matrix.Basic

/-!
# Two-sided Krylov-Schur: error estimates

Models src/eps/impls/krylov/krylovschur/ks-twosided.c:181-183, src/eps/impls/krylov/epskrylov.c:212-233 and the norm returned by DSVectors
(src/sys/classes/ds/impls/nhepts/dsnhepts.c:90-114).
-/
set_option linter.all false

namespace Verif.Ts

open Finset

variable {E : Type} [NormedAddCommGroup E] [InnerProductSpace ℂ E]

/-- epskrylov.c:213, 223: estimate for the right vector with coefficients `x` (normalized by DSVectors): last component times `beta*norm`. -/
noncomputable def rightEst (m : Mid E) (x : ℕ → ℂ) : ℝ := ‖x (m.nv - 1)‖ * (m.beta * ‖m.R.V m.nv‖)

/-- epskrylov.c:229-230: estimate for the left vector. -/
noncomputable def leftEst (m : Mid E) (y : ℕ → ℂ) : ℝ := ‖y (m.nv - 1)‖ * (m.betat * ‖m.L.V m.nv‖)

/-- epskrylov.c:225, 231-232 with the absolute convergence test: error estimate of the pair. -/
noncomputable def errEst (m : Mid E) (x y : ℕ → ℂ) : ℝ := max (rightEst m x) (leftEst m y)

/-- Eigenvector of the leading block of size `nv` of `H`, of unit norm. -/
def EigVec (nv : ℕ) (H : ℕ → ℕ → ℂ) (theta : ℂ) (x : ℕ → ℂ) : Prop :=
  (∀ i < nv, ∑ j ∈ range nv, H i j * x j = theta * x i) ∧ ∑ i ∈ range nv, ‖x i‖ ^ 2 = 1

/-- EPSComputeRitzVector / EPSComputeVectors: combination of the basis. -/
noncomputable def ritzVec (nv : ℕ) (V : ℕ → E) (x : ℕ → ℂ) : E := ∑ j ∈ range nv, x j • V j

end Verif.Ts
