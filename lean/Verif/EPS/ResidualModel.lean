import Mathlib.Analysis.InnerProductSpace.PiL2
import Mathlib.Data.Matrix.Mul
import Mathlib.LinearAlgebra.Matrix.ConjTranspose

/-!
# Residual norms used by EPSComputeError
-/
set_option linter.all false

namespace Verif.EPS

open Classical

variable {n : Type*} [Fintype n]

/-- `VecNorm(u,NORM_2)`. -/
noncomputable def norm2 {𝕜 : Type*} [RCLike 𝕜] (u : n → 𝕜) : ℝ := ‖(WithLp.toLp 2 u : EuclideanSpace 𝕜 n)‖

/-- `matmult`: `MatMult` or `MatMultHermitianTranspose` (src/eps/interface/epssolve.c:749). -/
def matmult {𝕜 : Type*} [RCLike 𝕜] (trans : Bool) (M : Matrix n n 𝕜) (x : n → 𝕜) : n → 𝕜 :=
  if trans then M.conjTranspose.mulVec x else M.mulVec x

/-- The product with `B`, a copy for standard problems (src/eps/interface/epssolve.c:763-764, 773-777). -/
def bmult {𝕜 : Type*} [RCLike 𝕜] (trans : Bool) (B : Option (Matrix n n 𝕜)) (x : n → 𝕜) : n → 𝕜 :=
  match B with
  | some B => matmult trans B x
  | none => x

/-- `SlepcAbsEigenvalue` in real arithmetic (include/slepc/private/slepcimpl.h). -/
noncomputable def absEig (kr ki : ℝ) : ℝ := Real.sqrt (kr ^ 2 + ki ^ 2)

/-- `EPSComputeResidualNorm_Private` in real arithmetic (src/eps/interface/epssolve.c:739-791); `eps` is the machine
precision. -/
noncomputable def residNorm (eps : ℝ) (trans : Bool) (A : Matrix n n ℝ) (B : Option (Matrix n n ℝ)) (kr ki : ℝ) (xr xi : n → ℝ) : ℝ :=
  if ki = 0 ∨ |ki| < |kr * eps| then
    let u := matmult trans A xr
    norm2 (if eps < |kr| then u + (-kr) • bmult trans B xr else u)
  else
    let v := bmult trans B xr
    let w := bmult trans B xi
    let u := matmult trans A xr
    let nr := norm2 (if eps < absEig kr ki then u + (-kr) • v + (if trans then -ki else ki) • w else u)
    let u' := matmult trans A xi
    let ni := norm2 (if eps < absEig kr ki then u' + (-kr) • w + (if trans then ki else -ki) • v else u')
    absEig nr ni

/-- `EPSComputeResidualNorm_Private` in complex arithmetic (src/eps/interface/epssolve.c:761-768). -/
noncomputable def residNormC (eps : ℝ) (trans : Bool) (A : Matrix n n ℂ) (B : Option (Matrix n n ℂ)) (k : ℂ) (x : n → ℂ) : ℝ :=
  let u := matmult trans A x
  norm2 (if eps < ‖k‖ then u + (if trans then -star k else -k) • bmult trans B x else u)

end Verif.EPS
