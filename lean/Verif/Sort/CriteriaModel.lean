import Verif.Sort.Spec
import Mathlib.Analysis.Complex.Norm
/-!
# Model of the predefined eigenvalue criteria of `src/sys/slepcsc.c`

Exact real/complex numbers stand for `PetscReal`/`PetscScalar` (rounding and NaN not modelled).
-/
set_option linter.all false
namespace Verif.Sort

/-- `SlepcAbs` (`include/slepcmath.h:55-64`). -/
noncomputable def slepcAbs (x y : ℝ) : ℝ :=
  let w := max |x| |y|
  let z := min |x| |y|
  if z = 0 then w else let t := z / w; w * Real.sqrt (1 + t * t)

/-- The predefined comparison functions. -/
inductive Crit
  | largestMagnitude | smallestMagnitude | largestReal | smallestReal
  | largestImaginary | smallestImaginary
  | targetMagnitude | targetReal | targetImaginary | smallestPosReal

/-- The pattern `if (a<b) res=1; else if (a>b) res=-1; else res=0` of `src/sys/slepcsc.c:208-210`. -/
noncomputable def wantLarge (a b : ℝ) : Int := if a < b then 1 else if a > b then -1 else 0

/-- The pattern `if (a>b) res=1; else if (a<b) res=-1; else res=0` of `src/sys/slepcsc.c:221-223`. -/
noncomputable def wantSmall (a b : ℝ) : Int := if a > b then 1 else if a < b then -1 else 0

/-- The comparison functions with real scalars (`src/sys/slepcsc.c:201-373`, not
`PETSC_USE_COMPLEX`); `tau` is the target passed as context. -/
noncomputable def critReal (tau : ℝ) : Crit → Cmp ℝ
  | .largestMagnitude, ar, ai, br, bi => wantLarge (slepcAbs ar ai) (slepcAbs br bi)
  | .smallestMagnitude, ar, ai, br, bi => wantSmall (slepcAbs ar ai) (slepcAbs br bi)
  | .largestReal, ar, _, br, _ => wantLarge ar br
  | .smallestReal, ar, _, br, _ => wantSmall ar br
  | .largestImaginary, ar, ai, br, bi =>
    if |ai| < |bi| then 1 else if |ai| > |bi| then -1
    else wantLarge (slepcAbs ar ai) (slepcAbs br bi)
  | .smallestImaginary, ar, ai, br, bi =>
    if |ai| > |bi| then 1 else if |ai| < |bi| then -1
    else wantLarge (slepcAbs ar ai) (slepcAbs br bi)
  | .targetMagnitude, ar, ai, br, bi => wantSmall (slepcAbs (ar - tau) ai) (slepcAbs (br - tau) bi)
  | .targetReal, ar, _, br, _ => wantSmall |ar - tau| |br - tau|
  | .targetImaginary, _, _, _, _ => 0
  | .smallestPosReal, ar, ai, br, bi =>
    if decide (ar > 0) = decide (br > 0) then wantSmall (slepcAbs ar ai) (slepcAbs br bi)
    else if ar > 0 ∧ ¬ br > 0 then -1 else 1

/-- The comparison functions with complex scalars (`src/sys/slepcsc.c:201-373`,
`PETSC_USE_COMPLEX`); the second argument of each value is not used. -/
noncomputable def critComplex (tau : ℂ) : Crit → Cmp ℂ
  | .largestMagnitude, ar, _, br, _ => wantLarge ‖ar‖ ‖br‖
  | .smallestMagnitude, ar, _, br, _ => wantSmall ‖ar‖ ‖br‖
  | .largestReal, ar, _, br, _ => wantLarge ar.re br.re
  | .smallestReal, ar, _, br, _ => wantSmall ar.re br.re
  | .largestImaginary, ar, _, br, _ =>
    if ar.im < br.im then 1 else if ar.im > br.im then -1 else wantLarge ‖ar‖ ‖br‖
  | .smallestImaginary, ar, _, br, _ =>
    if ar.im > br.im then 1 else if ar.im < br.im then -1 else wantLarge ‖ar‖ ‖br‖
  | .targetMagnitude, ar, _, br, _ => wantSmall ‖ar - tau‖ ‖br - tau‖
  | .targetReal, ar, _, br, _ => wantSmall |(ar - tau).re| |(br - tau).re|
  | .targetImaginary, ar, _, br, _ => wantSmall |(ar - tau).im| |(br - tau).im|
  | .smallestPosReal, ar, _, br, _ =>
    if decide (ar.re > 0) = decide (br.re > 0) then wantSmall ‖ar‖ ‖br‖
    else if ar.re > 0 ∧ ¬ br.re > 0 then -1 else 1

/-! ## Specification: the documented order on complex numbers (`include/slepceps.h:357-372`) -/

/-- The imaginary part as used for selection: its absolute value in real-scalar builds. -/
def imPart (cb : Bool) (u : ℂ) : ℝ := if cb then u.im else |u.im|

/-- `GoodAs complexBuild tau c z w`: criterion `c` wants eigenvalue `z` at least as much as `w`.
Ties of the imaginary-part criteria are broken in favour of larger magnitude; with real scalars
(`cb = false`) they use the absolute value of the imaginary part, and the criterion
"target imaginary" does not exist. -/
def GoodAs (cb : Bool) (tau : ℂ) : Crit → ℂ → ℂ → Prop
  | .largestMagnitude, z, w => ‖w‖ ≤ ‖z‖
  | .smallestMagnitude, z, w => ‖z‖ ≤ ‖w‖
  | .largestReal, z, w => w.re ≤ z.re
  | .smallestReal, z, w => z.re ≤ w.re
  | .largestImaginary, z, w =>
    imPart cb w < imPart cb z ∨ (imPart cb w = imPart cb z ∧ ‖w‖ ≤ ‖z‖)
  | .smallestImaginary, z, w =>
    imPart cb z < imPart cb w ∨ (imPart cb w = imPart cb z ∧ ‖w‖ ≤ ‖z‖)
  | .targetMagnitude, z, w => ‖z - tau‖ ≤ ‖w - tau‖
  | .targetReal, z, w => |z.re - tau.re| ≤ |w.re - tau.re|
  | .targetImaginary, z, w => cb = true → |z.im - tau.im| ≤ |w.im - tau.im|
  | .smallestPosReal, z, w =>
    (0 < z.re ∧ ¬ 0 < w.re) ∨ ((0 < z.re ↔ 0 < w.re) ∧ ‖z‖ ≤ ‖w‖)

end Verif.Sort
