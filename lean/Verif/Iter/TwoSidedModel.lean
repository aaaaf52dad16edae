import Verif.Iter.PowerModel

/-!
# Model of the two-sided power method (power.c:578-703)
-/

set_option linter.all false

namespace Verif.Iter

open Finset

variable {E : Type*} [NormedAddCommGroup E] [InnerProductSpace ℂ E]

/-- state of the loop: columns of `eps->V` and `eps->W`, `eps->nconv`, the work vectors `v` and `w` (power.c:591-592), eigenvalues, estimates and the shift -/
structure TSt (E : Type*) where
  V : ℕ → E
  W : ℕ → E
  k : ℕ
  v : E
  w : E
  eig : ℕ → ℂ
  err : ℕ → Option ℝ
  rho : ℂ

/-- `y` after `BVBiorthogonalizeColumn` (power.c:609-617, bvbiorthog.c:44-76); `y0` is the result of `STApply` on `v` -/
noncomputable def TSt.y (st : TSt E) (y0 : E) : E := y0 - ∑ j ∈ range st.k, inner ℂ (st.W j) y0 • st.V j

/-- `z` after `BVBiorthogonalizeColumn`; `z0` is the result of `STApplyHermitianTranspose` on `w` -/
noncomputable def TSt.z (st : TSt E) (z0 : E) : E := z0 - ∑ j ∈ range st.k, inner ℂ (st.V j) z0 • st.W j

/-- `theta` (power.c:620-622) -/
noncomputable def TSt.theta (st : TSt E) (y0 : E) : ℂ := inner ℂ st.w (st.y y0)

/-- relative error with constant shift (power.c:630-636); `none`: division by zero -/
noncomputable def TSt.relerr (st : TSt E) (y0 z0 : E) : Option ℝ :=
  if st.theta y0 = 0 then none
  else some (max ‖st.y y0 - st.theta y0 • st.v‖ ‖st.z z0 - star (st.theta y0) • st.w‖ / ‖st.theta y0‖)

/-- `alpha` (power.c:642) -/
noncomputable def TSt.alpha (st : TSt E) (y0 z0 : E) : ℂ := inner ℂ (st.y y0) (st.z z0)

/-- `delta` (power.c:644) -/
noncomputable def TSt.delta (st : TSt E) (y0 z0 : E) : ℝ := Real.sqrt ‖st.alpha y0 z0‖

/-- new right column (power.c:646) -/
noncomputable def TSt.newV (st : TSt E) (y0 z0 : E) : E := (1 / star (st.alpha y0 z0 / (st.delta y0 z0 : ℂ))) • st.y y0

/-- new left column (power.c:647) -/
noncomputable def TSt.newW (st : TSt E) (y0 z0 : E) : E := (1 / (st.delta y0 z0 : ℂ)) • st.z z0

open Classical in
/-- one iteration with constant shift (power.c:604-698).  `sv`, `sw` are the start vectors of the next pair after `BVBiorthonormalizeColumn` (lines 686-693); they are stored in the columns of the
    BVs only.  `none`: the error of line 645. -/
noncomputable def tsStep (OP OPs : E →ₗ[ℂ] E) (tol : ℝ) (nev : ℕ) (sv sw : E) (st : TSt E) : Option (TSt E) :=
  let y0 := OP st.v
  let z0 := OPs st.w
  if st.delta y0 z0 = 0 then none
  else
    let V1 := Function.update st.V st.k (st.newV y0 z0)
    let W1 := Function.update st.W st.k (st.newW y0 z0)
    let eig1 := Function.update st.eig st.k (st.theta y0)
    let err1 := Function.update st.err st.k (st.relerr y0 z0)
    some (if below (st.relerr y0 z0) tol then
        { V := if st.k + 1 < nev then Function.update V1 (st.k + 1) sv else V1
          W := if st.k + 1 < nev then Function.update W1 (st.k + 1) sw else W1
          k := st.k + 1, v := st.newV y0 z0, w := st.newW y0 z0, eig := eig1, err := err1, rho := st.rho }
      else { V := V1, W := W1, k := st.k, v := st.newV y0 z0, w := st.newW y0 z0, eig := eig1, err := err1, rho := st.rho })

/-- states that can occur: the first vectors are biorthonormal (power.c:596-600); start vectors are arbitrary -/
inductive ReachT (OP OPs : E →ₗ[ℂ] E) (tol : ℝ) (nev : ℕ) : TSt E → Prop
  | init (st : TSt E) : st.k = 0 → st.v = st.V 0 → st.w = st.W 0 → inner ℂ (st.W 0) (st.V 0) = (1 : ℂ) → ReachT OP OPs tol nev st
  | step (st st' : TSt E) (sv sw : E) : ReachT OP OPs tol nev st → st.k < nev → tsStep OP OPs tol nev sv sw st = some st' → ReachT OP OPs tol nev st'

/-- estimate with Rayleigh quotient shifts (power.c:654-655) -/
noncomputable def TSt.relerrQ (st : TSt E) (y0 z0 : E) : Option ℝ :=
  if st.rho = 0 ∨ st.delta y0 z0 = 0 then none else some (1 / ‖(st.delta y0 z0 : ℂ) * st.rho‖)

/-- new shift (power.c:665) -/
noncomputable def TSt.quot (st : TSt E) (y0 z0 : E) : ℂ := st.rho + star (st.theta y0) / ((st.delta y0 z0 : ℂ) * (st.delta y0 z0 : ℂ))

end Verif.Iter
