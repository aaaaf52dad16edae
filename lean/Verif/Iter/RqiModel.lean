import Verif.Iter.PowerModel

/-!
# Model of the power method with variable shifts (power.c:482-537)
-/

set_option linter.all false

namespace Verif.Iter

open Finset

variable {E : Type*} [NormedAddCommGroup E] [InnerProductSpace ℂ E]

/-- state of the loop: as `PSt`, with the current shift; an estimate `none` is `PETSC_MAX_REAL` (power.c:488) or a division by zero -/
structure RSt (E : Type*) where
  V : ℕ → E
  T : ℕ → ℕ → ℂ
  k : ℕ
  eig : ℕ → ℂ
  err : ℕ → Option ℝ
  rho : ℂ

/-- `y` after the purge of the locked columns (power.c:443-444); `y0` is the result of `STApply` -/
noncomputable def RSt.y (st : RSt E) (y0 : E) : E := y0 - ∑ j ∈ range st.k, inner ℂ (st.V j) y0 • st.V j

/-- `theta` (power.c:448-449) -/
noncomputable def RSt.theta (st : RSt E) (y0 : E) : ℂ := inner ℂ (st.V st.k) (st.y y0)

/-- relative error (power.c:488-489) -/
noncomputable def RSt.relerr (st : RSt E) (y0 : E) : Option ℝ :=
  if st.rho = 0 ∨ ‖st.y y0‖ = 0 then none else some (1 / (‖st.y y0‖ * ‖st.rho‖))

/-- Rayleigh quotient (power.c:499) -/
noncomputable def RSt.quot (st : RSt E) (y0 : E) : ℂ := st.rho + star (st.theta y0) / ((‖st.y y0‖ : ℂ) * (‖st.y y0‖ : ℂ))

/-- new column (power.c:541-542) -/
noncomputable def RSt.newV (st : RSt E) (sgn : E → ℂ) (y0 : E) : E := (1 / (sgn (st.y y0) * (‖st.y y0‖ : ℂ))) • st.y y0

/-- residual computed for the Wilkinson shift in the place of the old column (power.c:502-505) -/
noncomputable def RSt.wres (st : RSt E) (y0 : E) : E :=
  (1 / (‖st.y y0‖ : ℂ)) • (st.V st.k - (star (st.theta y0) / ((‖st.y y0‖ : ℂ) * (‖st.y y0‖ : ℂ))) • st.y y0)

/-- `alpha2` (power.c:509-515); `none`: 0/0 -/
noncomputable def RSt.alpha2 (st : RSt E) (A : E →ₗ[ℂ] E) (y0 : E) : Option ℂ :=
  if ‖st.wres y0‖ = 0 then none else some (inner ℂ (st.wres y0) (A (st.wres y0)) / ((‖st.wres y0‖ : ℂ) * (‖st.wres y0‖ : ℂ)))

/-- choice of the eigenvalue closest to `rho` (power.c:521-522); `rt1`, `rt2` are the results of LAPACK's `laev2` -/
noncomputable def pick (rho rt1 rt2 : ℂ) : ℂ := if ‖rt1 - rho‖ < ‖rt2 - rho‖ then rt1 else rt2

open Classical in
/-- one iteration with Rayleigh quotient shifts (power.c:420-568).  `y0` is the result of `STApply`, `fail` tells if the factorization with the new shift failed (lines 526-534),
    `start` is the vector made by `EPSGetStartVector`. -/
noncomputable def rqiStep (sgn : E → ℂ) (sigma : ℂ) (e10 tol : ℝ) (nev : ℕ) (fail : Bool) (y0 start : E) (st : RSt E) : Option (RSt E) :=
  if ‖st.y y0‖ = 0 then none
  else
    let V1 := Function.update st.V st.k (st.newV sgn y0)
    let T1 : ℕ → ℕ → ℂ := fun i j => if j = st.k then (if i < st.k then inner ℂ (st.V i) y0 else if i = st.k then st.theta y0 else st.T i j) else st.T i j
    let eig1 := Function.update st.eig st.k st.rho
    let err1 := Function.update st.err st.k (st.relerr y0)
    some (if below (st.relerr y0) tol then
        { V := if st.k + 1 < nev then Function.update V1 (st.k + 1) start else V1, T := T1, k := st.k + 1, eig := eig1, err := err1, rho := sigma }
      else
        { V := V1, T := T1, k := st.k, eig := eig1, err := err1, rho := if fail then st.quot y0 * (1 + e10) else st.quot y0 })

/-- states that can occur: `STApply` solves with the current shift, the factorization fails exactly for eigenvalues, start vectors are orthonormal to the accepted columns -/
inductive ReachR (A : E →ₗ[ℂ] E) (sgn : E → ℂ) (sigma : ℂ) (e10 tol : ℝ) (nev : ℕ) : RSt E → Prop
  | init (st : RSt E) : st.k = 0 → ‖st.V 0‖ = 1 → (∀ i j, st.T i j = 0) → st.rho = sigma → ReachR A sgn sigma e10 tol nev st
  | step (st st' : RSt E) (fail : Bool) (y0 start : E) : ReachR A sgn sigma e10 tol nev st → st.k < nev → A y0 - st.rho • y0 = st.V st.k →
      (¬below (st.relerr y0) tol → (fail = true ↔ ∃ x, x ≠ 0 ∧ A x = st.quot y0 • x)) →
      (below (st.relerr y0) tol → st.k + 1 < nev → ‖start‖ = 1 ∧ inner ℂ (st.newV sgn y0) start = 0 ∧ ∀ j < st.k, inner ℂ (st.V j) start = 0) →
      rqiStep sgn sigma e10 tol nev fail y0 start st = some st' → ReachR A sgn sigma e10 tol nev st'

/-- the vector returned for an eigenvector `x` of the DS (`EPSComputeVectors_Schur`, epsdefault.c:146-152) -/
noncomputable def RSt.vec (st : RSt E) (x : ℕ → ℂ) : E := ∑ j ∈ range st.k, x j • st.V j

end Verif.Iter
