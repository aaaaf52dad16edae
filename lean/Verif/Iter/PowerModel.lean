import Mathlib.Analysis.InnerProductSpace.Basic
import Mathlib.Tactic

/-!
# Model of the power method (power.c), one-sided, linear problems

Vectors live in a complex inner product space, the operator is a linear map, arithmetic is exact.
-/

set_option linter.all false

namespace Verif.Iter

open Finset

variable {E : Type*} [NormedAddCommGroup E] [InnerProductSpace ℂ E]

/-- state of the loop of `EPSSolve_Power` (power.c:420): columns of `eps->V`, the array of the DS, `eps->nconv`, `eps->eigr`, `eps->errest` (`none`: the quotient has denominator zero, so it is
    infinite or not a number).  `ph` is not part of the code: the factor between a new column and the vector to which the column of `T` belongs. -/
structure PSt (E : Type*) where
  V : ℕ → E
  T : ℕ → ℕ → ℂ
  k : ℕ
  eig : ℕ → ℂ
  err : ℕ → Option ℝ
  ph : ℕ → ℂ

/-- the factor of `Normalize` (power.c:219-241); `first` gives the entry of the vector with index `idx` (the first one in linear problems), `eps10` is `10*PETSC_MACHINE_EPSILON` -/
noncomputable def signOf (sn : Bool) (eps10 : ℝ) (first : E → ℂ) (y : E) : ℂ :=
  if sn = true ∧ eps10 < ‖first y‖ then first y / ‖first y‖ else 1

/-- coefficients of `BVOrthogonalizeVec` against the locked columns (power.c:443-444) -/
noncomputable def PSt.h (st : PSt E) (OP : E →ₗ[ℂ] E) (j : ℕ) : ℂ := inner ℂ (st.V j) (OP (st.V st.k))

/-- the vector `y` after the purge of the locked columns (power.c:425-444); with exact arithmetic one pass of Gram-Schmidt is as good as two -/
noncomputable def PSt.y (st : PSt E) (OP : E →ₗ[ℂ] E) : E := OP (st.V st.k) - ∑ j ∈ range st.k, st.h OP j • st.V j

/-- `theta` (power.c:448-449) -/
noncomputable def PSt.theta (st : PSt E) (OP : E →ₗ[ℂ] E) : ℂ := inner ℂ (st.V st.k) (st.y OP)

/-- relative error (power.c:473-479) -/
noncomputable def PSt.relerr (st : PSt E) (OP : E →ₗ[ℂ] E) : Option ℝ :=
  if st.theta OP = 0 then none else some (‖st.y OP - st.theta OP • st.V st.k‖ / ‖st.theta OP‖)

/-- `relerr<eps->tol` (power.c:548), false for an infinite value or NaN -/
def below (r : Option ℝ) (tol : ℝ) : Prop := ∃ x, r = some x ∧ x < tol

/-- `1/alpha` in `Normalize` and the new column (power.c:541-542) -/
noncomputable def PSt.newV (st : PSt E) (OP : E →ₗ[ℂ] E) (sgn : E → ℂ) : E := (1 / (sgn (st.y OP) * (‖st.y OP‖ : ℂ))) • st.y OP

open Classical in
/-- one iteration with constant shift (power.c:420-568).  `start` is the vector made by `EPSGetStartVector` if another pair is needed.  `none`: division by the norm of a zero vector (line 239). -/
noncomputable def iter (OP : E →ₗ[ℂ] E) (sgn : E → ℂ) (tol : ℝ) (nev : ℕ) (start : E) (st : PSt E) : Option (PSt E) :=
  if ‖st.y OP‖ = 0 then none
  else
    let st1 : PSt E :=
      { V := Function.update st.V st.k (st.newV OP sgn)
        T := fun i j => if j = st.k then (if i < st.k then st.h OP i else if i = st.k then st.theta OP else st.T i j) else st.T i j
        k := st.k
        eig := Function.update st.eig st.k (st.theta OP)
        err := Function.update st.err st.k (st.relerr OP)
        ph := Function.update st.ph st.k (st.theta OP / (sgn (st.y OP) * (‖st.y OP‖ : ℂ))) }
    some (if below (st.relerr OP) tol then
        { st1 with k := st.k + 1, V := if st.k + 1 < nev then Function.update st1.V (st.k + 1) start else st1.V }
      else st1)

/-- states that can occur: the first start vector has norm one (power.c:394), the loop goes on while fewer than `nev` pairs have converged (power.c:561), and each new start vector is
    of norm one and orthogonal to the columns accepted (`EPSGetStartVector`, epssolve.c:919-951) -/
inductive Reach (OP : E →ₗ[ℂ] E) (sgn : E → ℂ) (tol : ℝ) (nev : ℕ) : PSt E → Prop
  | init (st : PSt E) : st.k = 0 → ‖st.V 0‖ = 1 → (∀ i j, st.T i j = 0) → Reach OP sgn tol nev st
  | step (st st' : PSt E) (start : E) : Reach OP sgn tol nev st → st.k < nev →
      (below (st.relerr OP) tol → st.k + 1 < nev → ‖start‖ = 1 ∧ inner ℂ (st.newV OP sgn) start = 0 ∧ ∀ j < st.k, inner ℂ (st.V j) start = 0) →
      iter OP sgn tol nev start st = some st' → Reach OP sgn tol nev st'

/-- the Schur relation of column `j` with the phase factor: `OP v_j - λ_j v_j - ph_j Σ_{i<j} T_ij v_i` -/
noncomputable def PSt.schur (st : PSt E) (OP : E →ₗ[ℂ] E) (j : ℕ) : E :=
  OP (st.V j) - st.eig j • st.V j - st.ph j • ∑ i ∈ range j, st.T i j • st.V i

/-- the vector returned for an eigenvector `x` of the DS: `V*x` (`EPSComputeVectors_Schur`, epsdefault.c:146-152) -/
noncomputable def PSt.vec (st : PSt E) (x : ℕ → ℂ) : E := ∑ j ∈ range st.k, x j • st.V j

end Verif.Iter
