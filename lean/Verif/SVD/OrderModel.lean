import Mathlib.Algebra.BigOperators.Fin
import Mathlib.Algebra.BigOperators.Group.Finset.Basic
import Mathlib.Analysis.RCLike.Basic
import Mathlib.Data.Nat.Cast.Order.Ring

/-!
# Order and sides of the singular triplets returned to the user
-/
set_option linter.all false

namespace Verif.SVD

/-- A matrix with its global sizes; entries outside the sizes are irrelevant. -/
structure Mat (𝕜 : Type*) where
  r : ℕ
  c : ℕ
  e : ℕ → ℕ → 𝕜

variable {𝕜 : Type*} [RCLike 𝕜]

/-- `MatHermitianTranspose` / `MatCreateHermitianTranspose`. -/
def herm (A : Mat 𝕜) : Mat 𝕜 := ⟨A.c, A.r, fun i j => star (A.e j i)⟩

/-- Entry `i` of `MatMult(A,x)`. -/
def mulv (A : Mat 𝕜) (x : ℕ → 𝕜) (i : ℕ) : 𝕜 := ∑ j ∈ Finset.range A.c, A.e i j * x j

/-- The matrix the solver works with (`svd->A`) for standard and hyperbolic problems
(src/svd/interface/svdsetup.c:304-324). -/
def workA (OP : Mat 𝕜) : Mat 𝕜 := if OP.r ≥ OP.c then OP else herm OP

/-- Its adjoint (`svd->AT`), same lines. -/
def workAT (OP : Mat 𝕜) : Mat 𝕜 := if OP.r ≥ OP.c then herm OP else OP

/-- `svd->which`. -/
inductive Which | largest | smallest
  deriving DecidableEq

/-- What a solve leaves behind: converged values, and the internal bases, whose columns are vectors of the working
matrix (`svd->U` of its row space, `svd->V` of its column space). -/
structure Solved (𝕜 : Type*) where
  nconv : ℕ
  sigma : ℕ → ℝ
  U : ℕ → ℕ → 𝕜
  V : ℕ → ℕ → 𝕜

/-- The permutation computed at the end of `SVDSolve` (src/svd/interface/svdsolve.c:147-151, 167-175). `srt n sigma idx`
stands for `PetscSortRealWithPermutation(n,sigma,idx)`, which rearranges the indices `idx`. -/
def perm (srt : ℕ → (ℕ → ℝ) → (ℕ → ℕ) → ℕ → ℕ) (which : Which) (nconv : ℕ) (sigma : ℕ → ℝ) (i : ℕ) : ℕ :=
  match which with
  | .smallest => srt nconv sigma (fun j => j) i
  | .largest => srt nconv sigma (fun j => j) (nconv - i - 1)

/-- `SVDGetSingularTriplet(svd,i,&sigma,u,v)` for standard and hyperbolic problems
(src/svd/interface/svdsolve.c:328-352): `none` is an error return, else the value, `u` and `v`. The permuted arguments:
with `M<N` the vector the user calls `u` receives a column of `svd->V`. -/
def getTriplet (OP : Mat 𝕜) (s : Solved 𝕜) (p : ℕ → ℕ) (i : ℤ) : Option (ℝ × (ℕ → 𝕜) × (ℕ → 𝕜)) :=
  if i < 0 then none
  else if (s.nconv : ℤ) ≤ i then none
  else
    let k := p i.toNat
    if OP.r < OP.c then some (s.sigma k, s.V k, s.U k) else some (s.sigma k, s.U k, s.V k)

end Verif.SVD
