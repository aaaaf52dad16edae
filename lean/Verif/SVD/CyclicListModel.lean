import Mathlib.Data.Real.Basic
import Mathlib.Data.List.Basic

/-!
# Lists handled by the cyclic solver: converged eigenvalues and initial vectors
-/
set_option linter.all false

namespace Verif.SVD

/-- `SVDSolve_Cyclic` (src/svd/impls/cyclic/cyclic.c:549-561). `es` are the numbers returned by
`SVDCyclicCheckEigenvalue` for the converged eigenvalues, `invert` is `isgeneralized && which==SVD_SMALLEST`. The result
is the array `svd->sigma[0..nconv)`. -/
noncomputable def cyclicValues (invert : Bool) (ncv : ℕ) (es : List ℝ) : List ℝ :=
  (es.take ncv).foldl (fun acc s => if 0 < s then acc ++ [if invert then 1 / s else s] else acc) []

/-- The loop common to `SVDComputeVectors_Cyclic_Standard`, `_Generalized` and `_Hyperbolic`
(src/svd/impls/cyclic/cyclic.c:579-595, 620-624, 735-739): the index of the eigenpair from which column `j` of the bases
is made. -/
noncomputable def cyclicSources (ncv : ℕ) (es : List ℝ) : List ℕ :=
  (es.take ncv).zipIdx.foldl (fun acc p => if p.1 < 0 then acc else acc ++ [p.2]) []

/-- Ways in which the transfer of initial vectors can go wrong. -/
inductive InitErr
  | size              -- PetscCheck on the size of a vector
  | outOfBounds       -- svd->IS[i] with i not less than the length of the list
  | stackOverwritten  -- PetscArrayzero(&va,k) writes k scalars over the pointer variable va and what follows it
  deriving DecidableEq

/-- Sizes seen by `SVDSetUp_Cyclic`: local rows of `A`, of `B`, local columns, problem and end of the spectrum. -/
structure InitDims where
  generalized : Bool
  smallest : Bool
  m : ℕ
  p : ℕ
  n : ℕ

/-- Size of the upper block (src/svd/impls/cyclic/cyclic.c:481). -/
def InitDims.k (d : InitDims) : ℕ := if d.generalized && d.smallest then d.p else d.m

/-- Size required of a left vector (485-486, 490-491). -/
def InitDims.left (d : InitDims) : ℕ := if d.generalized then d.m + d.p else d.k

/-- Part of the left vector that is copied (487-488, 492). -/
def InitDims.upper {K : Type*} (d : InitDims) (l : List K) : List K :=
  (l.drop (if d.generalized && d.smallest then d.m else 0)).take d.k

/-- One turn of the loop (src/svd/impls/cyclic/cyclic.c:478-505) with the lists `IS` and `ISL` as they are before that
turn; the result is the vector stored in `svd->IS[i]`. Earlier turns replace entries below `i` only, which are not read
again. -/
def initTurn {K : Type*} [Zero K] (d : InitDims) (IS ISL : List (List K)) (i : ℕ) : Except InitErr (List K) :=
  match (match ISL[i]? with
    | some l =>
        if l.length = d.left then
          if i < IS.length then .ok (d.upper l) else .error .outOfBounds   -- VecRestoreArrayRead(svd->IS[i],..) (494)
        else .error .size
    | none => if d.k = 0 then .ok [] else .error .stackOverwritten : Except InitErr (List K)) with
  | .error e => .error e
  | .ok up =>
    match IS[i]? with
    | some r => if r.length = d.n then .ok (up ++ r) else .error .size
    | none => .error .outOfBounds        -- VecDestroy(&svd->IS[i]) (504), after zeroing the lower block

/-- The loop (477-506): list handed to `EPSSetInitialSpace`. -/
def initLoop {K : Type*} [Zero K] (d : InitDims) (IS ISL : List (List K)) : List ℕ → Except InitErr (List (List K))
  | [] => .ok []
  | i :: is =>
    match initTurn d IS ISL i with
    | .error e => .error e
    | .ok v =>
      match initLoop d IS ISL is with
      | .error e => .error e
      | .ok vs => .ok (v :: vs)

/-- `SVDSetUp_Cyclic`, transfer of the initial space (src/svd/impls/cyclic/cyclic.c:476-508). -/
def cyclicInit {K : Type*} [Zero K] (d : InitDims) (IS ISL : List (List K)) : Except InitErr (List (List K)) :=
  initLoop d IS ISL (List.range (max IS.length ISL.length))

end Verif.SVD
