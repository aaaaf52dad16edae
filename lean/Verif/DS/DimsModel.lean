import Mathlib.Data.Int.Basic
import Mathlib.Algebra.BigOperators.Group.Finset.Basic
import Mathlib.Algebra.Star.Basic
/-!
Model of the dimensions and the life-cycle state of the DS object
(src/sys/classes/ds/interface/dsops.c, dsbasic.c and the truncate/update operations of the
implementations).  A call that reports an error is the outcome `none`.  `dbg` is PETSC_USE_DEBUG, which
switches the macros of dsimpl.h:75-110 on.
-/
set_option linter.all false
namespace Verif.DS

/-- `DSStateType`, in increasing order. -/
inductive St | raw | intermediate | condensed | truncated
deriving DecidableEq, Repr

/-- Position in the order of `DSStateType` (include/slepcds.h). -/
def St.rank : St → Nat
  | raw => 0 | intermediate => 1 | condensed => 2 | truncated => 3

/-- Families of types with a different treatment of dimensions: `svd` also stands for HSVD, `std` for
all types with a single dimension. -/
inductive Kind | std | svd | gsvd
deriving DecidableEq, Repr

/-- The dimension arguments `PETSC_DETERMINE`, `PETSC_CURRENT` or a number. -/
inductive Arg | determine | current | val (v : Int)

/-- The fields of `struct _p_DS` (dsimpl.h:44-75) that matter here; `m` is the number of columns of the
SVD and GSVD types (`ctx->m`), `meth` is the method. -/
structure Dims where
  kind : Kind
  ld : Int
  n : Int
  l : Int
  k : Int
  t : Int
  m : Int
  extrarow : Bool
  state : St
  meth : Nat

/-- `DSCreate` followed by the first `DSSetType`, dsbasic.c:117-126. -/
def create (kind : Kind) : Dims :=
  { kind, ld := 0, n := 0, l := 0, k := 0, t := 0, m := 0, extrarow := false, state := .raw, meth := 0 }

/-- `DSReset`, dsbasic.c:931-935 (`ds->t` is not reset). -/
def reset (d : Dims) : Dims := { d with state := .raw, ld := 0, l := 0, n := 0, k := 0 }

/-- `DSAllocate`, dsbasic.c:855-869. -/
def allocate (d : Dims) (ld : Int) : Option Dims :=
  if 0 < ld then (if ld ≠ d.ld then some { reset d with ld := ld } else some d) else none

/-- `DSReallocate`, dsbasic.c:891-906. -/
def reallocate (d : Dims) (ld : Int) : Option Dims :=
  if d.ld ≠ 0 ∧ d.ld < ld then some { d with ld := ld } else none

/-- `DSCheckAlloc`, dsimpl.h:79, 86-89. -/
def checkAlloc (dbg : Bool) (d : Dims) : Bool := !dbg || d.ld != 0

/-- First part of `DSSetDimensions`, dsops.c:144-152. -/
def setN (d : Dims) : Arg → Option Dims
  | .determine => some { d with n := if d.extrarow then d.ld - 1 else d.ld
                                t := if d.extrarow then d.ld - 1 else d.ld }
  | .current => some { d with t := d.n }
  | .val n =>
    if (0 ≤ n ∧ n ≤ d.ld) ∧ (d.extrarow = false ∨ n < d.ld ∨ d.kind ≠ .std) then
      some { d with n := n, t := n } else none

/-- Second part, dsops.c:153-158. -/
def setL (d : Dims) : Arg → Option Dims
  | .determine => some { d with l := 0 }
  | .current => some d
  | .val l => if 0 ≤ l ∧ l ≤ d.n then some { d with l := l } else none

/-- Third part, dsops.c:159-164; the condition is the disjunction written in line 162. -/
def setK (d : Dims) : Arg → Option Dims
  | .determine => some { d with k := d.n / 2 }
  | .current => some d
  | .val k => if k ≥ 0 ∨ k ≤ d.n then some { d with k := k } else none

/-- `DSSetDimensions`, dsops.c:132-167. -/
def setDimensions (dbg : Bool) (d : Dims) (n l k : Arg) : Option Dims :=
  if checkAlloc dbg d then (setN d n).bind fun d => (setL d l).bind fun d => setK d k else none

/-- `DSSetExtraRow`, dsbasic.c:519-527. -/
def setExtraRow (d : Dims) (ext : Bool) : Option Dims :=
  if ext = false ∨ d.n = 0 ∨ d.n ≠ d.ld then some { d with extrarow := ext } else none

/-- `DSSVDSetDimensions`/`DSGSVDSetDimensions` (columns only), dssvd.c `DSSVDSetDimensions_SVD`. -/
def setColumns (d : Dims) (m : Int) : Option Dims :=
  if 1 ≤ m ∧ m ≤ d.ld then some { d with m := m } else none

/-- The dimension changes of the truncate operations: dshep.c:649-661, dsnhep.c:403-415,
dsghiep.c:971-992, dsgnhep.c:624-638, dsnhepts.c:385-397 (`std`), dssvd.c:235-251, dshsvd.c:226-242
(`svd`), dsgsvd.c:291-321 (`gsvd`). -/
def truncDims (d : Dims) (n : Int) (trim : Bool) : Dims :=
  match d.kind with
  | .std =>
    if trim then { d with l := 0, k := 0, n := n, t := n }
    else { d with k := if d.extrarow then n else 0, t := d.n, n := n }
  | .svd =>
    if trim then { d with l := 0, k := 0, n := n, t := n, m := n }
    else { d with k := if d.extrarow then n else 0, t := d.n, n := n, m := n }
  | .gsvd =>
    let n' := if d.n > d.m then n + 1 else n
    if trim then { d with l := 0, k := 0, n := n', t := n', m := n }
    else { d with k := if d.extrarow then n else 0, t := d.n, n := n', m := n }

/-- `DSTruncate`, dsops.c:234-256. -/
def truncate (dbg : Bool) (d : Dims) (n : Int) (trim : Bool) : Option Dims :=
  if checkAlloc dbg d then
    if d.l ≤ n ∧ n ≤ d.n then
      some { truncDims d n trim with state := if trim then .raw else .truncated }
    else none
  else none

/-- `DSUpdateExtraRow`, dsops.c:969-984, with the assignment to `ds->k` of the implementations
(dshep.c:365,374, dsnhep.c:332, dssvd.c:206,216, dsgsvd.c:278). -/
def updateExtraRow (dbg : Bool) (d : Dims) : Option Dims :=
  if checkAlloc dbg d then
    if d.extrarow then
      some { d with k := match d.kind with | .std => d.n | .svd => d.m | .gsvd => d.m } else none
  else none

/-- `DSSetState`, dsops.c:65-82 (valid states only). -/
def setState (d : Dims) (s : St) : Dims := { d with state := s }

/-- The table of solution methods of a type: `none` is a NULL entry.  The array has `DS_MAX_SOLVE`
entries (dsimpl.h:30, 33). -/
def dsMaxSolve : Nat := 6

/-- `DSSetMethod`, dsbasic.c:343-352. -/
def setMethod (d : Dims) (meth : Int) : Option Dims :=
  if 0 ≤ meth then (if meth ≤ dsMaxSolve then some { d with meth := meth.toNat } else none) else none

/-- Outcome of `DSSolve`: an error, an access outside the table of methods, or success with the
information whether the solution method was run. -/
inductive SolveOut | error | outOfBounds | ok (ran : Bool) (d : Dims)

/-- `DSSolve`, dsops.c:728-747; `tab i` says whether entry `i < 6` of the table is not NULL. -/
def solve (dbg : Bool) (tab : Nat → Bool) (d : Dims) : SolveOut :=
  if checkAlloc dbg d then
    if d.state.rank ≥ St.condensed.rank then .ok false d
    else if d.meth < dsMaxSolve then
      (if tab d.meth then .ok true { d with state := .condensed } else .error)
    else .outOfBounds
  else .error

/-- `DSCheckSolved`, dsimpl.h:80, 91-94. -/
def checkSolved (dbg : Bool) (d : Dims) : Bool := !dbg || d.state.rank ≥ St.condensed.rank

/-- Acceptance of `DSSort`, dsops.c:789-794; `sc`: a criterion is set, `k`, `rr`: the optional arguments
are given. -/
def sortAccepted (dbg : Bool) (d : Dims) (sc k rr : Bool) : Bool :=
  checkSolved dbg d && decide (d.state.rank < St.truncated.rank) && sc && (!k || rr)

/-- Acceptance of `DSSortWithPermutation`, dsops.c:836-839. -/
def sortPermAccepted (dbg : Bool) (d : Dims) : Bool :=
  checkSolved dbg d && decide (d.state.rank < St.truncated.rank)

/-- Acceptance of `DSVectors`, dsops.c:942-945; `j`, `rnorm`: the optional arguments are given. -/
def vectorsAccepted (dbg : Bool) (d : Dims) (j rnorm : Bool) : Bool :=
  checkAlloc dbg d && (!rnorm || j)

/-- `DSTranslateHarmonic`, `DSTranslateRKS`: effect on the state, dsops.c:1069, 1113. -/
def translate (dbg : Bool) (d : Dims) : Option Dims :=
  if checkAlloc dbg d then some { d with state := .raw } else none

/-- `DSRestoreMat`, `DSRestoreArray`: only the PETSc object state is increased, dsops.c:700-705; the
life-cycle state stays. -/
def restoreMat (d : Dims) : Dims := d

/-- The calls of a history. -/
inductive Op
  | allocate (ld : Int) | reallocate (ld : Int) | setDimensions (n l k : Arg)
  | setExtraRow (b : Bool) | setColumns (m : Int) | truncate (n : Int) (trim : Bool) | updateExtraRow
  | setState (s : St) | setMethod (m : Int) | solve | translate | modify | reset

/-- One call; a failing call ends the history. -/
def step (dbg : Bool) (tab : Nat → Bool) (d : Dims) : Op → Option Dims
  | .allocate ld => allocate d ld
  | .reallocate ld => reallocate d ld
  | .setDimensions n l k => setDimensions dbg d n l k
  | .setExtraRow b => setExtraRow d b
  | .setColumns m => setColumns d m
  | .truncate n trim => truncate dbg d n trim
  | .updateExtraRow => updateExtraRow dbg d
  | .setState s => some (setState d s)
  | .setMethod m => setMethod d m
  | .solve => match solve dbg tab d with
    | .ok _ d' => some d'
    | _ => none
  | .translate => translate dbg d
  | .modify => some (restoreMat d)
  | .reset => some (reset d)

/-- A history of calls. -/
def run (dbg : Bool) (tab : Nat → Bool) : Dims → List Op → Option Dims
  | d, [] => some d
  | d, o :: os => (step dbg tab d o).bind fun d' => run dbg tab d' os

/-- `DSGetTruncateSize`, dsops.c:375-385, with `DSGetTruncateSize_Default`, dsops.c:331-346 (real
scalars): `sub j` says whether the entry `(j,j-1)` of the matrix is nonzero (either of two matrices for
NHEPTS, dsnhepts.c:349-367, of the tridiagonal for GHIEP, dsghiep.c:936-948). -/
def getTruncateSize (cplx : Bool) (d : Dims) (sub : Int → Bool) (l n k : Int) : Int :=
  let l' := if l ≠ 0 then l else d.l
  let n' := if n ≠ 0 then n else d.n
  if cplx then k
  else if sub (l' + k) then (if l' + k < n' - 1 then k + 1 else k - 1) else k

section
variable {α : Type}

/-- The change of the matrix `A` (entry `A r c`) by the truncate operation of NHEP without trimming,
dsnhep.c:408-412 (same code in dshep.c:654-658, dsghiep.c:976-982, dsgnhep.c:629-635 and
dsnhepts.c:390-394; `l`, `n`, `k` are the current dimensions and `n1` the new one). -/
def truncMat [Zero α] (extrarow : Bool) (l n k n1 : Int) (A : Int → Int → α) : Int → Int → α :=
  if extrarow = true ∧ k = n then
    let A1 : Int → Int → α := fun r c => if r = n1 ∧ l ≤ c ∧ c < n1 then A n c else A r c
    fun r c => if r = n ∧ l ≤ c ∧ c < n then 0 else A1 r c
  else A

/-- The check of a broken 2x2 block in debug mode, dsnhep.c:397: `sub j` is `A[j,j-1] != 0`. -/
def truncCheckNHEP (st : St) (sub : Nat → Bool) (n n1 : Nat) : Bool :=
  decide (st.rank < St.condensed.rank) || n1 == 0 || n1 == n || !sub n1

/-- The same check for two-sided problems, dsnhepts.c:379, with the disjunction of the source. -/
def truncCheckNHEPTS (st : St) (subA subB : Nat → Bool) (n n1 : Nat) : Bool :=
  decide (st.rank < St.condensed.rank) || n1 == 0 || n1 == n || !subA n1 || !subB n1

end

section
variable {K : Type} [CommSemiring K] [StarRing K]
open Finset

/-- `DSUpdateExtraRow_NHEP`, dsnhep.c:327-329 (also the dense case of dshep.c:371-373): `row` is the
extra row, `Q` the `n x n` orthogonal matrix; `BLASgemv_("C",...)` is the product with the conjugate
transpose. -/
def updateRow (n : Nat) (Q : Nat → Nat → K) (row : Nat → K) : Nat → K := fun i =>
  star (∑ j ∈ range n, star (Q j i) * star (row j))

/-- `DSUpdateExtraRow_HEP`, compact storage, dshep.c:361-363. -/
def updateRowCompact (n : Nat) (Q : Nat → Nat → K) (e : Nat → K) : Nat → K := fun i =>
  if i < n then e (n - 1) * Q (n - 1) i else e i

end

end Verif.DS
