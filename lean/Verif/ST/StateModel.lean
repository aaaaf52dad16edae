import Mathlib.Algebra.Field.Basic
/-!
# State machine of the ST object (linear problems, `ST_MATMODE_COPY`)

What is tracked is *from which data* the matrices used by `STApply` were built.  Matrix contents are
an arbitrary type `Mx`.  Numerical work is abstracted: the "built" record stands for the matrices
`P` and `M` (see `BackModel.lean` for their values).  `none` is a PETSc error.
-/
set_option linter.all false
namespace Verif.ST.State
variable {Mx K : Type}

/-- `STStateType`, `include/slepc/private/stimpl.h`. -/
inductive Stage
  | initial | setup | updated
deriving DecidableEq, Repr

/-- ST types modelled here. -/
inductive Kind
  | shift | sinvert | cayley
deriving DecidableEq, Repr

/-- The data from which the matrices currently used by `STApply` were computed. -/
structure Built (Mx K : Type) where
  kind : Kind
  mats : Mx
  sigma : K
  /-- antishift used in the numerator (Cayley only; 0 otherwise) -/
  nu : K
deriving DecidableEq

/-- Content of the internal pointers `st->P`, `st->M`. -/
inductive Ptr (Mx K : Type)
  | absent                       -- never computed
  | dangling                     -- points to destroyed matrices (undefined behaviour if used)
  | val (b : Built Mx K)
deriving DecidableEq

/-- The fields of `struct _p_ST` that matter (`include/slepc/private/stimpl.h`). -/
structure St (Mx K : Type) where
  kind : Kind
  mats : Option Mx
  stage : Stage
  transform : Bool
  opready : Bool
  seized : Bool
  opCreated : Bool
  sigma : K
  sigmaSet : Bool
  defsigma : K
  nu : K
  nuSet : Bool
  ptr : Ptr Mx K

/-- API calls.  `setMatrices m same` : `same` tells whether the handles are those already stored
(only then the contents may differ in place).  `invalidate` stands for `STSetBalanceMatrix`,
`STSetPreconditionerMat`, `STSetMatMode`, `STSetStructured` with a changed value. -/
inductive Call (Mx K : Type)
  | setMatrices (m : Mx) (same : Bool)
  | setShift (s : K)
  | setDefaultShift (s : K)
  | setAntishift (s : K)
  | scaleShift (f : K)
  | setType (k : Kind)
  | invalidate
  | setSplit
  | setTransform (b : Bool)
  | setUp
  | getOperator
  | restoreOperator
  | apply

section
variable [Field K] [DecidableEq K]

/-- `STCreate` (stfunc.c:163-214) followed by `STSetType`. -/
def create (k : Kind) : St Mx K :=
  { kind := k, mats := none, stage := .initial, transform := false, opready := false,
    seized := false, opCreated := false, sigma := 0, sigmaSet := false, defsigma := 0,
    nu := 0, nuSet := false, ptr := .absent }

/-- Default shift / antishift taken at the start of `STComputeOperator_Sinvert` (sinvert.c:96) and
`STComputeOperator_Cayley` (cayley.c:139-141). -/
def takeDefaults (s : St Mx K) : St Mx K :=
  match s.kind with
  | .shift => s
  | .sinvert => if s.sigmaSet then s else { s with sigma := s.defsigma }
  | .cayley =>
    let s := if s.sigmaSet then s else { s with sigma := s.defsigma }
    if s.nuSet then s else { s with nu := s.sigma }

/-- `STComputeOperator` (stsolve.c:465-493) with the type-specific part (shift.c:133-151,
sinvert.c:92-109, cayley.c:132-163). -/
def computeOperator (s : St Mx K) : Option (St Mx K) :=
  if s.opready then some s
  else
    match s.mats with
    | none => none
    | some m =>
      let s := takeDefaults s
      if s.kind = .cayley ∧ ((s.nu = 0 ∧ s.sigma = 0) ∨ s.nu = - s.sigma) then none
      else some { s with
        opready := true
        ptr := .val ⟨s.kind, m, s.sigma, if s.kind = .cayley then s.nu else 0⟩ }

/-- stsolve.c:527-534: `STSetUp` destroys the previous matrices unless they are to be reused. -/
def dropOld (s : St Mx K) : St Mx K :=
  if s.stage ≠ .updated ∧ s.opready = false then
    { s with ptr := match s.ptr with
        | .absent => .absent
        | _ => .dangling }
  else s

/-- `STSetUp_Sinvert` takes the default shift (sinvert.c:126). -/
def typeSetUp (s : St Mx K) : St Mx K :=
  if s.kind = .sinvert ∧ s.sigmaSet = false then { s with sigma := s.defsigma } else s

/-- `STSetUp` (stsolve.c:507-549). -/
def setUp (s : St Mx K) : Option (St Mx K) :=
  if s.mats.isNone then none
  else if s.stage = .setup then some s
  else
    (if s.transform then computeOperator (dropOld s) else some (dropOld s)).map fun s2 =>
      { typeSetUp s2 with stage := .setup }

/-- `STReset` (stfunc.c:102-124). -/
def reset (s : St Mx K) : St Mx K :=
  { s with ptr := .absent, opCreated := false, stage := .initial, opready := false }

/-- `STSetMatrices` (stfunc.c:275-320). -/
def setMatrices (m : Mx) (sameHandles : Bool) (s : St Mx K) : Option (St Mx K) :=
  if s.seized then none
  else if s.stage = .initial then
    some { s with mats := some m, stage := .initial, opready := false }
  else if sameHandles then
    some { s with mats := some m, stage := .updated, opready := false }
  else
    some { reset s with mats := some m }

/-- Type-specific `setshift`, called when the object is set up: `STSetShift_Shift` (shift.c:202-220),
`STSetShift_Sinvert` (sinvert.c:196-225), `STSetShift_Cayley` (cayley.c:174-198). -/
def typeSetShift (new : K) (s : St Mx K) : Option (St Mx K) :=
  match s.kind with
  | .cayley =>
    if new = 0 ∧ ¬ (s.nuSet = true ∧ s.nu ≠ 0) then none
    else if s.nu = - new then none
    else
      match s.ptr with
      | .val b =>
        if s.nuSet then some { s with ptr := .val { b with sigma := new } }
        else some { s with nu := new, ptr := .val { b with sigma := new, nu := new } }
      | p => some (if s.nuSet then s else { s with nu := new })
  | _ =>
    if s.transform then
      match s.ptr with
      | .val b => some { s with ptr := .val { b with sigma := new } }
      | p => some s
    else some s

/-- `STSetShift` (stfunc.c:661-674). -/
def setShift (new : K) (s : St Mx K) : Option (St Mx K) :=
  if s.sigma ≠ new then
    if s.seized then none
    else
      match (if s.stage = .setup then typeSetShift new s else some s) with
      | none => none
      | some s => some { s with sigma := new, sigmaSet := true }
  else some { s with sigmaSet := true }

/-- `STSetDefaultShift` (stfunc.c:714-725). -/
def setDefaultShift (new : K) (s : St Mx K) : St Mx K :=
  if s.defsigma ≠ new then { s with defsigma := new, stage := .initial, opready := false } else s

/-- `STCayleySetAntishift_Cayley` (cayley.c:216-228).  Line 223 rebuilds `T[0]` when the state is not
initial.  With `STMatMAXPY_Private` in copy mode (stsolve.c:606-617) the handle `T[0]` survives only
if neither the old nor the new value is zero; `st->M`, an alias of the *old* handle, is not refreshed:
from a zero antishift `M` keeps pointing at the unmodified `A`; to a zero antishift it is left pointing
to a destroyed matrix. For other types the call is ignored (`PetscTryMethod`). -/
def setAntishift (new : K) (s : St Mx K) : Option (St Mx K) :=
  if s.kind ≠ .cayley then some s
  else if s.nu ≠ new then
    if s.seized then none
    else
      let ptr :=
        if s.stage = .initial then s.ptr
        else
          match s.ptr with
          | .val b => if s.nu = 0 then .val b else if new = 0 then .dangling else .val { b with nu := new }
          | p => p
      some { s with ptr := ptr, nu := new, nuSet := true }
  else some { s with nuSet := true }

/-- `STSetType` (stset.c:41-65). -/
def setType (k : Kind) (s : St Mx K) : Option (St Mx K) :=
  if s.kind = k then some s
  else if s.seized then none
  else some { s with kind := k, stage := .initial, opready := false, nu := 0, nuSet := false }

/-- `STGetOperator_Private` (stsolve.c:324-359). -/
def getOperatorPrivate (s : St Mx K) : Option (St Mx K) :=
  if s.mats.isNone then none
  else if s.opCreated then some s
  else computeOperator { s with opCreated := true }

/-- One API call. -/
def step (s : St Mx K) : Call Mx K → Option (St Mx K)
  | .setMatrices m same => setMatrices m same s
  | .setShift x => setShift x s
  | .setDefaultShift x => some (setDefaultShift x s)
  | .setAntishift x => setAntishift x s
  | .scaleShift f => some { s with sigma := s.sigma * f }          -- stfunc.c:744-751
  | .setType k => setType k s
  | .invalidate => -- stfunc.c:467-484,773-789, stset.c:259-271
    if s.seized then none else some { s with stage := .initial, opready := false }
  | .setSplit => -- stfunc.c:546-584: the state is reset but not `opready`
    if s.seized then none else some { s with stage := .initial }
  | .setTransform b => -- stset.c:321-332
    some (if s.transform ≠ b then { s with transform := b, stage := .initial, opready := false } else s)
  | .setUp => setUp s
  | .getOperator => -- stsolve.c:405-416
    if s.mats.isNone ∨ s.seized then none
    else (getOperatorPrivate s).map fun s => { s with seized := true }
  | .restoreOperator => -- stsolve.c:434-444
    if s.seized then some { s with seized := false } else none
  | .apply => -- STApply (45-60) and MatMult_STOperator (244-259)
    (getOperatorPrivate s).bind setUp

/-- A history of calls; stops at the first error. -/
def run : St Mx K → List (Call Mx K) → Option (St Mx K)
  | s, [] => some s
  | s, c :: cs => (step s c).bind fun s => run s cs

/-- The matrices used by a call of `STApply` made in state `s` and the state afterwards. -/
def applied (s : St Mx K) : Option (Ptr Mx K × St Mx K) :=
  (step s .apply).map fun s' => (s'.ptr, s')

end
end Verif.ST.State
