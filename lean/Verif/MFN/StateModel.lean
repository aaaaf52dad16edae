import Mathlib.Data.List.Basic
import Mathlib.Data.List.Induction
/-!
Model of the state of a matrix function solver between calls (src/mfn/interface/mfnsetup.c, mfnsolve.c, mfnbasic.c, mfnopts.c
and `MFNSetUp_Expokit`).

Matrices and functions are abstract objects; `size` is the number of rows of a matrix, `isexp` tells whether a function is of
type FNEXP. A call either fails or, in the case of the solves, runs a solver with an operator and a function. Contents of
the vectors and the numerical work are in the other models of this area.
-/
set_option linter.all false
namespace Verif.MFN.State

/-- Solver types: MFNKRYLOV, MFNEXPOKIT. -/
inductive Ty | krylov | expokit
deriving DecidableEq

/-- The operator that a solver multiplies by. -/
inductive Op (M : Type) | plain (A : M) | transp (A : M)

/-- Fields of `struct _p_MFN` (mfnimpl.h): `type_name`, `fn`, `A`, `AT` (given by the matrix it is the transpose of), `V` (given by
its number of rows), `setupcalled`. -/
structure St (M F : Type) where
  ty : Option Ty
  fn : Option F
  A : Option M
  AT : Option M
  vrows : Option Nat
  setup : Bool

/-- What a solve does: fail, or run a solver on an operator with a function. -/
inductive Out (M F : Type) | error | ran (ty : Ty) (op : Op M) (fn : F)

/-- The environment: sizes, function types, and the function that `MFNGetFN` and `FNSetFromOptions` create. -/
structure Env (M F : Type) where
  size : M → Nat
  isexp : F → Bool
  dflt : F

variable {M F : Type}

/-- `MFNCreate`, mfnbasic.c:200-232. -/
def create : St M F := ⟨none, none, none, none, none, false⟩

/-- `MFNSetType`, mfnbasic.c:261-283. -/
def setType (s : St M F) (t : Ty) : St M F := if s.ty = some t then s else { s with ty := some t, setup := false }

/-- `MFNSetFN`, mfnbasic.c:530-540. -/
def setFN (s : St M F) (f : F) : St M F := { s with fn := some f }

/-- `MFNSetDimensions`, mfnopts.c:252-267 (and `MFNSetTolerances` with PETSC_DETERMINE). -/
def setDims (s : St M F) : St M F := { s with setup := false }

/-- `MFNReset`, mfnbasic.c:410-422 (the solvers have no `reset` method). -/
def reset (s : St M F) : St M F := { s with A := none, vrows := none, setup := false }

/-- `MFNSetOperator`, mfnsetup.c:85-102, for a square matrix. -/
def setOperator (s : St M F) (A : M) : St M F :=
  let s1 := if s.setup then reset s else { s with A := none }
  { s1 with A := some A, setup := false }

/-- `MFNSetUp`, mfnsetup.c:34-66, with `MFNAllocateSolution` (147-167) and the check of `MFNSetUp_Expokit`
(mfnexpokit.c:28-42); `none` is an error. The state after an error is not modelled. -/
def setUp (e : Env M F) (s : St M F) : Option (St M F) :=
  if s.setup then some s
  else
    let ty := s.ty.getD .krylov
    let fn := s.fn.getD e.dflt
    match s.A with
    | none => none
    | some A =>
      let vrows := match s.vrows with
        | none => e.size A
        | some r => r
      if ty = .expokit ∧ e.isexp fn = false then none
      else some { s with ty := some ty, fn := some fn, vrows := some vrows, setup := true }

/-- `MFNSolve_Private`, mfnsolve.c:16-49: the solver inserts the right-hand side in the first column of `V`, which
fails if the sizes differ. -/
def solvePrivate (e : Env M F) (s : St M F) (op : St M F → Option (Op M)) : Option (St M F) × Out M F :=
  match setUp e s with
  | none => (none, .error)
  | some s' =>
    match s'.A, op s', s'.ty, s'.fn with
    | some A, some o, some ty, some fn => if s'.vrows = some (e.size A) then (some s', .ran ty o fn) else (none, .error)
    | _, _, _, _ => (none, .error)

/-- `MFNSolve`, mfnsolve.c:87-98. -/
def solve (e : Env M F) (s : St M F) : Option (St M F) × Out M F := solvePrivate e s (fun s => s.A.map Op.plain)

/-- `MFNSolveTranspose`, mfnsolve.c:130-142. -/
def solveT (e : Env M F) (s : St M F) : Option (St M F) × Out M F :=
  match s.AT with
  | some _ => solvePrivate e s (fun s => s.AT.map Op.transp)
  | none =>
    match s.A with
    | none => (none, .error)
    | some A => solvePrivate e { s with AT := some A } (fun s => s.AT.map Op.transp)

/-- Calls that a user makes. -/
inductive Call (M F : Type) | setType (t : Ty) | setFN (f : F) | setDims | reset | setOperator (A : M) | solve | solveT

/-- One call; `none` after a failed one (the program stops at the first error). -/
def step (e : Env M F) (s : St M F) : Call M F → Option (St M F) × Option (Out M F)
  | .setType t => (some (setType s t), none)
  | .setFN f => (some (setFN s f), none)
  | .setDims => (some (setDims s), none)
  | .reset => (some (reset s), none)
  | .setOperator A => (some (setOperator s A), none)
  | .solve => ((solve e s).1, some (solve e s).2)
  | .solveT => ((solveT e s).1, some (solveT e s).2)

/-- A sequence of calls from `MFNCreate`, most recent first. -/
def run (e : Env M F) : List (Call M F) → Option (St M F)
  | [] => some create
  | c :: h => (run e h).bind fun s => (step e s c).1

end Verif.MFN.State
