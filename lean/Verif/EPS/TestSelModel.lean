import Mathlib.Data.List.Basic
/-!
Model of the functions that select convergence and stopping tests:
src/eps/interface/epsopts.c:762-818 and 868-921, src/pep/interface/pepopts.c:751-807 and 857-907,
src/nep/interface/nepopts.c:663-719 and 769-819, src/svd/interface/svdopts.c:442-504 and 554-607.
The eight pairs of functions have one of two shapes.

Functions are identified by numbers; the predefined ones are those of the kinds the class offers.  A context
is a number; it comes with a destructor or without one.
-/
set_option linter.all false
namespace Verif.TestSel

/-- A test function: predefined number `k` of the class (relative, absolute, basic, ...), or one of the
user's. -/
inductive TestFn | pre (k : Nat) | usr (i : Nat)
deriving DecidableEq, Repr

/-- The values of the enumerations EPSConv, EPSStop etc. -/
inductive Kind | pre (k : Nat) | user
deriving DecidableEq, Repr

/-- A context together with its destructor, if any. -/
structure Ctx where
  id : Nat
  destroy : Bool
deriving DecidableEq, Repr

/-- The members of the solver: `conv` (`none` is the initial value -1 of SVD, svdbasic.c:69), `converged` (the
function that is called; `none` is NULL), `convergeduser`, the context with its destructor, and
the contexts that have been handed to their destructor so far (a ghost). -/
structure St where
  kind : Option Kind
  fn : Option TestFn
  user : Option TestFn
  ctx : Option Ctx
  destroyed : List Nat
deriving DecidableEq, Repr

/-- What the class does when `SetTestFunction` is given a predefined function: `true` if it goes through
`SetTest` (EPS and SVD stopping tests: epsopts.c:876-877, svdopts.c:562-563), `false` if it only
stores the kind (all convergence tests: epsopts.c:770-772, pepopts.c:759-761, nepopts.c:671-673,
svdopts.c:450-453; PEP and NEP stopping tests: pepopts.c:865, nepopts.c:777). -/
abbrev Shape := Bool

/-- `EPSSetConvergenceTest` (epsopts.c:800-818) and its seven relatives. `none` is the error. -/
def setTest (s : St) : Kind → Option St
  | .pre k => some { s with fn := some (.pre k), kind := some (.pre k) }
  | .user => match s.user with
    | none => none
    | some f => some { s with fn := some f, kind := some .user }

/-- The destructor call at the start, e.g. epsopts.c:766. -/
def release (s : St) : St :=
  match s.ctx with
  | some c => if c.destroy then { s with destroyed := c.id :: s.destroyed } else s
  | none => s

/-- `EPSSetConvergenceTestFunction` (epsopts.c:762-778) and its seven relatives. -/
def setTestFunction (shape : Shape) (s : St) (f : TestFn) (c : Ctx) : St :=
  let s1 := { release s with user := some f, ctx := some c }
  match f with
  | .pre k =>
    if shape then (setTest s1 (.pre k)).getD s1
    else { s1 with kind := some (.pre k) }
  | .usr i => { s1 with kind := some .user, fn := some (.usr i) }

/-- The destructor call when the object is destroyed (epsbasic.c:361-362, pepbasic.c:356-357, nepbasic.c:371-372,
svdbasic.c:185-186). -/
def destroyObj (s : St) : St := release s

/-- `EPSSetType(eps,EPSPOWER)` replaces the stopping test (power.c:1296) by its own, here number `k`, leaving
`stop` as it is. -/
def setTypePower (k : Nat) (s : St) : St := { s with fn := some (.pre k) }

/-- Set-up of SVD chooses the default convergence test if none was selected (svdsetup.c:359). -/
def svdDefault (k : Nat) (s : St) : St :=
  match s.kind with
  | none => (setTest s (.pre k)).getD s
  | some _ => s

/-- Calls of the user. -/
inductive Op
  | byName (k : Kind)
  | byFunction (f : TestFn) (c : Ctx)
deriving DecidableEq, Repr

/-- One call; a call that ends in an error leaves the object as it was. -/
def step (shape : Shape) (s : St) : Op → St
  | .byName k => (setTest s k).getD s
  | .byFunction f c => setTestFunction shape s f c

/-- A sequence of calls. -/
def run (shape : Shape) : St → List Op → St
  | s, [] => s
  | s, o :: os => run shape (step shape s o) os

/-- State after creation, for the predefined test `k` (epsbasic.c:82-90, pepbasic.c:82-88, nepbasic.c:80-86; for
the stopping test also svdbasic.c:79). -/
def init (k : Nat) : St := ⟨some (.pre k), some (.pre k), none, none, []⟩

/-- Convergence test of a new SVD (svdbasic.c:69-82). -/
def initSVD : St := ⟨none, none, none, none, []⟩

end Verif.TestSel
