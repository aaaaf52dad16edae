import Mathlib.Algebra.Module.Basic
/-!
# `ST_MATMODE_INPLACE`: the user's matrix A is overwritten with `A - sigma B`

The content of `A[0]` is an element `a` of a `K`-module; `b` is the content of `A[1]` (identity when
`nmat=1`).  Same three types (their `postsolve` are identical).
-/
set_option linter.all false
namespace Verif.ST.Inplace
variable {K V : Type} [Field K] [DecidableEq K] [AddCommGroup V] [Module K V]

inductive Stage
  | initial | setup | updated
deriving DecidableEq

structure St (K V : Type) where
  a : V
  b : V
  stage : Stage
  opready : Bool
  sigma : K

/-- API calls: `newContents v` is the user overwriting the matrix and calling `STSetMatrices` with the
same handles; `invalidate` is any setter that puts the state back to initial and clears `opready`
(`STSetDefaultShift`, `STSetBalanceMatrix`, ...). -/
inductive Call (K V : Type)
  | setUp
  | setShift (s : K)
  | postSolve
  | newContents (v : V)
  | invalidate

/-- In-place branch of `STMatMAXPY_Private` (stsolve.c:573-585). -/
def maxpyInplace (alpha beta : K) (initial : Bool) (s : St K V) : St K V :=
  let gamma := if initial then alpha else alpha - beta
  if gamma ≠ 0 then { s with a := s.a + gamma • s.b } else s

/-- One call: `STSetUp` (stsolve.c:507-549) with `STComputeOperator_*` (shift.c:140, sinvert.c:100,
cayley.c:155), `STSetShift` (stfunc.c:661-674) with `STSetShift_*` (shift.c:215, sinvert.c:209,
cayley.c:186), `STPostSolve_*` (shift.c:114-125, sinvert.c:73-84, cayley.c:113-124),
`STSetMatrices` (stfunc.c:275-320). -/
def step (s : St K V) : Call K V → St K V
  | .setUp =>
    if s.stage = .setup then s
    else if s.opready then { s with stage := .setup }
    else
      let s1 := maxpyInplace (- s.sigma) 0 (decide (s.stage ≠ .updated)) s
      { s1 with opready := true, stage := .setup }
  | .setShift x =>
    if s.sigma ≠ x then
      let s1 := if s.stage = .setup then maxpyInplace (- x) (- s.sigma) false s else s
      { s1 with sigma := x }
    else s
  | .postSolve => { s with a := s.a + s.sigma • s.b, stage := .initial, opready := false }
  | .newContents v =>
    { s with a := v, stage := if s.stage = .initial then .initial else .updated, opready := false }
  | .invalidate => { s with stage := .initial, opready := false }

def run (s : St K V) (cs : List (Call K V)) : St K V := cs.foldl step s

/-- Fresh object on a matrix with content `a`. -/
def fresh (a b : V) (sigma : K) : St K V := ⟨a, b, .initial, false, sigma⟩
end Verif.ST.Inplace
