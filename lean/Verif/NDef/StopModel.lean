import Mathlib.Tactic

/-!
# Outer loops of NEPRII, NEPSLP (one-sided) and NEPNARNOLDI

Only the decisions: the outcomes of convergence tests, inner solves and orthogonalizations are given by events (one per pass of the loop).
-/

set_option linter.all false

namespace Verif.NDef.Stop

/-- `NEPConvergedReason` (slepcnep.h) without the user reason -/
inductive Reason | iterating | tol | its | linear | breakdown | exhausted
  deriving DecidableEq

/-- outcomes of one pass: the pair is accepted, the linear (inner eigen-) solve fails, the orthogonalization breaks down -/
structure Ev where
  lock : Bool
  fail : Bool
  brk : Bool

/-- `done` is `nep->its`, `cur` the local counter of NEPRII (zero in the others), `n` the dimension of the subspace of NEPNARNOLDI; `passes` counts the passes of the
    loop and is not part of the code -/
structure St where
  done : ℤ
  cur : ℤ
  nconv : ℕ
  n : ℕ
  reason : Reason
  passes : ℕ

/-- parameters -/
structure Par where
  nev : ℕ
  maxIt : ℤ
  ncv : ℕ

/-- `NEPStoppingBasic` (nepdefault.c:169-181) -/
def stopping (P : Par) (its : ℤ) (nconv : ℕ) : Reason :=
  if nconv ≥ P.nev then .tol else if its ≥ P.maxIt then .its else .iterating

/-- a pass of the loop of `NEPSolve_RII` (rii.c:93-189) -/
def stepRII (P : Par) (e : Ev) (s : St) : St :=
  let cur := s.cur + 1
  if cur > 1 ∧ e.lock = true then
    let nconv := s.nconv + 1
    let done := s.done + cur
    let r := stopping P (done + cur) nconv
    { s with done, nconv, reason := r, cur := if r = .iterating then -1 else cur, passes := s.passes + 1 }
  else
    let r := stopping P (s.done + cur) s.nconv
    { s with cur, reason := if r = .iterating ∧ e.fail = true then .linear else r, passes := s.passes + 1 }

/-- a pass of the loop of `NEPSolve_SLP` (slp.c:169-232) -/
def stepSLP (P : Par) (e : Ev) (s : St) : St :=
  let its := s.done + 1
  if e.lock = true then
    let nconv := s.nconv + 1
    let r := stopping P its nconv
    { s with done := if r = .iterating then its - 1 else its, nconv, reason := r, passes := s.passes + 1 }
  else
    let r := stopping P its s.nconv
    { s with done := its, reason := if r = .iterating ∧ e.fail = true then .linear else r, passes := s.passes + 1 }

/-- a pass of the loop of `NEPSolve_NArnoldi` (narnoldi.c:107-188) -/
def stepNA (P : Par) (e : Ev) (s : St) : St :=
  let its := s.done + 1
  if e.lock = true then
    let nconv := s.nconv + 1
    let r := stopping P its nconv
    if r = .iterating then { s with done := its - 1, nconv, reason := r, n := 1, passes := s.passes + 1 }
    else { s with done := its, nconv, reason := r, passes := s.passes + 1 }
  else
    let r := stopping P its s.nconv
    if r = .iterating then
      if s.n ≥ P.ncv then { s with done := its, reason := .exhausted, passes := s.passes + 1 }
      else if e.fail = true then { s with done := its, reason := .linear, passes := s.passes + 1 }
      else if e.brk = true then { s with done := its, reason := .breakdown, passes := s.passes + 1 }
      else { s with done := its, n := s.n + 1, reason := r, passes := s.passes + 1 }
    else { s with done := its, reason := r, passes := s.passes + 1 }

/-- the solvers -/
inductive Solver | rii | slp | na

/-- their passes -/
def step : Solver → Par → Ev → St → St
  | .rii => stepRII
  | .slp => stepSLP
  | .na => stepNA

/-- state before the loop with `n` initial vectors -/
def init (n : ℕ) : St := ⟨0, 0, 0, n, .iterating, 0⟩

/-- the loop over given events; it ends when the reason is set -/
def loop (S : Solver) (P : Par) : List Ev → St → St
  | [], s => s
  | e :: es, s => if s.reason = .iterating then loop S P es (step S P e s) else s

/-- result of `NEPSolve` -/
inductive Res
  /-- error return -/
  | error
  /-- normal return with this reason and number of eigenpairs -/
  | ok (r : Reason) (nconv : ℕ)
  deriving DecidableEq

/-- the end of the solvers (rii.c:190-198, slp.c:233-241, narnoldi.c:190-198): the matrix of `NEPDeflationGetInvariantPair` (nepdefl.c:15-21) has `szd+1 = nev` rows (nepdefl.c:714),
    `DSGetMat` requires positive dimensions (dsops.c:431) and the `MatCopy` equal sizes -/
def finish (P : Par) (s : St) : Res :=
  let rowsH := (P.nev - 1) + 1
  if s.nconv = 0 then .error
  else if rowsH ≠ s.nconv then .error
  else .ok s.reason s.nconv

end Verif.NDef.Stop
