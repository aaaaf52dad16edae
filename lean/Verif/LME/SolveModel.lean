import Verif.LME.KrylovModel
/-!
Model of `LMESolve` for Lyapunov equations, src/lme/interface/lmesolve.c:50-82 and `LMESolve_Krylov_Lyapunov`,
src/lme/impls/krylov/lmekrylov.c:160-197.

A MatLRC with a single dense matrix is the list of the columns of the matrix.  The solution for one right-hand side vector is a parameter
`one rrank totalits b` (in the theorems, `lyapVec`).  A call with a null BV is the outcome `none` (an error).
-/
set_option linter.all false
namespace Verif.LME
variable {E : Type} [AddCommMonoid E]

/-- `LMEConvergedReason`, include/slepclme.h: the values that are used here. -/
inductive Reason where
  | iterating
  | convergedTol
  | divergedIts
deriving DecidableEq

/-- Variables of the loop: `X1`, `col`, `lme->its`, `lme->errest` and `fail`. -/
structure Run (E : Type) where
  X1 : Option (List E)
  col : Nat
  its : Nat
  errest : ℝ
  fail : Bool

/-- The allocation of the columns for one right-hand side, lmekrylov.c:133-137; the new columns are zero. -/
def alloc (fixed : Bool) (X1 : Option (List E)) (col rank : Nat) : List E :=
  if fixed = true then X1.getD []
  else if col = 0 then List.replicate rank 0
  else ((X1.getD []) ++ List.replicate (col + rank) 0).take (col + rank)

/-- Columns `col..col+rank-1` of `X1` are updated by `BVMult(X1,1.0,1.0,V,Q)`, lmekrylov.c:103-104, to which the second pass adds the
columns of `Z` altogether. -/
def addCols (X : List E) (col rank : Nat) (Z : Nat → E) : List E :=
  X.mapIdx fun j x => if col ≤ j ∧ j < col + rank then x + Z (j - col) else x

/-- One iteration of the loop of lmekrylov.c:180-188. -/
def stepC (one : Option Nat → Nat → E → VecOut E) (rrank : Option Nat) (s : Run E) (b : E) : Option (Run E) :=
  match one rrank s.its b with
  | .zeroRhs => none
  | .error => none
  | .fail i => some { s with its := i, fail := true }
  | .done rk nouter e Z =>
    some { X1 := some (addCols (alloc rrank.isSome s.X1 s.col rk) s.col rk Z), col := s.col + rk, its := s.its + nouter,
           errest := s.errest + e, fail := false }

/-- The loop of lmekrylov.c:180-188, left when a vector fails. -/
def loopC (one : Option Nat → Nat → E → VecOut E) (rrank : Option Nat) : List E → Run E → Option (Run E)
  | [], s => some s
  | b :: bs, s =>
    match stepC one rrank s b with
    | none => none
    | some t => if t.fail = true then some t else loopC one rrank bs t

/-- What `LMESolve` leaves: converged reason, iteration number, error estimate and the columns of the solution. -/
structure Solved (E : Type) where
  reason : Reason
  its : Nat
  errest : ℝ
  X : List E

/-- `LMESolve`, lmesolve.c:50-82, with `LMESolve_Krylov_Lyapunov`, lmekrylov.c:160-197: `X` is `lme->X`, given by the user or left by a previous call;
`none` for an error, `lme->errorifnotconverged` is false. -/
def solve (one : Option Nat → Nat → E → VecOut E) (C : List E) (X : Option (List E)) : Option (Solved E) :=
  if C = [] ∧ X ≠ none then none
  else
    let rrank := X.map fun x => x.length / C.length
    match loopC one rrank C ⟨X, 0, 0, 0, false⟩ with
    | none => none
    | some s =>
      match s.X1 with
      | none => none
      | some x => some ⟨if s.fail = true then .divergedIts else .convergedTol, s.its, s.errest, x⟩

end Verif.LME
