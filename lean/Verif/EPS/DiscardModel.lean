import Mathlib.Data.Real.Basic
import Mathlib.Logic.Equiv.Basic

/-!
# Discarding eigenvalues outside the interval (polynomial filters)

`EPSComputeValues` for a non-injective transformation: the eigenvalues are recomputed as Rayleigh quotients and
sorted, and those outside the wanted interval are moved to the end of the permutation.
-/
set_option linter.all false

namespace Verif.EPS

/-- `SlepcSwap(perm[i],perm[j],aux)`. -/
def swapAt (q : Nat → Nat) (i j : Nat) : Nat → Nat := fun k => if k = i then q j else if k = j then q i else q k

/-- The loop of src/eps/interface/epssolve.c:71-76: `out (perm[i])` is the test of line 72, `nc` is `eps->nconv`.
The `i--` of line 74 undoes the increment. -/
def discardLoop (out : Nat → Bool) (i nc : Nat) (q : Nat → Nat) : Nat × (Nat → Nat) :=
  if h : i < nc then
    if out (q i) then
      if i < nc - 1 then discardLoop out i (nc - 1) (swapAt q i (nc - 1))
      else discardLoop out (i + 1) (nc - 1) q
    else discardLoop out (i + 1) nc q
  else (nc, q)
termination_by nc - i

/-- The whole step; the permutation is the identity at this point (src/eps/interface/epssolve.c:143-144). -/
def discard (out : Nat → Bool) (nconv : Nat) : Nat × (Nat → Nat) := discardLoop out 0 nconv id

/-- What the solver object holds: number of converged pairs, values, vectors, error estimates, permutation. -/
structure Solution (V : Type) where
  nconv : Nat
  eig : Nat → ℝ
  vec : Nat → V
  errest : Nat → ℝ
  perm : Nat → Nat

/-- `DSSolve`, `DSSort`, `BVMultInPlace` of src/eps/interface/epssolve.c:57-66: values and vectors are recomputed and
come out in the order `τ` of the sorting criterion (the projected problem is assumed to reproduce the pairs); the
array of error estimates is not touched. -/
def recompute {V : Type} (τ : Equiv.Perm Nat) (s : Solution V) : Solution V :=
  { s with eig := fun j => s.eig (τ j), vec := fun j => s.vec (τ j) }

open Classical in
/-- `EPSComputeValues` with `STFILTER` (src/eps/interface/epssolve.c:42-78). -/
noncomputable def computeValuesFilter {V : Type} (a b : ℝ) (τ : Equiv.Perm Nat) (s : Solution V) : Solution V :=
  let s' := recompute τ s
  let r := discard (fun j => decide (s'.eig j < a ∨ s'.eig j > b)) s'.nconv
  { s' with nconv := r.1, perm := r.2 }

end Verif.EPS
