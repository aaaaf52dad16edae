import Verif.BV.KrylovModel
import Mathlib.LinearAlgebra.Matrix.Notation
import Mathlib.Algebra.Polynomial.AlgebraMap
import Mathlib.LinearAlgebra.Matrix.ToLin
/-!
Model of the restarted Krylov solver for matrix functions, `MFNSolve_Krylov`
(src/mfn/impls/krylov/mfnkrylov.c), in exact arithmetic, on top of the model of `BVMatArnoldi`.

Square dense arrays are functions of row and column, with the dimension kept apart.  The evaluation of the
function on a dense matrix times the first unit vector (`FNEvaluateFunctionMatVec`) is a parameter that may
fail.  Monitors and the propagation of symmetry flags are not modelled.
-/
set_option linter.all false
namespace Verif.MFN
noncomputable section
open Verif.BV
variable {𝕜 : Type} [RCLike 𝕜] {E : Type} [AddCommGroup E] [Module 𝕜 E]

/-- The leading square part of an array as a matrix. -/
def mat (n : Nat) (H : Nat → Nat → 𝕜) : Matrix (Fin n) (Fin n) 𝕜 := Matrix.of fun i j => H i j

/-- A vector, extended by zeros. -/
def ext {n : Nat} (F : Fin n → 𝕜) : Nat → 𝕜 := fun i => if h : i < n then F ⟨i, h⟩ else 0

/-- `FNEvaluateFunctionMatVec`: first column of the function of a matrix; `none` is an error. -/
abbrev FnVec (𝕜 : Type) := (n : Nat) → Matrix (Fin n) (Fin n) 𝕜 → Option (Fin n → 𝕜)

/-- `MFNConvergedReason`: MFN_CONVERGED_ITERATING, MFN_CONVERGED_TOL, MFN_DIVERGED_ITS. -/
inductive Reason | iterating | tol | its
deriving DecidableEq

/-- The variables of the solver between two iterations of the restart loop. `dim` is the order of the last `H`
and `evals` the matrices at which the function was evaluated (both ghosts). -/
structure KS (𝕜 E : Type) where
  its : Nat
  n : Nat
  m : Nat
  M : Nat → Nat → 𝕜
  H : Nat → Nat → 𝕜
  buf : Nat → Nat → 𝕜
  v0 : E
  x : E
  betaold : ℝ
  beta : ℝ
  breakdown : Bool
  nrm : ℝ
  reason : Reason
  dim : Nat
  evals : List (Σ n : Nat, Matrix (Fin n) (Fin n) 𝕜)

/-- The new `H` (fresh storage, zeros), mfnkrylov.c:73-87: the Hessenberg matrix of this cycle at position `(n,n)`, and,
except in the first cycle, the previous one at `(0,0)` and `betaold` at `(n,n-1)`. -/
def glue (n m : Nat) (M G : Nat → Nat → 𝕜) (first : Bool) (betaold : ℝ) : Nat → Nat → 𝕜 := fun i j =>
  if n ≤ i ∧ i < n + m ∧ n ≤ j ∧ j < n + m then M (i - n) (j - n)
  else if first = false ∧ i < n ∧ j < n then G i j
  else if first = false ∧ i = n ∧ j = n - 1 then (betaold : 𝕜)
  else 0

/-- Limits of the solver: `ncv`, `max_it`, `tol`. -/
structure Limits where
  ncv : Nat
  maxit : Nat
  tol : ℝ

/-- Convergence check, mfnkrylov.c:108-111. -/
def decideReason (L : Limits) (its m : Nat) (breakdown : Bool) (beta nrm : ℝ) : Reason :=
  let r1 := if its ≥ L.maxit then Reason.its else Reason.iterating
  if its > 1 then (if m < L.ncv ∨ breakdown = true ∨ beta = 0 ∨ nrm < L.tol then Reason.tol else r1) else r1

/-- One iteration of the restart loop, mfnkrylov.c:65-119. -/
def cycle (f : E →ₗ⋆[𝕜] E →ₗ[𝕜] 𝕜) (o : OrthOpts) (A : E →ₗ[𝕜] E) (N : Nat) (L : Limits) (bnorm : ℝ) (fn : FnVec 𝕜)
    (s : KS 𝕜 E) : Option (KS 𝕜 E) :=
  let its := s.its + 1
  let r := matArnoldi f o A N 0 0 s.m (L.ncv + 1) [mkSlot s.v0 1] s.buf s.M
  let H := glue s.n r.m r.H s.H (decide (its = 1)) s.betaold
  let V := r.ss.map Slot.v
  match fn (s.n + r.m) (mat (s.n + r.m) H) with
  | none => none
  | some F =>
    let nrm := Real.sqrt (∑ j ∈ Finset.range r.m, ‖ext F (s.n + j)‖ ^ 2)
    let x := s.x + ∑ j ∈ Finset.range r.m, ((bnorm : 𝕜) * ext F (s.n + j)) • V.getD j 0
    let reason := decideReason L its r.m r.breakdown r.beta nrm
    let evals := ⟨s.n + r.m, mat (s.n + r.m) H⟩ :: s.evals
    if reason = .iterating then
      some ⟨its, s.n + r.m, r.m, r.H, H, r.buf, V.getD r.m 0, x, r.beta, r.beta, r.breakdown, nrm, reason, s.n + r.m, evals⟩
    else
      some ⟨its, s.n, r.m, r.H, H, r.buf, s.v0, x, s.betaold, r.beta, r.breakdown, nrm, reason, s.n + r.m, evals⟩

/-- The `while` loop; `fuel` bounds the number of iterations. -/
def loop (f : E →ₗ⋆[𝕜] E →ₗ[𝕜] 𝕜) (o : OrthOpts) (A : E →ₗ[𝕜] E) (N : Nat) (L : Limits) (bnorm : ℝ) (fn : FnVec 𝕜) :
    Nat → KS 𝕜 E → Option (KS 𝕜 E)
  | 0, s => some s
  | fuel + 1, s =>
    if s.reason = .iterating then
      match cycle f o A N L bnorm fn s with
      | none => none
      | some s' => loop f o A N L bnorm fn fuel s'
    else some s

/-- State before the loop, mfnkrylov.c:50-62 and mfnsolve.c:22-29. -/
def start (L : Limits) (bnorm : ℝ) (b : E) (buf : Nat → Nat → 𝕜) : KS 𝕜 E :=
  ⟨0, 0, L.ncv, fun _ _ => 0, fun _ _ => 0, buf, ((1 / bnorm : ℝ) : 𝕜) • b, 0, 0, 0, false, 1, .iterating, 0, []⟩

/-- `MFNSolve` with MFNKRYLOV (mfnsolve.c:16-49, mfnkrylov.c:42-127), `max_it` iterations at most; `none` is an
error: a zero vector `b`, or a failure to evaluate the function. -/
def solveKrylov (f : E →ₗ⋆[𝕜] E →ₗ[𝕜] 𝕜) (o : OrthOpts) (A : E →ₗ[𝕜] E) (N : Nat) (L : Limits) (fn : FnVec 𝕜) (b : E)
    (buf : Nat → Nat → 𝕜) : Option (KS 𝕜 E) :=
  let bnorm := nrmOf f false b
  if bnorm = 0 then none
  else loop f o A N L bnorm fn L.maxit (start L bnorm b buf)

end
end Verif.MFN
