import Mathlib.Analysis.SpecialFunctions.Sqrt
import Mathlib.Data.Real.Basic

/-!
# Counting converged eigenvalues in Krylov solvers; convergence criteria; order of conjugate pairs
-/
set_option linter.all false

namespace Verif.EPS

open Classical

/-! ## EPSKrylovConvergence -/

/-- What the loop of `EPSKrylovConvergence` reads for each index: whether `DSVectors` reports a pair (`newk==k+1`), whether the value
is inside the region, and the right and left error estimates (`none` is not-a-number). -/
structure KrylovData where
  pair : Nat → Bool
  inside : Nat → Bool
  est : Nat → Option ℝ
  lest : Nat → Option ℝ
  twosided : Bool
  tol : ℝ

/-- `x >= tol`: false for not-a-number. -/
noncomputable def geTol (tol : ℝ) : Option ℝ → Bool
  | some x => decide (tol ≤ x)
  | none => false

/-- `PetscMax(a,b)`: `(a<b)?b:a`. -/
noncomputable def cmax : Option ℝ → Option ℝ → Option ℝ
  | some a, some b => if a < b then some b else some a
  | a, _ => a

/-- Marker after treating index `k` (src/eps/impls/krylov/epskrylov.c:206, 226, 233). -/
noncomputable def mark (d : KrylovData) (k : Nat) (m : Option Nat) : Option Nat :=
  let m1 := if m = none ∧ d.inside k = false then some k else m
  let m2 := if m1 = none ∧ geTol d.tol (d.est k) = true then some k else m1
  if d.twosided = true ∧ m2 = none ∧ geTol d.tol (d.lest k) = true then some k else m2

/-- Error estimate stored for index `k` (src/eps/impls/krylov/epskrylov.c:225, 232). -/
noncomputable def errAt (d : KrylovData) (k : Nat) : Option ℝ :=
  if d.twosided then cmax (d.est k) (d.lest k) else d.est k

/-- Index update of the loop (src/eps/impls/krylov/epskrylov.c:199, 235-238). -/
def nextIdx (d : KrylovData) (k : Nat) : Nat := if d.pair k then k + 2 else k + 1

/-- `errest[k]=...; if (newk==k+1) errest[k+1]=errest[k]` (src/eps/impls/krylov/epskrylov.c:225-237). -/
noncomputable def setErr (d : KrylovData) (k : Nat) (e : Nat → Option ℝ) : Nat → Option ℝ :=
  fun j => if j = k ∨ (d.pair k = true ∧ j = k + 1) then errAt d k else e j

/-- The loop of `EPSKrylovConvergence` (src/eps/impls/krylov/epskrylov.c:197-242), `last` = kini+nits; result: `kout` and the error
estimates. The fuel is the number of iterations, at most nits. -/
noncomputable def convLoop (d : KrylovData) (getall : Bool) (last : Nat) :
    Nat → Nat → Option Nat → (Nat → Option ℝ) → Nat × (Nat → Option ℝ)
  | 0, k, m, e => (m.getD k, e)
  | f + 1, k, m, e =>
    if k < last then
      let m' := mark d k m
      let e' := setErr d k e
      if m' ≠ none ∧ getall = false then (m'.getD k, e')
      else convLoop d getall last f (nextIdx d k) m' e'
    else (m.getD k, e)

/-- `EPSKrylovConvergence` (src/eps/impls/krylov/epskrylov.c:173-253). -/
noncomputable def krylovConvergence (d : KrylovData) (getall : Bool) (kini nits : Nat) (e : Nat → Option ℝ) : Nat × (Nat → Option ℝ) :=
  convLoop d getall (kini + nits) nits kini none e

/-! ## Criteria -/

/-- `EPSConv` values with a formula. -/
inductive Conv
  | abs
  | rel
  | norm
deriving DecidableEq

/-- The part of the solver that matters: the norms of the current matrices, whether the problem is generalized, the criterion, the norms
kept in the object and whether it is set up. -/
structure CritState where
  na : ℝ
  nb : ℝ
  gen : Bool
  conv : Conv
  nrma : ℝ
  nrmb : ℝ
  up : Bool

/-- Calls that matter. -/
inductive CritOp
  | setOperators (na nb : ℝ) (gen : Bool)
  | setConv (c : Conv)
  | invalidate
  | setUp
  | backward

/-- Effect of the calls: `EPSSetOperators` (src/eps/interface/epssetup.c:512-521), `EPSSetConvergenceTest`
(src/eps/interface/epsopts.c:800-818), any setter that returns the solver to its initial state, `EPSSetUp`
(src/eps/interface/epssetup.c:293, 350-360), `EPSComputeError` with `EPS_ERROR_BACKWARD` (src/eps/interface/epssolve.c:870-885),
which needs a solved problem. -/
noncomputable def critStep (s : CritState) : CritOp → CritState
  | .setOperators na nb gen => { s with na := na, nb := nb, gen := gen, nrma := 0, nrmb := 0, up := false }
  | .setConv c => { s with conv := c }
  | .invalidate => { s with up := false }
  | .setUp =>
    if s.up then s
    else if s.conv = .norm then
      { s with nrma := if s.nrma = 0 then s.na else s.nrma,
               nrmb := if s.gen = true ∧ s.nrmb = 0 then s.nb else s.nrmb, up := true }
    else { s with up := true }
  | .backward =>
    if s.up then
      { s with nrma := if s.nrma = 0 then s.na else s.nrma,
               nrmb := if s.gen then (if s.nrmb = 0 then s.nb else s.nrmb) else 1 }
    else s

/-- A new solver (src/eps/interface/epsbasic.c:119-120), default criterion relative. -/
def critInit : CritState := ⟨0, 0, false, .rel, 0, 0, false⟩

/-- Error estimate: `EPSConvergedAbsolute`, `EPSConvergedRelative`, `EPSConvergedNorm` (src/eps/interface/epsdefault.c:224-256);
`w` is the modulus of the eigenvalue, `big` is `PETSC_MAX_REAL`, `none` a division by zero. -/
noncomputable def errEstimate (s : CritState) (big w res : ℝ) : Option ℝ :=
  match s.conv with
  | .abs => some res
  | .rel => some (if w ≠ 0 then res / w else big)
  | .norm => if s.nrma + w * s.nrmb = 0 then none else some (res / (s.nrma + w * s.nrmb))

/-! ## Order of conjugate pairs -/

/-- Eigenvalue and columns of V and W at one position. -/
structure Entry (V : Type*) where
  er : ℝ
  ei : ℝ
  v : V
  w : V

/-- The loop at the end of `EPSSolve` (src/eps/interface/epssolve.c:180-194); `ham` for `EPS_HAMILT`. -/
noncomputable def reorder {V : Type*} [Neg V] (ham : Bool) : List (Entry V) → List (Entry V)
  | a :: b :: l =>
    if a.ei ≠ 0 ∧ (ham = false ∨ a.er ≠ 0) then
      if a.ei < 0 then
        { a with ei := -a.ei } :: { b with ei := -b.ei, v := -b.v, w := -b.w } :: reorder ham l
      else a :: b :: reorder ham l
    else a :: reorder ham (b :: l)
  | l => l

end Verif.EPS
