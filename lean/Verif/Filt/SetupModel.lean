import Verif.Filt.ChebModel
import Verif.Filt.IntvModel

/-!
# Model of the parameters and the set-up of STFILTER

Sources: `/repo/src/sys/classes/st/impls/filter/filter.c`, `filtlan.c:1090-1172`,
`chebyshev.c:185-206`, `/repo/src/sys/classes/st/interface/stsolve.c:326-359, 465-549`,
`stfunc.c:100-127, 275-320`, `/repo/src/eps/impls/krylov/krylovschur/krylovschur.c:61-90`.

A matrix is an identity (the object) together with its value, a linear map.  The computation of the
break points and the base function is any function `gi` of the frame, the degree and the number of
grid points, the coefficients of the Chebyshev filter any function `cf` of the parameters.  One or
two matrices (with three or more STSetUp does not compute the operator), `st->transform` set as
EPSSetUp does.  A boolean beside the state tells whether the call returned without error.
-/

set_option linter.all false

namespace Verif.Filt

open Classical

variable {V : Type*} [AddCommGroup V] [Module ℝ V] {F C : Type*}

/-- `STFilterType`, include/slepcst.h (zero, not set, is `none`). -/
inductive FType
  | filtlan | cheb
  deriving DecidableEq

/-- `STStateType`, include/slepc/private/stimpl.h. -/
inductive StState
  | initial | setup | updated
  deriving DecidableEq

/-- `ctx->data`: `filtlan.c` (number of grid points and computed filter) or `chebyshev.c`
(coefficients). -/
inductive FData (F C : Type*)
  | empty
  | filtlan (grid : ℕ) (flt : Option F)
  | cheb (c : Option C)

/-- The functions left open. -/
structure FEnv (F C : Type*) where
  gi : ℝ → ℝ → ℝ → ℝ → ℕ → ℕ → Option F
  cf : ℝ → ℝ → ℝ → ℝ → ℕ → Damping → C
  maxReal : ℝ

/-- The parameters of STFILTER. -/
structure FPar where
  type : Option FType
  inta : ℝ
  intb : ℝ
  left : ℝ
  right : ℝ
  degree : ℕ
  damping : Damping

/-- The relevant fields of `ST` and `ST_FILTER`; `shell` is `st->T[0]`, of which only the type of
filter it was created for matters (its context is the ST object). -/
structure FSt (V : Type*) [AddCommGroup V] [Module ℝ V] (F C : Type*) where
  par : FPar
  filtch : Bool
  state : StState
  opready : Bool
  hasOp : Bool
  nmat : ℕ
  key : ℕ
  A : Option (V →ₗ[ℝ] V)
  shell : Option FType
  T : Option (V →ₗ[ℝ] V)
  data : FData F C

/-- `STCreate_Filter`, filter.c:621-627, for a new ST object. -/
def fInit (E : FEnv F C) : FSt V F C :=
  { par := { type := none, inta := -E.maxReal, intb := E.maxReal, left := 0, right := 0, degree := 0, damping := Damping.none }, filtch := false, state := StState.initial, opready := false, hasOp := false, nmat := 0, key := 0, A := none, shell := none, T := none, data := FData.empty }

/-- The effect common to the functions that change a parameter: `st->state`, `st->opready` and
`ctx->filtch`, e.g. filter.c:194-196. -/
def touch (s : FSt V F C) (p : FPar) : FSt V F C :=
  { s with par := p, state := StState.initial, opready := false, filtch := true }

/-- `STReset_Filter`, filter.c:99-110. -/
def resetFilter (s : FSt V F C) : FSt V F C :=
  { s with par := { s.par with left := 0, right := 0 }, T := none }

/-- `STFilterSetType_Private`, filter.c:20-37, with filtlan.c:1187-1226 and chebyshev.c:263-276. -/
def mkType (s : FSt V F C) (t : FType) : FSt V F C :=
  { s with par := { s.par with type := some t }, data := match t with | FType.filtlan => FData.filtlan 200 none | FType.cheb => FData.cheb none }

/-- `STFilterSetType_Filter`, filter.c:112-125. -/
noncomputable def setType (s : FSt V F C) (t : FType) : FSt V F C × Bool :=
  if s.par.type ≠ some t then
    let s := mkType (resetFilter s) t
    (touch s s.par, true)
  else (s, true)

/-- `STFilterSetInterval_Filter`, filter.c:185-199. -/
noncomputable def setInterval (s : FSt V F C) (a b : ℝ) : FSt V F C × Bool :=
  if ¬ a < b then (s, false)
  else if s.par.inta ≠ a ∨ s.par.intb ≠ b then (touch s { s.par with inta := a, intb := b }, true)
  else (s, true)

/-- `STFilterSetRange_Filter`, filter.c:272-286. -/
noncomputable def setRange (s : FSt V F C) (l r : ℝ) : FSt V F C × Bool :=
  if ¬ l < r then (s, false)
  else if s.par.left ≠ l ∨ s.par.right ≠ r then (touch s { s.par with left := l, right := r }, true)
  else (s, true)

/-- `STFilterSetDegree_Filter`, filter.c:355-375; `none` is `PETSC_DEFAULT`. -/
noncomputable def setDegree (s : FSt V F C) (d : Option ℤ) : FSt V F C × Bool :=
  match d with
  | none => (touch s { s.par with degree := 0 }, true)
  | some d =>
    if ¬ 0 < d then (s, false)
    else if (s.par.degree : ℤ) ≠ d then (touch s { s.par with degree := d.toNat }, true)
    else (s, true)

/-- `STFilterSetDamping_Filter`, filter.c:474-486. -/
noncomputable def setDamping (s : FSt V F C) (d : Damping) : FSt V F C × Bool :=
  if s.par.damping ≠ d then (touch s { s.par with damping := d }, true) else (s, true)

/-- `STReset` for this type, stfunc.c:100-127. -/
def stReset (s : FSt V F C) : FSt V F C :=
  let s := resetFilter s
  { s with nmat := 0, A := none, shell := none, hasOp := false, state := StState.initial, opready := false }

/-- `STSetMatrices`, stfunc.c:275-320, with `n` (1 or 2) matrices, the first of which is the object
`key` with value `A`. -/
noncomputable def setMatrices (s : FSt V F C) (n key : ℕ) (A : V →ₗ[ℝ] V) : FSt V F C × Bool :=
  let same : Bool := decide (s.state ≠ StState.initial ∧ n = s.nmat ∧ key = s.key)
  let s := if s.state ≠ StState.initial ∧ ¬ same then stReset s else s
  ({ s with nmat := n, key := key, A := some A, state := if same then StState.updated else StState.initial, opready := false }, true)

/-- The matrix `T` of the FILTLAN filter, filtlan.c:1105-1127. -/
noncomputable def shiftT (p : FPar) (A : V →ₗ[ℝ] V) : V →ₗ[ℝ] V :=
  if p.left = p.inta then p.right • LinearMap.id - A
  else if p.left = 0 then A
  else A - p.left • LinearMap.id

/-- The frame for the computation of the intervals, filtlan.c:1112, 1118, 1125, applied to `f`. -/
noncomputable def withFrame {α : Type*} (p : FPar) (f : ℝ → ℝ → ℝ → ℝ → α) : α :=
  if p.left = p.inta then f (p.right - p.right) (p.right - p.intb) (p.right - p.inta) (p.right - p.left)
  else if p.left = 0 then f p.left p.inta p.intb p.right
  else f (p.left - p.left) (p.inta - p.left) (p.intb - p.left) (p.right - p.left)

/-- `STComputeOperator_Filter_FILTLAN`, filtlan.c:1090-1162. -/
noncomputable def computeFiltlan (E : FEnv F C) (s : FSt V F C) (A : V →ₗ[ℝ] V) (grid : ℕ) (flt : Option F) : FSt V F C × Bool :=
  let s := { s with T := some (shiftT s.par A) }
  if s.state = StState.initial ∨ s.filtch then
    let g := max grid (withFrame s.par gridNeed)
    match withFrame s.par (fun a a1 b1 b => E.gi a a1 b1 b s.par.degree g) with
    | none => ({ s with data := FData.filtlan g none }, false)
    | some f => ({ s with data := FData.filtlan g (some f), filtch := false, shell := if s.shell = none then some FType.filtlan else s.shell }, true)
  else ({ s with filtch := false, shell := if s.shell = none then some FType.filtlan else s.shell }, true)

/-- `STComputeOperator_Filter_Chebyshev`, chebyshev.c:185-206. -/
noncomputable def computeCheb (E : FEnv F C) (s : FSt V F C) (A : V →ₗ[ℝ] V) : FSt V F C × Bool :=
  ({ s with T := some A, data := FData.cheb (some (E.cf s.par.inta s.par.intb s.par.left s.par.right s.par.degree s.par.damping)), shell := if s.shell = none then some FType.cheb else s.shell }, true)

/-- The checks of `STComputeOperator_Filter`, filter.c:49-52. -/
def Checks (E : FEnv F C) (p : FPar) (nmat : ℕ) : Prop :=
  nmat = 1 ∧ (p.intb < E.maxReal ∨ -E.maxReal < p.inta) ∧ (p.right ≠ 0 ∨ p.left ≠ 0) ∧ (p.left ≤ p.inta ∧ p.intb ≤ p.right)

/-- `STComputeOperator_Filter`, filter.c:44-60, called by `STComputeOperator` (stsolve.c:465-493). -/
noncomputable def compute (E : FEnv F C) (s : FSt V F C) (A : V →ₗ[ℝ] V) : FSt V F C × Bool :=
  if ¬ Checks E s.par s.nmat then (s, false)
  else
    let s := if s.par.type = none then mkType s FType.filtlan else s
    let s := if s.par.degree = 0 then { s with par := { s.par with degree := 100 } } else s
    match s.data with
    | FData.filtlan g f => computeFiltlan E s A g f
    | FData.cheb _ => computeCheb E s A
    | FData.empty => (s, false)

/-- `STComputeOperator`, stsolve.c:465-493. -/
noncomputable def computeOperator (E : FEnv F C) (s : FSt V F C) (A : V →ₗ[ℝ] V) : FSt V F C × Bool :=
  if s.opready then (s, true)
  else
    let r := compute E s A
    if r.2 then ({ r.1 with opready := true }, true) else r

/-- `STSetUp`, stsolve.c:507-549. -/
noncomputable def setUp (E : FEnv F C) (s : FSt V F C) : FSt V F C × Bool :=
  match s.A with
  | none => (s, false)
  | some A =>
    if s.state = StState.setup then (s, true)
    else
      let s := if s.state ≠ StState.updated ∧ ¬ s.opready then { s with shell := none } else s
      let r := computeOperator E s A
      if r.2 then ({ r.1 with state := StState.setup }, true) else r

/-- `STGetOperator`, stsolve.c:326-359. -/
noncomputable def getOperator (E : FEnv F C) (s : FSt V F C) : FSt V F C × Bool :=
  match s.A with
  | none => (s, false)
  | some A => if s.hasOp then (s, true) else computeOperator E { s with hasOp := true } A

/-- The operator applied by `STApply`: the multiplication function of the shell matrix, working on
the current `ctx->T`, `ctx->data` and degree (filtlan.c:1029-1082, chebyshev.c:27-110).  `none`
stands for undefined behaviour: data of the other type or not computed. -/
inductive Oper (V : Type*) [AddCommGroup V] [Module ℝ V] (F C : Type*)
  | filtlan (T : V →ₗ[ℝ] V) (f : F) (degree : ℕ)
  | cheb (T : V →ₗ[ℝ] V) (c : C) (left right : ℝ) (degree : ℕ)

def oper (s : FSt V F C) : Option (Oper V F C) :=
  match s.shell, s.T, s.data with
  | some FType.filtlan, some T, FData.filtlan _ (some f) => some (Oper.filtlan T f s.par.degree)
  | some FType.cheb, some T, FData.cheb (some c) => some (Oper.cheb T c s.par.left s.par.right s.par.degree)
  | _, _, _ => none

/-- The calls of a user. -/
inductive FOp (V : Type*) [AddCommGroup V] [Module ℝ V]
  | type (t : FType)
  | interval (a b : ℝ)
  | range (l r : ℝ)
  | degree (d : Option ℤ)
  | damping (d : Damping)
  | matrices (n key : ℕ) (A : V →ₗ[ℝ] V)
  | reset
  | setUp
  | getOperator

noncomputable def fStep (E : FEnv F C) (s : FSt V F C) : FOp V → FSt V F C × Bool
  | FOp.type t => setType s t
  | FOp.interval a b => setInterval s a b
  | FOp.range l r => setRange s l r
  | FOp.degree d => setDegree s d
  | FOp.damping d => setDamping s d
  | FOp.matrices n k A => setMatrices s n k A
  | FOp.reset => (stReset s, true)
  | FOp.setUp => setUp E s
  | FOp.getOperator => getOperator E s

/-- A sequence of calls; calls that fail leave the state they left. -/
noncomputable def fRun (E : FEnv F C) (ops : List (FOp V)) (s : FSt V F C) : FSt V F C :=
  ops.foldl (fun s o => (fStep E s o).1) s

/-- `EPSSetUp_KrylovSchur_Filter`, krylovschur.c:61-84: the interval of the eigensolver is passed to
the filter, and the range estimated by `est` unless the user gave one; the boolean is
`ctx->estimatedrange` of the eigensolver. -/
noncomputable def epsFilter (E : FEnv F C) (est : (V →ₗ[ℝ] V) → ℝ × ℝ) (inta intb : ℝ) (flag : Bool) (s : FSt V F C) : FSt V F C × Bool × Bool :=
  match s.A with
  | none => (s, flag, false)
  | some A =>
    if ¬ (intb < E.maxReal ∨ -E.maxReal < inta) then (s, flag, false)
    else
      let r := setInterval s inta intb
      if ¬ r.2 then (r.1, flag, false)
      else
        let est? : Bool := if flag then true else decide (r.1.par.left = 0 ∧ r.1.par.right = 0)
        if est? then
          let t := setRange r.1 (est A).1 (est A).2
          (t.1, if t.2 then true else flag, t.2)
        else (r.1, flag, true)

end Verif.Filt
