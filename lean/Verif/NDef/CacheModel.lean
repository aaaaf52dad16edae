import Mathlib.Tactic

/-!
# Model of the caching in the deflation context (nepdefl.c)

Contents of matrices and arrays are represented by the parameter (and the number of locked pairs) with which they have been computed: `some (l,n)`; `none` is
a content that has not been set or was computed from parts that do not belong together.
-/

set_option linter.all false

namespace Verif.NDef.Cache

variable {L : Type} [DecidableEq L]

/-- context of a shell matrix, `NEP_DEF_MATSHELL` (nepdefl.h:40-57) -/
structure Sh (L : Type) where
  theta : L
  n : ℕ
  T : Option L
  U : Option (L × ℕ)
  A : Option (L × ℕ)
  hset : Bool
  h : Option (L × ℕ)

/-- the deflation context: number of locked pairs, refinement mode, the options, the shell matrices of function, Jacobian and solver, the parameters of the
    solver (`none` is the initial value -1 of `solve->n`, nepdefl.c:739) and its dense matrix (with the solves of the coupling block) -/
structure St (L : Type) where
  n : ℕ
  ref : Bool
  simpU : Bool
  sincf : Bool
  MF : Option (Sh L)
  MJ : Option (Sh L)
  ST : Option (Sh L)
  sth : Option L
  sn : Option ℕ
  M : Option (L × ℕ)

/-- `NEPDeflationInitialize` (nepdefl.c:701-748) -/
def St.init (simpU sincf : Bool) : St L :=
  { n := 0, ref := false, simpU, sincf, MF := none, MJ := none, ST := none, sth := none, sn := none, M := none }

/-- the test of line 443 -/
def stale (s : Option (Sh L)) (l : L) (n : ℕ) : Bool :=
  match s with
  | none => true
  | some s => !(decide (s.theta = l)) || !(decide (s.n = n))

/-- the context, created if it does not exist (nepdefl.c:405-442) -/
def base (s : Option (Sh L)) (l : L) (n : ℕ) : Sh L :=
  match s with
  | none => { theta := l, n := n, T := none, U := none, A := none, hset := false, h := none }
  | some s => s

/-- the original operator, computed if the parameter has changed (nepdefl.c:444-447) -/
def newT (s : Option (Sh L)) (l : L) (n : ℕ) : Option L := if s.isNone = true ∨ (base s l n).theta ≠ l then some l else (base s l n).T

/-- the blocks of the functions, copied from the other matrix if it has them (nepdefl.c:452-463) -/
def newH (comp : Option (Sh L)) (l : L) (n : ℕ) : Option (L × ℕ) :=
  match comp with
  | some c => if c.hset && decide (c.theta = l) && decide (c.n = n) then c.h else some (l, n)
  | none => some (l, n)

/-- `NEPDeflationComputeShellMat` (nepdefl.c:391-522).  `comp` is the context of the other matrix (line 404), `mfU` the coupling block of the function, used by the
    simple formula for the Jacobian (lines 491-495). -/
def compute (simpU jac : Bool) (n : ℕ) (comp : Option (Sh L)) (mfU : Option (L × ℕ)) (s : Option (Sh L)) (l : L) : Sh L :=
  if stale s l n then
    if n = 0 then { base s l n with T := newT s l n, theta := l, n := n }
    else if simpU then
      { theta := l, n := n, T := newT s l n, A := some (l, n), hset := false, h := none
        U := if newT s l n = some l ∧ (jac = false ∨ mfU = some (l, n)) then some (l, n) else none }
    else
      { theta := l, n := n, T := newT s l n, A := some (l, n), hset := true, h := newH comp l n
        U := if newH comp l n = some (l, n) then some (l, n) else none }
  else base s l n

/-- `NEPDeflationComputeFunction` (nepdefl.c:524-530) -/
def compFun (st : St L) (l : L) : St L := { st with MF := some (compute st.simpU false st.n st.MJ none st.MF l) }

/-- `NEPDeflationComputeJacobian` (nepdefl.c:532-538); with the simple formula the function is computed on the way (line 492) -/
def compJac (st : St L) (l : L) : St L :=
  let st1 := if stale st.MJ l st.n && st.simpU && decide (st.n ≠ 0) then compFun st l else st
  { st1 with MJ := some (compute st.simpU true st.n st1.MF (st1.MF.bind fun s => s.U) st1.MJ l) }

/-- the shell matrix used by the solver (nepdefl.c:555, 627) -/
def St.solveSh (st : St L) : Option (Sh L) := if st.sincf then st.MF else st.ST

/-- `NEPDeflationSolveSetUp` (nepdefl.c:540-594) -/
def setUp (st : St L) (l : L) : St L :=
  if st.sth = some l ∧ st.sn = some st.n then st
  else
    let st1 := if st.sincf then compFun st l else { st with ST := some (compute st.simpU false st.n st.MJ none st.ST l) }
    let M := if st.ref = false ∧ st.n ≠ 0 then
        match st1.solveSh with
        | some s => if s.T = some l ∧ s.U = some (l, st.n) ∧ s.A = some (l, st.n) then some (l, st.n) else none
        | none => none
      else st.M
    { st1 with sth := some l, sn := some st.n, M := M }

/-- operations of the solvers; `accept` is `NEPDeflationSetRefine(PETSC_FALSE)` followed by `NEPDeflationLocking` (rii.c:144-146, slp.c:192-196, narnoldi.c:135); `refOff` is the former alone -/
inductive Op (L : Type)
  | fn (l : L)
  | jac (l : L)
  | setup (l : L)
  | refOn
  | refOff
  | accept

/-- one operation -/
def step (st : St L) : Op L → St L
  | .fn l => compFun st l
  | .jac l => compJac st l
  | .setup l => setUp st l
  | .refOn => { st with ref := true }
  | .refOff => { st with ref := false }
  | .accept => { st with ref := false, n := st.n + 1 }

/-- a history -/
def run (st : St L) (ops : List (Op L)) : St L := ops.foldl step st

/-- the operator in the context is that of the parameter `l` with `n` locked pairs -/
def Fresh (s : Sh L) (l : L) (n : ℕ) : Prop := s.T = some l ∧ (0 < n → s.U = some (l, n) ∧ s.A = some (l, n))

/-- what `NEPDeflationFunctionSolve` uses (nepdefl.c:596-651) belongs to the parameter `l` with `n` locked pairs -/
def SolveFresh (st : St L) (l : L) : Prop :=
  ∃ s, st.solveSh = some s ∧ s.T = some l ∧ (st.ref = false → 0 < st.n → s.A = some (l, st.n) ∧ st.M = some (l, st.n) ∧ st.sth = some l)

end Verif.NDef.Cache
