import Mathlib.Data.List.Basic
import Mathlib.Data.List.Count
import Mathlib.Algebra.Order.Ring.Int

/-!
# Vectors lent to a solver: initial and deflation spaces of an EPS object

`Vec` handles are natural numbers. Reference counts are kept per vector; using a vector whose count is zero is
undefined behaviour (a distinct outcome).
-/
set_option linter.all false

namespace Verif.Spaces

/-- How a call can fail: a PETSc error return, or undefined behaviour (use of a freed vector, out-of-bounds read). -/
inductive Err | petsc | ub
  deriving DecidableEq, Repr

/-- A list kept by the solver: the integer (`eps->nini`, ...) and the array (`eps->IS`, ...). A negative integer says
that the array holds references (src/sys/slepcutil.c:54-57). -/
structure Slot where
  m : Int
  W : List ℕ
  deriving DecidableEq, Repr

abbrev Rc := ℕ → ℕ

/-- `PetscObjectReference(v)`. -/
def ref1 (rc : Rc) (v : ℕ) : Except Err Rc :=
  if rc v = 0 then .error .ub else .ok (fun w => if w = v then rc w + 1 else rc w)

/-- `VecDestroy(&v)`. -/
def des1 (rc : Rc) (v : ℕ) : Except Err Rc :=
  if rc v = 0 then .error .ub else .ok (fun w => if w = v then rc w - 1 else rc w)

/-- The loop `for (i=0;i<n;i++) PetscObjectReference(V[i])` (src/sys/slepcutil.c:44). -/
def refAll : List ℕ → Rc → Except Err Rc
  | [], rc => .ok rc
  | v :: L, rc => match ref1 rc v with
    | .error e => .error e
    | .ok rc => refAll L rc

/-- The loop `for (i=0;i<-(*m);i++) VecDestroy(&(*W)[i])` (src/sys/slepcutil.c:64). -/
def desAll : List ℕ → Rc → Except Err Rc
  | [], rc => .ok rc
  | v :: L, rc => match des1 rc v with
    | .error e => .error e
    | .ok rc => desAll L rc

/-- `SlepcBasisDestroy_Private` (src/sys/slepcutil.c:58-69). -/
def basisDestroy (s : Slot) (rc : Rc) : Except Err (Slot × Rc) :=
  if s.m < 0 then
    if (s.W.length : Int) < -s.m then .error .ub
    else match desAll (s.W.take (-s.m).toNat) rc with
      | .error e => .error e
      | .ok rc => .ok (⟨0, []⟩, rc)
  else .ok (⟨0, s.W⟩, rc)

/-- `SlepcBasisReference_Private` (src/sys/slepcutil.c:39-52): new references first, then the old list is dropped. -/
def basisReference (L : List ℕ) (s : Slot) (rc : Rc) : Except Err (Slot × Rc) :=
  match refAll L rc with
  | .error e => .error e
  | .ok rc => match basisDestroy s rc with
    | .error e => .error e
    | .ok (s, rc) => if 0 < L.length then .ok (⟨-(L.length : Int), L⟩, rc) else .ok (s, rc)

inductive Stage | initial | setup | solved
  deriving DecidableEq, Repr

/-- Where a start vector comes from: generated at random, the user's vector, or a column the solver takes for the user's
although it no longer holds it. -/
inductive Start | random | user | stale
  deriving DecidableEq, Repr

/-- What one solve started from: right and left start vector, number of deflated directions. -/
structure Used where
  right : Start
  left : Start
  nc : ℕ
  deriving DecidableEq, Repr

/-- The EPS object, the reference counts, and for the specification the number of references the caller holds.
`alloc`: the basis has sizes; `resize`: the next set-up needs another number of columns; `vuser`, `wuser`: the first
column of `eps->V`, `eps->W` holds a vector supplied by the user; `nc`: constraints in `eps->V`; `log`: past solves. -/
structure St where
  rc : Rc
  user : Rc
  defl : Slot
  ini : Slot
  inil : Slot
  twosided : Bool
  stage : Stage
  alloc : Bool
  resize : Bool
  vuser : Bool
  wuser : Bool
  nc : ℕ
  log : List Used

/-- `EPSCreate` (src/eps/interface/epsbasic.c:57-65, 100-105). -/
def create : St := ⟨fun _ => 0, fun _ => 0, ⟨0, []⟩, ⟨0, []⟩, ⟨0, []⟩, false, .initial, false, false, false, false, 0, []⟩

/-- Calls. `touch` is any setter that invalidates the set-up (for instance `EPSSetDimensions`,
src/eps/interface/epsopts.c); `resize` says that it changes the number of basis vectors. The naturals of `setUp` and `solve` are the numbers of linearly independent vectors found among the deflation,
initial and left initial vectors. -/
inductive Op
  | vecCreate (v : ℕ)
  | vecDestroy (v : ℕ)
  | setDefl (L : List ℕ)
  | setIni (L : List ℕ)
  | setInil (L : List ℕ)
  | setTwoSided (b : Bool)
  | touch (resize : Bool)
  | setUp (kd ki kl : ℕ)
  | solve (kd ki kl : ℕ)
  | destroy

/-- `EPSSetDeflationSpace` (src/eps/interface/epssetup.c:590-604). -/
def setDefl (L : List ℕ) (s : St) : Except Err St :=
  match basisReference L s.defl s.rc with
  | .error e => .error e
  | .ok (d, rc) => .ok { s with defl := d, rc := rc, stage := if 0 < L.length then .initial else s.stage }

/-- `EPSSetInitialSpace` (src/eps/interface/epssetup.c:635-649). -/
def setIni (L : List ℕ) (s : St) : Except Err St :=
  match basisReference L s.ini s.rc with
  | .error e => .error e
  | .ok (d, rc) => .ok { s with ini := d, rc := rc, stage := if 0 < L.length then .initial else s.stage }

/-- `EPSSetLeftInitialSpace` (src/eps/interface/epssetup.c:672-686). -/
def setInil (L : List ℕ) (s : St) : Except Err St :=
  match basisReference L s.inil s.rc with
  | .error e => .error e
  | .ok (d, rc) => .ok { s with inil := d, rc := rc, stage := if 0 < L.length then .initial else s.stage }

/-- `EPSAllocateSolution` (src/eps/interface/epssetup.c:739-780): a basis that already has sizes is resized without
keeping its contents; `BVResize` rejects a basis with constraints (src/sys/classes/bv/interface/bvbasic.c:371) and does
nothing if the number of columns is the same (:372); `W` is destroyed and duplicated anew. -/
def allocate (s : St) : Except Err St :=
  if s.alloc = true ∧ 0 < s.nc then .error .petsc
  else .ok { s with alloc := true, resize := false, vuser := s.vuser && !s.resize,
                    wuser := s.wuser && !s.twosided }

/-- Deflation vectors become constraints (src/eps/interface/epssetup.c:427-434); `BVInsertConstraints` resizes the basis
without keeping its contents (src/sys/classes/bv/interface/bvfunc.c:418-446). -/
def processDefl (kd : ℕ) (s : St) : Except Err St :=
  if s.defl.m < 0 then
    if 0 < s.nc then .error .petsc
    else match basisDestroy s.defl s.rc with
      | .error e => .error e
      | .ok (d, rc) =>
        let k := min kd (-s.defl.m).toNat
        .ok { s with defl := ⟨k, d.W⟩, rc := rc, nc := k, vuser := false }
  else .ok s

/-- Initial vectors are copied into the basis (src/eps/interface/epssetup.c:435-441). -/
def processIni (ki : ℕ) (s : St) : Except Err St :=
  if s.ini.m < 0 then
    match basisDestroy s.ini s.rc with
    | .error e => .error e
    | .ok (d, rc) =>
      let k := min ki (-s.ini.m).toNat
      .ok { s with ini := ⟨k, d.W⟩, rc := rc, vuser := decide (0 < k) }
  else .ok s

/-- Left initial vectors, only in two-sided mode (src/eps/interface/epssetup.c:442-448). -/
def processInil (kl : ℕ) (s : St) : Except Err St :=
  if s.twosided = true ∧ s.inil.m < 0 then
    match basisDestroy s.inil s.rc with
    | .error e => .error e
    | .ok (d, rc) =>
      let k := min kl (-s.inil.m).toNat
      .ok { s with inil := ⟨k, d.W⟩, rc := rc, wuser := decide (0 < k) }
  else .ok s

/-- `EPSSetUp` (src/eps/interface/epssetup.c:203-452), only the parts that touch the user's vectors. The check that there
are at most `ncv` vectors is not modelled. -/
def setUp (kd ki kl : ℕ) (s : St) : Except Err St :=
  if s.stage ≠ .initial then .ok s
  else match allocate s with
    | .error e => .error e
    | .ok s => match processDefl kd s with
      | .error e => .error e
      | .ok s => match processIni ki s with
        | .error e => .error e
        | .ok s => match processInil kl s with
          | .error e => .error e
          | .ok s => .ok { s with stage := .setup }

/-- The source of a start vector: random if the counter is zero, else whatever the first column holds
(`EPSGetStartVector`, `EPSGetLeftStartVector`, src/eps/interface/epssolve.c:930, 968). -/
def start (m : Int) (holds : Bool) : Start :=
  if m = 0 then .random else if holds then .user else .stale

/-- The end of `EPSSolve` (src/eps/interface/epssolve.c:222-227). -/
def finish (s : St) : St :=
  { s with nc := if s.defl.m ≠ 0 then 0 else s.nc, defl := ⟨0, s.defl.W⟩, ini := ⟨0, s.ini.W⟩,
           vuser := false, wuser := false, stage := .solved }

/-- `EPSSolve` (src/eps/interface/epssolve.c:129-229): nothing if already solved; else set-up, the iteration, which
overwrites the bases, and the removal of the lists. The left start vector exists only in two-sided mode. -/
def solve (kd ki kl : ℕ) (s : St) : Except Err St :=
  if s.stage = .solved then .ok s
  else match setUp kd ki kl s with
    | .error e => .error e
    | .ok s =>
      .ok (finish { s with log := s.log ++ [⟨start s.ini.m s.vuser,
        if s.twosided then start s.inil.m s.wuser else .random, s.nc⟩] })

/-- `EPSDestroy`: basis destroyed with its constraints, then the three lists (src/eps/interface/epsbasic.c:343-366). -/
def epsDestroy (s : St) : Except Err St :=
  match basisDestroy s.defl s.rc with
  | .error e => .error e
  | .ok (d, rc) => match basisDestroy s.ini rc with
    | .error e => .error e
    | .ok (i, rc) => match basisDestroy s.inil rc with
      | .error e => .error e
      | .ok (l, rc) =>
        .ok { s with defl := d, ini := i, inil := l, rc := rc, nc := 0, alloc := false,
                     vuser := false, wuser := false, stage := .initial }

/-- One call. `vecCreate`/`vecDestroy` are the caller's own PETSc calls; the caller drops only references they hold. -/
def step (o : Op) (s : St) : Except Err St :=
  match o with
  | .vecCreate v =>
    if s.rc v = 0 then .ok { s with rc := fun w => if w = v then 1 else s.rc w, user := fun w => if w = v then 1 else s.user w }
    else .ok { s with rc := fun w => if w = v then s.rc w + 1 else s.rc w, user := fun w => if w = v then s.user w + 1 else s.user w }
  | .vecDestroy v =>
    match des1 s.rc v with
    | .error e => .error e
    | .ok rc => .ok { s with rc := rc, user := fun w => if w = v then s.user w - 1 else s.user w }
  | .setDefl L => setDefl L s
  | .setIni L => setIni L s
  | .setInil L => setInil L s
  | .setTwoSided b => .ok { s with twosided := b, stage := if s.twosided = b then s.stage else .initial }
  | .touch r => .ok { s with stage := .initial, resize := s.resize || r }
  | .setUp a b c => setUp a b c s
  | .solve a b c => solve a b c s
  | .destroy => epsDestroy s

/-- A history of calls. -/
def run : List Op → St → Except Err St
  | [], s => .ok s
  | o :: os, s => match step o s with
    | .error e => .error e
    | .ok s => run os s

end Verif.Spaces
