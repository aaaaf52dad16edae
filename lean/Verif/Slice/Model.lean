import Mathlib.Data.Real.Basic
import Mathlib.Data.Multiset.Filter
import Mathlib.Tactic
/-!
Model of the spectrum slicing solver for Hermitian problems, src/eps/impls/krylov/krylovschur/ks-slice.c (one partition), in exact arithmetic.

The problem is the finite multiset of its (real) eigenvalues.  The inertia of the factorization at a shift is the number of smaller eigenvalues
(Sylvester's law of inertia is assumed), and `zeros` the multiplicity of the shift.  The Lanczos process at each shift
(`EPSKrylovSchur_Slice`, lines 844-999) is a parameter: its result is the list of the converged eigenvalues (after the back-transformation).
Eigenvectors, error estimates, the rational Krylov update and memory management are not modelled.  `PetscInt` is unbounded.
The doubly linked list of shifts is an ordered list with a marked element (`sPres`); pointers to shifts are identifiers.
-/
set_option linter.all false
namespace Verif.Slice
noncomputable section
open Classical

/-- Outcomes: normal, an error raised by `PetscCheck`, dereference of a null pointer, use of an entry of the array of pending shifts that was not written
(or was left by an earlier push), and "the main loop has not finished with the Lanczos results given". -/
inductive R (α : Type) where
  | ok : α → R α
  | err : R α
  | null : R α
  | stale : R α
  | running : R α

/-- Sequencing of calls under `PetscCall`. -/
def R.bind {α β : Type} : R α → (α → R β) → R β
  | .ok a, f => f a
  | .err, _ => .err
  | .null, _ => .null
  | .stale, _ => .stale
  | .running, _ => .running

/-- Constants: `PETSC_MAX_REAL`, `SLICE_PTOL` (line 42), the threshold `100*PETSC_SQRT_MACHINE_EPSILON` of line 1030, `PetscSqrtReal(eps->tol)`,
`eps->nev`, `ctx->detect`. -/
structure Par where
  maxReal : ℝ
  ptol : ℝ
  narrow : ℝ
  sqrtTol : ℝ
  nev : ℕ
  detect : Bool

/-- `struct _n_shift` (slice definitions in krylovschur.h): `value`, `inertia`, `index`, `neigs`; `id` stands for the pointer.  The other fields are
computed when they are needed. -/
structure Shift where
  id : ℕ
  value : ℝ
  inertia : ℤ
  index : ℕ
  neigs : ℕ

/-- Constant part of `EPS_SR`: `dir`, `int0`, `int1`, `hasEnd`, `inertia0`, `inertia1`, `numEigs`. -/
structure SR where
  dir : ℤ
  int0 : ℝ
  int1 : ℝ
  hasEnd : Bool
  inertia0 : ℤ
  inertia1 : ℤ
  numEigs : ℤ

/-- Changing part of `EPS_SR`.  `left` (nearest first), `cur` (`sPres`) and `right` are the list of shifts; `pend` is the stack `pending[0..nPend)`, top first;
`slot` is the content of `pending[nPend]` if it is known to be the pointer popped last; `next` a fresh identifier; `eigr` the values `sr->eigr[0..indexEig)`, `perm` is
`sr->perm[0..indexEig)`; `nleap`. -/
structure St where
  left : List Shift
  cur : Shift
  right : List Shift
  pend : List ℕ
  slot : Option ℕ
  next : ℕ
  eigr : List ℝ
  perm : List ℕ
  nleap : ℕ

/-- The shift at which the matrix is factored: zero is replaced by `10.0/PETSC_MAX_REAL`, line 245. -/
def nz (P : Par) (v : ℝ) : ℝ := if v = 0 then 10 / P.maxReal else v

/-- `EPSSliceGetInertia`, lines 227-265. -/
def inertiaAt (P : Par) (spec : Multiset ℝ) (v : ℝ) : ℤ :=
  if P.maxReal ≤ v then (spec.card : ℤ)
  else if v ≤ -P.maxReal then 0
  else (spec.countP (fun x => x < nz P v) : ℤ)

/-- `EPSSliceGetInertia`, argument `zeros` (which is null without detection, lines 402, 452, 820). -/
def zerosAt (P : Par) (spec : Multiset ℝ) (v : ℝ) : ℕ :=
  if P.detect = true then
    if P.maxReal ≤ v then 0
    else if v ≤ -P.maxReal then 0
    else spec.count (nz P v)
  else 0

/-- `EPSSetUp_KrylovSchur_Slice`, lines 325-337 (direction and ends), 401-411, 451-453 (inertias at both ends, error if the matrix is
singular), 460-463 (bounded intervals are traversed from the second end) and 467, for one partition without subintervals. -/
def setup (P : Par) (spec : Multiset ℝ) (a b : ℝ) : R SR :=
  let fwd := -P.maxReal < a ∨ P.maxReal ≤ b
  let i0 := if fwd then a else b
  let i1 := if fwd then b else a
  let dir : ℤ := if fwd then 1 else -1
  let hasEnd : Bool := if fwd then !(decide (P.maxReal ≤ b)) else !(decide (a ≤ -P.maxReal))
  if zerosAt P spec i0 ≠ 0 then .err
  else if zerosAt P spec i1 ≠ 0 then .err
  else
    let n0 := inertiaAt P spec i0
    let n1 := inertiaAt P spec i1
    if hasEnd then .ok ⟨-dir, i1, i0, hasEnd, n1, n0, -dir * (n0 - n1)⟩
    else .ok ⟨dir, i0, i1, hasEnd, n0, n1, dir * (n1 - n0)⟩

/-- `sortRealEigenvalues`, inner loop of lines 1100-1102: `i` is moved to the left over the entries that are not smaller (in the direction of
traversal); the entries already sorted are given from the right to the left. -/
def insRev (dir : ℤ) (r : ℕ → ℝ) (i : ℕ) : List ℕ → List ℕ
  | [] => [i]
  | j :: t => if (dir : ℝ) * (r i - r j) ≤ 0 then j :: insRev dir r i t else i :: j :: t

/-- `sortRealEigenvalues`, lines 1097-1103. -/
def sortReal (dir : ℤ) (r : ℕ → ℝ) (perm : List ℕ) : List ℕ :=
  (perm.foldl (fun acc i => insRev dir r i acc) []).reverse

/-- The entries of an array given as a list. -/
def at' (l : List ℝ) (i : ℕ) : ℝ := l.getD i 0

/-- `EPSLookForDeflation`, loop of lines 1181-1188 (`count0`, `count1`). -/
def scan (dir : ℤ) (value ext1 : ℝ) : List ℝ → ℕ × ℕ
  | [] => (0, 0)
  | v :: t =>
    if (dir : ℝ) * (v - ext1) < 0 then
      if (dir : ℝ) * (v - value) < 0 then ((scan dir value ext1 t).1 + 1, (scan dir value ext1 t).2)
      else ((scan dir value ext1 t).1, (scan dir value ext1 t).2 + 1)
    else (0, 0)

/-- `EPSLookForDeflation`, line 1170-1171 (never negative in a run, so that the index is a natural number). -/
def ini (S : SR) (st : St) : ℕ :=
  match st.left with
  | n0 :: _ => (S.dir * (n0.inertia - S.inertia0)).toNat
  | [] => 0

/-- `sPres->ext[0]`, lines 1174-1175. -/
def ext0 (S : SR) (st : St) : ℝ :=
  match st.left with
  | [] => S.int0
  | n0 :: _ => n0.value

/-- `sPres->ext[1]`, lines 1176-1179. -/
def ext1 (P : Par) (S : SR) (st : St) : ℝ :=
  match st.right with
  | [] => if S.hasEnd = true then S.int1 else if 0 < S.dir then P.maxReal else -P.maxReal
  | n1 :: _ => n1.value

/-- The stored values in the order of `perm` from position `ini` on. -/
def tailVals (S : SR) (st : St) : List ℝ := (st.perm.map (at' st.eigr)).drop (ini S st)

/-- `count0`, `count1` of `EPSLookForDeflation`. -/
def known (P : Par) (S : SR) (st : St) : ℕ × ℕ := scan S.dir st.cur.value (ext1 P S st) (tailVals S st)

/-- The values whose vectors are used for deflation, lines 1201-1211. -/
def deflated (P : Par) (S : SR) (st : St) : List ℝ :=
  (tailVals S st).take ((known P S st).1 + (known P S st).2)

/-- `sPres->nsch[0]`, lines 1190-1193. -/
def nsch0 (P : Par) (S : SR) (st : St) : ℤ :=
  match st.left with
  | n0 :: _ => S.dir * (st.cur.inertia - n0.inertia) - ((known P S st).1 : ℤ)
  | [] => 0

/-- `sPres->nsch[1]`, lines 1195-1198 (without a neighbour the values already known are not subtracted). -/
def nsch1 (P : Par) (S : SR) (st : St) : ℤ :=
  match st.right with
  | n1 :: _ => S.dir * (n1.inertia - st.cur.inertia) - ((known P S st).2 : ℤ)
  | [] => S.dir * (S.inertia1 - st.cur.inertia)

/-- `count0` of `EPSKrylovSchur_Slice`, line 928: converged values between the left end and the shift. -/
def found0 (S : SR) (st : St) (conv : List ℝ) : ℕ :=
  conv.countP (fun l => decide (0 < (S.dir : ℝ) * (st.cur.value - l) ∧ 0 < (S.dir : ℝ) * (l - ext0 S st)))

/-- `count1` of `EPSKrylovSchur_Slice`, line 929. -/
def found1 (P : Par) (S : SR) (st : St) (conv : List ℝ) : ℕ :=
  conv.countP (fun l => decide (0 < (S.dir : ℝ) * (l - st.cur.value) ∧ 0 < (S.dir : ℝ) * (ext1 P S st - l)))

/-- The values accepted by `EPSStoreEigenpairs`, lines 1126-1148. -/
def accepted (P : Par) (S : SR) (st : St) (conv : List ℝ) : List ℝ :=
  ((sortReal S.dir (at' conv) (List.range conv.length)).map (at' conv)).filter
    (fun l => decide (0 < (S.dir : ℝ) * (l - ext0 S st) ∧ 0 < (S.dir : ℝ) * (ext1 P S st - l)))

/-- `EPSStoreEigenpairs`, lines 1120-1152. -/
def store (P : Par) (S : SR) (st : St) (conv : List ℝ) : R St :=
  let acc := accepted P S st conv
  let e := st.eigr ++ acc
  if (S.numEigs : ℤ) < (e.length : ℤ) ∧ acc ≠ [] then .err
  else .ok { st with
    cur := { st.cur with index := st.eigr.length, neigs := acc.length }
    eigr := e
    perm := sortReal S.dir (at' e) (st.perm ++ List.range' st.eigr.length acc.length) }

/-- `EPSGetNewShiftValue`, lines 1027-1030: the interval between the shift and a neighbour is divided.  The comparison is written without the division; it
is the same also for a shift equal to zero. -/
def middle (P : Par) (v n : ℝ) : ℝ :=
  if |v - (v + n) / 2| ≤ P.narrow * |v| then v else (v + n) / 2

/-- `EPSGetNewShiftValue`, lines 1059-1062: nearest shift to the left with a different inertia. -/
def prevDiff (i : ℤ) : List Shift → Option Shift
  | [] => none
  | s :: t => if s.inertia - i = 0 then prevDiff i t else some s

/-- `d_prev` of lines 1063-1072 (the quotient of line 1067 is compared without the division). -/
def dPrev (P : Par) (S : SR) (st : St) : ℝ :=
  match prevDiff st.cur.inertia st.left with
  | some s => |(st.cur.value - s.value) / ((st.cur.inertia - s.inertia : ℤ) : ℝ)|
  | none =>
    if 0 < (S.dir : ℝ) * (at' st.eigr 0 - st.cur.value)
        ∧ P.sqrtTol * |at' st.eigr 0| < |at' st.eigr (st.eigr.length - 1) - at' st.eigr 0| then
      |at' st.eigr (st.eigr.length - 1) - at' st.eigr 0| / ((st.cur.neigs : ℝ) + 0.3)
    else |at' st.eigr (st.eigr.length - 1) - st.cur.value| / ((st.cur.neigs : ℝ) + 0.3)

/-- `EPSGetNewShiftValue`, lines 1056-1079: some values were accepted. -/
def stepAccepted (P : Par) (S : SR) (st : St) : ℝ :=
  let last := at' st.eigr (st.cur.index + st.cur.neigs - 1)
  if 0 < (S.dir : ℝ) * (last - st.cur.value) then last + ((S.dir : ℝ) * dPrev P S st * P.nev) / 2
  else st.cur.value + ((S.dir : ℝ) * dPrev P S st * P.nev) / 2

/-- `idxP` of lines 1042-1047. -/
def idxP (S : SR) (v : ℝ) : List ℝ → ℕ
  | [] => 0
  | l :: t => if (S.dir : ℝ) * (l - v) < 0 then idxP S v t + 1 else 0

/-- `EPSGetNewShiftValue`, lines 1048-1054: first shift without accepted values. -/
def stepFirst (P : Par) (S : SR) (v : ℝ) (conv : List ℝ) : ℝ :=
  let d := if 0 < idxP S v conv then |v - at' conv 0| / ((idxP S v conv : ℝ) + 0.3)
    else |v - at' conv (conv.length - 1)| / ((conv.length : ℝ) + 0.3)
  v + ((S.dir : ℝ) * d * P.nev) / 2

/-- The end of the interval can not be surpassed, line 1081. -/
def cap (S : SR) (x : ℝ) : ℝ := if (S.dir : ℝ) * (S.int1 - x) < 0 then S.int1 else x

/-- `EPSGetNewShiftValue` with `side=1`, lines 1027-1082: the new value and the state (`nleap`). -/
def newRight (P : Par) (S : SR) (st : St) (conv : List ℝ) : R (ℝ × St) :=
  match st.right with
  | n1 :: _ => .ok (middle P st.cur.value n1.value, st)
  | [] =>
    if st.cur.neigs = 0 then
      match st.left with
      | n0 :: _ =>
        if S.hasEnd = true ∨ st.nleap + 1 ≤ 5 then
          .ok (cap S (st.cur.value + 10 * (S.dir : ℝ) * |st.cur.value - n0.value|), { st with nleap := st.nleap + 1 })
        else .err
      | [] => if conv = [] then .err else .ok (cap S (stepFirst P S st.cur.value conv), st)
    else .ok (cap S (stepAccepted P S st), { st with nleap := 0 })

/-- `EPSGetNewShiftValue` with `side=0`; it is called only if there is a left neighbour (otherwise `nsch[0]=0`). -/
def newLeft (P : Par) (st : St) : R ℝ :=
  match st.left with
  | n0 :: _ => .ok (middle P st.cur.value n0.value)
  | [] => .err

/-- `EPSCreateShift`, lines 725-728: the value is the one of a neighbour, only the counter `nPend` is incremented. -/
def repush (st : St) : R St :=
  match st.slot with
  | some p => .ok { st with pend := p :: st.pend, slot := none }
  | none => .stale

/-- `EPSCreateShift`, lines 725-750, called with `sPres` and its right neighbour (line 1307). -/
def createRight (st : St) (v : ℝ) : R St :=
  if v = st.cur.value ∨ (∃ n1 ∈ st.right.head?, v = n1.value) then repush st
  else .ok { st with right := ⟨st.next, v, 0, 0, 0⟩ :: st.right, pend := st.next :: st.pend, slot := none, next := st.next + 1 }

/-- `EPSCreateShift`, lines 725-750, called with the left neighbour of `sPres` and `sPres` (line 1312). -/
def createLeft (st : St) (v : ℝ) : R St :=
  if (∃ n0 ∈ st.left.head?, v = n0.value) ∨ v = st.cur.value then repush st
  else .ok { st with left := ⟨st.next, v, 0, 0, 0⟩ :: st.left, pend := st.next :: st.pend, slot := none, next := st.next + 1 }

/-- Lines 1305-1308: the right side is not complete (`comp[1]` of line 1006 false). -/
def doRight (P : Par) (S : SR) (n1 f1 : ℤ) (conv : List ℝ) (st : St) : R St :=
  if f1 < n1 then (newRight P S st conv).bind fun p => createRight p.2 p.1 else .ok st

/-- Lines 1309-1313. -/
def doLeft (P : Par) (n0 f0 : ℤ) (st : St) : R St :=
  if f0 < n0 then (newLeft P st).bind fun v => createLeft st v else .ok st

/-- Main loop, lines 1298-1313, up to the selection of the next shift; `conv` is what the Lanczos process at the current shift delivers.  The checks are
those of lines 1192, 1197, 1008 and 1133. -/
def work (P : Par) (S : SR) (conv : List ℝ) (st : St) : R St :=
  if (st.left ≠ [] ∧ nsch0 P S st < 0) ∨ (st.right ≠ [] ∧ nsch1 P S st < 0) then .err
  else if nsch0 P S st < (found0 S st conv : ℤ) ∨ nsch1 P S st < (found1 P S st conv : ℤ) then .err
  else (store P S st conv).bind fun s1 =>
    (doRight P S (nsch1 P S st) (found1 P S st conv) conv s1).bind fun s2 =>
      doLeft P (nsch0 P S st) (found0 S st conv) s2

/-- Position of the shift with a given pointer: the shifts to the left (nearest first), the shift, those to the right. -/
def locate (t : ℕ) : List Shift → List Shift → Option (List Shift × Shift × List Shift)
  | _, [] => none
  | acc, e :: l => if e.id = t then some (acc, e, l) else locate t (e :: acc) l

/-- `EPSExtractShift`, lines 822-826: the new value of a shift that hit an eigenvalue.  The parenthesis of line 825 makes the first condition the product
of `dir` and a truth value. -/
def moved (P : Par) (S : SR) (v n0 n1 : ℝ) : ℝ :=
  let diam := min |n0 - v| |n1 - v|
  let ptol := min P.ptol (diam / 2)
  let s := v * (1 + ptol)
  if S.dir * (if s - n0 ≠ 0 then 1 else 0) < 0 then (v + n0) / 2
  else if (S.dir : ℝ) * (n1 - s) < 0 then (v + n1) / 2
  else s

/-- `EPSExtractShift`, lines 820-831: inertia of the shift taken from the stack, moved if it is an eigenvalue (both neighbours are dereferenced
in line 822). -/
def place (P : Par) (spec : Multiset ℝ) (S : SR) (l : List Shift) (e : Shift) (r : List Shift) : R Shift :=
  if zerosAt P spec e.value ≠ 0 then
    match l, r with
    | n0 :: _, n1 :: _ =>
      if zerosAt P spec (moved P S e.value n0.value n1.value) ≠ 0 then .err
      else .ok { e with value := moved P S e.value n0.value n1.value,
                        inertia := inertiaAt P spec (moved P S e.value n0.value n1.value) }
    | _, _ => .null
  else .ok { e with inertia := inertiaAt P spec e.value }

/-- All shifts in order. -/
def chain (st : St) : List Shift := st.left.reverse ++ st.cur :: st.right

/-- `EPSExtractShift`, lines 809-835; `none` is `sPres=NULL`. -/
def extract (P : Par) (spec : Multiset ℝ) (S : SR) (st : St) : R (Option St) :=
  match st.pend with
  | [] => .ok none
  | t :: ps =>
    if t = st.cur.id then .ok (some { st with pend := ps, slot := some t })
    else match locate t [] (chain st) with
      | none => .null
      | some (l, e, r) =>
        (place P spec S l e r).bind fun e' => .ok (some { st with left := l, cur := e', right := r, pend := ps, slot := some t })

/-- `EPSSolve_KrylovSchur_Slice`, lines 1271-1295. -/
def start (S : SR) : St :=
  ⟨[], ⟨1, S.int0, S.inertia0, 0, 0⟩, [], [], some 1, 2, [], [], 0⟩

/-- `EPSSolve_KrylovSchur_Slice`, main loop of lines 1297-1316; one list of converged values for each iteration. -/
def loop (P : Par) (spec : Multiset ℝ) (S : SR) : List (List ℝ) → St → R St
  | [], _ => .running
  | c :: cs, st =>
    (work P S c st).bind fun s1 => (extract P spec S s1).bind fun o =>
      match o with
      | none => .ok s1
      | some s2 => loop P spec S cs s2

/-- `EPSSolve_KrylovSchur_Slice`, lines 1267-1335, including the reversal of lines 1331-1335: the state at the end. -/
def solveLocal (P : Par) (spec : Multiset ℝ) (S : SR) (cs : List (List ℝ)) : R St :=
  if S.numEigs = 0 then .ok (start S)
  else (loop P spec S cs (start S)).bind fun st => .ok { st with perm := if S.dir < 0 then st.perm.reverse else st.perm }

/-- `EPSSolve_KrylovSchur_Slice` for the user's solver (one partition), lines 1236-1247, after the set-up: the number of converged eigenvalues (line
1243) and the values returned by `EPSGetEigenpair`, `eigr[perm[i]]` (entries not written are zero, lines 1287-1292). -/
def solve (P : Par) (spec : Multiset ℝ) (a b : ℝ) (cs : List (List ℝ)) : R (List ℝ) :=
  (setup P spec a b).bind fun S => (solveLocal P spec S cs).bind fun st =>
    .ok ((List.range S.numEigs.toNat).map fun i => at' st.eigr (st.perm.getD i i))

end
end Verif.Slice
