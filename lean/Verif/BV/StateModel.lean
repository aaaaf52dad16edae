import Mathlib.Data.List.Basic
import Mathlib.Data.Int.Basic
/-!
Model of the state of a BV object: dimensions, constraints, outstanding columns, contents and signature
(src/sys/classes/bv/interface/bvbasic.c, bvfunc.c, include/slepc/private/bvimpl.h).

A call that reports an error, or accesses memory outside the arrays, is the outcome `none`.  `α` is the
type of a column.  The columns are stored one after another, constraints first, as in BVSVEC
(svec.c: the column `j` starts at `(nc+j)*ld`), BVMAT and BVVECS.
-/
set_option linter.all false
namespace Verif.BV

/-- The dimension arguments `PETSC_DETERMINE`, `PETSC_CURRENT` or a number. -/
inductive Arg | determine | current | val (v : Int)
deriving DecidableEq

/-- The fields of `struct _p_BV` (bvimpl.h:63-113) that matter here: number of columns, leading, active
and constraint columns, the indices and the identifiers of the two columns handed out, the contents of
the storage, the kind of inner product and the signature array. -/
structure Bv (α : Type) where
  m : Nat
  l : Nat
  k : Nat
  nc : Nat
  ci0 : Int
  ci1 : Int
  id0 : Nat
  id1 : Nat
  cols : List α
  indef : Bool
  omega : Option (List Int)

variable {α : Type}

/-- `BVCreate` (bvfunc.c:174-227) followed by `BVSetSizes` (bvbasic.c:128-131) and the creation of the
storage; the contents are `cols`. -/
def create (cols : List α) (indef : Bool) : Bv α :=
  { m := cols.length, l := 0, k := cols.length, nc := 0, ci0 := -1, ci1 := -1, id0 := 0, id1 := 0,
    cols, indef, omega := Option.none }

/-- The value of `ci[]` that means "not handed out", bvimpl.h:235. -/
def free (b : Bv α) : Int := -(b.nc : Int) - 1

/-- First part of `BVSetActiveColumns`, bvbasic.c:449-454. -/
def setActiveK (b : Bv α) : Arg → Option (Bv α)
  | .determine => some { b with k := b.m }
  | .current => some b
  | .val v => if 0 ≤ v ∧ v ≤ b.m then some { b with k := v.toNat } else none

/-- Second part of `BVSetActiveColumns`, bvbasic.c:455-460. -/
def setActiveL (b : Bv α) : Arg → Option (Bv α)
  | .determine => some { b with l := 0 }
  | .current => some b
  | .val v => if 0 ≤ v ∧ v ≤ b.k then some { b with l := v.toNat } else none

/-- `BVSetActiveColumns`, bvbasic.c:442-462. -/
def setActive (b : Bv α) (l k : Arg) : Option (Bv α) :=
  (setActiveK b k).bind fun b1 => setActiveL b1 l

/-- `BVAvailableVec`, bvimpl.h:235. -/
def available (b : Bv α) : Option Bool :=
  if b.ci0 = free b then some false else if b.ci1 = free b then some true else none

/-- `BVGetColumn`, bvbasic.c:1134-1155; `vid slot j` is the identifier of the Vec handed out in that slot
(`cv[0]`, `cv[1]` for BVSVEC and BVMAT, the Vec of the column for BVVECS). -/
def getColumn (vid : Bool → Int → Nat) (b : Bv α) (j : Int) : Option (Nat × Bv α) :=
  if ¬ (j ≥ 0 ∨ -j ≤ b.nc) then none
  else if ¬ j < b.m then none
  else if ¬ (j ≠ b.ci0 ∧ j ≠ b.ci1) then none
  else match available b with
    | none => none
    | some false => some (vid false j, { b with ci0 := j, id0 := vid false j })
    | some true => some (vid true j, { b with ci1 := j, id1 := vid true j })

/-- `BVRestoreColumn`, bvbasic.c:1174-1201; `id` is the identifier of the Vec given. -/
def restoreColumn (b : Bv α) (j : Int) (id : Nat) : Option (Bv α) :=
  if ¬ (j ≥ 0 ∨ -j ≤ b.nc) then none
  else if ¬ j < b.m then none
  else if ¬ (j = b.ci0 ∨ j = b.ci1) then none
  else if j = b.ci0 then
    if id = b.id0 then some { b with ci0 := free b, id0 := 0 } else none
  else
    if id = b.id1 then some { b with ci1 := free b, id1 := 0 } else none

/-- Assignment `a[p] := x` inside the array. -/
def wrAt {β : Type} (a : List β) (p : Nat) (x : β) : Option (List β) :=
  if p < a.length then some (a.set p x) else none

/-- The loop of `BVSetNumConstraints` that moves the columns towards the beginning, bvbasic.c:299-305:
iterations `i, …, i+fuel-1`; `d` is `-diff`. -/
def shiftCols (nc d : Nat) : Nat → Nat → List α → Option (List α)
  | 0, _, cols => some cols
  | fuel + 1, i, cols =>
    (cols[nc + i]?).bind fun x => (wrAt cols (nc + i - d) x).bind fun cols' =>
      shiftCols nc d fuel (i + 1) cols'

/-- `BVSetNumConstraints`, bvbasic.c:281-315. -/
def setNumConstraints (b : Bv α) (nc : Int) : Option (Bv α) :=
  if ¬ 0 ≤ nc then none
  else if ¬ (b.ci0 = free b ∧ b.ci1 = free b) then none
  else if nc.toNat = b.nc then some b
  else if ¬ nc.toNat < b.nc + b.m then none
  else
    let m := b.nc + b.m - nc.toNat
    (if nc.toNat < b.nc then shiftCols b.nc (b.nc - nc.toNat) b.m 0 b.cols else some b.cols).map fun cols =>
      { b with nc := nc.toNat, ci0 := -nc - 1, ci1 := -nc - 1, m := m, l := min b.l m, k := min b.k m,
                  cols }

/-- `BVResize`, bvbasic.c:359-410, for a BV that is not a split one, with `BVResize_Svec`
(svec.c:261-290), `BVResize_Vecs` (vecs.c:325-347): `zero` is the content of new columns. -/
def resize (zero : α) (b : Bv α) (m : Int) (copy : Bool) : Option (Bv α) :=
  if ¬ 0 < m then none
  else if b.nc ≠ 0 then none
  else if m.toNat = b.m then some b
  else
    let m := m.toNat
    let q := min m b.m
    some { b with m, k := min b.k m, l := min b.l m,
                  cols := if copy then b.cols.take q ++ List.replicate (m - q) zero
                          else List.replicate m zero
                  omega := b.omega.map fun w =>
                    if copy then w.take q ++ List.replicate (m - q) 0 else List.replicate m 1 }

/-- The dimensions after `BVInsertConstraints`, bvfunc.c:418-446, when `acc` of the `nc` vectors given
are linearly independent (bvfunc.c:365-378); the columns become `cols` (constraints first). -/
def insertConstraints (zero : α) (b : Bv α) (nc : Int) (acc : Nat) (constr : List α) : Option (Bv α) :=
  if nc = 0 then some b
  else if ¬ 0 < nc then none
  else if b.nc ≠ 0 then none
  else if ¬ (b.ci0 = -1 ∧ b.ci1 = -1) then none
  else
    (resize zero b (nc + b.m) false).map fun b1 =>
      { b1 with nc := acc, m := b.m, ci0 := -(acc : Int) - 1, ci1 := -(acc : Int) - 1,
                   cols := constr ++ b1.cols.drop constr.length }

/-- `BV_AllocateSignature`, bvimpl.h:189-209. -/
def allocSignature (b : Bv α) : Bv α :=
  if b.indef ∧ b.omega = none then { b with omega := some (List.replicate (b.nc + b.m) 1) } else b

/-- The loop of `BVSetSignature`, bvbasic.c:670: `intern[nc+i] = pomega[i]`. -/
def writeSigns : Nat → List Int → List Int → Option (List Int)
  | _, [], w => some w
  | p, x :: xs, w => (wrAt w p x).bind fun w' => writeSigns (p + 1) xs w'

/-- `BVSetSignature`, bvbasic.c:652-676. -/
def setSignature (b : Bv α) (s : List Int) : Option (Bv α) :=
  if s.length ≠ b.k then none
  else
    let b := allocSignature b
    if b.indef then
      b.omega.bind fun w => (writeSigns b.nc s w).map fun w' => { b with omega := some w' }
    else some b

/-- `BVGetSignature`, bvbasic.c:696-718. -/
def getSignature (b : Bv α) : Option (List Int) :=
  match b.omega with
  | some w => if b.indef then (List.range b.k).mapM fun i => w[b.nc + i]? else some (List.replicate b.k 1)
  | none => some (List.replicate b.k 1)

/-- The signature part of `BVCopyColumn`, bvbasic.c:1902-1906. -/
def copySign (omega : Option (List Int)) (j i : Nat) : Option (Option (List Int)) :=
  match omega with
  | none => some none
  | some w => (w[j]?).bind fun x => (wrAt w i x).map some

/-- `BVCopyColumn`, bvbasic.c:1889-1911, with `BVCopyColumn_Svec` (svec.c:249-259): the signature is
indexed without the constraints (line 1904). -/
def copyColumn (b : Bv α) (j i : Nat) : Option (Bv α) :=
  if j = i then some b
  else
    (copySign b.omega j i).bind fun omega =>
    (b.cols[b.nc + j]?).bind fun x =>
    (wrAt b.cols (b.nc + i) x).map fun cols => { b with omega, cols }

/-- Copy of `d` entries of `src` from position `p` to position `q` of `dst`: `PetscArraycpy`. -/
def blit {β : Type} (src dst : List β) (p q d : Nat) : Option (List β) :=
  if p + d ≤ src.length ∧ q + d ≤ dst.length then
    some (dst.take q ++ (src.drop p).take d ++ dst.drop (q + d)) else none

/-- The signature part of `BVCopy`, bvbasic.c:1816-1824: the result is the new `w`. -/
def copySigns (same : Bool) (v w : Bv α) : Option (Bv α) :=
  if v.indef = true ∧ w.indef = true ∧ same = true then
    v.omega.bind fun ov => (allocSignature w).omega.bind fun ow =>
    (blit ov ow (v.nc + v.l) (w.nc + w.l) (v.k - v.l)).map fun o =>
      { allocSignature w with omega := some o }
  else some w

/-- `BVCopy`, bvbasic.c:1797-1829, with `BVCopy_Svec` (svec.c:243), from `v` to a different BV `w` with
(`same`) or without the same inner product matrix; `n` is the number of local rows (line 1813). -/
def copy (n : Nat) (same : Bool) (v w : Bv α) : Option (Bv α) :=
  if ¬ (v.k - v.l ≤ w.m - w.l) then none
  else if n = 0 then some w
  else
    (copySigns same v w).bind fun w1 =>
    (blit v.cols w.cols (v.nc + v.l) (w.nc + w.l) (v.k - v.l)).map fun cols => { w1 with cols }

/-- The calls of a history; `get j id` is a call of `BVGetColumn` that handed out the Vec `id`. -/
inductive Ev (α : Type)
  | get (j : Int) (id : Nat)
  | restore (j : Int) (id : Nat)
  | setActive (l k : Arg)
  | setNumConstraints (nc : Int)
  | insertConstraints (nc : Int) (acc : Nat) (constr : List α)
  | resize (m : Int) (copy : Bool)

/-- One call. -/
def step (vid : Bool → Int → Nat) (zero : α) (b : Bv α) : Ev α → Option (Bv α)
  | .get j id => match getColumn vid b j with
    | some (id', b') => if id = id' then some b' else none
    | none => none
  | .restore j id => restoreColumn b j id
  | .setActive l k => setActive b l k
  | .setNumConstraints nc => setNumConstraints b nc
  | .insertConstraints nc acc constr =>
    if acc ≤ nc.toNat ∧ constr.length = acc then insertConstraints zero b nc acc constr else none
  | .resize m c => resize zero b m c

/-- A history of calls, all successful. -/
def run (vid : Bool → Int → Nat) (zero : α) : Bv α → List (Ev α) → Option (Bv α)
  | b, [] => some b
  | b, e :: es => (step vid zero b e).bind fun b' => run vid zero b' es

end Verif.BV
