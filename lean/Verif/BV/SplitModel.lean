import Verif.BV.StateModel
/-!
Model of `BVGetSplit` and `BVRestoreSplit` (src/sys/classes/bv/interface/bvbasic.c:1913-2026) with the
objects `L` and `R` cached in the parent, and of the inner-product product cached in a BV
(include/slepc/private/bvimpl.h:144-174, bvbasic.c:518-541).
-/
set_option linter.all false
namespace Verif.BV
variable {α : Type}

/-- A BV created by `BVGetSplit_Private`: its own fields, and the view of the parent's memory taken when
it was created (svec.c:437-470, vecs.c:524-530, bvmat.c:417-440, contig.c:367-375): the generation of the
parent's storage and the offset in columns. -/
structure Child where
  bv : Bv Unit
  gen : Nat
  off : Nat

/-- A BV with its split objects; `gen` counts the reallocations of its storage. -/
structure Par (α : Type) where
  bv : Bv α
  gen : Nat
  lsplit : Nat
  L : Option Child
  R : Option Child

def fresh (b : Bv α) : Par α := ⟨b, 0, 0, none, none⟩

/-- Lines 1920-1929: creation of the split object; `BVCreate` leaves `ci` at -1 (bvfunc.c:219-220). -/
def newChild (p : Par α) (left : Bool) : Child :=
  ⟨{ m := p.bv.m, l := 0, k := p.bv.m, nc := 0, ci0 := -1, ci1 := -1, id0 := 0, id1 := 0, cols := [],
     indef := p.bv.indef, omega := none }, p.gen, if left then 0 else p.lsplit⟩

/-- Line 1918. -/
def ncolsOf (p : Par α) (left : Bool) : Nat := if left then p.bv.nc + p.bv.l else p.bv.m - p.bv.l

/-- Lines 1919-1929: the cached object is kept if its number of columns is the one wanted. -/
def reuse (p : Par α) (left : Bool) : Option Child → Child
  | some c => if ncolsOf p left ≠ c.bv.m then newChild p left else c
  | none => newChild p left

/-- Lines 1930-1937. -/
def fixChild (p : Par α) (left : Bool) (c : Child) : Child :=
  let nc := if left then p.bv.nc else 0
  let b := { c.bv with l := 0, k := if left then p.bv.l else p.bv.k - p.bv.l, nc := nc,
                       m := ncolsOf p left - nc }
  { c with bv := if nc ≠ 0 then { b with ci0 := -(nc : Int) - 1, ci1 := -(nc : Int) - 1 } else b }

/-- `BVGetSplit_Private`, bvbasic.c:1913-1941. -/
def getChild (p : Par α) (left : Bool) (c : Option Child) : Child := fixChild p left (reuse p left c)

/-- `BVGetSplit`, bvbasic.c:1975-1990, not mixed with `BVGetSplitRows`. -/
def getSplit (p : Par α) : Option (Par α) :=
  if p.bv.l = 0 then none
  else if p.lsplit ≠ 0 then none
  else
    let p1 := { p with lsplit := p.bv.nc + p.bv.l }
    some { p1 with L := some (getChild p1 true p1.L), R := some (getChild p1 false p1.R) }

/-- The checks of lines 2018-2019 for an object that is given back. -/
def restored (given : Bool) : Option Child → Bool
  | some c => !given || (decide (c.bv.ci0 ≤ (c.bv.nc : Int) - 1) && decide (c.bv.ci1 ≤ (c.bv.nc : Int) - 1))
  | none => !given

/-- `BVRestoreSplit`, bvbasic.c:2009-2026; `gl`, `gr`: whether `L`, `R` are passed (not NULL). -/
def restoreSplit (p : Par α) (gl gr : Bool) : Option (Par α) :=
  if p.lsplit = 0 then none
  else if restored gl p.L && restored gr p.R then some { p with lsplit := 0 } else none

/-- Calls on a BV, its split objects included. -/
inductive SEv (α : Type)
  | getSplit
  | restoreSplit (gl gr : Bool)
  | childGet (left : Bool) (j : Int)
  | childRestore (left : Bool) (j : Int) (id : Nat)
  | setActive (l k : Arg)
  | setNumConstraints (nc : Int)
  | insertConstraints (nc : Int) (acc : Nat) (constr : List α)
  | resize (m : Int) (copy : Bool)

/-- Apply a change to the left or right split object. -/
def onChild (p : Par α) (left : Bool) (f : Bv Unit → Option (Bv Unit)) : Option (Par α) :=
  (if left then p.L else p.R).bind fun c => (f c.bv).map fun b =>
    if left then { p with L := some { c with bv := b } } else { p with R := some { c with bv := b } }

/-- One call; `BVResize` and `BVInsertConstraints` reallocate the storage of the parent (svec.c:261-290)
when the number of columns changes, and leave `L` and `R` alone. -/
def sstep (vid : Bool → Int → Nat) (zero : α) (p : Par α) : SEv α → Option (Par α)
  | .getSplit => getSplit p
  | .restoreSplit gl gr => restoreSplit p gl gr
  | .childGet left j => onChild p left fun b => (getColumn vid b j).map Prod.snd
  | .childRestore left j id => onChild p left fun b => restoreColumn b j id
  | .setActive l k => (setActive p.bv l k).map fun b => { p with bv := b }
  | .setNumConstraints nc => (setNumConstraints p.bv nc).map fun b => { p with bv := b }
  | .insertConstraints nc acc constr =>
    if acc ≤ nc.toNat ∧ constr.length = acc then
      (insertConstraints zero p.bv nc acc constr).map fun b =>
        { p with bv := b, gen := if nc = 0 then p.gen else p.gen + 1 }
    else none
  | .resize m c => (resize zero p.bv m c).map fun b =>
      { p with bv := b, gen := if m.toNat = p.bv.m then p.gen else p.gen + 1 }

def srun (vid : Bool → Int → Nat) (zero : α) : Par α → List (SEv α) → Option (Par α)
  | p, [] => some p
  | p, e :: es => (sstep vid zero p e).bind fun p' => srun vid zero p' es

/-! ### Cached products with the inner-product matrix -/

/-- A PETSc object with content: identifier, state counter (increased by every change) and content. -/
structure Obj (β : Type) where
  id : Nat
  state : Nat
  val : β

/-- The fields of a BV concerned: the matrix, the kind of inner product, the cached product `Bx` with the
identity of its argument (bvimpl.h:88-89). -/
structure Ip (β : Type) where
  matrix : Option (Obj (β → β))
  indef : Bool
  Bx : Option β
  xid : Nat
  xstate : Nat

/-- `BVCreate`, bvfunc.c:196-197. -/
def ipNew {β : Type} : Ip β := ⟨none, false, none, 0, 0⟩

/-- `BVSetMatrix`, bvbasic.c:518-541: the cached product keeps its key (line 537 only increases the state
of the vector `Bx`). -/
def ipSetMatrix {β : Type} (b : Ip β) (B : Option (Obj (β → β))) (indef : Bool) : Ip β :=
  match B, b.matrix with
  | none, none => if indef ≠ b.indef then { b with indef } else b
  | some B1, some M => if B1.id ≠ M.id ∨ indef ≠ b.indef then { b with matrix := some B1, indef } else
      -- same object: the BV refers to its current content
      { b with matrix := some B1 }
  | B, _ => { b with matrix := B, indef }

/-- `BVApplyMatrix`, bvbasic.c:588-599, with `BV_IPMatMult`, bvimpl.h:147-157. -/
def ipApply {β : Type} (b : Ip β) (x : Obj β) : Option (β × Ip β) :=
  match b.matrix with
  | none => some (x.val, b)
  | some M =>
    if x.id ≠ b.xid ∨ x.state ≠ b.xstate then
      some (M.val x.val, { b with Bx := some (M.val x.val), xid := x.id, xstate := x.state })
    else b.Bx.map fun y => (y, b)

/-- Calls. -/
inductive IEv (β : Type)
  | setMatrix (B : Option (Obj (β → β))) (indef : Bool)
  | apply (x : Obj β)

def istep {β : Type} (b : Ip β) : IEv β → Option (Ip β)
  | .setMatrix B i => some (ipSetMatrix b B i)
  | .apply x => (ipApply b x).map Prod.snd

def irun {β : Type} : Ip β → List (IEv β) → Option (Ip β)
  | b, [] => some b
  | b, e :: es => (istep b e).bind fun b' => irun b' es

end Verif.BV
