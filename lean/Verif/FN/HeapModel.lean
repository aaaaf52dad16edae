import Verif.FN.Model

/-!
# FN objects in memory: FNDuplicate and the setters

FN objects are handles (addresses); a combined function holds the handles of its children, which may
be shared.  The model gives the effect of FNDuplicate and of the setters on the store of objects.
Simplifications: communicators, reference counts and the work matrices cached in an object are left
out; FNDestroy is not modelled here.
-/

set_option linter.all false
noncomputable section
open Classical

namespace Verif.FN

/-- An object in memory.  `untyped` is an object between FNCreate and FNSetType; the children of a
combined function are NULL until FNCombineSetChildren (fncombine.c:22-25, 342). -/
inductive Obj (K : Type)
  | untyped (h : Header K)
  | leaf (h : Header K) (t : Leaf K)
  | combine (h : Header K) (c : Comb) (f1 f2 : Option ℕ)

/-- The store: `obj a` is meaningful for handles `a < next`. -/
structure Heap (K : Type) where
  next : ℕ
  obj : ℕ → Obj K

variable {K : Type} [Field K]

def Heap.set (s : Heap K) (a : ℕ) (o : Obj K) : Heap K :=
  { s with obj := fun b => if b = a then o else s.obj b }

/-- fnbasic.c:98-117 `FNCreate`: default header. -/
def defaultHeader : Header K := ⟨1, 1, 0, .redundant⟩

def create (s : Heap K) : Heap K × ℕ :=
  ({ next := s.next + 1, obj := fun b => if b = s.next then .untyped defaultHeader else s.obj b },
    s.next)

/-- Header of an object. -/
def Obj.header : Obj K → Header K
  | .untyped h => h
  | .leaf h _ => h
  | .combine h _ _ _ => h

def Obj.setHeader (o : Obj K) (h : Header K) : Obj K :=
  match o with
  | .untyped _ => .untyped h
  | .leaf _ t => .leaf h t
  | .combine _ c f1 f2 => .combine h c f1 f2

/-- fnbasic.c:1014-1019: scale factors, method and parallel mode are read with the getters and
stored with the setters (with their checks). -/
def copyHeader (src : Header K) : Option (Header K) :=
  (setScale defaultHeader src.alpha src.beta).bind fun h =>
    (setMethod h src.method).bind fun h => some { h with pmode := src.pmode }

/-- fnbasic.c:1000-1022 `FNDuplicate` with the duplicate functions of the types:
fncombine.c:303-312, fnrational.c:448-465, fnphi.c:232-239 (the remaining types have no data).
The first argument bounds the depth of the recursion (a cyclic structure would recurse forever). -/
def dup : ℕ → Heap K → ℕ → Option (Heap K × ℕ)
  | 0, _, _ => none
  | n + 1, s, a =>
    if ¬ a < s.next then none
    else match s.obj a with
    | .untyped _ => none
    | .leaf h t =>
      (copyHeader h).bind fun h' =>
        let (s1, b) := create s
        some (s1.set b (.leaf h' t), b)
    | .combine h c (some a1) (some a2) =>
      (copyHeader h).bind fun h' =>
        let (s1, b) := create s
        let s1 := s1.set b (.combine h' c none none)
        (dup n s1 a1).bind fun (s2, b1) =>
          let s2 := s2.set b (.combine h' c (some b1) none)
          (dup n s2 a2).bind fun (s3, b2) =>
            some (s3.set b (.combine h' c (some b1) (some b2)), b)
    | .combine _ _ _ _ => none

/-- The function represented by a handle (what FNEvaluateFunction and FNEvaluateDerivative see);
the first argument bounds the depth. -/
def toTree : ℕ → Heap K → ℕ → Option (Fn K)
  | 0, _, _ => none
  | n + 1, s, a =>
    if ¬ a < s.next then none
    else match s.obj a with
    | .untyped _ => none
    | .leaf h t => some (.leaf h t)
    | .combine h c (some a1) (some a2) =>
      (toTree n s a1).bind fun f1 => (toTree n s a2).bind fun f2 => some (.combine h c f1 f2)
    | .combine _ _ _ _ => none

/-- Calls which change the store.  `setData` stands for FNSetType to a type without children,
FNRationalSetNumerator, FNRationalSetDenominator and FNPhiSetIndex; `setCombine` for FNSetType to
FNCOMBINE followed by FNCombineSetChildren, with any handles. -/
inductive Op (K : Type)
  | create
  | setScale (a : ℕ) (alpha beta : K)
  | setMethod (a : ℕ) (m : ℕ)
  | setParallel (a : ℕ) (m : PMode)
  | setData (a : ℕ) (t : Leaf K)
  | setCombine (a : ℕ) (c : Comb) (f1 f2 : ℕ)
  | duplicate (n a : ℕ)

/-- Effect of a call; a failing call leaves the store alone. -/
def Op.run (s : Heap K) : Op K → Heap K
  | .create => (Verif.FN.create s).1
  | .setScale a al be =>
    match Verif.FN.setScale (s.obj a).header al be with
    | some h => s.set a ((s.obj a).setHeader h)
    | none => s
  | .setMethod a m =>
    match Verif.FN.setMethod (s.obj a).header m with
    | some h => s.set a ((s.obj a).setHeader h)
    | none => s
  | .setParallel a m => s.set a ((s.obj a).setHeader { (s.obj a).header with pmode := m })
  | .setData a t => s.set a (.leaf (s.obj a).header t)
  | .setCombine a c f1 f2 => s.set a (.combine (s.obj a).header c (some f1) (some f2))
  | .duplicate n a =>
    match dup n s a with
    | some (s', _) => s'
    | none => s

/-- The object a setter call is applied to. -/
def Op.target : Op K → Option ℕ
  | .create => none
  | .setScale a _ _ => some a
  | .setMethod a _ => some a
  | .setParallel a _ => some a
  | .setData a _ => some a
  | .setCombine a _ _ _ => some a
  | .duplicate _ _ => none

end Verif.FN
