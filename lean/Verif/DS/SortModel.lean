import Verif.Sort.Model
import Mathlib.Logic.Function.Basic

/-!
Model of the sorting and permutation routines of the DS object
(src/sys/classes/ds/interface/dspriv.c, src/sys/classes/ds/impls/*/ds*.c).

Arrays of indices are lists; an access outside an array is the outcome `none`.  A comparison is a
function of two values `(re,im)`; `pr` is the test by which the code recognises a member of a complex
conjugate pair: `wi && wi[p]!=0` with real scalars, `isghiep && Im(wr[p])!=0` with complex scalars.
`val p` is the pair `(wr[p],wi[p])`, with `wi[p]` replaced by 0 if `wi` is NULL.
-/
set_option linter.all false

namespace Verif.DS

open Verif.Sort (wr)

section
variable {V : Type}

/-- A comparison of two values, `SlepcSCCompare`. -/
abbrev VCmp (V : Type) := V → V → Int

/-- The while loop of `DSSortEigenvalues_Private`, dspriv.c:231-247; `jj` is `j+1`, `v` the value
being inserted and `d` the number of positions it takes. -/
def shift (cmp : VCmp V) (pr : V → Bool) (val : List V) (l d : Nat) (v : V) (jj : Nat)
    (perm : List Nat) : Option (Nat × List Nat) :=
  if h : l < jj then do
    let pj ← perm[jj - 1]?
    let vj ← val[pj]?
    if cmp v vj < 0 then do
      let perm1 ← wr perm (jj - 1 + d) pj
      let q ← perm1[jj - 1]?
      let vq ← val[q]?
      if pr vq then
        if jj < 2 then none
        else do
          let q2 ← perm1[jj - 2]?
          let perm2 ← wr perm1 (jj - 2 + d) q2
          shift cmp pr val l d v (jj - 2) perm2
      else shift cmp pr val l d v (jj - 1) perm1
    else some (jj, perm)
  else some (jj, perm)
termination_by jj

/-- The body of the for loop, dspriv.c:217-249. -/
def insertAt (cmp : VCmp V) (pr : V → Bool) (val : List V) (l i : Nat) (perm : List Nat) :
    Option (Nat × List Nat) := do
  let tmp1 ← perm[i]?
  let v ← val[tmp1]?
  if pr v then do
    let tmp2 ← perm[i + 1]?
    let r ← shift cmp pr val l 2 v i perm
    let perm1 ← wr r.2 r.1 tmp1
    let perm2 ← wr perm1 (r.1 + 1) tmp2
    some (2, perm2)
  else do
    let r ← shift cmp pr val l 1 v i perm
    let perm1 ← wr r.2 r.1 tmp1
    some (1, perm1)

/-- The for loop, dspriv.c:216-250; the first argument bounds the number of iterations (`n` always
suffices, since `i` increases). -/
def sortLoop (cmp : VCmp V) (pr : V → Bool) (val : List V) (l n : Nat) :
    Nat → Nat → List Nat → Option (List Nat)
  | 0, _, perm => some perm
  | fuel + 1, i, perm =>
    if i < n then do
      let r ← insertAt cmp pr val l i perm
      sortLoop cmp pr val l n fuel (i + r.1) r.2
    else some perm

/-- `DSSortEigenvalues_Private`, dspriv.c:202-252; `n` is `ds->t`.  `test` says that the first value is
examined at all (`wi` given with real scalars, `isghiep` with complex ones). -/
def sortEigenvalues (cmp : VCmp V) (pr : V → Bool) (test : Bool) (val : List V) (l n : Nat)
    (perm : List Nat) : Option (List Nat) :=
  if test then do
    let p ← perm[l]?
    let v ← val[p]?
    sortLoop cmp pr val l n n (if pr v then l + 2 else l + 1) perm
  else sortLoop cmp pr val l n n (l + 1) perm

/-- The while loop of `DSSortEigenvaluesReal_Private`, dspriv.c:266-270; `jj` is `j+1`. -/
def sinkReal (cmp : VCmp V) (val : List V) (l : Nat) (v : V) (jj : Nat) (perm : List Nat) :
    Option (List Nat) :=
  if h : l < jj then do
    let pj ← perm[jj - 1]?
    let vj ← val[pj]?
    if cmp v vj < 0 then do
      let q ← perm[jj]?
      let perm1 ← wr perm (jj - 1) q
      let perm2 ← wr perm1 jj pj
      sinkReal cmp val l v (jj - 1) perm2
    else some perm
  else some perm
termination_by jj

/-- The for loop of `DSSortEigenvaluesReal_Private`, dspriv.c:263-271, for `m` iterations from `i`. -/
def sortRealLoop (cmp : VCmp V) (val : List V) (l : Nat) : Nat → Nat → List Nat → Option (List Nat)
  | 0, _, perm => some perm
  | m + 1, i, perm => do
    let p ← perm[i]?
    let v ← val[p]?
    let perm' ← sinkReal cmp val l v i perm
    sortRealLoop cmp val l m (i + 1) perm'

/-- `DSSortEigenvaluesReal_Private`, dspriv.c:254-273. -/
def sortReal (cmp : VCmp V) (val : List V) (l n : Nat) (perm : List Nat) : Option (List Nat) :=
  sortRealLoop cmp val l (n - (l + 1)) (l + 1) perm

end

section
variable {α : Type}

/-- `while (perm[j] != i) j++;` dspriv.c:290: first position from `j` on holding `i`; `none` when the
search leaves the array of length `len`. -/
def search (perm : Nat → Nat) (len i : Nat) (j : Nat) : Option Nat :=
  if h : j < len then (if perm j ≠ i then search perm len i (j + 1) else some j) else none
termination_by len - j

/-- The loop shared by the permutation routines, dspriv.c:286-297, 314-326, 343-354, 372-387: `m`
iterations from `i`; `swap p i` exchanges columns (or rows) `p` and `i` of the matrices. -/
def permuteLoop {S : Type} (len : Nat) (swap : Nat → Nat → S → S) :
    Nat → Nat → (Nat → Nat) → S → Option ((Nat → Nat) × S)
  | 0, _, perm, s => some (perm, s)
  | m + 1, i, perm, s =>
    let p := perm i
    if p ≠ i then do
      let j ← search perm len i (i + 1)
      permuteLoop len swap m (i + 1) (Function.update (Function.update perm j p) i i) (swap p i s)
    else permuteLoop len swap m (i + 1) perm s

/-- Swap of columns `p` and `i` in the first `n` rows, dspriv.c:293-295; `Q k c` is the entry in row
`k` and column `c`. -/
def swapCols (n : Nat) (p i : Nat) (Q : Nat → Nat → α) : Nat → Nat → α := fun k c =>
  if k < n then (if c = p then Q k i else if c = i then Q k p else Q k c) else Q k c

/-- Swap of rows `p` and `i` in the first `m` columns, dspriv.c:350-352. -/
def swapRows (m : Nat) (p i : Nat) (Q : Nat → Nat → α) : Nat → Nat → α := fun r k =>
  if k < m then (if r = p then Q i k else if r = i then Q p k else Q r k) else Q r k

/-- `DSPermuteColumns_Private`, dspriv.c:278-300; returns the final contents of `perm` and `Q`.
`len` is the length of the array `perm`. -/
def permuteColumns (len istart iend n : Nat) (perm : Nat → Nat) (Q : Nat → Nat → α) :
    Option ((Nat → Nat) × (Nat → Nat → α)) :=
  permuteLoop len (swapCols n) (iend - istart) istart perm Q

/-- `DSPermuteRows_Private`, dspriv.c:335-357. -/
def permuteRows (len istart iend m : Nat) (perm : Nat → Nat) (Q : Nat → Nat → α) :
    Option ((Nat → Nat) × (Nat → Nat → α)) :=
  permuteLoop len (swapRows m) (iend - istart) istart perm Q

/-- `DSPermuteBoth_Private`, dspriv.c:363-391 (`DSPermuteColumnsTwo_Private`, dspriv.c:305-330, is the
case `m = n`). -/
def permuteBoth (len istart iend n m : Nat) (perm : Nat → Nat)
    (UV : (Nat → Nat → α) × (Nat → Nat → α)) :
    Option ((Nat → Nat) × ((Nat → Nat → α) × (Nat → Nat → α))) :=
  permuteLoop len (fun p i x => (swapCols n p i x.1, swapCols m p i x.2)) (iend - istart) istart perm UV

end

section
variable {V : Type}

/-- `DSSort_HEP` without user-provided ranking values, dshep.c:321-345 (dense storage): the arrays
`wr`, `d` and the columns of `Q` on return.  `perm`, of length `len`, is set to the identity by `DSSort`
(dsops.c:796); `wr[i] = d[perm[i]]` (335) and `d[i] = wr[i]` (337) for `l ≤ i < n`; `ds->t` is `t`. -/
def sortHEP (cmp : VCmp V) (d : List V) (l n t : Nat) (wr0 : Nat → Option V) (Q : Nat → Nat → V) :
    Option ((Nat → Option V) × (Nat → Option V) × (Nat → Nat → V)) := do
  let perm ← sortReal cmp d l t (List.range d.length)
  let wr1 : Nat → Option V := fun i =>
    if l ≤ i ∧ i < n then (perm[i]?).bind fun p => d[p]? else wr0 i
  let r ← permuteColumns d.length l n n (fun i => perm.getD i 0) Q
  some (wr1, (fun i => if l ≤ i ∧ i < n then wr1 i else d[i]?), r.2)

end

end Verif.DS
