import Verif.DS.SortModel
import Mathlib.Data.List.Basic
/-!
Model of the reordering of (quasi-)triangular Schur forms, src/sys/classes/ds/impls/dsutil.c.

A Schur form is the list of its diagonal blocks `c : B`; `two c` says that the block is 2x2 (real scalars
only).  The LAPACK routine `trexc` is assumed to do what its documentation says: move the block in row
`ifst` to row `ilst`, shifting the blocks in between.  Eigenvalues are read off the blocks exactly; the
arrays `wr`, `wi` always agree with the blocks, as they do after `DSSolve` and are made to by lines
147-158 and 217-228 of the source.
-/
set_option linter.all false
namespace Verif.DS

variable {B V : Type}

/-- Number of rows of a block. -/
def sz (two : B → Bool) (c : B) : Nat := if two c then 2 else 1

/-- Number of rows of a list of blocks. -/
def size (two : B → Bool) : List B → Nat
  | [] => 0
  | c :: cs => sz two c + size two cs

/-- The rows of a Schur form, each with its block and whether it is the second row of a 2x2 block. -/
def rows (two : B → Bool) : List B → List (B × Bool)
  | [] => []
  | c :: cs => (if two c then [(c, false), (c, true)] else [(c, false)]) ++ rows two cs

/-- Index of the block containing row `p`. -/
def blockIdx (two : B → Bool) : List B → Nat → Nat
  | [], _ => 0
  | c :: cs, p => if p < sz two c then 0 else 1 + blockIdx two cs (p - sz two c)

/-- LAPACK `trexc`: move the block in row `p` to row `i` (both numbered from 0), `i ≤ p`. -/
def trexc (two : B → Bool) (bs : List B) (p i : Nat) : Option (List B) :=
  match bs[blockIdx two bs p]? with
  | none => none
  | some c => some ((bs.eraseIdx (blockIdx two bs p)).insertIdx (blockIdx two bs i) c)

/-- The eigenvalue of row `j`: `wr[j]`, `wi[j]`. -/
def rowVal (two : B → Bool) (v : B → V) (conj : V → V) (bs : List B) (j : Nat) : Option V :=
  ((rows two bs)[j]?).map fun r => if r.2 then conj (v r.1) else v r.1

/-- Whether the subdiagonal entry `T[j,j-1]` is nonzero. -/
def subdiag (two : B → Bool) (bs : List B) (j : Nat) : Bool :=
  (((rows two bs)[j]?).map Prod.snd).getD false

/-- The loop that finds the eigenvalue to be moved, dsutil.c:120-136; the first argument bounds the number
of iterations. `re` is the best value so far and `pos` its row (0: none found). -/
def findMin (cmp : VCmp V) (pr : V → Bool) (vals : Nat → Option V) (n : Nat) :
    Nat → Nat → V → Nat → Option Nat
  | 0, _, _, pos => some pos
  | fuel + 1, j, re, pos =>
    if j < n then do
      let vj ← vals j
      let j' := if pr vj then j + 2 else j + 1
      if cmp re vj > 0 then findMin cmp pr vals n fuel j' vj j
      else findMin cmp pr vals n fuel j' re pos
    else some pos

/-- The selection sort of `DSSort_NHEP_Total`, dsutil.c:109-163; `pr v` is `im != 0`. -/
def sortTotalLoop (cmp : VCmp V) (pr : V → Bool) (two : B → Bool) (v : B → V) (conj : V → V) (n : Nat) :
    Nat → Nat → List B → Option (List B)
  | 0, _, bs => some bs
  | fuel + 1, i, bs =>
    if i + 1 < n then do
      let re ← rowVal two v conj bs i
      let pos ← findMin cmp pr (rowVal two v conj bs) n n (if pr re then i + 2 else i + 1) re 0
      let bs' ← if pos ≠ 0 then trexc two bs pos i else some bs
      let vi ← rowVal two v conj bs' i
      sortTotalLoop cmp pr two v conj n fuel (if pr vi then i + 2 else i + 1) bs'
    else some bs

/-- `DSSort_NHEP_Total`, dsutil.c:90-167; `l` is `ds->l`, the dimension is the size of the Schur form. -/
def sortTotal (cmp : VCmp V) (pr : V → Bool) (two : B → Bool) (v : B → V) (conj : V → V) (l : Nat)
    (bs : List B) : Option (List B) :=
  sortTotalLoop cmp pr two v conj (size two bs) (size two bs) l bs

/-- `DSSortWithPermutation_NHEP_Private`, the loop of dsutil.c:191-215.  `cplx`: complex scalars (no 2x2
blocks, `inc` stays 1 and nothing is checked).  The outer option is an out-of-bounds access, the inner
one the error of line 198. -/
def sortPermLoop (cplx : Bool) (two : B → Bool) (n : Nat) :
    Nat → Nat → List Nat → List B → Option (Option (List Nat × List B))
  | 0, _, perm, bs => some (some (perm, bs))
  | fuel + 1, i, perm, bs =>
    if i + 1 < n then do
      let pos ← perm[i]?
      let p1 ← perm[i + 1]?
      let inc := if cplx then 1 else if pos < n - 1 ∧ subdiag two bs (pos + 1) then 2 else 1
      if pos ≠ i then
        if cplx = false ∧ pos = 0 then none  -- T[pos+(pos-1)*ld]
        else if cplx = true ∨ ((subdiag two bs pos = false ∨ p1 + 1 = pos) ∧
            (pos = n - 1 ∨ subdiag two bs (pos + 1) = false ∨ p1 = pos + 1)) then do
          let bs' ← trexc two bs pos i
          let perm1 := perm.mapIdx fun j q => if i + 1 ≤ j ∧ j < n ∧ i ≤ q ∧ q < pos then q + inc else q
          let perm2 := perm1.set i i
          let perm3 := if inc = 2 then perm2.set (i + 1) (i + 1) else perm2
          sortPermLoop cplx two n fuel (if inc = 2 then i + 2 else i + 1) perm3 bs'
        else some none
      else sortPermLoop cplx two n fuel (if inc = 2 then i + 2 else i + 1) perm bs
    else some (some (perm, bs))

/-- `DSSortWithPermutation_NHEP_Private`, dsutil.c:173-232. -/
def sortPerm (cplx : Bool) (two : B → Bool) (l : Nat) (perm : List Nat) (bs : List B) :
    Option (Option (List B)) :=
  (sortPermLoop cplx two (size two bs) (size two bs) l perm bs).map fun r => r.map Prod.snd

end Verif.DS
