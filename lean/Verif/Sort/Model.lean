/-!
# Model of the eigenvalue sort of `src/sys/slepcsc.c`

Arrays are lists; every array access that leaves the allocated range is the outcome `none`
(undefined behaviour in C).  Scalars are an arbitrary type `R` with a zero (the C code only tests
scalars against zero here); the comparison is a parameter.
-/

namespace Verif.Sort

/-- A sorting criterion as called through `SlepcSCCompare`: arguments `ar ai br bi`, result code
(`src/sys/slepcsc.c:40`). -/
abbrev Cmp (R : Type) := R → R → R → R → Int

/-- Array write `l[i] = v`; `none` when `i` is out of bounds. -/
def wr (l : List Nat) (i v : Nat) : Option (List Nat) :=
  if i < l.length then some (l.set i v) else none

section
variable {R : Type} [Zero R] [DecidableEq R]

/-- The build/call configuration: `cplx` is `PETSC_USE_COMPLEX`, `flg` is the last argument of
`SlepcSortEigenvalues_Private` (`src/sys/slepcsc.c:65`; `PETSC_FALSE` from `SlepcSortEigenvalues`
line 147, `PETSC_TRUE` from `SlepcSortEigenvaluesSpecial` line 187). -/
structure Cfg where
  cplx : Bool
  flg  : Bool

/-- Test `im!=0 && (re!=0 || !flg)` (`src/sys/slepcsc.c:77`), also, negated, lines 88, 89 and 99;
compiled out (never true) with complex scalars. -/
def isPair (c : Cfg) (re im : R) : Bool :=
  !c.cplx && (decide (im ≠ 0) && (decide (re ≠ 0) || !c.flg))

/-- The `while (j<n)` loop of `SlepcSortEigenvalues_Private` (`src/sys/slepcsc.c:83-109`).
`re`,`im` are the values of the eigenvalue being inserted. -/
def inner (c : Cfg) (cmp : Cmp R) (eigr eigi : List R) (n : Nat) (re im : R)
    (j : Nat) (perm : List Nat) : Option (List Nat) :=
  if j < n then do
    let pj ← perm[j]?
    let rj ← eigr[pj]?
    let ij ← eigi[pj]?
    if cmp re im rj ij ≤ 0 then
      some perm                                            -- line 85: break
    else if isPair c re im = false then
      if isPair c rj ij = false then do                    -- lines 91-92
        let tmp ← perm[j-1]?
        let perm1 ← wr perm (j-1) pj
        let perm2 ← wr perm1 j tmp
        inner c cmp eigr eigi n re im (j+1) perm2
      else do                                              -- lines 95-96
        let tmp ← perm[j-1]?
        let perm1 ← wr perm (j-1) pj
        let q ← perm1[j+1]?
        let perm2 ← wr perm1 j q
        let perm3 ← wr perm2 (j+1) tmp
        inner c cmp eigr eigi n re im (j+2) perm3
    else if j < 2 then none                                -- perm[j-2] out of bounds
    else
      if isPair c rj ij = false then do                    -- lines 100-101
        let tmp ← perm[j-2]?
        let perm1 ← wr perm (j-2) pj
        let q ← perm1[j-1]?
        let perm2 ← wr perm1 j q
        let perm3 ← wr perm2 (j-1) tmp
        inner c cmp eigr eigi n re im (j+1) perm3
      else do                                              -- lines 103-105
        let tmp ← perm[j-2]?
        let perm1 ← wr perm (j-2) pj
        let perm2 ← wr perm1 j tmp
        let tmp' ← perm2[j-1]?
        let q ← perm2[j+1]?
        let perm3 ← wr perm2 (j-1) q
        let perm4 ← wr perm3 (j+1) tmp'
        inner c cmp eigr eigi n re im (j+2) perm4
  else some perm
termination_by n - j

/-- The `for (i=n-1;i>=0;i--)` loop (`src/sys/slepcsc.c:72-110`); the argument `m` is `i+1`. -/
def outer (c : Cfg) (cmp : Cmp R) (eigr eigi : List R) (n : Nat) :
    Nat → List Nat → Option (List Nat)
  | 0, perm => some perm
  | m+1, perm => do
    let pi ← perm[m]?
    let re ← eigr[pi]?
    let im ← eigi[pi]?
    if isPair c re im then                                 -- lines 77-81
      match m with
      | 0 => none                                          -- perm[-1]
      | m'+1 => do
        let pi' ← perm[m']?
        let im' ← eigi[pi']?
        let perm' ← inner c cmp eigr eigi n re im' (m+1) perm
        outer c cmp eigr eigi n m' perm'
    else do
      let perm' ← inner c cmp eigr eigi n re im (m+1) perm
      outer c cmp eigr eigi n m perm'

/-- `SlepcSortEigenvalues` / `SlepcSortEigenvaluesSpecial` (`src/sys/slepcsc.c:140-149,180-189`):
the returned list is the final contents of `perm`. -/
def sortEigenvalues (c : Cfg) (cmp : Cmp R) (n : Nat) (eigr eigi : List R) (perm : List Nat) :
    Option (List Nat) :=
  outer c cmp eigr eigi n n perm

end

/-- `SlepcSCCompare` (`src/sys/slepcsc.c:40-63`).  `map` is the optional back-transformation, applied
to both values (line 53); `inside` is the optional region test `!(cin<0)` of `RGCheckInside`
(lines 54-57); `cmp` the user or predefined comparison. -/
def scCompare {R : Type} (map : Option (R × R → R × R)) (inside : Option (R × R → Bool))
    (cmp : Cmp R) : Cmp R := fun ar ai br bi =>
  let a := match map with | some f => f (ar, ai) | none => (ar, ai)
  let b := match map with | some f => f (br, bi) | none => (br, bi)
  match inside with
  | some ins =>
    if ins a && !ins b then -1
    else if !ins a && ins b then 1
    else cmp a.1 a.2 b.1 b.2
  | none => cmp a.1 a.2 b.1 b.2

end Verif.Sort
