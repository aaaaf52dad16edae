import Mathlib.Algebra.BigOperators.Group.Finset.Basic
import Mathlib.Algebra.Field.Defs

/-!
Model of `MatCreateTile` (src/sys/mat/matutil.c).

A sparse matrix is given by its rows, `MatGetRow` being the list of (column, value) pairs stored for
a row.  The result matrix is a function of the global row and column, initially zero, on which
`MatSetValues(...,INSERT_VALUES)` performs writes.  Scalars are in an arbitrary field.  Not modelled:
preallocation, block sizes, the type check of lines 257-263 and the assembly (which applies the
writes).  Local row and column sizes are functions of the process number.
-/
set_option linter.all false

namespace Verif.MatTile

variable {K : Type} [Field K] [DecidableEq K]

/-- The rows of a sparse matrix: `MatGetRow`. -/
abbrev Rows (K : Type) := ℕ → List (ℕ × K)

/-- A write of `MatSetValues`. -/
abbrev Write (K : Type) := (ℕ × ℕ) × K

/-- `svals`, matutil.c:29-32. -/
def svals (a v : K) : K := if a ≠ 1 then v * a else v

/-- One "Transfer" section, matutil.c:26-36 (and the seven analogous ones): `m` rows from `start`,
row `i` going to row `rmap i` and columns mapped by `cmap`. -/
def transfer (a : K) (A : Rows K) (start m : ℕ) (rmap cmap : ℕ → ℕ) : List (Write K) :=
  if a ≠ 0 then
    (List.range m).flatMap fun i => (A (i + start)).map fun e => ((rmap i, cmap e.1), svals a e.2)
  else []

/-- `MatCreateTile_Seq`, matutil.c:13-79. -/
def tileSeq (M1 M2 N1 : ℕ) (a : K) (A : Rows K) (b : K) (B : Rows K) (c : K) (C : Rows K) (d : K)
    (D : Rows K) : List (Write K) :=
  transfer a A 0 M1 (fun i => i) (fun j => j) ++
  transfer b B 0 M1 (fun i => i) (fun j => j + N1) ++
  transfer c C 0 M2 (fun i => i + M1) (fun j => j) ++
  transfer d D 0 M2 (fun i => i + M1) (fun j => j + N1)

/-- Start of the ownership range of process `p` (`mapptr[p]`, `MatGetOwnershipRange`). -/
def ptr (l : ℕ → ℕ) (p : ℕ) : ℕ := ∑ q ∈ Finset.range p, l q

/-- Array writes. -/
def runWrites {κ α : Type} [DecidableEq κ] (f : κ → α) (l : List (κ × α)) : κ → α :=
  l.foldl (fun f w => Function.update f w.1 w.2) f

/-- `map1`, matutil.c:101-103 (entries not written are arbitrary, here 0). -/
def map1 (np : ℕ) (n1 n2 : ℕ → ℕ) : ℕ → ℕ :=
  runWrites (fun _ => 0) ((List.range np).flatMap fun p =>
    (List.range' (ptr n1 p) (ptr n1 (p + 1) - ptr n1 p)).map fun i => (i, i + ptr n2 p))

/-- `map2`, matutil.c:104-106. -/
def map2 (np : ℕ) (n1 n2 : ℕ → ℕ) : ℕ → ℕ :=
  runWrites (fun _ => 0) ((List.range np).flatMap fun p =>
    (List.range' (ptr n2 p) (ptr n2 (p + 1) - ptr n2 p)).map fun i => (i, i + ptr n1 (p + 1)))

/-- Start of the rows of `G` in process `p`: its local size is `m1+m2` (matutil.c:267). -/
def gptr (m1 m2 : ℕ → ℕ) (p : ℕ) : ℕ := ptr (fun q => m1 q + m2 q) p

/-- The writes of process `p` in `MatCreateTile_MPI`, matutil.c:81-171. -/
def tileProc (np : ℕ) (m1 m2 n1 n2 : ℕ → ℕ) (a : K) (A : Rows K) (b : K) (B : Rows K) (c : K)
    (C : Rows K) (d : K) (D : Rows K) (p : ℕ) : List (Write K) :=
  let gstart := gptr m1 m2 p
  transfer a A (ptr m1 p) (m1 p) (fun i => gstart + i) (map1 np n1 n2) ++
  transfer b B (ptr m1 p) (m1 p) (fun i => gstart + i) (map2 np n1 n2) ++
  transfer c C (ptr m2 p) (m2 p) (fun i => gstart + m1 p + i) (map1 np n1 n2) ++
  transfer d D (ptr m2 p) (m2 p) (fun i => gstart + m1 p + i) (map2 np n1 n2)

/-- The writes of all processes. -/
def tileMPI (np : ℕ) (m1 m2 n1 n2 : ℕ → ℕ) (a : K) (A : Rows K) (b : K) (B : Rows K) (c : K)
    (C : Rows K) (d : K) (D : Rows K) : List (Write K) :=
  (List.range np).flatMap (tileProc np m1 m2 n1 n2 a A b B c C d D)

/-- The dimensions of a parallel matrix. -/
structure Dims where
  (M N m n : ℕ)

/-- The dimension checks of `MatCreateTile` in one process, matutil.c:232-255. -/
def compatible (A B C D : Dims) : Bool :=
  decide (B.M = A.M) && decide (B.m = A.m) && decide (D.M = C.M) && decide (D.m = C.m) &&
  decide (C.N = A.N) && decide (C.n = A.n) && decide (D.N = B.N) && decide (D.n = B.n)

end Verif.MatTile
