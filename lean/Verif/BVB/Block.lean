import Verif.BVB.Base
import Mathlib.Analysis.InnerProductSpace.Basic
import Mathlib.Analysis.InnerProductSpace.GramMatrix
import Mathlib.Analysis.InnerProductSpace.PiL2
import Mathlib.LinearAlgebra.Matrix.PosDef
/-!
Model of the block orthogonalization methods (src/sys/classes/bv/interface/bvorthog.c:492-718, 773-814, bvlapack.c:133-335), in exact arithmetic.

The columns are vectors of an inner product space, which stands for any definite inner product of the BV.  The buffer of the BV and the array of the user's matrix
`R` are arrays with leading dimensions; `BVDot` writes inner products (C119) and `BVMultInPlace` products (C115).  LAPACK routines are parameters with their contract.
The BV has no constraints (line 789).  For TSQR and TSQRCHOL the local factorizations and their combination are the subject of C113 and C114.
-/
set_option linter.all false
namespace Verif.BVB.Block
open scoped ComplexOrder
variable {𝕜 : Type} [RCLike 𝕜] {E : Type} [NormedAddCommGroup E] [InnerProductSpace 𝕜 E]

/-- The LAPACK routines, as functions of the order and the entries. -/
structure Kern (𝕜 : Type) where
  /-- `potrf("U")`: `none` is `info ≠ 0`. -/
  potrf : ℕ → (ℕ → ℕ → 𝕜) → Option (ℕ → ℕ → 𝕜)
  /-- `trtri("U","N")`. -/
  trtri : ℕ → (ℕ → ℕ → 𝕜) → ℕ → ℕ → 𝕜
  /-- `syev("V","L")`: eigenvectors and eigenvalues. -/
  syev : ℕ → (ℕ → ℕ → 𝕜) → (ℕ → ℕ → 𝕜) × (ℕ → ℝ)

/-- The block that starts at row and column `l` of an array with leading dimension `ld`. -/
def blk (B : ℕ → 𝕜) (ld l : ℕ) : ℕ → ℕ → 𝕜 := fun i j => B (l + i + (l + j) * ld)

/-- Writing the entries of that block. -/
def setBlk (ld l n : ℕ) (v : ℕ → ℕ → 𝕜) (B : ℕ → 𝕜) : ℕ → 𝕜 := grid (l + l * ld) ld n n v B

/-- Writing the upper triangle of that block. -/
def setUp (ld l n : ℕ) (v : ℕ → ℕ → 𝕜) (B : ℕ → 𝕜) : ℕ → 𝕜 := setBlk ld l n (fun i j => if i ≤ j then v i j else blk B ld l i j) B

/-- `BVDot(V,V1,R)`: rows `r0` to `r1-1`, columns `c0` to `c1-1`. -/
def dotInto (V : ℕ → E) (r0 r1 c0 c1 ld : ℕ) (B : ℕ → 𝕜) : ℕ → 𝕜 :=
  grid (r0 + c0 * ld) ld (r1 - r0) (c1 - c0) (fun i j => inner 𝕜 (V (r0 + i)) (V (c0 + j))) B

/-- `BVOrthogonalize_BlockGS`, bvorthog.c:492-502. -/
noncomputable def blockGS (m l k : ℕ) (V : ℕ → E) (B : ℕ → 𝕜) : (ℕ → E) × (ℕ → 𝕜) :=
  let B' := dotInto V 0 l l k m B
  (fun j => if l ≤ j ∧ j < k then V j - ∑ i ∈ Finset.range l, B' (i + j * m) • V i else V j, B')

/-- Lines 623, 647, 678, 712. -/
noncomputable def start (m l k : ℕ) (V : ℕ → E) (B : ℕ → 𝕜) : (ℕ → E) × (ℕ → 𝕜) := if l ≠ 0 then blockGS m l k V B else (V, B)

/-- `BVMultInPlace(V,S,l,k)`. -/
noncomputable def multIn (l k ld : ℕ) (S : ℕ → 𝕜) (V : ℕ → E) : ℕ → E :=
  fun j => if l ≤ j ∧ j < k then ∑ t ∈ Finset.Ico l k, S (t + j * ld) • V t else V j

/-- `BV_StoreCoeffsBlock_Default`, bvorthog.c:584-599, without constraints. -/
def store (tri : Bool) (m l k : ℕ) (B : ℕ → 𝕜) (lda : ℕ) (U : ℕ → 𝕜) : ℕ → 𝕜 :=
  forR l k (fun j U => cpy U (0 + j * lda) B (j * m) (if tri then j + 1 else k)) U

/-- Bvlapack.c:190-193: zeros below the diagonal. -/
def zeroBelow (ld l k : ℕ) (B : ℕ → 𝕜) : ℕ → 𝕜 :=
  forR l (k - 1) (fun i B => cpy B (i + 1 + i * ld) (fun _ => 0) 0 (k - i - 1)) B

/-- Lines 166-176: Cholesky factor in `R`, with a second try on the perturbed matrix; `saved` is the copy of the matrix. -/
noncomputable def cholFactor (K : Kern 𝕜) (eps : ℝ) (ld l k : ℕ) (saved : ℕ → ℕ → 𝕜) (B : ℕ → 𝕜) : Option (ℕ → 𝕜) :=
  match K.potrf (k - l) (blk B ld l) with
  | some C => some (setUp ld l (k - l) C B)
  | none =>
    let B' := setBlk ld l (k - l) (fun i j => if i = j then saved i j + ((50 * eps : ℝ) : 𝕜) else saved i j) B
    match K.potrf (k - l) (blk B' ld l) with
    | some C => some (setUp ld l (k - l) C B')
    | none => none

/-- `BVMatCholInv_LAPACK_Private` with `S==R`, lines 133-197. -/
noncomputable def cholInv0 (K : Kern 𝕜) (eps : ℝ) (ld l k : ℕ) (B : ℕ → 𝕜) : Option (ℕ → 𝕜) :=
  match cholFactor K eps ld l k (blk B ld l) B with
  | none => none
  | some B1 => some (zeroBelow ld l k (setUp ld l (k - l) (K.trtri (k - l) (blk B1 ld l)) B1))

/-- Lines 182-184 and 236-238: the inverse of the triangular matrix in `S`; `lds` is the number of rows of `S`. -/
def invInto (K : Kern 𝕜) (ld lds l k : ℕ) (B U : ℕ → 𝕜) : ℕ → 𝕜 :=
  let U2 := cpy U (l * lds) (fun _ => 0) 0 ((k - l) * k)
  let U3 := setBlk lds l (k - l) (blk B ld l) U2
  setUp lds l (k - l) (K.trtri (k - l) (blk U3 lds l)) U3

/-- `BVMatCholInv_LAPACK_Private` with `S` another matrix; results: the arrays of `R` and `S`. -/
noncomputable def cholInv1 (K : Kern 𝕜) (eps : ℝ) (ld lds l k : ℕ) (B U : ℕ → 𝕜) : Option ((ℕ → 𝕜) × (ℕ → 𝕜)) :=
  let U1 := setBlk lds l (k - l) (blk B ld l) U
  match cholFactor K eps ld l k (blk U1 lds l) B with
  | none => none
  | some B1 => some (zeroBelow ld l k B1, zeroBelow lds l k (invInto K ld lds l k B1 U1))

/-- The user's matrix: number of rows, leading dimension, and array. -/
structure User (𝕜 : Type) where
  rows : ℕ
  lda : ℕ
  a : ℕ → 𝕜

/-- Result of an orthogonalization: the columns and the array of the user's matrix. -/
structure Out (𝕜 E : Type) where
  V : ℕ → E
  R : Option (ℕ → 𝕜)

/-- `BVOrthogonalize_Chol`, bvorthog.c:614-629. -/
noncomputable def chol (K : Kern 𝕜) (eps : ℝ) (m l k : ℕ) (V : ℕ → E) (B : ℕ → 𝕜) (rin : Option (User 𝕜)) : Option (Out 𝕜 E) :=
  let s := start m l k V B
  let B1 := dotInto s.1 l k l k m s.2
  match rin with
  | none =>
    match cholInv0 K eps m l k B1 with
    | none => none
    | some S => some ⟨multIn l k m S s.1, none⟩
  | some u =>
    match cholInv1 K eps m u.rows l k B1 u.a with
    | none => none
    | some (R, S) => some ⟨multIn l k u.lda S s.1, some (store true m l k R u.lda S)⟩

/-- `BVOrthogonalize_TSQR`, bvorthog.c:638-656; `qr` is the factorization of C113, which writes the whole block of `R`. -/
noncomputable def tsqr (qr : ℕ → (ℕ → E) → (ℕ → E) × (ℕ → ℕ → 𝕜)) (m l k : ℕ) (V : ℕ → E) (B : ℕ → 𝕜) (rin : Option (User 𝕜)) : Out 𝕜 E :=
  let s := start m l k V B
  let f := qr (k - l) (fun i => s.1 (l + i))
  let R := setBlk m l (k - l) f.2 s.2
  let V' : ℕ → E := fun j => if l ≤ j ∧ j < k then f.1 (j - l) else s.1 j
  ⟨V', match rin with
    | none => none
    | some u => some (store true m l k R u.lda u.a)⟩

/-- `BVOrthogonalize_TSQRCHOL`, bvorthog.c:667-689; `onlyR` is the triangular factor of C114, which writes the whole block of `R`. -/
noncomputable def tsqrchol (K : Kern 𝕜) (onlyR : ℕ → (ℕ → E) → ℕ → ℕ → 𝕜) (m l k : ℕ) (V : ℕ → E) (B : ℕ → 𝕜) (rin : Option (User 𝕜)) : Out 𝕜 E :=
  let s := start m l k V B
  let R := setBlk m l (k - l) (onlyR (k - l) (fun i => s.1 (l + i))) s.2
  match rin with
  | none => ⟨multIn l k m (setUp m l (k - l) (K.trtri (k - l) (blk R m l)) R) s.1, none⟩
  | some u =>
    let S := invInto K m u.rows l k R u.a
    ⟨multIn l k u.lda S s.1, some (store true m l k R u.lda S)⟩

/-- `BVMatSVQB_LAPACK_Private`, bvlapack.c:255-335: the arrays of `R` and `S`; with `S==R` the array of `S` is the second one and starts with the content of `R`. -/
noncomputable def svqbArr (K : Kern 𝕜) (ld lds l k : ℕ) (B U : ℕ → 𝕜) : (ℕ → 𝕜) × (ℕ → 𝕜) :=
  let D : ℕ → ℝ := fun i => 1 / Real.sqrt (RCLike.re (blk B ld l i i))
  let S1 := setBlk lds l (k - l) (fun i j => blk B ld l i j * (D i : 𝕜)) U
  let S2 := setBlk lds l (k - l) (fun i j => blk S1 lds l i j * (D j : 𝕜)) S1
  let f := K.syev (k - l) (blk S2 lds l)
  let S3 := setBlk lds l (k - l) f.1 S2
  let R1 := setBlk ld l (k - l) (fun i j => blk S3 lds l j i) B
  let S4 := setBlk lds l (k - l) (fun i j => blk S3 lds l i j * (D i : 𝕜)) S3
  let S5 := setBlk lds l (k - l) (fun i j => blk S4 lds l i j / ((Real.sqrt (f.2 j) : ℝ) : 𝕜)) S4
  let R2 := setBlk ld l (k - l) (fun i j => blk R1 ld l i j * ((Real.sqrt (f.2 i) : ℝ) : 𝕜)) R1
  let R3 := setBlk ld l (k - l) (fun i j => blk R2 ld l i j / (D j : 𝕜)) R2
  (R3, S5)

/-- `BVOrthogonalize_SVQB`, bvorthog.c:703-718. -/
noncomputable def svqb (K : Kern 𝕜) (m l k : ℕ) (V : ℕ → E) (B : ℕ → 𝕜) (rin : Option (User 𝕜)) : Out 𝕜 E :=
  let s := start m l k V B
  let B1 := dotInto s.1 l k l k m s.2
  match rin with
  | none => ⟨multIn l k m (svqbArr K m m l k B1 B1).2 s.1, none⟩
  | some u =>
    let f := svqbArr K m u.lda l k B1 u.a
    ⟨multIn l k u.lda f.2 s.1, some (store false m l k f.1 u.lda f.2)⟩

/-! ### Contracts and specification -/

/-- The leading `n` by `n` matrix. -/
def toM (n : ℕ) (A : ℕ → ℕ → 𝕜) : Matrix (Fin n) (Fin n) 𝕜 := fun i j => A i j

/-- Its upper triangle. -/
def up (n : ℕ) (A : ℕ → ℕ → 𝕜) : Matrix (Fin n) (Fin n) 𝕜 := fun i j => if i.1 ≤ j.1 then A i j else 0

/-- Contract of the LAPACK routines: `potrf` succeeds on positive definite matrices; what it returns is a Cholesky factor. -/
structure IsKern (K : Kern 𝕜) : Prop where
  potrf : ∀ n A C, (toM n A).IsHermitian → K.potrf n A = some C → (∀ i < n, C i i ≠ 0) ∧ (up n C).conjTranspose * up n C = toM n A
  potrf_some : ∀ n A, (toM n A).PosDef → K.potrf n A ≠ none
  trtri : ∀ n A, (∀ i < n, A i i ≠ 0) → up n A * up n (K.trtri n A) = 1
  syev : ∀ n A, (toM n A).IsHermitian → (toM n (K.syev n A).1).conjTranspose * toM n (K.syev n A).1 = 1 ∧
    toM n A * toM n (K.syev n A).1 = toM n (K.syev n A).1 * Matrix.diagonal (fun i : Fin n => (((K.syev n A).2 i : ℝ) : 𝕜))

/-- The first `k` columns are orthonormal. -/
def Orthonormal (k : ℕ) (V : ℕ → E) : Prop := ∀ i < k, ∀ j < k, inner 𝕜 (V i) (V j) = if i = j then (1 : 𝕜) else 0

/-- All columns outside the active range are the same. -/
def SameOutside (l k : ℕ) (V V' : ℕ → E) : Prop := ∀ j, ¬ (l ≤ j ∧ j < k) → V' j = V j

/-- The active columns of `V` are the columns of `V'` times the columns of `R`, an array with leading dimension `ld`. -/
def IsFactor (l k ld : ℕ) (V V' : ℕ → E) (R : ℕ → 𝕜) : Prop := ∀ j, l ≤ j → j < k → V j = ∑ i ∈ Finset.range k, R (i + j * ld) • V' i

/-- The active columns of `R` are zero below the diagonal. -/
def IsUpper (l k ld : ℕ) (R : ℕ → 𝕜) : Prop := ∀ j, l ≤ j → j < k → ∀ i, j < i → i < k → R (i + j * ld) = 0

end Verif.BVB.Block
