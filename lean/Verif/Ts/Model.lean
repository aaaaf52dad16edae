import Mathlib.Tactic
import Mathlib.Analysis.InnerProductSpace.Basic
import Mathlib.Analysis.Complex.Basic
import Verif.Iter.RsvdModel

/-!
# Two-sided Krylov-Schur

Models src/eps/impls/krylov/krylovschur/ks-twosided.c (`EPSSolve_KrylovSchur_TwoSided`, `EPSTwoSidedRQUpdate1`,
`EPSTwoSidedRQUpdate2`) in exact arithmetic, with BVMatArnoldi (src/sys/classes/bv/interface/bvkrylov.c:88-109), the extra row and the
truncation of DSNHEPTS (src/sys/classes/ds/impls/nhepts/dsnhepts.c:240-269, 369-402). The LU solves and the Schur forms are inputs
constrained by their specification. Linear dependence in BVOrthonormalizeColumn is a zero residual.
-/
set_option linter.all false

namespace Verif.Ts

open Finset Verif.Iter

variable {E : Type} [NormedAddCommGroup E] [InnerProductSpace ℂ E]

/-- One of the two factorizations: basis (`eps->V` or `eps->W`) and projected matrix (`DS_MAT_A` or `DS_MAT_B`), `H row col`. -/
structure Half (E : Type) where
  V : ℕ → E
  H : ℕ → ℕ → ℂ

/-- bvkrylov.c:89-91: product with the operator and orthogonalization against all previous columns. -/
noncomputable def arnVec (A : E →ₗ[ℂ] E) (s : Half E) (j : ℕ) : E := gsCol s.V (j + 1) (A (s.V j))

/-- bvkrylov.c:89-106: one new column of the basis and of the matrix (the copy from the buffer is done at once). -/
noncomputable def arnStep (A : E →ₗ[ℂ] E) (s : Half E) (j : ℕ) : Half E where
  V := Function.update s.V (j + 1) ((‖arnVec A s j‖ : ℂ)⁻¹ • arnVec A s j)
  H := fun r c => if c = j then (if r ≤ j then inner ℂ (s.V r) (A (s.V j)) else if r = j + 1 then (‖arnVec A s j‖ : ℂ) else s.H r c) else s.H r c

/-- Output of BVMatArnoldi. -/
structure ArnOut (E : Type) where
  s : Half E
  m : ℕ
  beta : ℝ
  bd : Bool

open Classical in
/-- bvkrylov.c:88-96: loop over columns `j`, at most `n` of them; it ends early at linear dependence. -/
noncomputable def arnoldi (A : E →ₗ[ℂ] E) : ℕ → ℕ → Half E → ArnOut E
  | 0, j, s => ⟨s, j, 0, false⟩
  | n + 1, j, s =>
    if arnVec A s j = 0 then ⟨arnStep A s j, j + 1, 0, true⟩
    else if n = 0 then ⟨arnStep A s j, j + 1, ‖arnVec A s j‖, false⟩
    else arnoldi A n (j + 1) (arnStep A s j)

/-- ks-twosided.c:168-170: BVMatProject fills the rows and columns of `M` from `p` on. -/
noncomputable def project (p nv : ℕ) (V W : ℕ → E) (M : ℕ → ℕ → ℂ) (i j : ℕ) : ℂ :=
  if i < nv ∧ j < nv ∧ (p ≤ i ∨ p ≤ j) then inner ℂ (W i) (V j) else M i j

/-- ks-twosided.c:50-52: `w` solves the system with matrix `M`. -/
def SolN (M : ℕ → ℕ → ℂ) (m : ℕ) (w r : ℕ → ℂ) : Prop := ∀ i < m, ∑ j ∈ range m, M i j * w j = r i

/-- ks-twosided.c:61: `y` solves the system with the conjugate transpose of `M`. -/
def SolC (M : ℕ → ℕ → ℂ) (m : ℕ) (y r : ℕ → ℂ) : Prop := ∀ j < m, ∑ i ∈ range m, star (M i j) * y i = r j

/-- ks-twosided.c:54, 63: correction of the last vector. -/
noncomputable def fixV (V : ℕ → E) (m : ℕ) (w : ℕ → ℂ) : ℕ → E := Function.update V m (V m - ∑ i ∈ range m, w i • V i)

/-- ks-twosided.c:56, 65: correction of the last column of the projected matrix. -/
noncomputable def fixH (H : ℕ → ℕ → ℂ) (m : ℕ) (beta : ℝ) (w : ℕ → ℂ) (i j : ℕ) : ℂ := if j + 1 = m ∧ i < m then H i j + beta * w i else H i j

/-- ks-twosided.c:175-176 (DSSolve, DSSort), by specification: `Q` is unitary, the identity on the locked part, and takes `H` to the quasi-triangular `H1`. -/
structure Schur (nc nv : ℕ) (H H1 Q : ℕ → ℕ → ℂ) : Prop where
  unit : UnitQ nc nv Q
  lead : ∀ i < nv, ∀ j < nv, (i < nc ∨ j < nc) → Q i j = if i = j then 1 else 0
  eq : ∀ i < nv, ∀ j < nv, ∑ p ∈ range nv, H i p * Q p j = ∑ p ∈ range nv, Q i p * H1 p j
  tri : ∀ i < nv, ∀ j, nc ≤ j → j + 1 < i → H1 i j = 0

/-- Matrix after DSSolve, DSSort and DSUpdateExtraRow (dsnhepts.c:255-257): the extra row is multiplied by `Q`. -/
noncomputable def dsOut (nv : ℕ) (H H1 Q : ℕ → ℕ → ℂ) (i j : ℕ) : ℂ :=
  if i < nv ∧ j < nv then H1 i j else if i = nv ∧ j < nv then ∑ p ∈ range nv, H nv p * Q p j else H i j

/-- dsnhepts.c:390-393: extra row copied to row `n` (columns `k` to `n-1`), then old row cleaned. -/
def truncH (nv k n : ℕ) (H : ℕ → ℕ → ℂ) (i j : ℕ) : ℂ :=
  if i = nv ∧ k ≤ j ∧ j < nv then 0 else if i = n ∧ k ≤ j ∧ j < n then H nv j else H i j

/-- ks-twosided.c:197-204: BVMultInPlace with active columns `nc` to `nv-1`, columns `nc` to `n-1` replaced. -/
noncomputable def multIP (nc nv n : ℕ) (Q : ℕ → ℕ → ℂ) (V : ℕ → E) (j : ℕ) : E := if nc ≤ j ∧ j < n then ∑ i ∈ Ico nc nv, Q i j • V i else V j

/-- ks-twosided.c:206-207. -/
def copyCol (V : ℕ → E) (nv n : ℕ) : ℕ → E := Function.update V n (V nv)

/-- ks-twosided.c:87-88, 96-97. -/
noncomputable def rq2V (V : ℕ → E) (n : ℕ) : ℕ → E := Function.update V n ((‖gsCol V n (V n)‖ : ℂ)⁻¹ • gsCol V n (V n))

/-- ks-twosided.c:91-94, 100-103. -/
noncomputable def rq2H (V : ℕ → E) (H : ℕ → ℕ → ℂ) (l n i j : ℕ) : ℂ :=
  if l ≤ j ∧ j < n then
    if i < n then H i j + inner ℂ (V i) (V n) * H n j else if i = n then H i j * (‖gsCol V n (V n)‖ : ℂ) else H i j
  else H i j

/-- ks-twosided.c:112, 115: `Z^H M Q`. -/
noncomputable def rq2M (nv : ℕ) (Z M Q : ℕ → ℕ → ℂ) (i j : ℕ) : ℂ :=
  if i < nv ∧ j < nv then ∑ a ∈ range nv, star (Z a i) * ∑ b ∈ range nv, M a b * Q b j else M i j

/-- One factorization from the end of EPSTwoSidedRQUpdate1 to the end of EPSTwoSidedRQUpdate2, in a restart without breakdown: `k` locked and
`n = k+l` kept columns. -/
noncomputable def restart (nc nv k n : ℕ) (Q H1 : ℕ → ℕ → ℂ) (s : Half E) : Half E where
  V := rq2V (copyCol (multIP nc nv n Q s.V) nv n) n
  H := rq2H (copyCol (multIP nc nv n Q s.V) nv n) (truncH nv k n (dsOut nv s.H H1 Q)) nc n

/-- The correction EPSTwoSidedRQUpdate1 of one factorization. -/
noncomputable def fixHalf (s : Half E) (m : ℕ) (beta : ℝ) (w : ℕ → ℂ) : Half E := ⟨fixV s.V m w, fixH s.H m beta w⟩

/-- State at the beginning of a cycle: `nc` is `eps->nconv`, `p` is `eps->nconv+l`. -/
structure TSt (E : Type) where
  R : Half E
  L : Half E
  M : ℕ → ℕ → ℂ
  nc : ℕ
  p : ℕ

/-- Results of the dense computations of a cycle and the sizes chosen: `w`, `y` solutions of the linear systems; Schur forms; `k`, `n`. -/
structure Inp where
  w : ℕ → ℂ
  y : ℕ → ℂ
  Q : ℕ → ℕ → ℂ
  Z : ℕ → ℕ → ℂ
  S1 : ℕ → ℕ → ℂ
  T1 : ℕ → ℕ → ℂ
  k : ℕ
  n : ℕ

/-- Lines 147-172: right factorization of length `nv`, left one of at most the same length, common length, `M`, correction.
The result is the two corrected factorizations, `M`, the common length and the two residual norms. -/
structure Mid (E : Type) where
  R : Half E
  L : Half E
  M : ℕ → ℕ → ℂ
  nv : ℕ
  beta : ℝ
  betat : ℝ
  bd : Bool

noncomputable def rightOut (A : E →ₗ[ℂ] E) (nv : ℕ) (st : TSt E) : ArnOut E := arnoldi A (nv - st.p) st.p st.R
noncomputable def leftOut (A At : E →ₗ[ℂ] E) (nv : ℕ) (st : TSt E) : ArnOut E := arnoldi At ((rightOut A nv st).m - st.p) st.p st.L

/-- Lines 161, 168-170: common length and matrix of inner products. -/
noncomputable def lenOut (A At : E →ₗ[ℂ] E) (nv : ℕ) (st : TSt E) : ℕ := min (rightOut A nv st).m (leftOut A At nv st).m
noncomputable def gramOut (A At : E →ₗ[ℂ] E) (nv : ℕ) (st : TSt E) : ℕ → ℕ → ℂ :=
  project st.p (lenOut A At nv st) (rightOut A nv st).s.V (leftOut A At nv st).s.V st.M

/-- Lines 147-172. -/
noncomputable def mid (A At : E →ₗ[ℂ] E) (nv : ℕ) (w y : ℕ → ℂ) (st : TSt E) : Mid E where
  R := fixHalf (rightOut A nv st).s (lenOut A At nv st) (rightOut A nv st).beta w
  L := fixHalf (leftOut A At nv st).s (lenOut A At nv st) (leftOut A At nv st).beta y
  M := gramOut A At nv st
  nv := lenOut A At nv st
  beta := (rightOut A nv st).beta
  betat := (leftOut A At nv st).beta
  bd := (rightOut A nv st).bd || (leftOut A At nv st).bd

/-- Lines 42, 52 and 59, 61: `w` and `y` are the solutions of the two linear systems of EPSTwoSidedRQUpdate1. -/
def Solves (A At : E →ₗ[ℂ] E) (nv : ℕ) (w y : ℕ → ℂ) (st : TSt E) : Prop :=
  SolN (gramOut A At nv st) (lenOut A At nv st) w (fun i => inner ℂ ((leftOut A At nv st).s.V i) ((rightOut A nv st).s.V (lenOut A At nv st))) ∧
  SolC (gramOut A At nv st) (lenOut A At nv st) y (fun j => inner ℂ ((rightOut A nv st).s.V j) ((leftOut A At nv st).s.V (lenOut A At nv st)))

/-- Lines 186-229: restart without breakdown. -/
noncomputable def tnext (x : Inp) (nc : ℕ) (m : Mid E) : TSt E where
  R := restart nc m.nv x.k x.n x.Q x.S1 m.R
  L := restart nc m.nv x.k x.n x.Z x.T1 m.L
  M := rq2M m.nv x.Z m.M x.Q
  nc := x.k
  p := x.n

/-- What the dense solver guarantees, and that the size kept does not cut a diagonal block of the Schur forms (DSGetTruncateSize, C56). -/
structure DsOk (x : Inp) (nc : ℕ) (m : Mid E) : Prop where
  right : Schur nc m.nv m.R.H x.S1 x.Q
  left : Schur nc m.nv m.L.H x.T1 x.Z
  lo : nc ≤ x.k
  kn : x.k ≤ x.n
  cutR : ∀ i < m.nv, x.n ≤ i → ∀ j < x.n, x.S1 i j = 0
  cutL : ∀ i < m.nv, x.n ≤ i → ∀ j < x.n, x.T1 i j = 0

/-- Cycles without breakdown, from unit start vectors and zero projected matrices. `nv` is at least one more than the columns kept. -/
inductive Reach (A At : E →ₗ[ℂ] E) : TSt E → Prop
  | init (V W : ℕ → E) (M : ℕ → ℕ → ℂ) : ‖V 0‖ = 1 → ‖W 0‖ = 1 → Reach A At ⟨⟨V, fun _ _ => 0⟩, ⟨W, fun _ _ => 0⟩, M, 0, 0⟩
  | step (st : TSt E) (nv : ℕ) (x : Inp) : Reach A At st → st.p < nv → Solves A At nv x.w x.y st → (mid A At nv x.w x.y st).bd = false →
      DsOk x st.nc (mid A At nv x.w x.y st) → x.n < (mid A At nv x.w x.y st).nv → Reach A At (tnext x st.nc (mid A At nv x.w x.y st))

end Verif.Ts
