import Mathlib.Tactic
import Mathlib.Analysis.InnerProductSpace.Basic
import Mathlib.LinearAlgebra.Matrix.NonsingularInverse
/-!
Model of harmonic and refined extraction in the Krylov solvers: `DSTranslateHarmonic_NHEP` and `DSVectors_NHEP_Refined_Some`
(src/sys/classes/ds/impls/nhep/dsnhep.c), their use in `EPSSolve_KrylovSchur_Default`
(src/eps/impls/krylov/krylovschur/krylovschur.c), `EPSSolve_Arnoldi` (src/eps/impls/krylov/arnoldi/arnoldi.c),
`EPSKrylovConvergence` (src/eps/impls/krylov/epskrylov.c) and `EPSComputeVectors_Schur` (src/eps/interface/epsdefault.c).

Exact arithmetic over the real or complex numbers; matrices are functions of row and column, columns of the basis are indexed
by naturals.  Dense factorizations are parameters.
-/
set_option linter.all false
namespace Verif.Harm
noncomputable section
open Classical
variable {𝕜 : Type} [RCLike 𝕜] {E : Type} [NormedAddCommGroup E] [InnerProductSpace 𝕜 E]

/-- State of the Krylov-Schur solver after `BVMatArnoldi` (krylovschur.c:268-274): size `nv`, number of locked columns, columns of
the basis (`V n` is the further vector), projected matrix `DS_MAT_A`, and `beta`. -/
structure State (𝕜 E : Type) where
  n : ℕ
  nconv : ℕ
  V : ℕ → E
  A : ℕ → ℕ → 𝕜
  beta : ℝ

/-- The matrix `A-tau*I` in the workspace `W`, dsnhep.c:481, 489. -/
def shifted (n : ℕ) (A : ℕ → ℕ → 𝕜) (tau : 𝕜) : Matrix (Fin n) (Fin n) 𝕜 :=
  Matrix.of fun i j => A i j - if i = j then tau else 0

/-- `g = (A-tau*I)'\b` with `b=beta*e_n`, dsnhep.c:485-492; `none` is the error raised when the LU factorization finds an exactly singular matrix
(`PetscCallLAPACKInfo`, dsnhep.c:490). -/
def translateG (n : ℕ) (A : ℕ → ℕ → 𝕜) (tau : 𝕜) (beta : ℝ) : Option (ℕ → 𝕜) :=
  if (shifted n A tau).det = 0 then none
  else some fun i =>
    if h : i < n then ((shifted n A tau).conjTranspose⁻¹.mulVec (fun j : Fin n => if j.1 + 1 = n then (beta : 𝕜) else 0)) ⟨i, h⟩ else 0

/-- `A = A + g*b'`, dsnhep.c:497. -/
def translateA (n : ℕ) (A : ℕ → ℕ → 𝕜) (g : ℕ → 𝕜) (beta : ℝ) : ℕ → ℕ → 𝕜 := fun i j =>
  if j + 1 = n ∧ i < n then A i j + g i * (beta : 𝕜) else A i j

/-- `gamma = SlepcAbs(1.0,nrm2(g))`, dsnhep.c:520. -/
def gammaOf (n : ℕ) (g : ℕ → 𝕜) : ℝ := Real.sqrt (1 + ∑ i ∈ Finset.range n, ‖g i‖ ^ 2)

/-- What `DSSolve` and `DSSort` leave: `DS_MAT_Q` and the (quasi-)triangular matrix in `DS_MAT_A`. -/
structure Dense (𝕜 : Type) where
  Q : ℕ → ℕ → 𝕜
  T : ℕ → ℕ → 𝕜

/-- `g^ = -Q(:,idx)'*g`, dsnhep.c:507; `m` is `ds->l+ds->k`. -/
def ghat (n m : ℕ) (Q : ℕ → ℕ → 𝕜) (g : ℕ → 𝕜) : ℕ → 𝕜 := fun i =>
  if i < m then -∑ r ∈ Finset.range n, (starRingEnd 𝕜) (Q r i) * g r else 0

/-- `g~ = g+Q(:,idx)*g^`, dsnhep.c:515. -/
def gtilde (n m : ℕ) (Q : ℕ → ℕ → 𝕜) (g : ℕ → 𝕜) : ℕ → 𝕜 := fun r =>
  g r + ∑ i ∈ Finset.range m, Q r i * ghat n m Q g i

/-- `A = A + g^*b'`, dsnhep.c:510-512, columns `l..m-1`. -/
def recoverA (n l m : ℕ) (d : Dense 𝕜) (g : ℕ → 𝕜) (beta : ℝ) : ℕ → ℕ → 𝕜 := fun i j =>
  if i < m ∧ l ≤ j ∧ j < m then d.T i j + ghat n m d.Q g i * d.Q (n - 1) j * (beta : 𝕜) else d.T i j

/-- The extra row after `DSUpdateExtraRow` (`b'*Q`, dsnhep.c:327-329), before the translation is undone. -/
def extraRow (n : ℕ) (d : Dense 𝕜) (beta : ℝ) : ℕ → 𝕜 := fun j => (beta : 𝕜) * d.Q (n - 1) j

/-- The projected matrix after the translation has been undone (dsnhep.c:509-512, extra row times `gamma` dsnhep.c:523) and
`DSTruncate` with `ds->l=k`, `ds->n=n`, new size `m` (krylovschur.c:318-328, dsnhep.c:408-412).  The entries of the extra row in the columns
locked in this cycle stay in row `n`: both loops start at `ds->l`. -/
def restartA (n nconv k m : ℕ) (d : Dense 𝕜) (g : ℕ → 𝕜) (beta : ℝ) : ℕ → ℕ → 𝕜 := fun i j =>
  if k ≤ j ∧ j < m then
    if i = m then extraRow n d beta j * (gammaOf n (gtilde n m d.Q g) : 𝕜)
    else if i = n then 0
    else recoverA n k m d g beta i j
  else if i = n ∧ nconv ≤ j ∧ j < k then extraRow n d beta j
  else d.T i j

/-- The basis after `gamma u^ = u - U*g~` (krylovschur.c:320-323), `V(:,idx) = V*Q(:,idx)` with active columns `nconv..n-1` (krylovschur.c:324,
333) and the copy of the restart vector (krylovschur.c:337). -/
def restartV (n nconv m : ℕ) (d : Dense 𝕜) (g : ℕ → 𝕜) (V : ℕ → E) : ℕ → E := fun j =>
  if j = m then
    ((1 / gammaOf n (gtilde n m d.Q g) : ℝ) : 𝕜) • (V n - ∑ r ∈ Finset.range n, gtilde n m d.Q g r • V r)
  else if nconv ≤ j ∧ j < m then ∑ i ∈ Finset.Ico nconv n, d.Q i j • V i
  else V j

/-- Types of extraction accepted by `EPSARNOLDI` (arnoldi.c:46, 65): harmonic or not, refined or not. -/
structure Extraction where
  harmonic : Bool
  refined : Bool

/-- The `n+1` rows of the matrix of which `DSVectors_NHEP_Refined_Some` takes the singular value decomposition, dsnhep.c:63-67: `T-theta*I` and
the extra row. -/
def refinedMat (n : ℕ) (d : Dense 𝕜) (beta : ℝ) (theta : 𝕜) : ℕ → ℕ → 𝕜 := fun i j =>
  (if i = n then extraRow n d beta j else d.T i j) - if i = j ∧ i < n then theta else 0

/-- `resnorm` in `EPSKrylovConvergence` (epskrylov.c:213-223) without true residual: `last` is the modulus of the last component of the normalized
eigenvector and `sigma` the smallest singular value of the matrix above (dsnhep.c:78, 159); `gamma` is 1 unless the extraction is
harmonic (krylovschur.c:239, 277). -/
def estimate (e : Extraction) (n : ℕ) (g : ℕ → 𝕜) (beta last sigma : ℝ) : ℝ :=
  if e.refined then sigma else last * (beta * if e.harmonic then gammaOf n g else 1)

/-- Coefficients of the refined vector in the basis, `X(:,k) = Q*w`, dsnhep.c:84. -/
def refinedVec (n : ℕ) (Q : ℕ → ℕ → 𝕜) (w : ℕ → 𝕜) : ℕ → 𝕜 := fun i => ∑ r ∈ Finset.range n, Q i r * w r

/-- Number `e` of columns for which `EPSSolve_Arnoldi` requests the update of the basis (arnoldi.c:109, 114); `none` is the error of
`BVMultInPlace` if the matrix, which has `nv` columns, has fewer than `e` (bvops.c:238). -/
def arnoldiUpdate (refined : Bool) (k nv : ℕ) : Option ℕ :=
  let e := if refined then k + 1 else min (k + 1) nv
  if e ≤ nv then some e else none

/-- The vectors that `EPSComputeVectors_Schur` leaves for `nconv=n` converged pairs (epsdefault.c:112-124, without purification and balancing):
`V` are the locked columns, `Q` is `DS_MAT_Q` left by the last `DSSolve` and `z j` the eigenvector of the truncated matrix.  After the
trimmed `DSTruncate` the state is `DS_STATE_RAW`, so the eigenvectors are not multiplied by `Q` (dsnhep.c:189-195), but the
refined ones are (dsnhep.c:84). -/
def returned (refined hermitian : Bool) (n : ℕ) (Q : ℕ → ℕ → 𝕜) (z : ℕ → ℕ → 𝕜) (V : ℕ → E) : ℕ → E := fun j =>
  if hermitian then V j
  else ∑ i ∈ Finset.range n, (if refined then refinedVec n Q (z j) i else z j i) • V i

/-- The operator of `STSHIFT` for a standard problem (shift.c, `STApply_Generic` with `A-sigma*I`). -/
def shiftOp (P : E →ₗ[𝕜] E) (sigma : 𝕜) : E →ₗ[𝕜] E := P - sigma • LinearMap.id

/-- `STBackTransform_Shift`, shift.c:109. -/
def backShift (sigma theta : 𝕜) : 𝕜 := theta + sigma

end
end Verif.Harm
