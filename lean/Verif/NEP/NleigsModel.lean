import Mathlib.Analysis.Normed.Field.Basic
import Mathlib.LinearAlgebra.Matrix.NonsingularInverse
import Mathlib.Algebra.BigOperators.Group.Finset.Basic

/-!
Model of the rational interpolation of `src/nep/impls/nleigs/nleigs.c`: rational basis functions, divided differences in split form
(matrix function scheme, scalar scheme) and in callback form, number of terms, and the matrices given to the inner linear solvers.

Simplified: exact arithmetic. A pole `xi[i]` is represented by its reciprocal `rxi i` (the code only uses `x/xi[i]`), zero for
`PETSC_INFINITY`. Matrices are elements of a vector space, so sparsity patterns and shell matrices are not modelled. Arrays are functions
of the index.
-/
set_option linter.all false

namespace Verif.NEP

/-- `ctx->s`, `ctx->beta` and the reciprocals of `ctx->xi` (nleigs.h:24-26). -/
structure Nodes (F : Type*) where
  s : ℕ → F
  beta : ℕ → F
  rxi : ℕ → F

variable {F : Type*}

/-- `NEPNLEIGSEvalNRTFunct`, entry `b[i]` (nleigs.c:412-424). -/
def evalNRT [Field F] (N : Nodes F) (σ : F) : ℕ → F
  | 0 => 1 / N.beta 0
  | i+1 => ((σ - N.s i) * evalNRT N σ i) / (N.beta (i+1) * (1 - σ * N.rxi i))

/-- Scalar scheme of the divided differences, with values in any vector space `E`; `scale` is the factor applied to the first one:
`beta[0]` in `NEPNLEIGSDividedDifferences_split` (nleigs.c:667-670, 682-689), `1/beta[0]` in
`NEPNLEIGSDividedDifferences_callback` (750-755, 765-770). -/
def ddiff {E : Type*} [Field F] [AddCommGroup E] [Module F E] (N : Nodes F) (scale : F) (T : F → E) : ℕ → E
  | 0 => scale • T (N.s 0)
  | k+1 => (evalNRT N (N.s (k+1)) (k+1))⁻¹ •
      (T (N.s (k+1)) - ∑ j : Fin (k+1), evalNRT N (N.s (k+1)) j • ddiff N scale T j)
decreasing_by exact j.2

/-- Entries of `pH` (nleigs.c:643-644, 646). -/
def pH [Field F] (N : Nodes F) (n : ℕ) : Matrix (Fin n) (Fin n) F :=
  fun i j => if i.1 = j.1 then N.s j else if i.1 = j.1+1 then N.beta (j.1+1) else 0

/-- Entries of `pK` (nleigs.c:641-642, 647). -/
def pK [Field F] (N : Nodes F) (n : ℕ) : Matrix (Fin n) (Fin n) F :=
  fun i j => if i.1 = j.1 then 1 else if i.1 = j.1+1 then N.beta (j.1+1) * N.rxi j else 0

/-- The matrix to which the functions are applied: `BLAStrsm` from the right with the unit lower triangular `pK` (nleigs.c:649). -/
noncomputable def pM [Field F] (N : Nodes F) (n : ℕ) : Matrix (Fin n) (Fin n) F := pH N n * (pK N n)⁻¹

/-- Coefficients of one function in the matrix scheme: first column of the matrix function times `beta[0]` (nleigs.c:655-658).
`Y` is the result of `FNEvaluateFunctionMat`. -/
def coeffMat [Field F] (N : Nodes F) (n : ℕ) (Y : Matrix (Fin n) (Fin n) F) (k : ℕ) : F :=
  if h : k < n then Y ⟨k, h⟩ ⟨0, by omega⟩ * N.beta 0 else 0

/-- All functions evaluated at the matrix `M`, or `none` if one of the evaluations fails (nleigs.c:653-663). -/
def evalAll [Field F] {n : ℕ} (fmat : ℕ → Matrix (Fin n) (Fin n) F → Option (Matrix (Fin n) (Fin n) F)) (M : Matrix (Fin n) (Fin n) F) :
    ℕ → Option (ℕ → Matrix (Fin n) (Fin n) F)
  | 0 => some (fun _ => 0)
  | j+1 => match evalAll fmat M j, fmat j M with
    | some Y, some Z => some (fun i => if i = j then Z else Y i)
    | _, _ => none

/-- `ctx->coeffD[k*nt+j]` after the set-up (nleigs.c:650-671, 680-690): `coeffD k j`. -/
noncomputable def coeffD [Field F] (N : Nodes F) (nmax nt : ℕ) (f : ℕ → F → F)
    (fmat : ℕ → Matrix (Fin nmax) (Fin nmax) F → Option (Matrix (Fin nmax) (Fin nmax) F)) (k j : ℕ) : F :=
  match evalAll fmat (pM N nmax) nt with
  | some Y => coeffMat N nmax (Y j) k
  | none => ddiff N (N.beta 0) (f j) k

/-- `norm` of a row of coefficients (nleigs.c:672-678, 691-697). -/
def normRow [NormedField F] (hasmnorm : Bool) (matnorm : ℕ → ℝ) (nt : ℕ) (c : ℕ → F) : ℝ :=
  if hasmnorm then (List.range nt).foldl (fun a j => a + matnorm j * ‖c j‖) 0
  else (List.range nt).foldl (fun a j => max ‖c j‖ a) 0

/-- Loop that determines `ctx->nmat`, from index `k` (nleigs.c:679-702, 763-783); `norm k` is the norm of the `k`-th term. -/
noncomputable def numTerms (ddmaxit : ℕ) (norm : ℕ → ℝ) (ddtol : ℝ) (k : ℕ) : ℕ :=
  if k < ddmaxit then
    if 1 < k ∧ norm k / norm 0 < ddtol then k+1 else numTerms ddmaxit norm ddtol (k+1)
  else ddmaxit
termination_by ddmaxit - k

/-- `ctx->nmat` in split form. -/
noncomputable def nmatSplit [NormedField F] (N : Nodes F) (nmax nt : ℕ) (f : ℕ → F → F)
    (fmat : ℕ → Matrix (Fin nmax) (Fin nmax) F → Option (Matrix (Fin nmax) (Fin nmax) F)) (hasmnorm : Bool) (matnorm : ℕ → ℝ)
    (ddtol : ℝ) : ℕ :=
  numTerms nmax (fun k => normRow hasmnorm matnorm nt (coeffD N nmax nt f fmat k)) ddtol 1

/-- `ctx->nmat` in callback form; `nrm` is the matrix norm. -/
noncomputable def nmatCallback {E : Type*} [Field F] [AddCommGroup E] [Module F E] (N : Nodes F) (nmax : ℕ) (T : F → E) (nrm : E → ℝ)
    (ddtol : ℝ) : ℕ :=
  numTerms nmax (fun k => nrm (ddiff N (1 / N.beta 0) T k)) ddtol 1

/-- Matrix of the inner linear solver for the shift `σ`, split form (nleigs.c:707-724): one coefficient per matrix `A j`. -/
def kspSplit {E : Type*} [Field F] [AddCommGroup E] [Module F E] (N : Nodes F) (nmat nt : ℕ) (c : ℕ → ℕ → F) (A : ℕ → E) (σ : F) : E :=
  (List.range nt).foldl (fun t j => t + ((List.range nmat).foldl (fun a k => a + evalNRT N σ k * c k j) 0) • A j) 0

/-- Matrix of the inner linear solver for the shift `σ`, callback form (nleigs.c:786-789). -/
def kspCallback {E : Type*} [Field F] [AddCommGroup E] [Module F E] (N : Nodes F) (nmat : ℕ) (D : ℕ → E) (σ : F) : E :=
  (List.range (nmat-1)).foldl (fun t k => t + evalNRT N σ (k+1) • D (k+1)) (evalNRT N σ 0 • D 0)

end Verif.NEP
