import Verif.SVD.ErrorModel

/-!
# Model of the CROSS and CYCLIC solvers: operators handed to the eigensolver and extraction of triplets

`src/svd/impls/cross/cross.c`, `src/svd/impls/cyclic/cyclic.c`, `src/svd/interface/svdsolve.c`. Exact arithmetic; one column at a
time; `A`, `AT` are `svd->A`, `svd->AT` (the user's matrix and its conjugate transpose, or the other way round when
`swapped`).
-/
set_option linter.all false

namespace Verif.SVD

open Matrix
open Verif.EPS (norm2)

variable {𝕜 : Type*} [RCLike 𝕜] {m n p : Type*} [Fintype m] [Fintype n] [Fintype p]

/-- `svd->omega` as seen by the solver: absent, on the rows of `svd->A`, or (swapped) on its columns. -/
inductive Signature (𝕜 m n : Type*) where
  | absent
  | rows (w : m → 𝕜)
  | cols (w : n → 𝕜)

/-- `MatMult_Cross` (cross.c:31-41). -/
def multCross (A : Matrix m n 𝕜) (AT : Matrix n m 𝕜) (omega : Signature 𝕜 m n) (x : n → 𝕜) : n → 𝕜 :=
  let w := A.mulVec x
  let w := match omega with
    | .rows o => fun i => w i * o i
    | _ => w
  AT.mulVec w

/-- The same product formed explicitly (cross.c:108-133): `B` is `A`, or a copy with its rows scaled by the signature. -/
def explicitCross [DecidableEq m] (A : Matrix m n 𝕜) (AT : Matrix n m 𝕜) (omega : Signature 𝕜 m n) : Matrix n n 𝕜 :=
  let B := match omega with
    | .rows o => Matrix.diagonal o * A
    | _ => A
  AT * B

/-- `MatGetDiagonal_Cross` (cross.c:43-85): sums over the rows of `A`, or over the columns of each row of `AT` if swapped. The
loops over stored entries and processes are written as sums. -/
def diagCross (A : Matrix m n 𝕜) (AT : Matrix n m 𝕜) (swapped : Bool) (i : n) : 𝕜 :=
  if swapped then ∑ j, AT i j * AT i j else ∑ r, A r i * A r i

/-- `SVDSolve_Cross` (cross.c:268-280), one value; `none`: error raised. -/
noncomputable def crossSigma (hyperbolic : Bool) (eps : ℝ) (lambda : 𝕜) : Option ℝ :=
  let sigma := RCLike.re lambda
  if hyperbolic then some (Real.sqrt |sigma|)
  else if -(10 * eps) < sigma then some (Real.sqrt (if sigma < 0 then 0 else sigma)) else none

/-- `VecNormalize`: leaves a zero vector unchanged. -/
noncomputable def vecNormalize (x : n → 𝕜) : n → 𝕜 := if norm2 x = 0 then x else (((norm2 x)⁻¹ : ℝ) : 𝕜) • x

/-- `SVDComputeVectors_Cross`, generalized (cross.c:302-308): returns `u`, `v`, `x`. -/
noncomputable def crossGeneralized (A : Matrix m n 𝕜) (B : Matrix p n 𝕜) (lambda : 𝕜) (x : n → 𝕜) : (m → 𝕜) × (p → 𝕜) × (n → 𝕜) :=
  let u := vecNormalize (A.mulVec x)
  let v := B.mulVec x
  let nrm := norm2 v
  let alpha := 1 / (Real.sqrt (1 + RCLike.re lambda) * nrm)
  (u, vecNormalize v, (alpha : 𝕜) • x)

/-- The form `x^H diag(omega) x`. -/
def omegaForm (omega : n → 𝕜) (x : n → 𝕜) : 𝕜 := star x ⬝ᵥ fun i => omega i * x i

/-- Norm of a column for the inner product given by the signature: signed square root (`BVNorm` with an indefinite matrix). -/
noncomputable def signedNorm (omega : n → 𝕜) (x : n → 𝕜) : ℝ :=
  let d := RCLike.re (omegaForm omega x)
  if d < 0 then -Real.sqrt (-d) else Real.sqrt d

noncomputable def sgn (x : ℝ) : ℝ := if x < 0 then -1 else if x = 0 then 0 else 1

/-- `SVDComputeVectors_Left`, hyperbolic and not swapped (svdsolve.c:54-67) for one column of V; the columns of A*V are
mutually orthogonal for the signature (see `C76_columns_orthogonal`), so that only their scaling is modelled. Returns `u` and the sign. -/
noncomputable def leftHyperbolic (A : Matrix m n 𝕜) (omega : m → 𝕜) (v : n → 𝕜) : (m → 𝕜) × ℝ :=
  let w := A.mulVec v
  let nrm := signedNorm omega w
  let u := ((1 / nrm : ℝ) : 𝕜) • w
  let sign := sgn nrm
  (if sign < 0 then (-1 : 𝕜) • u else u, sign)

/-- `SVDComputeVectors_Cross`, hyperbolic and swapped (cross.c:329-340) followed by `SVDComputeVectors_Left` (svdsolve.c:42-57);
`A` is `svd->A`, the conjugate transpose of the user's matrix. Returns the user's left vector, the user's right vector, the sign. -/
noncomputable def crossSwapped (A : Matrix m n 𝕜) (omega : n → 𝕜) (v : n → 𝕜) : (n → 𝕜) × (m → 𝕜) × ℝ :=
  let w : n → 𝕜 := fun i => omega i * v i
  let alpha := star w ⬝ᵥ v
  let sign := sgn (RCLike.re alpha)
  let w := ((1 / Real.sqrt ‖alpha‖ : ℝ) : 𝕜) • w
  let y := A.mulVec fun i => w i * omega i
  (w, vecNormalize y, sign)

/-- `MatMult_Cyclic` (cyclic.c:20-45): the two blocks. -/
def multCyclic (A : Matrix m n 𝕜) (AT : Matrix n m 𝕜) (x : (m → 𝕜) × (n → 𝕜)) : (m → 𝕜) × (n → 𝕜) :=
  (A.mulVec x.2, AT.mulVec x.1)

/-- `MatMult_ECross` (cyclic.c:153-181). -/
def multECross (A : Matrix p n 𝕜) (AT : Matrix n p 𝕜) (x : (m → 𝕜) × (n → 𝕜)) : (m → 𝕜) × (n → 𝕜) :=
  (x.1, AT.mulVec (A.mulVec x.2))

/-- `MatGetDiagonal_Cyclic` (cyclic.c:47-52) and `MatGetDiagonal_ECross` (cyclic.c:183-235), by blocks. -/
def diagCyclic : (m → 𝕜) × (n → 𝕜) := (fun _ => 0, fun _ => 0)
def diagECross (A : Matrix p n 𝕜) (AT : Matrix n p 𝕜) (swapped : Bool) : (m → 𝕜) × (n → 𝕜) :=
  (fun _ => 1, diagCross A AT swapped)

/-- `SVDComputeVectors_Cyclic_Standard` (cyclic.c:587-590). -/
noncomputable def cyclicStandard (x : (m → 𝕜) × (n → 𝕜)) : (m → 𝕜) × (n → 𝕜) :=
  (((Real.sqrt 2 : ℝ) : 𝕜) • x.1, ((Real.sqrt 2 : ℝ) : 𝕜) • x.2)

/-- `SVDComputeVectors_Cyclic_Generalized`, largest (cyclic.c:639-649); `x` has blocks with the rows of `A` and the columns. -/
noncomputable def cyclicLargest (B : Matrix p n 𝕜) (sigma : ℝ) (x : (m → 𝕜) × (n → 𝕜)) : (m → 𝕜) × (p → 𝕜) × (n → 𝕜) :=
  let u := ((Real.sqrt 2 : ℝ) : 𝕜) • x.1
  let x2 := ((Real.sqrt 2 : ℝ) : 𝕜) • x.2
  let v := B.mulVec x2
  let x2 := ((1 / Real.sqrt (1 + sigma * sigma) : ℝ) : 𝕜) • x2
  (u, v, x2)

/-- `SVDComputeVectors_Cyclic_Generalized`, smallest (cyclic.c:625-635): alternative pencil; `x` has blocks with the rows of `B`
and the columns. -/
noncomputable def cyclicSmallest (A : Matrix m n 𝕜) (sigma : ℝ) (x : (p → 𝕜) × (n → 𝕜)) : (m → 𝕜) × (p → 𝕜) × (n → 𝕜) :=
  let v := ((Real.sqrt 2 : ℝ) : 𝕜) • x.1
  let x1 := ((Real.sqrt 2 : ℝ) : 𝕜) • x.2
  let u := A.mulVec x1
  let x1 := ((1 / Real.sqrt (1 + sigma * sigma) : ℝ) : 𝕜) • x1
  (u, v, x1)

/-- `SVDCyclicCheckEigenvalue` (cyclic.c:523-537), complex scalars: value, and whether the eigenvalue is real. -/
noncomputable def checkEigenvalueC (hyperbolic : Bool) (er : ℂ) : ℝ × Bool :=
  if hyperbolic ∧ |er.im| > 10 * |er.re| then (er.im, false) else (er.re, true)

/-- The same with real scalars. -/
noncomputable def checkEigenvalueR (hyperbolic : Bool) (er ei : ℝ) : ℝ × Bool :=
  if hyperbolic ∧ |ei| > 10 * |er| then (ei, false) else (er, true)

/-- Normalization at the end of `SVDComputeVectors_Cyclic_Hyperbolic` (cyclic.c:792-799). -/
noncomputable def cyclicNormalize (omega : m → 𝕜) (u : m → 𝕜) (v : n → 𝕜) : (m → 𝕜) × (n → 𝕜) × ℝ :=
  let u : m → 𝕜 := fun i => u i * omega i
  let nrm := signedNorm omega u
  let u := ((1 / |nrm| : ℝ) : 𝕜) • u
  let sign := sgn nrm
  let nv := norm2 v
  (u, ((1 / nv : ℝ) : 𝕜) • v, sign)

/-- `SVDComputeVectors_Cyclic_Hyperbolic`, complex scalars (cyclic.c:748-755); `x1`, `x2` are the blocks of the eigenvector of
the size of the user's rows and columns; `alpha` is the entry of `x1` of largest modulus. -/
noncomputable def cyclicHyperbolicC (omega : m → ℂ) (isreal : Bool) (alpha : ℂ) (x1 : m → ℂ) (x2 : n → ℂ) : (m → ℂ) × (n → ℂ) × ℝ :=
  if isreal then cyclicNormalize omega x1 x2
  else cyclicNormalize omega (((‖alpha‖ : ℂ) / alpha) • x1) (((‖alpha‖ : ℂ) / (alpha * Complex.I)) • x2)

/-- The same with real scalars (cyclic.c:757-784); `x1i`, `x2i` are the blocks of the imaginary part. -/
noncomputable def cyclicHyperbolicR (omega : m → ℝ) (isreal : Bool) (x1 x1i : m → ℝ) (x2 x2i : n → ℝ) : (m → ℝ) × (n → ℝ) × ℝ :=
  if norm2 x2i > norm2 x2 then
    if isreal then cyclicNormalize omega x1i x2i else cyclicNormalize omega x1 x2i
  else
    if isreal then cyclicNormalize omega x1 x2 else cyclicNormalize omega (-x1i) x2

end Verif.SVD
