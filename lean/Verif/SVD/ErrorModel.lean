import Verif.EPS.ResidualModel

/-!
# Model of the errors of singular triplets

`src/svd/interface/svdsolve.c:355-593`. Vectors and matrices of one process over ℝ or ℂ; exact arithmetic.
-/
set_option linter.all false

namespace Verif.SVD

open Verif.EPS (norm2 absEig)
open Matrix

variable {𝕜 : Type*} [RCLike 𝕜] {m n p : Type*} [Fintype m] [Fintype n] [Fintype p]

/-- `SVDComputeResidualNorms_Standard` (svdsolve.c:363-383). The matrix applied to `u` is `svd->A` if `M<N` and `svd->AT`
otherwise, in both cases the Hermitian transpose of the user's matrix (svdsetup.c:304-324, see `C40_work_shape`). -/
noncomputable def residStandard (A : Matrix m n 𝕜) (sigma : ℝ) (u : m → 𝕜) (v : n → 𝕜) : ℝ × ℝ :=
  (norm2 (A.mulVec v + (-(sigma : 𝕜)) • u), norm2 (Aᴴ.mulVec u + (-(sigma : 𝕜)) • v))

/-- `s = 1.0/PetscSqrtReal(1.0+sigma*sigma)` (svdsolve.c:408, 577). -/
noncomputable def gs (sigma : ℝ) : ℝ := 1 / Real.sqrt (1 + sigma * sigma)

/-- `c = sigma*s` (svdsolve.c:409, 578). -/
noncomputable def gc (sigma : ℝ) : ℝ := sigma * gs sigma

/-- `SVDComputeResidualNorms_Generalized` (svdsolve.c:395-436); `u` and `v` are the two parts of the vector `uv`. -/
noncomputable def residGeneralized (A : Matrix m n 𝕜) (B : Matrix p n 𝕜) (sigma : ℝ) (u : m → 𝕜) (v : p → 𝕜)
    (x : n → 𝕜) : ℝ × ℝ :=
  let s := gs sigma
  let c := gc sigma
  (norm2 (((s * s : ℝ) : 𝕜) • Aᴴ.mulVec u + ((-c : ℝ) : 𝕜) • Bᴴ.mulVec (B.mulVec x)),
   norm2 (((c * c : ℝ) : 𝕜) • Bᴴ.mulVec v + ((-s : ℝ) : 𝕜) • Aᴴ.mulVec (A.mulVec x)))

/-- `SVDComputeResidualNorms_Hyperbolic` (svdsolve.c:448-469); `omega` is the signature given by the user, `sign` the element
of the computed one. -/
noncomputable def residHyperbolic (A : Matrix m n 𝕜) (omega : m → 𝕜) (sigma sign : ℝ) (u : m → 𝕜) (v : n → 𝕜) : ℝ × ℝ :=
  (norm2 (A.mulVec v + (-(sigma : 𝕜)) • u),
   norm2 (Aᴴ.mulVec (fun i => u i * omega i) + (((-sigma * sign : ℝ)) : 𝕜) • v))

/-- `SVDErrorType` (include/slepcsvd.h:154-156). -/
inductive ErrorType
  | absolute | relative | norm
  deriving DecidableEq

/-- The three problem types with their matrices and the triplet: the left vector is `(u,v)` in the generalized case. -/
inductive Problem (𝕜 : Type*) (m n p : Type*)
  | standard (A : Matrix m n 𝕜) (u : m → 𝕜) (v : n → 𝕜)
  | generalized (A : Matrix m n 𝕜) (B : Matrix p n 𝕜) (u : m → 𝕜) (v : p → 𝕜) (x : n → 𝕜)
  | hyperbolic (A : Matrix m n 𝕜) (omega : m → 𝕜) (sign : ℝ) (u : m → 𝕜) (v : n → 𝕜)

/-- Selection of the residual (svdsolve.c:541-551). -/
noncomputable def resid (P : Problem 𝕜 m n p) (sigma : ℝ) : ℝ × ℝ :=
  match P with
  | .standard A u v => residStandard A sigma u v
  | .generalized A B u v x => residGeneralized A B sigma u v x
  | .hyperbolic A om sg u v => residHyperbolic A om sigma sg u v

/-- The norm of the vector of the cyclic form (svdsolve.c:554-569). In the generalized case the code takes the norm of the
right vector, in the hyperbolic case that of the left vector. -/
noncomputable def vecnorm (P : Problem 𝕜 m n p) : ℝ :=
  match P with
  | .standard _ _ _ => Real.sqrt 2
  | .generalized _ _ _ _ x => Real.sqrt (1 + norm2 x * norm2 x)
  | .hyperbolic _ _ _ u _ => Real.sqrt (1 + norm2 u * norm2 u)

/-- `SVDComputeError` (svdsolve.c:552-591) for the triplet with value `sigma`; `nrma`, `nrmb` are the stored matrix norms
after their initialization. -/
noncomputable def svdError (P : Problem 𝕜 m n p) (type : ErrorType) (nrma nrmb sigma : ℝ) : ℝ :=
  let r := resid P sigma
  match type with
  | .absolute => absEig r.1 r.2
  | .relative =>
    match P with
    | .generalized _ _ _ _ _ => max (r.1 / (gc sigma * vecnorm P)) (r.2 / (gs sigma * vecnorm P))
    | _ => absEig r.1 r.2 / (sigma * vecnorm P)
  | .norm => absEig r.1 r.2 / (max nrma nrmb * vecnorm P)

/-! ## Stored norms -/

/-- Convergence criterion selected with `SVDSetConvergenceTest`. -/
inductive Conv
  | abs | rel | norm
  deriving DecidableEq

/-- The part of SVD with the norms: norms of the current matrices (`normB = none` without second matrix), the stored
values, the criterion and whether a set-up is pending. -/
structure NormSt where
  normA : ℝ
  normB : Option ℝ
  nrma : ℝ
  nrmb : ℝ
  conv : Conv
  ready : Bool

/-- Calls that matter for the norms. The generalized case is the presence of a second matrix (svdsetup.c:264-273); `touch` is
any setter that resets the state. -/
inductive NormOp
  | setOperators (a : ℝ) (b : Option ℝ)
  | setConv (c : Conv)
  | touch
  | setUp
  | error (t : ErrorType)

/-- `svd->nrma`, `svd->nrmb` initialized if zero (svdsolve.c:585-586). -/
noncomputable def fillNorms (s : NormSt) : NormSt :=
  { s with nrma := if s.nrma = 0 then s.normA else s.nrma
           nrmb := match s.normB with
             | none => s.nrmb
             | some b => if s.nrmb = 0 then b else s.nrmb }

/-- Effect of a call: `SVDSetOperators` (svdsetup.c:79-83), `SVDSetConvergenceTest` (svdopts.c:485-504, does not reset the
state), `SVDSetUp` (svdsetup.c:243, 363; for two matrices in the solver set-up, trlanczos.c:229-232, cross.c:224-227,
cyclic.c:457-460), `SVDComputeError` (svdsolve.c:585-586). -/
noncomputable def normStep (s : NormSt) : NormOp → NormSt
  | .setOperators a b => { s with normA := a, normB := b, nrma := 0, nrmb := 0, ready := false }
  | .setConv c => { s with conv := c }
  | .touch => { s with ready := false }
  | .setUp =>
    if s.ready then s
    else { (if s.conv = .norm then fillNorms s else s) with ready := true }
  | .error t => if t = .norm then fillNorms s else s

noncomputable def normRun (s : NormSt) (ops : List NormOp) : NormSt := ops.foldl normStep s

/-- A new object with its first matrices (svdbasic.c:111-112). -/
def normCreate (a : ℝ) (b : Option ℝ) (c : Conv) : NormSt := ⟨a, b, 0, 0, c, false⟩

/-- `SVDConvergedAbsolute`, `SVDConvergedRelative`, `SVDConvergedNorm` (svddefault.c:19-44); `big` is `PETSC_MAX_REAL`. -/
noncomputable def svdConverged (s : NormSt) (big sigma res : ℝ) : ℝ :=
  match s.conv with
  | .abs => res
  | .rel => if sigma ≠ 0 then res / sigma else big
  | .norm => res / max s.nrma s.nrmb

end Verif.SVD
