import Mathlib.LinearAlgebra.Matrix.ConjTranspose
import Mathlib.Analysis.RCLike.Basic
/-!
Model of the dense Lyapunov solvers of src/lme/interface/lmedense.c (the versions that use LAPACK).

An array is a function of the position in memory; matrices are stored by columns with a leading dimension.  The LAPACK
kernels (Schur form, triangular Sylvester equation, Cholesky) are parameters; what they compute is stated in
`KernOK`.  Exact arithmetic.
-/
set_option linter.all false
namespace Verif.LME
noncomputable section
open Matrix
variable {𝕜 : Type} [RCLike 𝕜] {n k : Nat}

/-- The matrix that BLAS and LAPACK see when they are given an array with leading dimension `ld`. -/
def rd (r c : Nat) (mem : Nat → 𝕜) (ld : Nat) : Matrix (Fin r) (Fin c) 𝕜 := Matrix.of fun i j => mem (i + j * ld)

/-- An array after a matrix has been stored in it with leading dimension `ld`. -/
def wr (mem : Nat → 𝕜) (ld : Nat) (X : Matrix (Fin n) (Fin n) 𝕜) : Nat → 𝕜 := fun p =>
  if h : p % ld < n ∧ p / ld < n then X ⟨p % ld, h.1⟩ ⟨p / ld, h.2⟩ else mem p

/-- The LAPACK kernels: Schur form `T`, `Q` (`hseqr`, `gees`), solution of `T X + X T^* = C` (`trsyl`; `none` if it
fails or needs a scale factor, both errors), upper Cholesky factor (`potrf`; `none` if the matrix is not positive
definite). -/
structure Kern (𝕜 : Type) (n : Nat) where
  schur : Matrix (Fin n) (Fin n) 𝕜 → Matrix (Fin n) (Fin n) 𝕜 × Matrix (Fin n) (Fin n) 𝕜
  trsyl : Matrix (Fin n) (Fin n) 𝕜 → Matrix (Fin n) (Fin n) 𝕜 → Option (Matrix (Fin n) (Fin n) 𝕜)
  potrf : Matrix (Fin n) (Fin n) 𝕜 → Option (Matrix (Fin n) (Fin n) 𝕜)

/-- What the documentation of LAPACK says about the kernels. -/
structure KernOK (K : Kern 𝕜 n) : Prop where
  unitary : ∀ A, (K.schur A).2ᴴ * (K.schur A).2 = 1 ∧ (K.schur A).2 * (K.schur A).2ᴴ = 1
  schur : ∀ A, A = (K.schur A).2 * (K.schur A).1 * (K.schur A).2ᴴ
  trsyl : ∀ T C X, K.trsyl T C = some X → T * X + X * Tᴴ = C
  potrf : ∀ C U, K.potrf C = some U → Uᴴ * U = C ∧ ∀ i j, j < i → U i j = 0

/-- `Lyapunov_LAPACK`, lmedense.c:393-449; the first product of the back-transformation uses the size of the matrix
as leading dimension of `X` (lmedense.c:439). -/
def lyapunov (K : Kern 𝕜 n) (memA : Nat → 𝕜) (lda : Nat) (memB : Nat → 𝕜) (ldb : Nat) (memX : Nat → 𝕜) (ldx : Nat) :
    Option (Nat → 𝕜) :=
  let TQ := K.schur (rd n n memA lda)
  let Z := TQ.2ᴴ * rd n n memB ldb
  let X1 := wr memX ldx (-(Z * TQ.2))
  (K.trsyl TQ.1 (rd n n X1 ldx)).map fun S =>
    let X2 := wr X1 ldx S
    let W := TQ.2 * rd n n X2 n
    wr X2 ldx (W * TQ.2ᴴ)

/-- `CholeskyFactor`, lmedense.c:172-205, with `eps` the machine precision; the second failure is an error. -/
def choleskyFactor (K : Kern 𝕜 n) (eps : ℝ) (memA : Nat → 𝕜) (lda : Nat) : Option (Nat → 𝕜) :=
  let C := rd n n memA lda
  let F := match K.potrf C with
    | some U => some U
    | none => K.potrf (C + Matrix.diagonal fun _ => ((50 * eps : ℝ) : 𝕜))
  F.map fun U => wr memA lda (Matrix.of fun i j => if j < i then 0 else U i j)

/-- The norm of a row read with a stride, `BLASnrm2_(&n,C+m-1,&n)`. -/
def strideNorm (n : Nat) (mem : Nat → 𝕜) (start stride : Nat) : ℝ :=
  Real.sqrt (∑ j : Fin n, ‖mem (start + j * stride)‖ ^ 2)

/-- `HessLyapunovChol_LAPACK`, lmedense.c:210-278: the factor and the updated value of `res`.  The size of
the matrix is used as leading dimension at lmedense.c:259 and as stride at lmedense.c:265. -/
def hessLyapunovChol (K : Kern 𝕜 n) (eps : ℝ) (memH : Nat → 𝕜) (ldh : Nat) (k : Nat) (memB : Nat → 𝕜) (ldb : Nat)
    (memU : Nat → 𝕜) (ldu : Nat) (res : ℝ) : Option ((Nat → 𝕜) × ℝ) :=
  let TQ := K.schur (rd n n memH ldh)
  let Z := TQ.2ᴴ * rd n k memB ldb
  let C1 := wr memU ldu (-(Z * Zᴴ))
  match K.trsyl TQ.1 (rd n n C1 ldu) with
  | none => none
  | some S =>
    let C2 := wr C1 ldu S
    let W := TQ.2 * rd n n C2 n
    let C3 := wr C2 ldu (W * TQ.2ᴴ)
    let res' := res * strideNorm n C3 (n - 1) n
    (choleskyFactor K eps C3 ldu).map fun U => (U, res')

end
end Verif.LME
