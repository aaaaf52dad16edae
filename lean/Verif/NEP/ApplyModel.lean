import Mathlib.Analysis.Complex.Basic
import Mathlib.LinearAlgebra.Matrix.ConjTranspose
import Mathlib.Data.Matrix.Mul

/-! Model of `NEPApplyFunction`, `NEPApplyAdjoint`, `NEPComputeResidualNorm_Private`, `NEPComputeError` and `NEPConvergedNorm`
(src/nep/interface/nepsolve.c, src/nep/interface/nepdefault.c), complex scalars, exact arithmetic. A quotient by zero is `none`
(the code gets an infinity or a NaN). -/
set_option linter.all false
noncomputable section
open Classical Matrix

namespace Verif.NEP.Apply

variable {ι : Type} [Fintype ι]

/-- A problem: split form (`fui` equal to `NEP_USER_INTERFACE_SPLIT`) with `nt` functions and matrices, or the matrix computed by the callback of
`NEPSetFunction` (include/slepc/private/nepimpl.h:100-145, the fields `fui`, `nt`, `A`, `f`, `function`). -/
structure Problem (ι : Type) where
  split : Bool
  nt : ℕ
  f : ℕ → ℂ → ℂ
  A : ℕ → Matrix ι ι ℂ
  call : ℂ → Matrix ι ι ℂ

/-- `VecConjugate`. -/
def conjV (x : ι → ℂ) : ι → ℂ := fun i => star (x i)

/-- `MatMultHermitianTranspose`. -/
def multHT (A : Matrix ι ι ℂ) (x : ι → ℂ) : ι → ℂ := Aᴴ *ᵥ x

/-- `NEPApplyFunction` (nepsolve.c:234-245). -/
def applyFunction (P : Problem ι) (lam : ℂ) (x : ι → ℂ) : ι → ℂ :=
  if P.split then (List.range P.nt).foldl (fun y i => y + P.f i lam • (P.A i *ᵥ x)) 0
  else P.call lam *ᵥ x

/-- `NEPApplyAdjoint` (nepsolve.c:291-307): `w` is the conjugate of `x` (292-293), the products are with the conjugate transpose
(298, 304), the result is conjugated at the end (307). -/
def applyAdjoint (P : Problem ι) (lam : ℂ) (x : ι → ℂ) : ι → ℂ :=
  let w := conjV x
  conjV (if P.split then (List.range P.nt).foldl (fun y i => y + P.f i lam • multHT (P.A i) w) 0
  else multHT (P.call lam) w)

/-- `VecNorm` with `NORM_2`. -/
def norm2 (x : ι → ℂ) : ℝ := Real.sqrt (∑ i, ‖x i‖^2)

/-- `MatNorm` with `NORM_INFINITY`: the largest row sum. -/
def normInf (A : Matrix ι ι ℂ) : ℝ := ((Finset.univ.sup fun i => ∑ j, ‖A i j‖₊ : NNReal) : ℝ)

/-- `NEPComputeResidualNorm_Private` (nepsolve.c:625-636). -/
def residualNorm (P : Problem ι) (adj : Bool) (lam : ℂ) (x : ι → ℂ) : ℝ :=
  norm2 (if adj then applyAdjoint P lam x else applyFunction P lam x)

/-- Division of the code: no number if the divisor is zero. -/
def pdiv (a b : ℝ) : Option ℝ := if b = 0 then none else some (a / b)

/-- Initialization of the matrix norms (nepsolve.c:728-734, nepdefault.c:125-131): only if the first one is zero. -/
def initNorms (P : Problem ι) (nrma : ℕ → ℝ) : ℕ → ℝ :=
  if nrma 0 = 0 then fun j => if j < P.nt then normInf (P.A j) else nrma j else nrma

/-- The weight `z` (nepsolve.c:735-738, nepdefault.c:132-135). -/
def weight (P : Problem ι) (nrma : ℕ → ℝ) (lam : ℂ) : ℝ :=
  (List.range P.nt).foldl (fun z j => z + nrma j * ‖P.f j lam‖) 0

/-- `NEPErrorType`. -/
inductive ErrType
  | absolute | relative | backward

/-- `NEPComputeError` (nepsolve.c:696-743) for an eigenpair `(lam,x)` with left eigenvector `y`. Returns the error and the new array of norms. -/
def computeError (P : Problem ι) (twosided : Bool) (lam : ℂ) (x y : ι → ℂ) (type : ErrType) (nrma : ℕ → ℝ) : Option ℝ × (ℕ → ℝ) :=
  let error := residualNorm P false lam x
  let er := norm2 x
  let error := if twosided then max error (residualNorm P true lam y) else error
  match type with
  | .absolute => (some error, nrma)
  | .relative => (pdiv error (‖lam‖ * er), nrma)
  | .backward =>
    if P.split then
      let nrma' := initNorms P nrma
      (pdiv error (weight P nrma' lam * er), nrma')
    else (pdiv error (normInf (P.call lam) * er), nrma)

/-- `NEPConvergedNorm` (nepdefault.c:111-139). -/
def convergedNorm (P : Problem ι) (lam : ℂ) (res : ℝ) (nrma : ℕ → ℝ) : Option ℝ × (ℕ → ℝ) :=
  if P.split then
    let nrma' := initNorms P nrma
    (pdiv res (weight P nrma' lam), nrma')
  else (pdiv res (normInf (P.call lam)), nrma)

/-- An earlier call that can touch the array of norms. -/
inductive Call (ι : Type)
  | error (twosided : Bool) (lam : ℂ) (x y : ι → ℂ) (type : ErrType)
  | conv (lam : ℂ) (res : ℝ)

/-- The array of norms after a list of calls; `NEPSetSplitOperator` creates it with zeros (nepbasic.c:881). -/
def normsAfter (P : Problem ι) : List (Call ι) → (ℕ → ℝ)
  | [] => fun _ => 0
  | .error t lam x y type :: l => (computeError P t lam x y type (normsAfter P l)).2
  | .conv lam res :: l => (convergedNorm P lam res (normsAfter P l)).2

end Verif.NEP.Apply
