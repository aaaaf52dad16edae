import Mathlib.LinearAlgebra.Matrix.NonsingularInverse
import Mathlib.LinearAlgebra.Matrix.ConjTranspose
/-!
# Transposed and Hermitian-transposed application with balancing

`P = none` / `M = none` are the null pointers (identity); `D = none` means no balancing.
The linear solver is the exact inverse.
-/
set_option linter.all false
namespace Verif.ST.Tr
open Matrix
variable {K : Type} [Field K] {n : Type} [Fintype n] [DecidableEq n]

def ptMul (x d : n → K) : n → K := fun i => x i * d i
def ptDiv (x d : n → K) : n → K := fun i => x i / d i

/-- `STMatSolve`, `stsles.c:198-216`. -/
noncomputable def matSolve (P : Option (Matrix n n K)) (b : n → K) : n → K :=
  match P with
  | none => b
  | some P => P⁻¹ *ᵥ b
/-- `STMatSolveTranspose`, `stsles.c:265-286`. -/
noncomputable def matSolveTranspose (P : Option (Matrix n n K)) (b : n → K) : n → K :=
  match P with
  | none => b
  | some P => (Pᵀ)⁻¹ *ᵥ b
/-- `STMatSolveHermitianTranspose`, `stsles.c:305-332`: conjugate, transposed solve, conjugate. -/
noncomputable def matSolveHermitian [StarRing K] (P : Option (Matrix n n K)) (b : n → K) : n → K :=
  match P with
  | none => b
  | some P => star ((Pᵀ)⁻¹ *ᵥ star b)

/-- `STApply_Generic`, `stsolve.c:16-25`. -/
noncomputable def applyGeneric (P M : Option (Matrix n n K)) (x : n → K) : n → K :=
  match M with
  | some M => matSolve P (M *ᵥ x)
  | none => matSolve P x
/-- `STApplyTranspose_Generic`, `stsolve.c:107-116`. -/
noncomputable def applyTransGeneric (P M : Option (Matrix n n K)) (x : n → K) : n → K :=
  match M with
  | some M => Mᵀ *ᵥ matSolveTranspose P x
  | none => matSolveTranspose P x
/-- `STApplyHermitianTranspose_Generic`, `stsolve.c:153-162`. -/
noncomputable def applyHermGeneric [StarRing K] (P M : Option (Matrix n n K)) (x : n → K) : n → K :=
  match M with
  | some M => Mᴴ *ᵥ matSolveHermitian P x
  | none => matSolveHermitian P x

/-- `MatMult_STOperator`, `stsolve.c:244-259`. -/
noncomputable def opMult (P M : Option (Matrix n n K)) (D : Option (n → K)) (x : n → K) : n → K :=
  match D with
  | some D => ptMul (applyGeneric P M (ptDiv x D)) D
  | none => applyGeneric P M x
/-- `MatMultTranspose_STOperator`, `stsolve.c:261-276`. -/
noncomputable def opMultTranspose (P M : Option (Matrix n n K)) (D : Option (n → K)) (x : n → K) : n → K :=
  match D with
  | some D => ptDiv (applyTransGeneric P M (ptMul x D)) D
  | none => applyTransGeneric P M x
/-- `MatMultHermitianTranspose_STOperator`, `stsolve.c:279-294` (type provides `applyhermtrans`). -/
noncomputable def opMultHermitian [StarRing K] (P M : Option (Matrix n n K)) (D : Option (n → K)) (x : n → K) :
    n → K :=
  match D with
  | some D => ptDiv (applyHermGeneric P M (ptMul x (star D))) (star D)
  | none => applyHermGeneric P M x
/-- Same routine, lines 295-305 (type does not provide it). -/
noncomputable def opMultHermitianFallback [StarRing K] (P M : Option (Matrix n n K)) (D : Option (n → K))
    (x : n → K) : n → K :=
  match D with
  | some D => star (ptDiv (applyTransGeneric P M (ptMul (star x) D)) D)
  | none => star (applyTransGeneric P M (star x))

/-- `MatMult_Cayley`, `cayley.c:21-45` in in-place mode: `A` holds `A - sigma B`. -/
def cayleyMult (sigma nu : K) (Acur B : Matrix n n K) (x : n → K) : n → K :=
  Acur *ᵥ x + (nu + sigma) • (B *ᵥ x)
/-- `MatMultTranspose_Cayley`, `cayley.c:47-72` in in-place mode; `nu` is conjugated (line 59). -/
def cayleyMultTranspose [StarRing K] (sigma nu : K) (Acur B : Matrix n n K) (x : n → K) : n → K :=
  Acurᵀ *ᵥ x + star (nu + sigma) • (Bᵀ *ᵥ x)
end Verif.ST.Tr
