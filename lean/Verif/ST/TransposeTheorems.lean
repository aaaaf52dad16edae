import Verif.ST.TransposeModel
import Mathlib.Data.Complex.Basic
import Mathlib.LinearAlgebra.Matrix.Notation
import Mathlib.Tactic.FieldSimp
/-!
# Property C42: transposed applications are the transposes of the applied operator, with balancing
-/
set_option linter.all false
namespace Verif.ST.Tr
open Matrix
variable {K : Type} [Field K] {n : Type} [Fintype n] [DecidableEq n]

/-- The operator as a matrix: `D P^{-1} M D^{-1}`, null pointers being identities. -/
noncomputable def opMatrix (P M : Option (Matrix n n K)) (D : Option (n → K)) : Matrix n n K :=
  let core := (P.getD 1)⁻¹ * M.getD 1
  match D with
  | some D => diagonal D * core * (diagonal D)⁻¹
  | none => core

theorem ptMul_eq (x d : n → K) : ptMul x d = diagonal d *ᵥ x := by
  ext i; simp [ptMul, mulVec_diagonal, mul_comm]

theorem ptDiv_eq (x d : n → K) (h : ∀ i, d i ≠ 0) : ptDiv x d = (diagonal d)⁻¹ *ᵥ x := by
  have hu : IsUnit d := by
    refine IsUnit.of_mul_eq_one (fun i => (d i)⁻¹) ?_
    ext i; exact mul_inv_cancel₀ (h i)
  rw [inv_diagonal]
  ext i
  rw [mulVec_diagonal]
  have : Ring.inverse d i = (d i)⁻¹ := by
    have h1 := congrFun (Ring.mul_inverse_cancel d hu) i
    simp only [Pi.mul_apply, Pi.one_apply] at h1
    exact eq_inv_of_mul_eq_one_right h1
  rw [this]; simp [ptDiv, div_eq_mul_inv, mul_comm]

/-- The applied operator is the matrix `D P^{-1} M D^{-1}`. -/
theorem C42_apply (P M : Option (Matrix n n K)) (D : Option (n → K))
    (hD : ∀ d, D = some d → ∀ i, d i ≠ 0) (x : n → K) :
    opMult P M D x = opMatrix P M D *ᵥ x := by
  have core : ∀ x, applyGeneric P M x = ((P.getD 1)⁻¹ * M.getD 1) *ᵥ x := by
    intro x
    cases P <;> cases M <;> simp [applyGeneric, matSolve, mulVec_mulVec]
  cases D with
  | none => simp only [opMult, opMatrix, core]
  | some d =>
    simp only [opMult, opMatrix, core, ptMul_eq, ptDiv_eq _ _ (hD d rfl), mulVec_mulVec, Matrix.mul_assoc]

/-- **C42** (transpose). -/
theorem C42_transpose (P M : Option (Matrix n n K)) (D : Option (n → K))
    (hD : ∀ d, D = some d → ∀ i, d i ≠ 0) (x : n → K) :
    opMultTranspose P M D x = (opMatrix P M D)ᵀ *ᵥ x := by
  have core : ∀ x, applyTransGeneric P M x = ((P.getD 1)⁻¹ * M.getD 1)ᵀ *ᵥ x := by
    intro x
    cases P <;> cases M <;>
      simp [applyTransGeneric, matSolveTranspose, mulVec_mulVec, transpose_mul, transpose_nonsing_inv]
  cases D with
  | none => simp only [opMultTranspose, opMatrix, core]
  | some d =>
    simp only [opMultTranspose, opMatrix, core, ptMul_eq, ptDiv_eq _ _ (hD d rfl), mulVec_mulVec,
      transpose_mul, transpose_nonsing_inv, diagonal_transpose, Matrix.mul_assoc]

theorem star_mulVec' [StarRing K] (A : Matrix n n K) (x : n → K) : star (Aᵀ *ᵥ star x) = Aᴴ *ᵥ x := by
  ext i
  simp [mulVec, dotProduct, conjTranspose_apply]

/-- **C42** (Hermitian transpose), type-provided routine. -/
theorem C42_hermitian [StarRing K] (P M : Option (Matrix n n K)) (D : Option (n → K))
    (hD : ∀ d, D = some d → ∀ i, d i ≠ 0) (x : n → K) :
    opMultHermitian P M D x = (opMatrix P M D)ᴴ *ᵥ x := by
  have core : ∀ x, applyHermGeneric P M x = ((P.getD 1)⁻¹ * M.getD 1)ᴴ *ᵥ x := by
    intro x
    have hs : ∀ (Q : Matrix n n K) y, star ((Qᵀ)⁻¹ *ᵥ star y) = (Q⁻¹)ᴴ *ᵥ y := by
      intro Q y
      rw [← transpose_nonsing_inv, star_mulVec']
    cases P <;> cases M <;>
      simp [applyHermGeneric, matSolveHermitian, mulVec_mulVec, conjTranspose_mul, hs]
  cases D with
  | none => simp only [opMultHermitian, opMatrix, core]
  | some d =>
    have hd : ∀ i, (star d) i ≠ 0 := fun i => by simpa using hD d rfl i
    simp only [opMultHermitian, opMatrix, core, ptMul_eq, ptDiv_eq _ _ hd, mulVec_mulVec,
      conjTranspose_mul, conjTranspose_nonsing_inv, diagonal_conjTranspose, Matrix.mul_assoc]

/-- **C42** (Hermitian transpose), fallback through the transpose. -/
theorem C42_hermitian_fallback [StarRing K] (P M : Option (Matrix n n K)) (D : Option (n → K))
    (hD : ∀ d, D = some d → ∀ i, d i ≠ 0) (x : n → K) :
    opMultHermitianFallback P M D x = (opMatrix P M D)ᴴ *ᵥ x := by
  have h : opMultHermitianFallback P M D x = star (opMultTranspose P M D (star x)) := by
    cases D <;> rfl
  rw [h, C42_transpose P M D hD, star_mulVec']

/-- Balancing does not change the eigenvalues: `x` is an eigenvector of the unbalanced operator
exactly when `D x` is one of the balanced operator, with the same eigenvalue. -/
theorem C42_balance (P M : Option (Matrix n n K)) (d : n → K) (hd : ∀ i, d i ≠ 0) (theta : K) (x : n → K) :
    opMult P M none x = theta • x ↔ opMult P M (some d) (ptMul x d) = theta • ptMul x d := by
  have e1 : ptDiv (ptMul x d) d = x := by
    ext i; simp [ptDiv, ptMul, hd i]
  simp only [opMult, e1]
  constructor
  · intro h; rw [h]; ext i; simp [ptMul, mul_assoc]
  · intro h
    ext i
    have := congrFun h i
    simp only [ptMul, Pi.smul_apply, smul_eq_mul] at this ⊢
    rw [← mul_assoc] at this
    exact mul_right_cancel₀ (hd i) this

/-- In-place Cayley numerator: the product is right (`A` holds `A - sigma B`). -/
theorem C42_cayley_mult (sigma nu : K) (A B : Matrix n n K) (x : n → K) :
    cayleyMult sigma nu (A - sigma • B) B x = (A + nu • B) *ᵥ x := by
  simp only [cayleyMult, sub_mulVec, add_mulVec, smul_mulVec, add_smul]
  abel

/-- In-place Cayley numerator, transposed: proved for self-conjugate `nu + sigma` (real shifts). -/
theorem C42_cayley_transpose_partial [StarRing K] (sigma nu : K) (h : star (nu + sigma) = nu + sigma)
    (A B : Matrix n n K) (x : n → K) :
    cayleyMultTranspose sigma nu (A - sigma • B) B x = (A + nu • B)ᵀ *ᵥ x := by
  simp only [cayleyMultTranspose, h, transpose_sub, transpose_add, transpose_smul, sub_mulVec, add_mulVec,
    smul_mulVec, add_smul]
  abel

/-- **C42 is false for complex Cayley shifts in in-place mode**: the antishift is conjugated although
the plain transpose is requested. -/
theorem C42_cayley_transpose_false :
    cayleyMultTranspose (K := ℂ) (n := Fin 1) 0 Complex.I 1 1 (fun _ => 1)
      ≠ (1 + Complex.I • (1 : Matrix (Fin 1) (Fin 1) ℂ))ᵀ *ᵥ (fun _ => 1) := by
  intro h
  have := congrFun h 0
  simp [cayleyMultTranspose, add_mulVec, smul_mulVec, transpose_add] at this
  have := congrArg Complex.im this
  norm_num at this

example : ∀ d, (some (fun i : Fin 2 => ((i : ℕ) : ℚ) + 1)) = some d → ∀ i, d i ≠ 0 := by
  intro d h i
  cases h
  fin_cases i <;> norm_num
end Verif.ST.Tr
