import Mathlib.Data.Matrix.ColumnRowPartitioned
import Mathlib.LinearAlgebra.Matrix.NonsingularInverse
import Mathlib.LinearAlgebra.Matrix.SchurComplement
import Mathlib.LinearAlgebra.Matrix.Polynomial
import Mathlib.Topology.Instances.Matrix
import Mathlib.Topology.Algebra.Polynomial
import Mathlib.Analysis.Complex.Basic
import Mathlib.Tactic

/-!
# Matrix functions

The functions `f_j` of a nonlinear eigenproblem in split form are evaluated by the code on scalars, on the matrix `H` of the
invariant pair and on block matrices built from it (`FNEvaluateFunctionMat`, nepdefl.c:268,287).  A matrix function is here a
family of maps on all square matrices whose eigenvalues lie in a domain, which intertwines (this is the usual property of
functions of matrices, it contains similarity invariance) and which is continuous.  No particular function is assumed; the
polynomials and the inverse are given as instances.
-/

set_option linter.all false

namespace Verif.NDef
open Matrix

/-- all eigenvalues of `A` lie in `Ω` -/
def Dom (Ω : Set ℂ) {α : Type} [Fintype α] [DecidableEq α] (A : Matrix α α ℂ) : Prop :=
  ∀ z : ℂ, (z • (1 : Matrix α α ℂ) - A).det = 0 → z ∈ Ω

/-- a function of matrices (FN object), see the header of this file -/
structure MatFun where
  Ω : Set ℂ
  isOpen : IsOpen Ω
  ev : ∀ {α : Type} [Fintype α] [DecidableEq α], Matrix α α ℂ → Matrix α α ℂ
  inter : ∀ {α β : Type} [Fintype α] [DecidableEq α] [Fintype β] [DecidableEq β]
    (A : Matrix α α ℂ) (B : Matrix β β ℂ) (Z : Matrix α β ℂ), Dom Ω A → Dom Ω B → A * Z = Z * B → ev A * Z = Z * ev B
  cont : ∀ {α : Type} [Fintype α] [DecidableEq α] (A : Matrix α α ℂ), Dom Ω A →
    ContinuousAt (fun M : Matrix α α ℂ => ev M) A

section dom
variable {α β : Type} [Fintype α] [DecidableEq α] [Fintype β] [DecidableEq β] {Ω : Set ℂ}

theorem dom_blocks {A : Matrix α α ℂ} {B : Matrix α β ℂ} {D : Matrix β β ℂ} (hA : Dom Ω A) (hD : Dom Ω D) :
    Dom Ω (fromBlocks A B 0 D) := by
  intro z hz
  rw [← fromBlocks_one, fromBlocks_smul, sub_eq_add_neg, fromBlocks_neg, fromBlocks_add] at hz
  simp only [smul_zero, neg_zero, add_zero, zero_add] at hz
  rw [det_fromBlocks_zero₂₁] at hz
  rcases mul_eq_zero.1 hz with h | h
  · exact hA z (by rw [sub_eq_add_neg]; exact h)
  · exact hD z (by rw [sub_eq_add_neg]; exact h)

theorem dom_smul_one {l : ℂ} (hl : l ∈ Ω) : Dom Ω (l • (1 : Matrix α α ℂ)) := by
  intro z hz
  rw [← sub_smul, det_smul, det_one, mul_one] at hz
  by_cases hc : Fintype.card α = 0
  · rw [hc] at hz; simp at hz
  · have := pow_eq_zero_iff hc |>.1 hz
    rw [sub_eq_zero] at this; rw [this]; exact hl

end dom

/-- the value of the function at a number: `FNEvaluateFunction` -/
def MatFun.at (f : MatFun) (l : ℂ) : ℂ := f.ev (l • (1 : Matrix Unit Unit ℂ)) () ()

/-- the derivative of the function at a number (`FNEvaluateDerivative`), as the upper right entry of the function of a Jordan block -/
def MatFun.der (f : MatFun) (l : ℂ) : ℂ :=
  f.ev (fromBlocks (l • (1 : Matrix Unit Unit ℂ)) (1 : Matrix Unit Unit ℂ) 0 (l • (1 : Matrix Unit Unit ℂ))) (Sum.inl ()) (Sum.inr ())

section lem
variable {α β : Type} [Fintype α] [DecidableEq α] [Fintype β] [DecidableEq β] (f : MatFun)

theorem ev_smul_one {l : ℂ} (hl : l ∈ f.Ω) : f.ev (l • (1 : Matrix α α ℂ)) = f.at l • (1 : Matrix α α ℂ) := by
  ext i j
  have h := f.inter (l • (1 : Matrix α α ℂ)) (l • (1 : Matrix Unit Unit ℂ)) (Matrix.of fun i (_ : Unit) => if i = j then (1 : ℂ) else 0)
    (dom_smul_one hl) (dom_smul_one hl) (by rw [Matrix.smul_mul, Matrix.mul_smul, Matrix.one_mul, Matrix.mul_one])
  have h2 := congrFun (congrFun h i) ()
  simp only [mul_apply, Matrix.of_apply, mul_ite, mul_one, mul_zero, Finset.sum_ite_eq', Finset.mem_univ, if_true,
    Finset.univ_unique, Finset.sum_singleton] at h2
  refine h2.trans ?_
  simp only [Matrix.smul_apply, Matrix.one_apply, smul_eq_mul, mul_ite, mul_one, mul_zero, ite_mul, one_mul, zero_mul]
  rfl

/-- a matrix function of a block triangular matrix is block triangular with the functions of the blocks on the diagonal -/
theorem ev_blocks {A : Matrix α α ℂ} {B : Matrix α β ℂ} {D : Matrix β β ℂ} (hA : Dom f.Ω A) (hD : Dom f.Ω D) :
    f.ev (fromBlocks A B 0 D) = fromBlocks (f.ev A) (f.ev (fromBlocks A B 0 D)).toBlocks₁₂ 0 (f.ev D) := by
  have h1 := f.inter (fromBlocks A B 0 D) A (fromRows (1 : Matrix α α ℂ) (0 : Matrix β α ℂ)) (dom_blocks hA hD) hA (by
    rw [fromBlocks_mul_fromRows, fromRows_mul]; simp)
  have h2 := f.inter D (fromBlocks A B 0 D) (fromCols (0 : Matrix β α ℂ) (1 : Matrix β β ℂ)) hD (dom_blocks hA hD) (by
    rw [mul_fromCols, fromCols_mul_fromBlocks]; simp)
  rw [← fromBlocks_toBlocks (f.ev (fromBlocks A B 0 D))] at h1 h2
  rw [fromBlocks_mul_fromRows, fromRows_mul] at h1
  rw [mul_fromCols, fromCols_mul_fromBlocks] at h2
  simp only [Matrix.mul_one, Matrix.mul_zero, add_zero, Matrix.one_mul, Matrix.zero_mul, zero_add] at h1 h2
  have h11 := fromRows_inj h1
  have h22 := fromCols_inj h2
  conv_lhs => rw [← fromBlocks_toBlocks (f.ev (fromBlocks A B 0 D))]
  rw [h11.1, h11.2, ← h22.2]

end lem

/-! ### Instances -/

section poly
open Polynomial
variable {α β : Type} [Fintype α] [DecidableEq α] [Fintype β] [DecidableEq β]

theorem pow_inter {A : Matrix α α ℂ} {B : Matrix β β ℂ} {Z : Matrix α β ℂ} (h : A * Z = Z * B) (k : ℕ) : A ^ k * Z = Z * B ^ k := by
  induction k with
  | zero => simp
  | succ k ih => rw [pow_succ, pow_succ, Matrix.mul_assoc, h, ← Matrix.mul_assoc, ih, Matrix.mul_assoc]

/-- polynomials are matrix functions -/
noncomputable def polyFun (p : ℂ[X]) : MatFun where
  Ω := Set.univ
  isOpen := isOpen_univ
  ev := fun {α} _ _ A => aeval A p
  inter := by
    intro α β _ _ _ _ A B Z _ _ h
    induction p using Polynomial.induction_on' with
    | add p q hp hq => rw [map_add, map_add, Matrix.add_mul, Matrix.mul_add, hp, hq]
    | monomial k a =>
      rw [aeval_monomial, aeval_monomial, Matrix.mul_assoc, pow_inter h, ← Matrix.mul_assoc, ← Matrix.mul_assoc]
      congr 1
      rw [Algebra.algebraMap_eq_smul_one, Algebra.algebraMap_eq_smul_one, Matrix.smul_mul, Matrix.mul_smul, Matrix.one_mul, Matrix.mul_one]
  cont := by
    intro α _ _ A _
    exact (p.continuous_aeval).continuousAt

end poly

/-- the inverse is a matrix function on the matrices without eigenvalue zero -/
noncomputable def invFun : MatFun where
  Ω := {z | z ≠ 0}
  isOpen := isOpen_ne
  ev := fun {α} _ _ A => A⁻¹
  inter := by
    intro α β _ _ _ _ A B Z hA hB h
    have dA : IsUnit A.det := by
      rw [isUnit_iff_ne_zero]; intro h0
      exact hA 0 (by rw [zero_smul, zero_sub, det_neg, h0, mul_zero]) rfl
    have dB : IsUnit B.det := by
      rw [isUnit_iff_ne_zero]; intro h0
      exact hB 0 (by rw [zero_smul, zero_sub, det_neg, h0, mul_zero]) rfl
    calc A⁻¹ * Z = A⁻¹ * (Z * (B * B⁻¹)) := by rw [mul_nonsing_inv _ dB, Matrix.mul_one]
      _ = A⁻¹ * (A * Z * B⁻¹) := by rw [h, Matrix.mul_assoc]
      _ = Z * B⁻¹ := by rw [Matrix.mul_assoc A, ← Matrix.mul_assoc, nonsing_inv_mul _ dA, Matrix.one_mul]
  cont := by
    intro α _ _ A hA
    have dA : A.det ≠ 0 := by
      intro h0
      exact hA 0 (by rw [zero_smul, zero_sub, det_neg, h0, mul_zero]) rfl
    have : (fun M : Matrix α α ℂ => M⁻¹) = fun M => (M.det)⁻¹ • M.adjugate := by
      funext M; rw [Matrix.inv_def, Ring.inverse_eq_inv']
    rw [this]
    exact ((continuous_id.matrix_det).continuousAt.inv₀ dA).smul (continuous_id.matrix_adjugate).continuousAt

end Verif.NDef
