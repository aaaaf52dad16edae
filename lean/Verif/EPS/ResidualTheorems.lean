import Verif.EPS.ResidualModel
import Mathlib.Tactic.Linarith
import Mathlib.Tactic.Module
import Mathlib.Tactic.NormNum
import Mathlib.Tactic.LinearCombination

/-!
# C37: real-arithmetic residuals equal complex residuals
-/
set_option linter.all false

namespace Verif.EPS

open Classical

variable {n : Type*} [Fintype n]

/-- Real matrix as a complex one. -/
def cmat (M : Matrix n n ℝ) : Matrix n n ℂ := M.map (fun t => (t : ℂ))

/-- The complex vector held as two real ones. -/
def cvec (xr xi : n → ℝ) : n → ℂ := fun j => (xr j : ℂ) + (xi j : ℂ) * Complex.I

/-- The second matrix of the pencil, the identity for standard problems. -/
noncomputable def bmat (B : Option (Matrix n n ℝ)) : Matrix n n ℝ := B.getD (1 : Matrix n n ℝ)

/-- Residual of a right (left) eigenvector of the complex pencil: A x − λ B x (A^* y − conj λ B^* y). -/
def residual (trans : Bool) (A B : Matrix n n ℂ) (l : ℂ) (x : n → ℂ) : n → ℂ :=
  if trans then A.conjTranspose.mulVec x - star l • B.conjTranspose.mulVec x
  else A.mulVec x - l • B.mulVec x

theorem bmult_eq (trans : Bool) (B : Option (Matrix n n ℝ)) (x : n → ℝ) : bmult trans B x = matmult trans (bmat B) x := by
  cases B with
  | none => unfold bmult matmult bmat; cases trans <;> simp
  | some B => rfl

theorem norm2_cvec (u v : n → ℝ) : norm2 (cvec u v) = absEig (norm2 u) (norm2 v) := by
  unfold norm2 absEig
  rw [EuclideanSpace.norm_eq, EuclideanSpace.norm_eq, EuclideanSpace.norm_eq,
    Real.sq_sqrt (Finset.sum_nonneg fun _ _ => sq_nonneg _), Real.sq_sqrt (Finset.sum_nonneg fun _ _ => sq_nonneg _),
    ← Finset.sum_add_distrib]
  congr 1
  apply Finset.sum_congr rfl
  intro j _
  simp only [cvec]
  rw [← Complex.normSq_eq_norm_sq, Complex.normSq_add_mul_I, Real.norm_eq_abs, Real.norm_eq_abs, sq_abs, sq_abs]

theorem mulVec_cvec (M : Matrix n n ℝ) (xr xi : n → ℝ) :
    (cmat M).mulVec (cvec xr xi) = cvec (M.mulVec xr) (M.mulVec xi) := by
  funext j
  unfold cmat cvec Matrix.mulVec dotProduct
  simp only [Matrix.map_apply, Complex.ofReal_sum, Complex.ofReal_mul, Finset.sum_mul]
  rw [← Finset.sum_add_distrib]
  apply Finset.sum_congr rfl
  intro k _
  ring

theorem cmat_ct (M : Matrix n n ℝ) : (cmat M).conjTranspose = cmat M.conjTranspose := by
  ext a b
  simp [cmat, Matrix.conjTranspose]

theorem residual_cvec (trans : Bool) (A B : Matrix n n ℝ) (kr ki : ℝ) (xr xi : n → ℝ) :
    residual trans (cmat A) (cmat B) ⟨kr, ki⟩ (cvec xr xi)
      = cvec (matmult trans A xr + (-kr) • matmult trans B xr + (if trans then -ki else ki) • matmult trans B xi)
          (matmult trans A xi + (-kr) • matmult trans B xi + (if trans then ki else -ki) • matmult trans B xr) := by
  have key : ∀ (p q r s : n → ℝ) (l : ℂ), cvec p q - l • cvec r s
      = cvec (p + (-l.re) • r + l.im • s) (q + (-l.re) • s + (-l.im) • r) := by
    intro p q r s l
    funext j
    unfold cvec
    apply Complex.ext <;> simp <;> ring
  unfold residual matmult
  cases trans with
  | false =>
    simp only [Bool.false_eq_true, if_false, mulVec_cvec]
    exact key _ _ _ _ _
  | true =>
    simp only [if_true, cmat_ct, mulVec_cvec]
    rw [key]
    simp

/-- **C37.** For a complex eigenvalue (not taken for a real one, and not smaller than the machine precision) the value computed in
real arithmetic is the norm of the complex residual. -/
theorem C37_pair (eps : ℝ) (trans : Bool) (A : Matrix n n ℝ) (B : Option (Matrix n n ℝ)) (kr ki : ℝ) (xr xi : n → ℝ)
    (h0 : ki ≠ 0) (h1 : |kr * eps| ≤ |ki|) (h2 : eps < absEig kr ki) :
    residNorm eps trans A B kr ki xr xi = norm2 (residual trans (cmat A) (cmat (bmat B)) ⟨kr, ki⟩ (cvec xr xi)) := by
  unfold residNorm
  rw [if_neg (not_or.2 ⟨h0, not_lt.2 h1⟩)]
  simp only [h2, if_true]
  rw [residual_cvec, norm2_cvec, bmult_eq, bmult_eq]

/-- The bounds hold for the eigenvalue 3+4i. -/
example : (4 : ℝ) ≠ 0 ∧ |3 * (1 / 2 ^ 52 : ℝ)| ≤ |4| ∧ (1 / 2 ^ 52 : ℝ) < absEig 3 4 := by
  refine ⟨by norm_num, by norm_num [abs_of_pos], ?_⟩
  unfold absEig
  apply Real.lt_sqrt_of_sq_lt
  norm_num

/-- **C37, real eigenvalues.** -/
theorem C37_real (eps : ℝ) (trans : Bool) (A : Matrix n n ℝ) (B : Option (Matrix n n ℝ)) (kr : ℝ) (xr : n → ℝ) (h2 : eps < |kr|) :
    residNorm eps trans A B kr 0 xr 0 = norm2 (residual trans (cmat A) (cmat (bmat B)) ⟨kr, 0⟩ (cvec xr 0)) := by
  unfold residNorm
  rw [if_pos (Or.inl rfl)]
  simp only [h2, if_true]
  rw [residual_cvec, norm2_cvec, bmult_eq]
  have z : ∀ M : Matrix n n ℝ, matmult trans M 0 = 0 := by
    intro M; unfold matmult; cases trans <;> simp
  have n0 : norm2 (0 : n → ℝ) = 0 := by unfold norm2; simp
  have e1 : (if trans then (-0 : ℝ) else 0) = 0 := by cases trans <;> simp
  have e2 : (if trans then (0 : ℝ) else -0) = 0 := by cases trans <;> simp
  rw [e1, e2]
  simp only [z, zero_smul, smul_zero, add_zero, n0]
  unfold absEig
  rw [zero_pow two_ne_zero, add_zero, Real.sqrt_sq]
  exact norm_nonneg _

theorem norm2_sub (u v : n → ℂ) : |norm2 u - norm2 v| ≤ norm2 (u - v) := by
  unfold norm2
  exact abs_norm_sub_norm_le _ _

theorem norm2_smul (a : ℂ) (u : n → ℂ) : norm2 (a • u) = ‖a‖ * norm2 u := by
  unfold norm2
  rw [WithLp.toLp_smul, norm_smul]

/-- **C37, tiny eigenvalues.** When the modulus does not exceed the machine precision the second term is skipped; the error is at
most the machine precision times the norm of B x. -/
theorem C37_tiny_partial (eps : ℝ) (trans : Bool) (A : Matrix n n ℝ) (B : Option (Matrix n n ℝ)) (kr ki : ℝ) (xr xi : n → ℝ)
    (h0 : ki ≠ 0) (h1 : |kr * eps| ≤ |ki|) (h2 : absEig kr ki ≤ eps) :
    |residNorm eps trans A B kr ki xr xi - norm2 (residual trans (cmat A) (cmat (bmat B)) ⟨kr, ki⟩ (cvec xr xi))|
      ≤ eps * norm2 (if trans then (cmat (bmat B)).conjTranspose.mulVec (cvec xr xi) else (cmat (bmat B)).mulVec (cvec xr xi)) := by
  have nl : ‖(⟨kr, ki⟩ : ℂ)‖ = absEig kr ki := by
    unfold absEig
    rw [← Real.sqrt_sq (norm_nonneg _), ← Complex.normSq_eq_norm_sq]
    congr 1
    simp [Complex.normSq_mk]
    ring
  have nn : 0 ≤ norm2 (if trans then (cmat (bmat B)).conjTranspose.mulVec (cvec xr xi) else (cmat (bmat B)).mulVec (cvec xr xi)) := norm_nonneg _
  unfold residNorm
  rw [if_neg (not_or.2 ⟨h0, not_lt.2 h1⟩)]
  simp only [not_lt.2 h2, if_false]
  rw [← norm2_cvec]
  refine (norm2_sub _ _).trans ?_
  unfold residual matmult
  cases trans with
  | false =>
    simp only [Bool.false_eq_true, if_false] at *
    rw [← mulVec_cvec, sub_sub_cancel, norm2_smul, nl]
    exact mul_le_mul_of_nonneg_right h2 nn
  | true =>
    simp only [if_true] at *
    rw [← mulVec_cvec, ← cmat_ct, sub_sub_cancel, norm2_smul, norm_star, nl]
    exact mul_le_mul_of_nonneg_right h2 nn

/-- **C37, complex arithmetic.** -/
theorem C37_complex (eps : ℝ) (trans : Bool) (A : Matrix n n ℂ) (B : Option (Matrix n n ℂ)) (k : ℂ) (x : n → ℂ) (h : eps < ‖k‖) :
    residNormC eps trans A B k x = norm2 (residual trans A (B.getD 1) k x) := by
  unfold residNormC residual
  simp only [h, if_true]
  congr 1
  cases trans <;> cases B <;> simp [matmult, bmult, sub_eq_add_neg]

/-- **C37 fails for an eigenvalue with a tiny imaginary part**: the imaginary part of the vector is ignored, the computed residual
can be zero while the complex one is not. -/
theorem C37_false : ¬ ∀ (eps : ℝ) (A : Matrix (Fin 1) (Fin 1) ℝ) (kr ki : ℝ) (xr xi : Fin 1 → ℝ), 0 < eps → eps < absEig kr ki →
    residNorm eps false A none kr ki xr xi = norm2 (residual false (cmat A) (cmat 1) ⟨kr, ki⟩ (cvec xr xi)) := by
  intro h
  have hs : (1 / 2 : ℝ) < absEig 1 (1 / 4) := by
    unfold absEig
    apply Real.lt_sqrt_of_sq_lt
    norm_num
  have := h (1 / 2) !![2] 1 (1 / 4) (fun _ => 0) (fun _ => 1) (by norm_num) hs
  have l : residNorm (1 / 2) false !![2] none 1 (1 / 4) (fun _ => 0) (fun _ => 1) = 0 := by
    unfold residNorm
    rw [if_pos (Or.inr (by norm_num [abs_of_pos]))]
    have e : matmult false (!![2] : Matrix (Fin 1) (Fin 1) ℝ) (fun _ => 0) = 0 := by
      unfold matmult; funext j; simp [Matrix.mulVec, dotProduct]
    have e2 : bmult false (none : Option (Matrix (Fin 1) (Fin 1) ℝ)) (fun _ => 0) = 0 := rfl
    simp only [e, e2]
    unfold norm2
    simp
  rw [l, residual_cvec, norm2_cvec] at this
  unfold absEig at this
  have pos : 0 < norm2 (matmult false (!![2] : Matrix (Fin 1) (Fin 1) ℝ) (fun _ => 1) + (-1 : ℝ) • matmult false 1 (fun _ => 1)
      + (if false then (1 / 4 : ℝ) else -(1 / 4)) • matmult false 1 (fun _ => 0)) := by
    unfold norm2
    rw [norm_pos_iff]
    intro h0
    have := congrArg (fun v : EuclideanSpace ℝ (Fin 1) => v 0) h0
    simp [matmult, Matrix.mulVec, dotProduct] at this
    norm_num at this
  have := (Real.sqrt_pos.2 (add_pos_of_nonneg_of_pos (sq_nonneg (norm2 (matmult false (!![2] : Matrix (Fin 1) (Fin 1) ℝ) (fun _ => 0)
    + (-1 : ℝ) • matmult false 1 (fun _ => 0) + (if false then -(1 / 4 : ℝ) else 1 / 4) • matmult false 1 (fun _ => 1)))) (pow_pos pos 2)))
  simp only [Bool.false_eq_true, if_false] at *
  linarith

end Verif.EPS
