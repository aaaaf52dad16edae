import Verif.SVD.CrossModel
import Verif.SVD.ErrorSpec
import Mathlib.Analysis.InnerProductSpace.PiL2
import Mathlib.LinearAlgebra.Matrix.ConjTranspose

set_option linter.all false

namespace Verif.SVD

open Matrix
open Verif.EPS (norm2)

variable {𝕜 : Type*} [RCLike 𝕜] {m n p : Type*} [Fintype m] [Fintype n] [Fintype p]

theorem norm2_sq (x : n → 𝕜) : (norm2 x) ^ 2 = ∑ i, ‖x i‖ ^ 2 := by
  unfold norm2
  rw [EuclideanSpace.norm_eq, Real.sq_sqrt (Finset.sum_nonneg fun _ _ => sq_nonneg _)]

theorem norm2_nonneg (x : n → 𝕜) : 0 ≤ norm2 x := norm_nonneg _

theorem dot_self (x : n → 𝕜) : star x ⬝ᵥ x = (((norm2 x) ^ 2 : ℝ) : 𝕜) := by
  rw [norm2_sq]
  push_cast
  unfold dotProduct
  refine Finset.sum_congr rfl fun i _ => ?_
  rw [Pi.star_apply, RCLike.star_def, RCLike.conj_mul]

theorem norm2_eq_zero (x : n → 𝕜) : norm2 x = 0 ↔ x = 0 := by
  unfold norm2
  rw [norm_eq_zero]
  constructor
  · intro h; exact (WithLp.toLp_injective 2) (by simpa using h)
  · rintro rfl; rfl

theorem norm2_smul' (a : 𝕜) (x : n → 𝕜) : norm2 (a • x) = ‖a‖ * norm2 x := by
  unfold norm2
  rw [WithLp.toLp_smul, norm_smul]

theorem norm2_real_smul (a : ℝ) (ha : 0 ≤ a) (x : n → 𝕜) : norm2 ((a : 𝕜) • x) = a * norm2 x := by
  rw [norm2_smul', RCLike.norm_ofReal, abs_of_nonneg ha]

theorem star_mulVec_dot' (C : Matrix m n 𝕜) (x : n → 𝕜) (y : m → 𝕜) : star (C.mulVec x) ⬝ᵥ y = star x ⬝ᵥ Cᴴ.mulVec y := by
  rw [Matrix.star_mulVec, ← Matrix.dotProduct_mulVec]

/-- Norm of a product from the cross product. -/
theorem norm2_mulVec_sq (C : Matrix m n 𝕜) (x : n → 𝕜) :
    (((norm2 (C.mulVec x)) ^ 2 : ℝ) : 𝕜) = star x ⬝ᵥ Cᴴ.mulVec (C.mulVec x) := by
  rw [← dot_self, star_mulVec_dot']

theorem norm2_vecNormalize (x : n → 𝕜) (h : x ≠ 0) : norm2 (vecNormalize x) = 1 := by
  have h0 : norm2 x ≠ 0 := fun e => h ((norm2_eq_zero x).mp e)
  unfold vecNormalize
  rw [if_neg h0, norm2_real_smul _ (inv_nonneg.mpr (norm2_nonneg x))]
  field_simp

theorem smul_vecNormalize (x : n → 𝕜) : (norm2 x : 𝕜) • vecNormalize x = x := by
  unfold vecNormalize
  by_cases h0 : norm2 x = 0
  · rw [if_pos h0, (norm2_eq_zero x).mp h0, smul_zero]
  · rw [if_neg h0, smul_smul]
    have : (norm2 x : 𝕜) ≠ 0 := by exact_mod_cast h0
    push_cast
    rw [mul_inv_cancel₀ this, one_smul]

theorem vecNormalize_eq (x : n → 𝕜) (h : norm2 x ≠ 0) : vecNormalize x = (((norm2 x)⁻¹ : ℝ) : 𝕜) • x := by
  unfold vecNormalize; rw [if_neg h]

/-- Signatures: real entries of square one. -/
def IsSignature (omega : n → 𝕜) : Prop := ∀ i, omega i = 1 ∨ omega i = -1

theorem IsSignature.sq {omega : n → 𝕜} (h : IsSignature omega) (i : n) : omega i * omega i = 1 := by
  rcases h i with e | e <;> rw [e] <;> norm_num

theorem IsSignature.star {omega : n → 𝕜} (h : IsSignature omega) (i : n) : star (omega i) = omega i := by
  rcases h i with e | e <;> rw [e] <;> simp

theorem omegaForm_swap {omega : n → 𝕜} (h : IsSignature omega) (x : n → 𝕜) :
    omegaForm omega x = star (fun i => omega i * x i) ⬝ᵥ x := by
  unfold omegaForm dotProduct
  refine Finset.sum_congr rfl fun i _ => ?_
  rw [Pi.star_apply, Pi.star_apply, star_mul', h.star]
  ring

theorem omegaForm_real {omega : n → 𝕜} (h : IsSignature omega) (x : n → 𝕜) :
    ((RCLike.re (omegaForm omega x) : ℝ) : 𝕜) = omegaForm omega x := by
  have : (starRingEnd 𝕜) (omegaForm omega x) = omegaForm omega x := by
    unfold omegaForm dotProduct
    rw [map_sum]
    refine Finset.sum_congr rfl fun i _ => ?_
    rw [Pi.star_apply, map_mul, map_mul, ← RCLike.star_def, star_star, h.star]
    show x i * (omega i * star (x i)) = star (x i) * (omega i * x i)
    ring
  exact RCLike.conj_eq_iff_re.mp this

theorem omegaForm_omega {omega : n → 𝕜} (h : IsSignature omega) (x : n → 𝕜) :
    omegaForm omega (fun i => omega i * x i) = omegaForm omega x := by
  unfold omegaForm dotProduct
  refine Finset.sum_congr rfl fun i _ => ?_
  rw [Pi.star_apply, Pi.star_apply, star_mul', h.star]
  show omega i * star (x i) * (omega i * (omega i * x i)) = star (x i) * (omega i * x i)
  linear_combination (star (x i) * omega i * x i) * h.sq i

theorem omegaForm_smul (omega : n → 𝕜) (a : ℝ) (x : n → 𝕜) : omegaForm omega ((a : 𝕜) • x) = ((a ^ 2 : ℝ) : 𝕜) * omegaForm omega x := by
  unfold omegaForm dotProduct
  rw [Finset.mul_sum]
  refine Finset.sum_congr rfl fun i _ => ?_
  simp only [Pi.star_apply, Pi.smul_apply, smul_eq_mul, star_mul', RCLike.star_def, RCLike.conj_ofReal]
  push_cast
  ring

theorem signedNorm_sq (omega x : n → 𝕜) : |signedNorm omega x| = Real.sqrt |RCLike.re (omegaForm omega x)| := by
  unfold signedNorm
  dsimp only
  split_ifs with h
  · rw [abs_neg, abs_of_nonneg (Real.sqrt_nonneg _), abs_of_neg h]
  · push Not at h
    rw [abs_of_nonneg (Real.sqrt_nonneg _), abs_of_nonneg h]

theorem sgn_signedNorm (omega x : n → 𝕜) : sgn (signedNorm omega x) = sgn (RCLike.re (omegaForm omega x)) := by
  unfold signedNorm sgn
  dsimp only
  by_cases h : RCLike.re (omegaForm omega x) < 0
  · rw [if_pos h]
    have : -Real.sqrt (-RCLike.re (omegaForm omega x)) < 0 := by
      have := Real.sqrt_pos.mpr (neg_pos.mpr h); linarith
    rw [if_pos this, if_pos h]
  · rw [if_neg h]
    push Not at h
    rw [if_neg (not_lt.mpr (Real.sqrt_nonneg _)), if_neg (not_lt.mpr h)]
    by_cases h0 : RCLike.re (omegaForm omega x) = 0
    · rw [h0]; simp
    · rw [if_neg h0, if_neg]
      intro e
      exact h0 (Real.sqrt_eq_zero h |>.mp e)

theorem sgn_mul_abs (x : ℝ) : sgn x * |x| = x := by
  unfold sgn
  split_ifs with h1 h2
  · rw [abs_of_neg h1]; ring
  · rw [h2]; simp
  · rw [abs_of_nonneg (not_lt.mp h1)]; ring

theorem sgn_sq (x : ℝ) (h : x ≠ 0) : sgn x * sgn x = 1 := by
  unfold sgn
  split_ifs <;> norm_num

theorem sgn_cases (x : ℝ) (h : x ≠ 0) : sgn x = 1 ∨ sgn x = -1 := by
  unfold sgn
  split_ifs <;> simp

theorem sgn_of_pos {x : ℝ} (h : 0 < x) : sgn x = 1 := by
  unfold sgn; rw [if_neg (not_lt.mpr h.le), if_neg h.ne']

theorem sgn_of_neg {x : ℝ} (h : x < 0) : sgn x = -1 := by
  unfold sgn; rw [if_pos h]

end Verif.SVD
