import Verif.RG.Model
import Verif.RG.Spec
import Mathlib.Tactic.Linarith
import Mathlib.Tactic.Positivity
import Mathlib.Tactic.FieldSimp
import Mathlib.Tactic.Ring
import Mathlib.Tactic.LinearCombination

/-! Helper lemmas on the angle computation of the ring, and on `PetscSign`. -/
set_option linter.all false

namespace Verif.RG
open Real

theorem psign_pos {r : ℝ} : psign r = 1 ↔ 0 < r := by
  unfold psign; by_cases h : 0 ≤ r
  · rw [if_pos h]; by_cases h0 : r = 0
    · simp [h0]
    · simp [h0]; exact lt_of_le_of_ne h (Ne.symm h0)
  · rw [if_neg h]; constructor
    · intro h'; norm_num at h'
    · intro h'; exact absurd h'.le h
theorem psign_zero {r : ℝ} : psign r = 0 ↔ r = 0 := by
  unfold psign; by_cases h : 0 ≤ r
  · rw [if_pos h]; by_cases h0 : r = 0 <;> simp [h0]
  · rw [if_neg h]; constructor
    · intro h'; norm_num at h'
    · intro h'; exact absurd h'.ge h
theorem psign_neg {r : ℝ} : psign r = -1 ↔ r < 0 := by
  unfold psign; by_cases h : 0 ≤ r
  · rw [if_pos h]; by_cases h0 : r = 0
    · simp [h0]
    · simp [h0]; exact h
  · rw [if_neg h]; simp; exact not_le.1 h

theorem psign_cases (r : ℝ) : (psign r = 1 ∧ 0 < r) ∨ (psign r = 0 ∧ r = 0) ∨ (psign r = -1 ∧ r < 0) := by
  rcases lt_trichotomy r 0 with h | h | h
  · exact .inr (.inr ⟨psign_neg.2 h, h⟩)
  · exact .inr (.inl ⟨psign_zero.2 h, h⟩)
  · exact .inl ⟨psign_pos.2 h, h⟩

/-- The angle of rgring.c:364-372 is the angle of the (vertically unscaled) offset. -/
theorem ringAngle_spec {v dx dy : ℝ} (hv : 0 < v) (h : ¬ (dx = 0 ∧ dy = 0)) :
    0 ≤ ringAngle v dx dy ∧ ringAngle v dx dy < 1 ∧
    dx = √(dx ^ 2 + (dy / v) ^ 2) * cos (2 * π * ringAngle v dx dy) ∧
    dy / v = √(dx ^ 2 + (dy / v) ^ 2) * sin (2 * π * ringAngle v dx dy) := by
  have hpi := pi_pos
  unfold ringAngle
  by_cases hx : dx = 0
  · rw [if_pos hx]
    have hy : dy ≠ 0 := fun h' => h ⟨hx, h'⟩
    rw [if_neg hy, hx]
    by_cases hyp : 0 < dy
    · rw [if_pos hyp]
      have e : 2 * π * 0.25 = π / 2 := by ring
      have hq : 0 < dy / v := div_pos hyp hv
      rw [e, cos_pi_div_two, sin_pi_div_two]
      refine ⟨by norm_num, by norm_num, by ring, ?_⟩
      rw [zero_pow two_ne_zero, zero_add, sqrt_sq hq.le]; ring
    · rw [if_neg hyp]
      have hyn : dy < 0 := lt_of_le_of_ne (not_lt.1 hyp) hy
      have e : 2 * π * 0.75 = π / 2 + π := by ring
      have hq : dy / v < 0 := div_neg_of_neg_of_pos hyn hv
      rw [e, cos_add_pi, sin_add_pi, cos_pi_div_two, sin_pi_div_two]
      refine ⟨by norm_num, by norm_num, by ring, ?_⟩
      rw [zero_pow two_ne_zero, zero_add, ← neg_sq, sqrt_sq (by linarith)]; ring
  · rw [if_neg hx]
    generalize hy' : dy / v = y
    have hdy : dy = v * y := by rw [← hy']; field_simp
    generalize ht : y / dx = t
    have hyt : y = t * dx := by rw [← ht]; field_simp
    have hs : 0 < √(1 + t ^ 2) := sqrt_pos.2 (by positivity)
    have hs2 : √(1 + t ^ 2) ^ 2 = 1 + t ^ 2 := sq_sqrt (by positivity)
    have hρ : √(dx ^ 2 + y ^ 2) = |dx| * √(1 + t ^ 2) := by
      rw [← sqrt_sq_eq_abs, ← sqrt_mul (by positivity)]
      congr 1; rw [hyt]; ring
    have hc := cos_arctan t
    have hsn := sin_arctan t
    have b1 := arctan_lt_pi_div_two t
    have b2 := neg_pi_div_two_lt_arctan t
    by_cases hxp : 0 < dx
    · rw [if_pos hxp, hρ, abs_of_pos hxp]
      by_cases hyp : 0 ≤ dy
      · rw [if_pos hyp]
        have ht0 : 0 ≤ t := by
          rw [← ht, ← hy']; exact div_nonneg (div_nonneg hyp hv.le) hxp.le
        have ha : 0 ≤ arctan t := arctan_nonneg.2 ht0
        have e : 2 * π * (arctan t / (2 * π)) = arctan t := by field_simp
        rw [e, hc, hsn]
        refine ⟨by positivity, ?_, ?_, ?_⟩
        · rw [div_lt_one (by positivity)]; linarith
        · field_simp
        · rw [hyt]; field_simp
      · rw [if_neg hyp]
        have ht0 : t < 0 := by
          rw [← ht, ← hy']; exact div_neg_of_neg_of_pos (div_neg_of_neg_of_pos (not_le.1 hyp) hv) hxp
        have ha : arctan t < 0 := arctan_lt_zero.2 ht0
        have e : 2 * π * (arctan t / (2 * π) + 1) = arctan t + 2 * π := by field_simp
        rw [e, cos_add_two_pi, sin_add_two_pi, hc, hsn]
        refine ⟨?_, ?_, ?_, ?_⟩
        · have : -1 ≤ arctan t / (2 * π) := by rw [le_div_iff₀ (by positivity)]; linarith
          linarith
        · have : arctan t / (2 * π) < 0 := div_neg_of_neg_of_pos ha (by positivity)
          linarith
        · field_simp
        · rw [hyt]; field_simp
    · rw [if_neg hxp, hρ]
      have hxn : dx < 0 := lt_of_le_of_ne (not_lt.1 hxp) hx
      rw [abs_of_neg hxn]
      have e : 2 * π * (arctan t / (2 * π) + 0.5) = arctan t + π := by field_simp; ring
      rw [e, cos_add_pi, sin_add_pi, hc, hsn]
      have q1 : arctan t / (2 * π) < 1 / 4 := by rw [div_lt_iff₀ (by positivity)]; linarith
      have q2 : -(1 / 4) < arctan t / (2 * π) := by rw [lt_div_iff₀ (by positivity)]; linarith
      refine ⟨by norm_num; linarith, by norm_num; linarith, ?_, ?_⟩
      · field_simp
      · rw [hyt]; field_simp

/-- Two pairs of polar coordinates of the same point. -/
theorem polar_unique {ρ ρ' a b : ℝ} (h : 0 < ρ) (h' : 0 < ρ')
    (hc : ρ * cos (2 * π * a) = ρ' * cos (2 * π * b))
    (hs : ρ * sin (2 * π * a) = ρ' * sin (2 * π * b)) : ρ = ρ' ∧ ∃ n : ℤ, a = b + n := by
  have hpi := pi_pos
  have e : ρ = ρ' := by
    have h1 := sin_sq_add_cos_sq (2 * π * a)
    have h2 := sin_sq_add_cos_sq (2 * π * b)
    have : ρ ^ 2 = ρ' ^ 2 := by
      calc ρ ^ 2 = (ρ * sin (2 * π * a)) ^ 2 + (ρ * cos (2 * π * a)) ^ 2 := by
              linear_combination (-ρ ^ 2) * h1
        _ = (ρ' * sin (2 * π * b)) ^ 2 + (ρ' * cos (2 * π * b)) ^ 2 := by rw [hc, hs]
        _ = ρ' ^ 2 := by linear_combination (ρ' ^ 2) * h2
    exact (pow_left_inj₀ h.le h'.le two_ne_zero).1 this
  refine ⟨e, ?_⟩
  subst e
  have hc' := mul_left_cancel₀ h.ne' hc
  have hs' := mul_left_cancel₀ h.ne' hs
  have h1 : cos (2 * π * a - 2 * π * b) = 1 := by
    rw [cos_sub, hc', hs']; have := sin_sq_add_cos_sq (2 * π * b); linear_combination this
  obtain ⟨n, hn⟩ := (cos_eq_one_iff _).1 h1
  refine ⟨n, ?_⟩
  have : (2 * π) * (a - b - n) = 0 := by linear_combination -hn
  rcases mul_eq_zero.1 this with h0 | h0
  · linarith
  · linarith

end Verif.RG
