import Verif.Filt.ChebThm
import Mathlib.Analysis.Real.Pi.Bounds

/-! # Concrete cases for the Chebyshev filter: where C136 and C137 fail, and hypotheses -/

set_option linter.all false

namespace Verif.Filt

open Polynomial Finset

theorem arccos_half : Real.arccos (1 / 2) = Real.pi / 3 := by
  rw [← Real.cos_pi_div_three, Real.arccos_cos (by positivity) (by linarith [Real.pi_pos])]

theorem unit_id (z : ℝ) : toUnit (-1) 1 z = z := by rw [toUnit]; ring

theorem series_none (n : ℕ) (c : Arr) (a b x : ℝ) (ha : -1 ≤ a) (hab : a ≤ b) (hb : b ≤ 1) (hx : -1 ≤ x) (hx1 : x ≤ 1) :
    series (damp .none n) (indCoef a b) n x = raw (Real.arccos a) (Real.arccos b) 0 +
      ∑ k ∈ range n, raw (Real.arccos a) (Real.arccos b) (k + 1) * Real.cos (((k + 1 : ℕ) : ℝ) * Real.arccos x) := by
  rw [← series_raw (phi := 0) (damp .none n) ha hab hb n rfl x hx hx1]
  congr 1
  exact sum_congr rfl fun k _ => by rw [show damp .none n (k + 1) = 1 by simp [damp], one_mul]

/-- **C136 fails for odd degree**: degree 1, range `[-1,1]`, interval `[0,1/2]`, no damping. -/
theorem C136_odd_false (junk : Arr) :
    filtThreshold .none 0 (1 / 2) (-1) 1 1 junk ≠
      series (damp .none 1) (coefs (damp .none 1) 0 (1 / 2) (-1) 1 1 junk) 1 (toUnit (-1) 1 0) := by
  rw [filtThreshold, C136_degree_one _ _ _ _ _ (by norm_num)]
  obtain ⟨s, hs, hp⟩ := C137_partial (damp .none 1) 0 (1 / 2) (-1) 1 1 junk rfl (by norm_num) (by norm_num) (by norm_num) (by norm_num)
    0 (1 / 2) (unit_id 0).symm (unit_id _).symm
  have hpi := Real.pi_pos
  have e0 : raw (Real.arccos 0) (Real.arccos (1 / 2)) 0 = 1 / 6 := by
    rw [raw, if_pos rfl, Real.arccos_zero, arccos_half]; field_simp; norm_num
  have h3 : Real.sin (Real.pi / 3) < 1 := by
    rw [Real.sin_pi_div_three]
    have : √3 < 2 := by rw [Real.sqrt_lt' (by norm_num)]; norm_num
    linarith
  have e1 : 0 < raw (Real.arccos 0) (Real.arccos (1 / 2)) 1 := by
    rw [raw, if_neg (by omega), Real.arccos_zero, arccos_half]
    simp only [Nat.cast_one, one_mul, Real.sin_pi_div_two]
    exact div_pos (by linarith) hpi
  have t1 : series (damp .none 1) (indCoef 0 (1 / 2)) 1 0 ≠ 0 := by
    rw [series_none 1 (fun _ => 0) 0 (1 / 2) 0 (by norm_num) (by norm_num) (by norm_num) (by norm_num) (by norm_num), e0]
    simp [Real.arccos_zero]
  have t2 : series (damp .none 1) (indCoef 0 (1 / 2)) 1 (1 / 2) ≠ 0 := by
    rw [series_none 1 (fun _ => 0) 0 (1 / 2) (1 / 2) (by norm_num) (by norm_num) (by norm_num) (by norm_num) (by norm_num), e0]
    simp only [sum_range_one, zero_add, Nat.cast_one, one_mul]
    rw [arccos_half, Real.cos_pi_div_three, ← arccos_half]
    positivity
  have sp := (hp t1 t2).1
  have hd : damp .none 1 1 = 1 := by simp [damp]
  rw [hd, hs 1 le_rfl, ← raw_ind (by norm_num) (by norm_num) (by norm_num)]
  have := mul_pos sp e1
  rw [one_mul]
  intro h
  linarith

theorem left_values : series (damp .none 2) (indCoef (-1) 0) 2 (-1) = 1 / 2 + 2 / Real.pi ∧
    series (damp .none 2) (indCoef (-1) 0) 2 0 = 1 / 2 := by
  have hpi := Real.pi_pos
  have e0 : raw (Real.arccos (-1)) (Real.arccos 0) 0 = 1 / 2 := by
    rw [raw, if_pos rfl, Real.arccos_zero, Real.arccos_neg_one]; field_simp; norm_num
  have e1 : raw (Real.arccos (-1)) (Real.arccos 0) 1 = -2 / Real.pi := by
    rw [raw, if_neg (by omega), Real.arccos_zero, Real.arccos_neg_one]
    simp
  have e2 : raw (Real.arccos (-1)) (Real.arccos 0) 2 = 0 := by
    rw [raw, if_neg (by omega), Real.arccos_zero, Real.arccos_neg_one]
    push_cast
    rw [Real.sin_two_pi, show 2 * (Real.pi / 2) = Real.pi by ring, Real.sin_pi]; simp
  have t1 : series (damp .none 2) (indCoef (-1) 0) 2 (-1) = 1 / 2 + 2 / Real.pi := by
    rw [series_none 2 (fun _ => 0) (-1) 0 (-1) (by norm_num) (by norm_num) (by norm_num) (by norm_num) (by norm_num), e0]
    simp only [sum_range_succ, range_zero, sum_empty, zero_add, Nat.cast_one, one_mul, one_add_one_eq_two, e1, e2]
    rw [Real.arccos_neg_one, Real.cos_pi]; ring
  have t2 : series (damp .none 2) (indCoef (-1) 0) 2 0 = 1 / 2 := by
    rw [series_none 2 (fun _ => 0) (-1) 0 0 (by norm_num) (by norm_num) (by norm_num) (by norm_num) (by norm_num), e0]
    simp only [sum_range_succ, range_zero, sum_empty, zero_add, Nat.cast_one, one_mul, one_add_one_eq_two, e1, e2]
    rw [Real.arccos_zero, Real.cos_pi_div_two]; ring
  exact ⟨t1, t2⟩

/-- **C137 fails when the interval starts at the left end of the range**: degree 2, range `[-1,1]`,
interval `[-1,0]`, no damping.  The threshold is 1/2, the value of the filter at the end 0 of the
interval is smaller (so is the modulus). -/
theorem C137_left_false (junk : Arr) :
    filtThreshold .none (-1) 0 (-1) 1 2 junk = 1 / 2 ∧
    series (damp .none 2) (coefs (damp .none 2) (-1) 0 (-1) 1 2 junk) 2 (toUnit (-1) 1 0) < 1 / 2 ∧
    0 < series (damp .none 2) (coefs (damp .none 2) (-1) 0 (-1) 1 2 junk) 2 (toUnit (-1) 1 0) := by
  have hpi := Real.pi_pos
  obtain ⟨s, hs, hp⟩ := C137_partial (damp .none 2) (-1) 0 (-1) 1 2 junk rfl (by norm_num) (by norm_num) (by norm_num) (by norm_num)
    (-1) 0 (unit_id _).symm (unit_id _).symm
  obtain ⟨t1, t2⟩ := left_values
  have hq : 0 < 2 / Real.pi := by positivity
  obtain ⟨sp, -, hl⟩ := hp (by rw [t1]; linarith) (by rw [t2]; norm_num)
  have hl := hl rfl
  rw [series_smul _ _ _ s 2 hs, t1, abs_of_pos (by positivity)] at hl
  rw [filtThreshold, C136_partial _ _ _ _ _ _ (by norm_num) (by norm_num), unit_id, unit_id, series_smul _ _ _ s 2 hs,
    series_smul _ _ _ s 2 hs, t1, t2]
  refine ⟨hl, ?_, by linarith⟩
  have := mul_pos sp hq
  linarith

/-- The hypotheses of `C137_partial` about the values at the ends are met by the interval `[-1,0]`. -/
example : series (damp .none 2) (indCoef (-1) 0) 2 (-1) ≠ 0 ∧ series (damp .none 2) (indCoef (-1) 0) 2 0 ≠ 0 := by
  have hpi := Real.pi_pos
  have hq : 0 < 2 / Real.pi := by positivity
  have e := left_values
  rw [e.1, e.2]
  exact ⟨by linarith, by norm_num⟩

/-- The filter of degree 2 applied to a number (a matrix of order 1). -/
example : chebMult (LinearMap.id : ℝ →ₗ[ℝ] ℝ) (fun _ => 1) (fun k => (k : ℝ) + 1) (-3) 3 2 (fun _ => 7) 9 =
    9 * (1 + 2 * (1 / 3) + 3 * (2 * (1 / 3) ^ 2 - 1)) := by
  norm_num [chebMult, loop, cIter, Function.update]

end Verif.Filt
