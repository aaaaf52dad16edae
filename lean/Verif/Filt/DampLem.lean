import Verif.Filt.ChebLem
import Mathlib.Analysis.SpecialFunctions.Trigonometric.Chebyshev.Orthogonality
import Mathlib.Analysis.SpecialFunctions.Trigonometric.Deriv
import Mathlib.Analysis.Calculus.Deriv.MeanValue
import Mathlib.Analysis.SpecialFunctions.Integrals.Basic

/-! # Lemmas on damping coefficients and on the series coefficients -/

set_option linter.all false

namespace Verif.Filt

open Polynomial Finset

/-! ## Autocorrelations -/

/-- Autocorrelation. -/
noncomputable def ac (a : Arr) (n k : ℕ) : ℝ := ∑ j ∈ range (n + 1 - k), a j * a (j + k)

theorem ac_succ (a : Arr) (n k : ℕ) (h : k ≤ n + 1) : ac a (n + 1) k = ac a n k + a (n + 1 - k) * a (n + 1) := by
  rw [ac, ac, show n + 1 + 1 - k = n + 1 - k + 1 by omega, sum_range_succ, show n + 1 - k + k = n + 1 by omega]

theorem ac_kernel (a : Arr) (n : ℕ) (x : ℝ) :
    ac a n 0 + 2 * ∑ k ∈ range n, ac a n (k + 1) * Real.cos (((k : ℝ) + 1) * x) =
      (∑ j ∈ range (n + 1), a j * Real.cos (j * x)) ^ 2 + (∑ j ∈ range (n + 1), a j * Real.sin (j * x)) ^ 2 := by
  induction n with
  | zero => simp [ac]; ring
  | succ n ih =>
    rw [sum_range_succ (fun j : ℕ => a j * Real.cos (j * x)), sum_range_succ (fun j : ℕ => a j * Real.sin (j * x))]
    have e1 : ∑ k ∈ range (n + 1), ac a (n + 1) (k + 1) * Real.cos (((k : ℝ) + 1) * x) =
        ∑ k ∈ range n, ac a n (k + 1) * Real.cos (((k : ℝ) + 1) * x) +
        a (n + 1) * ∑ k ∈ range (n + 1), a (n - k) * Real.cos (((k : ℝ) + 1) * x) := by
      have h0 : ac a n (n + 1) = 0 := by simp [ac]
      have : ∑ k ∈ range n, ac a n (k + 1) * Real.cos (((k : ℝ) + 1) * x) =
          ∑ k ∈ range (n + 1), ac a n (k + 1) * Real.cos (((k : ℝ) + 1) * x) := by
        rw [sum_range_succ, h0]; ring
      rw [this, mul_sum, ← sum_add_distrib]
      refine sum_congr rfl fun k hk => ?_
      have := mem_range.mp hk
      rw [ac_succ a n (k + 1) (by omega), show n + 1 - (k + 1) = n - k by omega]; ring
    have e2 : ∑ k ∈ range (n + 1), a (n - k) * Real.cos (((k : ℝ) + 1) * x) =
        ∑ j ∈ range (n + 1), a j * (Real.cos (j * x) * Real.cos (((n + 1 : ℕ) : ℝ) * x) + Real.sin (j * x) * Real.sin (((n + 1 : ℕ) : ℝ) * x)) := by
      rw [← sum_range_reflect (fun j : ℕ => a j * (Real.cos (j * x) * Real.cos (((n + 1 : ℕ) : ℝ) * x) + Real.sin (j * x) * Real.sin (((n + 1 : ℕ) : ℝ) * x)))]
      refine sum_congr rfl fun k hk => ?_
      have hk := mem_range.mp hk
      rw [show n + 1 - 1 - k = n - k by omega, add_comm (Real.cos _ * _), add_comm (Real.sin _ * _), ← Real.cos_sub]
      congr 1
      rw [← Real.cos_neg]
      congr 1
      rw [Nat.cast_sub (by omega)]
      push_cast; ring
    have e3 : ∑ j ∈ range (n + 1), a j * (Real.cos (j * x) * Real.cos (((n + 1 : ℕ) : ℝ) * x) + Real.sin (j * x) * Real.sin (((n + 1 : ℕ) : ℝ) * x)) =
        (∑ j ∈ range (n + 1), a j * Real.cos (j * x)) * Real.cos (((n + 1 : ℕ) : ℝ) * x) +
        (∑ j ∈ range (n + 1), a j * Real.sin (j * x)) * Real.sin (((n + 1 : ℕ) : ℝ) * x) := by
      rw [sum_mul, sum_mul, ← sum_add_distrib]
      exact sum_congr rfl fun j _ => by ring
    rw [e1, e2, e3, ac_succ a n 0 (by omega), show n + 1 - 0 = n + 1 from rfl]
    have hsc := Real.sin_sq_add_cos_sq (((n + 1 : ℕ) : ℝ) * x)
    linear_combination ih - a (n + 1) ^ 2 * hsc

theorem ac_le (a : Arr) (n k : ℕ) : ac a n k ≤ ac a n 0 := by
  by_cases hk : k ≤ n + 1
  · have h1 : ∑ j ∈ range (n + 1 - k), a j * a j ≤ ac a n 0 := by
      rw [ac]
      refine sum_le_sum_of_subset_of_nonneg (fun i hi => ?_) fun i _ _ => mul_self_nonneg _
      simp only [mem_range] at hi ⊢; omega
    have h2 : ∑ j ∈ range (n + 1 - k), a (j + k) * a (j + k) ≤ ac a n 0 := by
      have : ac a n 0 = ∑ j ∈ range k, a j * a j + ∑ j ∈ range (n + 1 - k), a (j + k) * a (j + k) := by
        rw [ac]
        have := sum_range_add (fun j => a j * a j) k (n + 1 - k)
        rw [show k + (n + 1 - k) = n + 1 by omega] at this
        simp only [add_zero, Nat.sub_zero]
        rw [this]
        congr 1
        exact sum_congr rfl fun j _ => by rw [add_comm k j]
      rw [this]
      have : 0 ≤ ∑ j ∈ range k, a j * a j := sum_nonneg fun i _ => mul_self_nonneg _
      linarith
    have h3 : ac a n k ≤ ∑ j ∈ range (n + 1 - k), (a j * a j + a (j + k) * a (j + k)) / 2 :=
      sum_le_sum fun j _ => by nlinarith [sq_nonneg (a j - a (j + k))]
    rw [← sum_div, sum_add_distrib] at h3
    linarith
  · rw [ac, show n + 1 - k = 0 by omega, ac]
    exact sum_nonneg fun i _ => mul_self_nonneg _

/-! ## The dampings with a nonnegative kernel -/

/-- The damping coefficients are a normalised autocorrelation. -/
structure Auto (n : ℕ) (d : Arr) (a : Arr) : Prop where
  nonneg : ∀ j ≤ n, 0 ≤ a j
  pos : 0 < ac a n 0
  eq : ∀ k ≤ n, d k = ac a n k / ac a n 0

theorem Auto.rng {n : ℕ} {d a : Arr} (h : Auto n d a) (k : ℕ) (hk : k ≤ n) : 0 ≤ d k ∧ d k ≤ 1 := by
  rw [h.eq k hk]
  refine ⟨div_nonneg (sum_nonneg fun j hj => ?_) h.pos.le, (div_le_one h.pos).mpr (ac_le a n k)⟩
  have := mem_range.mp hj
  exact mul_nonneg (h.nonneg _ (by omega)) (h.nonneg _ (by omega))

theorem Auto.kernel {n : ℕ} {d a : Arr} (h : Auto n d a) (x : ℝ) :
    0 ≤ 1 + 2 * ∑ k ∈ range n, d (k + 1) * Real.cos (((k : ℝ) + 1) * x) := by
  have e : 1 + 2 * ∑ k ∈ range n, d (k + 1) * Real.cos (((k : ℝ) + 1) * x) =
      (ac a n 0 + 2 * ∑ k ∈ range n, ac a n (k + 1) * Real.cos (((k : ℝ) + 1) * x)) / ac a n 0 := by
    have : ∑ k ∈ range n, d (k + 1) * Real.cos (((k : ℝ) + 1) * x) =
        (∑ k ∈ range n, ac a n (k + 1) * Real.cos (((k : ℝ) + 1) * x)) / ac a n 0 := by
      rw [sum_div]
      refine sum_congr rfl fun k hk => ?_
      rw [h.eq (k + 1) (by have := mem_range.mp hk; omega)]; ring
    rw [this, add_div, div_self h.pos.ne', mul_div_assoc]
  rw [e, ac_kernel]
  have := h.pos
  positivity

theorem fejer_auto (n : ℕ) : Auto n (damp .fejer n) (fun _ => 1) := by
  have e : ∀ k ≤ n, ac (fun _ => 1) n k = (n : ℝ) + 1 - k := by
    intro k hk
    rw [ac]
    simp only [mul_one, sum_const, card_range, nsmul_eq_mul]
    rw [Nat.cast_sub (by omega)]; push_cast; ring
  have h0 := e 0 (by omega)
  refine ⟨fun _ _ => zero_le_one, by rw [h0, Nat.cast_zero, sub_zero]; positivity, fun k hk => ?_⟩
  have : (n : ℝ) + 1 ≠ 0 := by positivity
  rw [e k hk, h0, damp]
  by_cases hk0 : k = 0
  · subst hk0; simp [div_self this]
  · rw [if_neg hk0]
    push_cast
    field_simp
    ring

theorem tele (h : ℝ) (k M : ℕ) :
    Real.sin h * ∑ j ∈ range M, 2 * Real.cos ((2 * (j : ℝ) + k + 2) * h) =
      Real.sin ((2 * (M : ℝ) + k + 1) * h) - Real.sin (((k : ℝ) + 1) * h) := by
  induction M with
  | zero => simp
  | succ M ih =>
    rw [sum_range_succ, mul_add, ih]
    have e1 : (2 * ((M + 1 : ℕ) : ℝ) + k + 1) * h = (2 * (M : ℝ) + k + 2) * h + h := by push_cast; ring
    have e2 : (2 * (M : ℝ) + k + 1) * h = (2 * (M : ℝ) + k + 2) * h - h := by ring
    rw [e1, e2, Real.sin_add, Real.sin_sub]; ring

theorem jackson_ac (n k : ℕ) (hk : k ≤ n) :
    ac (fun j => Real.sin (((j : ℝ) + 1) * (Real.pi / (n + 2)))) n k =
      (((n : ℝ) + 2 - k) * Real.cos (k * (Real.pi / (n + 2))) +
        Real.sin (k * (Real.pi / (n + 2))) / Real.tan (Real.pi / (n + 2))) / 2 := by
  obtain ⟨h, hh⟩ : ∃ h, h = Real.pi / ((n : ℝ) + 2) := ⟨_, rfl⟩
  rw [← hh]
  have hn : (0 : ℝ) < (n : ℝ) + 2 := by positivity
  have hpos : 0 < h := by rw [hh]; exact div_pos Real.pi_pos hn
  have hlt : h < Real.pi := by
    rw [hh, div_lt_iff₀ hn]; nlinarith [Real.pi_pos, (Nat.cast_nonneg n : (0 : ℝ) ≤ n)]
  have hs : 0 < Real.sin h := Real.sin_pos_of_pos_of_lt_pi hpos hlt
  have hN : ((n : ℝ) + 2) * h = Real.pi := by rw [hh]; field_simp
  have ht := tele h k (n + 1 - k)
  have e1 : (2 * ((n + 1 - k : ℕ) : ℝ) + k + 1) * h = 2 * Real.pi - ((k : ℝ) + 1) * h := by
    rw [Nat.cast_sub (by omega), ← hN]; push_cast; ring
  rw [e1, Real.sin_two_pi_sub] at ht
  have e2 : ac (fun j => Real.sin (((j : ℝ) + 1) * h)) n k =
      ((n : ℝ) + 1 - k) * Real.cos (k * h) / 2 - (∑ j ∈ range (n + 1 - k), 2 * Real.cos ((2 * (j : ℝ) + k + 2) * h)) / 4 := by
    have : ((n : ℝ) + 1 - k) * Real.cos (k * h) / 2 = ∑ j ∈ range (n + 1 - k), Real.cos (k * h) / 2 := by
      rw [sum_const, card_range, nsmul_eq_mul, Nat.cast_sub (by omega)]; push_cast; ring
    rw [this, sum_div, ← sum_sub_distrib, ac]
    refine sum_congr rfl fun j _ => ?_
    have a1 : (k : ℝ) * h = ((j : ℝ) + k + 1) * h - ((j : ℝ) + 1) * h := by ring
    have a2 : (2 * (j : ℝ) + k + 2) * h = ((j : ℝ) + k + 1) * h + ((j : ℝ) + 1) * h := by ring
    rw [a1, a2, Real.cos_sub, Real.cos_add]
    push_cast
    ring
  have e3 : ∑ j ∈ range (n + 1 - k), 2 * Real.cos ((2 * (j : ℝ) + k + 2) * h) = -2 * Real.sin (((k : ℝ) + 1) * h) / Real.sin h := by
    rw [eq_div_iff hs.ne', mul_comm, ht]; ring
  have e4 : Real.sin (((k : ℝ) + 1) * h) = Real.sin (k * h) * Real.cos h + Real.cos (k * h) * Real.sin h := by
    rw [← Real.sin_add]; congr 1; ring
  rw [e2, e3, e4, Real.tan_eq_sin_div_cos, div_div_eq_mul_div]
  field_simp
  ring

theorem jackson_auto (n : ℕ) : Auto n (damp .jackson n) (fun j => Real.sin (((j : ℝ) + 1) * (Real.pi / (n + 2)))) := by
  have hn : (0 : ℝ) < (n : ℝ) + 2 := by positivity
  have h0 := jackson_ac n 0 (by omega)
  simp only [Nat.cast_zero, zero_mul, Real.cos_zero, Real.sin_zero, zero_div, sub_zero, mul_one, add_zero] at h0
  refine ⟨fun j hj => ?_, by rw [h0]; positivity, fun k hk => ?_⟩
  · refine Real.sin_nonneg_of_nonneg_of_le_pi (by have := Real.pi_pos; positivity) ?_
    rw [← mul_div_assoc, div_le_iff₀ hn, mul_comm]
    have : (j : ℝ) ≤ n := by exact_mod_cast hj
    nlinarith [Real.pi_pos]
  · rw [jackson_ac n k hk, h0, damp]
    by_cases hk0 : k = 0
    · subst hk0; simp; field_simp
    · rw [if_neg hk0]
      dsimp only
      rw [show Real.pi * (k : ℝ) * (1 / ((n : ℝ) + 2)) = k * (Real.pi / (n + 2)) by ring,
        show Real.pi * (1 / ((n : ℝ) + 2)) = Real.pi / (n + 2) by ring]
      field_simp

theorem lanczos_range (n k : ℕ) (hk : k ≤ n) : 0 ≤ damp .lanczos n k ∧ damp .lanczos n k ≤ 1 := by
  rw [damp]
  by_cases h0 : k = 0
  · rw [if_pos h0]; exact ⟨zero_le_one, le_rfl⟩
  · rw [if_neg h0]
    refine ⟨sq_nonneg _, ?_⟩
    have hk1 : (0 : ℝ) < k := by exact_mod_cast Nat.pos_of_ne_zero h0
    have hx : (0 : ℝ) < k * Real.pi / (n + 1) := by have := Real.pi_pos; positivity
    rw [sq_le_one_iff_abs_le_one, abs_div, abs_of_pos hx, div_le_one hx, abs_le]
    exact abs_le.mp (Real.abs_sin_le_abs.trans (abs_of_pos hx).le)

/-! ## Coefficients -/

/-- The coefficients before scaling. -/
noncomputable def raw (ta tb : ℝ) (k : ℕ) : ℝ :=
  if k = 0 then (ta - tb) / Real.pi else 2 * (Real.sin (k * ta) - Real.sin (k * tb)) / (k * Real.pi)

theorem coefLoop_eq (d : Arr) (ta tb : ℝ) (n : ℕ) (junk : Arr) :
    (∀ k, (coefLoop d ta tb n junk).1 k = if k ≤ n then raw ta tb k else junk k) ∧
    (coefLoop d ta tb n junk).2.1 = raw ta tb 0 + ∑ k ∈ range n, d (k + 1) * raw ta tb (k + 1) * Real.cos (((k + 1 : ℕ) : ℝ) * ta) ∧
    (coefLoop d ta tb n junk).2.2 = raw ta tb 0 + ∑ k ∈ range n, d (k + 1) * raw ta tb (k + 1) * Real.cos (((k + 1 : ℕ) : ℝ) * tb) := by
  induction n with
  | zero =>
    refine ⟨fun k => ?_, by simp [coefLoop, loop, raw], by simp [coefLoop, loop, raw]⟩
    show wr junk 0 _ k = _
    by_cases hk : k = 0
    · subst hk; simp [wr, raw]
    · simp [wr, hk]
  | succ n ih =>
    obtain ⟨h1, h2, h3⟩ := ih
    have hr : 2 * (Real.sin (((n : ℝ) + 1) * ta) - Real.sin (((n : ℝ) + 1) * tb)) / (((n : ℝ) + 1) * Real.pi) = raw ta tb (n + 1) := by
      rw [raw, if_neg (by omega)]; push_cast; rfl
    refine ⟨fun k => ?_, ?_, ?_⟩
    · show wr (coefLoop d ta tb n junk).1 (n + 1) (2 * (Real.sin (((n : ℝ) + 1) * ta) - Real.sin (((n : ℝ) + 1) * tb)) / (((n : ℝ) + 1) * Real.pi)) k = _
      rw [hr, wr]
      by_cases hk : k = n + 1
      · rw [if_pos hk, if_pos (by omega), hk]
      · rw [if_neg hk, h1]
        by_cases hk2 : k ≤ n
        · rw [if_pos hk2, if_pos (by omega)]
        · rw [if_neg hk2, if_neg (by omega)]
    · show (coefLoop d ta tb n junk).2.1 + d (n + 1) * wr _ (n + 1) (2 * (Real.sin (((n : ℝ) + 1) * ta) - Real.sin (((n : ℝ) + 1) * tb)) / (((n : ℝ) + 1) * Real.pi)) (n + 1) * Real.cos (((n : ℝ) + 1) * ta) = _
      rw [wr_same, hr, h2, sum_range_succ]; push_cast; ring
    · show (coefLoop d ta tb n junk).2.2 + d (n + 1) * wr _ (n + 1) (2 * (Real.sin (((n : ℝ) + 1) * ta) - Real.sin (((n : ℝ) + 1) * tb)) / (((n : ℝ) + 1) * Real.pi)) (n + 1) * Real.cos (((n : ℝ) + 1) * tb) = _
      rw [wr_same, hr, h3, sum_range_succ]; push_cast; ring

theorem scale_loop (s : ℝ) (f : Arr) (n k : ℕ) :
    loop n (fun i co => wr co i (s * co i)) f k = if k < n then s * f k else f k := by
  induction n generalizing k with
  | zero => simp [loop]
  | succ n ih =>
    rw [loop, wr]
    by_cases hk : k = n
    · subst hk; rw [if_pos rfl, ih, if_neg (by omega), if_pos (by omega)]
    · rw [if_neg hk, ih]
      by_cases h2 : k < n
      · rw [if_pos h2, if_pos (by omega)]
      · rw [if_neg h2, if_neg (by omega)]

/-- Value at `cos phi` of the series before scaling. -/
theorem raw_value (d : Arr) (ta tb phi : ℝ) (n : ℕ) (h0 : d 0 = 1) :
    (ser (fun k => d k * raw ta tb k) 0 (n + 1)).eval (Real.cos phi) =
      raw ta tb 0 + ∑ k ∈ range n, d (k + 1) * raw ta tb (k + 1) * Real.cos (((k + 1 : ℕ) : ℝ) * phi) := by
  rw [ser, eval_finset_sum, sum_range_succ']
  simp only [zero_add, eval_mul, eval_C, Chebyshev.T_real_cos]
  rw [h0]
  simp only [Nat.cast_zero, Int.cast_zero, zero_mul, Real.cos_zero, mul_one, one_mul]
  rw [add_comm]
  congr 1

theorem raw_value_range (d a : Arr) (n : ℕ) (h : Auto n d a) (ta tb phi : ℝ) (h0 : 0 ≤ tb) (h1 : tb ≤ ta) (h2 : ta ≤ Real.pi) :
    0 ≤ raw ta tb 0 + ∑ k ∈ range n, d (k + 1) * raw ta tb (k + 1) * Real.cos (((k + 1 : ℕ) : ℝ) * phi) ∧
    raw ta tb 0 + ∑ k ∈ range n, d (k + 1) * raw ta tb (k + 1) * Real.cos (((k + 1 : ℕ) : ℝ) * phi) ≤ 1 := by
  obtain ⟨F, hF⟩ : ∃ F : ℝ → ℝ, F = fun t => t + ∑ k ∈ range n, 2 * d (k + 1) * Real.cos (((k + 1 : ℕ) : ℝ) * phi) / ((k + 1 : ℕ) : ℝ) * Real.sin (((k + 1 : ℕ) : ℝ) * t) := ⟨_, rfl⟩
  have hval : raw ta tb 0 + ∑ k ∈ range n, d (k + 1) * raw ta tb (k + 1) * Real.cos (((k + 1 : ℕ) : ℝ) * phi) = (F ta - F tb) / Real.pi := by
    rw [hF]
    dsimp only
    rw [add_sub_add_comm, ← sum_sub_distrib, add_div, sum_div, raw, if_pos rfl]
    congr 1
    refine sum_congr rfl fun k _ => ?_
    rw [raw, if_neg (by omega)]
    have : ((k + 1 : ℕ) : ℝ) ≠ 0 := by positivity
    have := Real.pi_ne_zero
    field_simp
  have hder : ∀ t, HasDerivAt F (1 + ∑ k ∈ range n, 2 * d (k + 1) * Real.cos (((k + 1 : ℕ) : ℝ) * phi) * Real.cos (((k + 1 : ℕ) : ℝ) * t)) t := by
    intro t
    rw [hF]
    refine (hasDerivAt_id t).add (HasDerivAt.fun_sum fun k _ => ?_)
    have hk : ((k + 1 : ℕ) : ℝ) ≠ 0 := by positivity
    have := (((hasDerivAt_id t).const_mul (((k + 1 : ℕ) : ℝ))).sin).const_mul (2 * d (k + 1) * Real.cos (((k + 1 : ℕ) : ℝ) * phi) / ((k + 1 : ℕ) : ℝ))
    refine this.congr_deriv ?_
    simp only [id, mul_one]
    field_simp
  have hmono : Monotone F := by
    refine monotone_of_deriv_nonneg (fun t => (hder t).differentiableAt) fun t => ?_
    rw [(hder t).deriv]
    have k1 := h.kernel (t - phi)
    have k2 := h.kernel (t + phi)
    have : ∑ k ∈ range n, 2 * d (k + 1) * Real.cos (((k + 1 : ℕ) : ℝ) * phi) * Real.cos (((k + 1 : ℕ) : ℝ) * t) =
        ∑ k ∈ range n, d (k + 1) * Real.cos (((k : ℝ) + 1) * (t - phi)) + ∑ k ∈ range n, d (k + 1) * Real.cos (((k : ℝ) + 1) * (t + phi)) := by
      rw [← sum_add_distrib]
      refine sum_congr rfl fun k _ => ?_
      rw [mul_sub, mul_add, Real.cos_sub, Real.cos_add]
      push_cast; ring
    rw [this]; linarith
  have hF0 : F 0 = 0 := by rw [hF]; simp
  have hFp : F Real.pi = Real.pi := by
    rw [hF]
    dsimp only
    rw [sum_eq_zero, add_zero]
    intro k _
    rw [Real.sin_nat_mul_pi, mul_zero]
  rw [hval]
  have a1 := hmono h1
  have a2 := hmono h0
  have a3 := hmono h2
  rw [hF0] at a2
  rw [hFp] at a3
  exact ⟨div_nonneg (by linarith) Real.pi_pos.le, (div_le_one Real.pi_pos).mpr (by linarith)⟩

/-- The coefficient is the integral of the product with the indicator function. -/
theorem raw_integral (sa sb : ℝ) (k : ℕ) (ha : -1 ≤ sa) (hab : sa ≤ sb) (hb : sb ≤ 1) :
    raw (Real.arccos sa) (Real.arccos sb) k = (if k = 0 then 1 else 2) / Real.pi *
      ∫ x, (if sa ≤ x ∧ x ≤ sb then (Chebyshev.T ℝ (k : ℤ)).eval x else 0) ∂Chebyshev.measureT := by
  rw [Chebyshev.integral_measureT_eq_integral_cos]
  have h0 : 0 ≤ Real.arccos sb := Real.arccos_nonneg _
  have h1 : Real.arccos sb ≤ Real.arccos sa := Real.arccos_le_arccos hab
  have h2 : Real.arccos sa ≤ Real.pi := Real.arccos_le_pi _
  have e : (∫ θ in (0 : ℝ)..Real.pi, (if sa ≤ Real.cos θ ∧ Real.cos θ ≤ sb then (Chebyshev.T ℝ (k : ℤ)).eval (Real.cos θ) else 0)) =
      ∫ θ in Real.arccos sb..Real.arccos sa, Real.cos (k * θ) := by
    rw [intervalIntegral.integral_of_le Real.pi_pos.le, intervalIntegral.integral_of_le h1,
      ← MeasureTheory.integral_Icc_eq_integral_Ioc, ← MeasureTheory.integral_Icc_eq_integral_Ioc]
    have : Set.Icc (Real.arccos sb) (Real.arccos sa) = Set.Icc 0 Real.pi ∩ Set.Icc (Real.arccos sb) (Real.arccos sa) := by
      rw [Set.inter_eq_right.mpr]; exact Set.Icc_subset_Icc h0 h2
    rw [this, ← MeasureTheory.setIntegral_indicator measurableSet_Icc]
    refine MeasureTheory.setIntegral_congr_fun measurableSet_Icc fun θ hθ => ?_
    have hc : (sa ≤ Real.cos θ ∧ Real.cos θ ≤ sb) ↔ θ ∈ Set.Icc (Real.arccos sb) (Real.arccos sa) := by
      rw [Set.mem_Icc]
      have c1 : sa ≤ Real.cos θ ↔ θ ≤ Real.arccos sa := by
        conv_lhs => rw [← Real.cos_arccos ha (by linarith)]
        exact Real.strictAntiOn_cos.le_iff_ge ⟨Real.arccos_nonneg _, h2⟩ hθ
      have c2 : Real.cos θ ≤ sb ↔ Real.arccos sb ≤ θ := by
        conv_lhs => rw [← Real.cos_arccos (by linarith) hb]
        exact Real.strictAntiOn_cos.le_iff_ge hθ ⟨h0, Real.arccos_le_pi _⟩
      rw [c1, c2]; exact and_comm
    by_cases h : θ ∈ Set.Icc (Real.arccos sb) (Real.arccos sa)
    · rw [if_pos (hc.mpr h), Set.indicator_of_mem h, Chebyshev.T_real_cos]; norm_cast
    · rw [if_neg (fun h' => h (hc.mp h')), Set.indicator_of_notMem h]
  rw [e, raw]
  by_cases hk : k = 0
  · subst hk; simp; ring
  · rw [if_neg hk, if_neg hk]
    have hk' : (k : ℝ) ≠ 0 := by exact_mod_cast hk
    rw [intervalIntegral.integral_comp_mul_left (fun x => Real.cos x) hk', integral_cos]
    have := Real.pi_ne_zero
    simp only [smul_eq_mul]
    field_simp

end Verif.Filt
