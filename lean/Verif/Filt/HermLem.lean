import Verif.Filt.NewtonLem
import Verif.Filt.Kern

/-! # Lemmas on the base function -/

set_option linter.all false

namespace Verif.Filt

open Polynomial Finset

theorem deriv_zero {P : ℝ[X]} {a f : ℝ} {d : ℕ} (h : (X - C a) ^ (d + 1) ∣ P - C f) :
    P.eval a = f ∧ ∀ k, 1 ≤ k → k ≤ d → (derivative^[k] P).eval a = 0 := by
  refine ⟨?_, fun k h1 h2 => ?_⟩
  · have h1 : (X - C a) ∣ P - C f := (dvd_pow_self _ (by omega)).trans h
    have := dvd_iff_isRoot.mp h1
    rw [IsRoot, eval_sub, eval_C] at this
    linarith
  · have h3 := pow_sub_dvd_iterate_derivative_of_pow_dvd k h
    have h4 : (X - C a) ∣ derivative^[k] (P - C f) := (dvd_pow_self _ (by omega)).trans h3
    have h5 := dvd_iff_isRoot.mp h4
    obtain ⟨k, rfl⟩ : ∃ k', k = k' + 1 := ⟨k - 1, by omega⟩
    rw [Function.iterate_succ_apply, derivative_sub, derivative_C, sub_zero, ← Function.iterate_succ_apply] at h5
    exact h5

theorem herm_deriv {P : ℝ[X]} {a b f0 f2 : ℝ} {d : ℕ} (hab : a ≠ b) (hd : P.natDegree ≤ 2 * d + 1)
    (h0 : (X - C a) ^ (d + 1) ∣ P - C f0) (h2 : (X - C b) ^ (d + 1) ∣ P - C f2) :
    ∃ κ : ℝ, derivative P = C κ * ((X - C a) ^ d * (X - C b) ^ d) := by
  have e : ∀ f, derivative (P - C f) = derivative P := fun f => by simp
  have d0 := pow_sub_dvd_iterate_derivative_of_pow_dvd 1 h0
  have d2 := pow_sub_dvd_iterate_derivative_of_pow_dvd 1 h2
  rw [Function.iterate_one, e, Nat.add_sub_cancel] at d0 d2
  have hc : IsCoprime ((X - C a) ^ d) ((X - C b) ^ d) := (isCoprime_X_sub_C_of_isUnit_sub (by
    rw [isUnit_iff_ne_zero]; exact sub_ne_zero.mpr hab)).pow
  obtain ⟨q, hq⟩ := hc.mul_dvd d0 d2
  by_cases hz : derivative P = 0
  · exact ⟨0, by rw [hz]; simp⟩
  have hq0 : q ≠ 0 := by rintro rfl; exact hz (by rw [hq, mul_zero])
  have hdeg : (derivative P).natDegree ≤ 2 * d := (natDegree_derivative_le P).trans (by omega)
  have hm : ((X - C a) ^ d * (X - C b) ^ d : ℝ[X]).natDegree = 2 * d := by
    rw [natDegree_mul (pow_ne_zero _ (X_sub_C_ne_zero _)) (pow_ne_zero _ (X_sub_C_ne_zero _)), natDegree_pow, natDegree_pow,
      natDegree_X_sub_C, natDegree_X_sub_C]; ring
  rw [hq, natDegree_mul (mul_ne_zero (pow_ne_zero _ (X_sub_C_ne_zero _)) (pow_ne_zero _ (X_sub_C_ne_zero _))) hq0, hm] at hdeg
  have : q.natDegree = 0 := by omega
  obtain ⟨κ, hκ⟩ := natDegree_eq_zero.mp this
  exact ⟨κ, by rw [hq, ← hκ]; ring⟩

theorem herm_range {P : ℝ[X]} {a b f0 f2 : ℝ} {d : ℕ} (hab : a < b) (hd : P.natDegree ≤ 2 * d + 1)
    (h0 : (X - C a) ^ (d + 1) ∣ P - C f0) (h2 : (X - C b) ^ (d + 1) ∣ P - C f2) (z : ℝ) (hz : a ≤ z) (hz2 : z ≤ b) :
    min f0 f2 ≤ P.eval z ∧ P.eval z ≤ max f0 f2 := by
  obtain ⟨κ, hκ⟩ := herm_deriv hab.ne hd h0 h2
  have ea := (deriv_zero h0).1
  have eb := (deriv_zero h2).1
  have hcont : ContinuousOn (fun z => P.eval z) (Set.Icc a b) := P.continuous.continuousOn
  have hder : ∀ t, deriv (fun z => P.eval z) t = κ * (-1) ^ d * ((t - a) * (b - t)) ^ d := by
    intro t
    rw [Polynomial.deriv, hκ]
    simp only [eval_mul, eval_C, eval_pow, eval_sub, eval_X]
    rw [mul_assoc, ← mul_pow, ← mul_pow]; congr 2; ring
  have hsgn : ∀ t ∈ interior (Set.Icc a b), 0 ≤ ((t - a) * (b - t)) ^ d := by
    intro t ht
    rw [interior_Icc] at ht
    exact pow_nonneg (mul_nonneg (by linarith [ht.1]) (by linarith [ht.2])) _
  have ma : a ∈ Set.Icc a b := ⟨le_rfl, hab.le⟩
  have mb : b ∈ Set.Icc a b := ⟨hab.le, le_rfl⟩
  have mz : z ∈ Set.Icc a b := ⟨hz, hz2⟩
  have hdiff : DifferentiableOn ℝ (fun z => P.eval z) (interior (Set.Icc a b)) := P.differentiable.differentiableOn
  rcases le_total 0 (κ * (-1) ^ d) with hk | hk
  · have hm : MonotoneOn (fun z => P.eval z) (Set.Icc a b) :=
      monotoneOn_of_deriv_nonneg (convex_Icc a b) hcont hdiff fun t ht => by rw [hder]; exact mul_nonneg hk (hsgn t ht)
    have m1 := hm ma mz hz
    have m2 := hm mz mb hz2
    dsimp only at m1 m2
    rw [ea] at m1; rw [eb] at m2
    exact ⟨(min_le_left _ _).trans m1, m2.trans (le_max_right _ _)⟩
  · have hm : AntitoneOn (fun z => P.eval z) (Set.Icc a b) :=
      antitoneOn_of_deriv_nonpos (convex_Icc a b) hcont hdiff fun t ht => by rw [hder]; exact mul_nonpos_of_nonpos_of_nonneg hk (hsgn t ht)
    have m1 := hm ma mz hz
    have m2 := hm mz mb hz2
    dsimp only at m1 m2
    rw [ea] at m1; rw [eb] at m2
    exact ⟨(min_le_right _ _).trans m2, m1.trans (le_max_left _ _)⟩

/-! ## The arrays -/

/-- Coefficients written for interval `j`. -/
noncomputable def hval (intv : Arr) (flags : ℕ → ℤ) (baseDeg : ℕ) (junk : Arr) (j i : ℕ) : ℝ :=
  (hermiteStep intv flags baseDeg junk j ⟨junk, 0⟩).bf i

theorem hermiteStep_eq (intv : Arr) (flags : ℕ → ℤ) (baseDeg : ℕ) (junk : Arr) (j : ℕ) (s : HState) :
    (hermiteStep intv flags baseDeg junk j s).pos = s.pos + (2 * baseDeg + 2) ∧
    ∀ k, (hermiteStep intv flags baseDeg junk j s).bf k = if s.pos ≤ k ∧ k < s.pos + (2 * baseDeg + 2) then
      hval intv flags baseDeg junk j (k - s.pos) else s.bf k := by
  simp only [hval, hermiteStep]
  by_cases h : (flags j : ℝ) = -1
  · rw [if_pos h, if_pos h]
    refine ⟨rfl, fun k => ?_⟩
    dsimp only
    rw [loop_set, loop_set]
    by_cases hk : s.pos ≤ k ∧ k < s.pos + (2 * baseDeg + 2)
    · rw [if_pos hk, if_pos hk, if_pos (by omega)]; simp
    · rw [if_neg hk, if_neg hk]
  · rw [if_neg h, if_neg h]
    refine ⟨by dsimp only; omega, fun k => ?_⟩
    dsimp only
    rw [loop_set, loop_set]
    by_cases hk : s.pos ≤ k ∧ k < s.pos + (2 * baseDeg + 2)
    · rw [if_pos hk]
      by_cases hk2 : k = s.pos
      · rw [if_neg (by omega), if_neg (by omega), hk2, wr_same, Nat.sub_self, wr_same]
      · rw [if_pos (by omega), if_pos (by omega)]
    · rw [if_neg hk, if_neg (by omega), wr_ne _ _ (by omega)]

theorem hermite_eq (bf0 intv : Arr) (np : ℕ) (flags : ℕ → ℤ) (d : ℕ) (junk : Arr) (j i : ℕ) (hj : j < np - 1) (hi : i < 2 * d + 2) :
    hermite bf0 intv np flags d junk (j * (2 * d + 2) + i) = hval intv flags d junk j i := by
  have key : ∀ n, (loop n (hermiteStep intv flags d junk) ⟨bf0, 0⟩).pos = n * (2 * d + 2) ∧
      ∀ j < n, ∀ i < 2 * d + 2, (loop n (hermiteStep intv flags d junk) ⟨bf0, 0⟩).bf (j * (2 * d + 2) + i) = hval intv flags d junk j i := by
    intro n
    induction n with
    | zero => exact ⟨by simp [loop], fun j hj => by omega⟩
    | succ n ih =>
      obtain ⟨i1, i2⟩ := ih
      obtain ⟨s1, s2⟩ := hermiteStep_eq intv flags d junk n (loop n (hermiteStep intv flags d junk) ⟨bf0, 0⟩)
      rw [i1] at s1 s2
      refine ⟨?_, fun j hj i hi => ?_⟩
      · rw [loop, s1]; ring
      · rw [loop, s2]
        by_cases h : j = n
        · subst h; rw [if_pos (by omega)]; congr 1; omega
        · have : (j + 1) * (2 * d + 2) ≤ n * (2 * d + 2) := Nat.mul_le_mul_right _ (by omega)
          rw [if_neg (by rw [add_mul, one_mul] at this; omega)]
          exact i2 j (by omega) i hi
  exact (key (np - 1)).2 j hj i hi

theorem hermite_ser (bf0 intv : Arr) (np : ℕ) (flags : ℕ → ℤ) (d : ℕ) (junk : Arr) (j : ℕ) (hj : j < np - 1) :
    ser (hermite bf0 intv np flags d junk) (j * (2 * d + 2)) (2 * d + 2) = ser (hval intv flags d junk j) 0 (2 * d + 2) := by
  rw [ser, ser]
  exact sum_congr rfl fun i hi => by rw [hermite_eq _ _ _ _ _ _ _ _ hj (mem_range.mp hi), zero_add]

theorem flat_ser (intv : Arr) (flags : ℕ → ℤ) (d : ℕ) (junk : Arr) (j : ℕ) (h : flags j ≠ -1) :
    ser (hval intv flags d junk j) 0 (2 * d + 2) = C (flags j : ℝ) := by
  have h' : ¬ (flags j : ℝ) = -1 := by exact_mod_cast h
  have e : ∀ i < 2 * d + 2, hval intv flags d junk j i = if i = 0 then (flags j : ℝ) else 0 := by
    intro i hi
    rw [hval, hermiteStep]
    dsimp only
    rw [if_neg h']
    show loop _ (fun i w => wr w (0 + 1 + i) 0) _ i = _
    rw [loop_set]
    by_cases h0 : i = 0
    · subst h0; rw [if_neg (by omega), if_pos rfl, wr_same]
    · rw [if_pos (by omega), if_neg h0]
  rw [ser_ext (n := 1) (by omega) (fun i h1 h2 => by rw [zero_add, e i h2, if_neg (by omega)]), ser_succ, ser_zero, zero_add, zero_add,
    e 0 (by omega), if_pos rfl]
  simp

theorem trans_ser (intv : Arr) (flags : ℕ → ℤ) (d : ℕ) (junk : Arr) (j : ℕ) (h : flags j = -1) (hab : intv j ≠ intv (j + 1)) :
    ∃ P : ℝ[X], P.natDegree ≤ 2 * d + 1 ∧ (X - C (intv j)) ^ (d + 1) ∣ P - C (1 - (flags (j + 1) : ℝ)) ∧
      (X - C (intv (j + 1))) ^ (d + 1) ∣ P - C (flags (j + 1) : ℝ) ∧
      ser (hval intv flags d junk j) 0 (2 * d + 2) = P.comp (C ((intv j + intv (j + 1)) / 2) + C ((intv (j + 1) - intv j) / 2) * X) := by
  have h' : (flags j : ℝ) = -1 := by rw [h]; norm_num
  obtain ⟨f, hf⟩ : ∃ f : ℝ, f = flags (j + 1) := ⟨_, rfl⟩
  obtain ⟨aa, haa⟩ : ∃ aa, aa = intv j := ⟨_, rfl⟩
  obtain ⟨bb, hbb⟩ : ∃ bb, bb = intv (j + 1) := ⟨_, rfl⟩
  obtain ⟨y, hy⟩ : ∃ y : Arr, y = loop (d + 1) (fun i w => wr w (d + 1 + i) f) (loop (d + 1) (fun i w => wr w i (1 - f)) junk) := ⟨_, rfl⟩
  obtain ⟨x, hx⟩ : ∃ x : Arr, x = loop (d + 1) (fun i w => wr w (d + 1 + i) bb) (loop (d + 1) (fun i w => wr w i aa) junk) := ⟨_, rfl⟩
  have e : ser (hval intv flags d junk j) 0 (2 * d + 2) =
      ser (expand (2 * d + 2) aa bb (newton (2 * d + 2) x y junk junk) x junk junk) 0 (2 * d + 2) := by
    refine ser_congr fun i hi => ?_
    rw [hval, hermiteStep]
    dsimp only
    rw [if_pos h']
    show loop _ (fun i w => wr w (0 + i) _) _ (0 + i) = _
    rw [loop_set, if_pos (by omega), hx, hy, haa, hbb, hf, zero_add, Nat.sub_zero]
  have hxl : ∀ l < 2 * d + 2, x l = if l < d + 1 then aa else bb := by
    intro l hl
    rw [hx, loop_set, loop_set0]
    by_cases h : l < d + 1
    · rw [if_neg (by omega), if_pos h, if_pos h]
    · rw [if_pos (by omega), if_neg h]
  have hyl : ∀ l < 2 * d + 2, y l = if l < d + 1 then 1 - f else f := by
    intro l hl
    rw [hy, loop_set, loop_set0]
    by_cases h : l < d + 1
    · rw [if_neg (by omega), if_pos h, if_pos h]
    · rw [if_pos (by omega), if_neg h]
  have hne : aa ≠ bb := by rw [haa, hbb]; exact hab
  have hg : Grp (2 * d + 2) x y := by
    intro i k hik hk he l h1 h2
    rw [hxl k hk, hxl i (by omega)] at he
    rw [hxl l (by omega), hxl i (by omega), hyl l (by omega), hyl i (by omega)]
    by_cases hi : i < d + 1
    · by_cases hkd : k < d + 1
      · rw [if_pos hi, if_pos (show l < d + 1 by omega), if_pos hi, if_pos (show l < d + 1 by omega)]
        exact ⟨rfl, rfl⟩
      · rw [if_pos hi, if_neg hkd] at he; exact absurd he.symm hne
    · rw [if_neg hi, if_neg (show ¬ l < d + 1 by omega), if_neg hi, if_neg (show ¬ l < d + 1 by omega)]
      exact ⟨rfl, rfl⟩
  refine ⟨nw x y (2 * d + 1) (2 * d + 1), nw_deg _ _ _ _, ?_, ?_, ?_⟩
  · have := nw_left (2 * d + 2) x y hg (d + 1) (by omega) (by omega) aa (fun l hl => by rw [hxl l (by omega), if_pos hl]) (d + 1) (by omega)
    rw [show d + 1 - 1 + (d + 1) = 2 * d + 1 by omega, hyl (d + 1 - 1) (by omega), if_pos (by omega)] at this
    rw [← haa, ← hf]; exact this
  · have := nw_right (2 * d + 2) x y hg (d + 1) (by omega) (2 * d + 1) rfl (by omega) bb
      (fun l h1 h2 => by rw [hxl l (by omega), if_neg (by omega)]) (d + 1) (by omega)
    rw [show d + 1 - 1 + (d + 1) = 2 * d + 1 by omega, hyl (2 * d + 1) (by omega), if_neg (by omega)] at this
    rw [← hbb, ← hf]; exact this
  · rw [e, expand_ser _ (by omega), horner_nw _ (by omega) _ _ y (fun k hk => newton_eq _ (by omega) _ _ _ _ _ hk), haa, hbb]
    rfl

end Verif.Filt
