import Verif.Filt.HermLem

/-! # Theorem C129 -/

set_option linter.all false

namespace Verif.Filt

open Polynomial Finset

/-- Pattern of flat (0 or 1) and transition (-1) intervals: each transition interval lies between
two flat ones with different flags, adjacent flat intervals have the same flag, and transition
intervals have positive length. -/
structure Pattern (np : ℕ) (intv : Arr) (flags : ℕ → ℤ) : Prop where
  val : ∀ j < np - 1, flags j = -1 ∨ flags j = 0 ∨ flags j = 1
  trans : ∀ j < np - 1, flags j = -1 → intv j < intv (j + 1) ∧ j + 1 < np - 1 ∧ flags (j + 1) ≠ -1
  other : ∀ j, j + 1 < np - 1 → flags (j + 1) = -1 → flags j ≠ -1 ∧ flags j + flags (j + 2) = 1
  same : ∀ j, j + 1 < np - 1 → flags j ≠ -1 → flags (j + 1) ≠ -1 → flags j = flags (j + 1)

/-- **C129** `P j` is the polynomial of the base function on interval `j`. -/
theorem C129 (bf0 intv : Arr) (np : ℕ) (flags : ℕ → ℤ) (d : ℕ) (junk : Arr) (hp : Pattern np intv flags) (P : ℕ → ℝ[X])
    (hP : ∀ j, P j = piece (hermite bf0 intv np flags d junk) (j * (2 * d + 2)) (2 * d + 2) (intv j) (intv (j + 1))) :
    (∀ j < np - 1, flags j ≠ -1 → ∀ z, (P j).eval z = flags j) ∧
    (∀ j < np - 1, ∀ z, intv j ≤ z → z ≤ intv (j + 1) → 0 ≤ (P j).eval z ∧ (P j).eval z ≤ 1) ∧
    (∀ j, j + 1 < np - 1 → (P j).eval (intv (j + 1)) = (P (j + 1)).eval (intv (j + 1)) ∧
      ∀ k, 1 ≤ k → k ≤ d → (derivative^[k] (P j)).eval (intv (j + 1)) = 0 ∧ (derivative^[k] (P (j + 1))).eval (intv (j + 1)) = 0) := by
  have flat : ∀ j < np - 1, flags j ≠ -1 → P j = C (flags j : ℝ) := by
    intro j hj h
    rw [hP, piece, hermite_ser _ _ _ _ _ _ _ hj, flat_ser _ _ _ _ _ h, C_comp]
  have tr : ∀ j < np - 1, flags j = -1 → (P j).natDegree ≤ 2 * d + 1 ∧ (X - C (intv j)) ^ (d + 1) ∣ P j - C (1 - (flags (j + 1) : ℝ)) ∧
      (X - C (intv (j + 1))) ^ (d + 1) ∣ P j - C (flags (j + 1) : ℝ) := by
    intro j hj h
    have hlt := (hp.trans j hj h).1
    obtain ⟨Q, h1, h2, h3, h4⟩ := trans_ser intv flags d junk j h hlt.ne
    have : P j = Q := by
      rw [hP, piece, hermite_ser _ _ _ _ _ _ _ hj, h4, comp_assoc]
      have h2 : intv (j + 1) - intv j ≠ 0 := sub_ne_zero.mpr hlt.ne'
      have : (C ((intv j + intv (j + 1)) / 2) + C ((intv (j + 1) - intv j) / 2) * X).comp
          (C (2 / (intv (j + 1) - intv j)) * (X - C ((intv j + intv (j + 1)) / 2))) = X := by
        simp only [add_comp, C_comp, mul_comp, X_comp]
        rw [← mul_assoc, ← C_mul, show (intv (j + 1) - intv j) / 2 * (2 / (intv (j + 1) - intv j)) = 1 by field_simp]
        simp
      rw [this, comp_X]
    rw [this]; exact ⟨h1, h2, h3⟩
  have dC : ∀ (c : ℝ) k, 1 ≤ k → derivative^[k] (C c) = 0 := by
    intro c k hk
    obtain ⟨k, rfl⟩ : ∃ k', k = k' + 1 := ⟨k - 1, by omega⟩
    rw [Function.iterate_succ_apply, derivative_C]; simp
  refine ⟨fun j hj h z => by rw [flat j hj h, eval_C], fun j hj z hz hz2 => ?_, fun j hj => ?_⟩
  · by_cases h : flags j = -1
    · obtain ⟨t1, t2, t3⟩ := tr j hj h
      obtain ⟨p1, p2, p3⟩ := hp.trans j hj h
      have := herm_range p1 t1 t2 t3 z hz hz2
      have hv : (flags (j + 1) : ℝ) = 0 ∨ (flags (j + 1) : ℝ) = 1 := by
        rcases hp.val (j + 1) p2 with h | h | h
        · exact absurd h p3
        · exact Or.inl (by rw [h]; norm_num)
        · exact Or.inr (by rw [h]; norm_num)
      rcases hv with hv | hv <;> rw [hv] at this <;> norm_num at this <;> exact this
    · rw [flat j hj h, eval_C]
      rcases hp.val j hj with h1 | h1 | h1
      · exact absurd h1 h
      · rw [h1]; norm_num
      · rw [h1]; norm_num
  · by_cases h : flags j = -1
    · obtain ⟨t1, t2, t3⟩ := tr j (by omega) h
      obtain ⟨p1, p2, p3⟩ := hp.trans j (by omega) h
      rw [flat (j + 1) hj p3]
      obtain ⟨e1, e2⟩ := deriv_zero t3
      refine ⟨by rw [e1, eval_C], fun k h1 h2 => ⟨e2 k h1 h2, by rw [dC _ k h1, eval_zero]⟩⟩
    · rw [flat j (by omega) h]
      by_cases h' : flags (j + 1) = -1
      · obtain ⟨t1, t2, t3⟩ := tr (j + 1) hj h'
        obtain ⟨e1, e2⟩ := deriv_zero t2
        have hs := (hp.other j hj h').2
        have hs' : (flags j : ℝ) + flags (j + 2) = 1 := by exact_mod_cast hs
        refine ⟨?_, fun k h1 h2 => ⟨by rw [dC _ k h1, eval_zero], e2 k h1 h2⟩⟩
        rw [e1, eval_C, show j + 1 + 1 = j + 2 from rfl]; linarith
      · rw [flat (j + 1) hj h', hp.same j hj h h']
        exact ⟨rfl, fun k h1 h2 => ⟨by rw [dC _ k h1, eval_zero], by rw [dC _ k h1, eval_zero]⟩⟩

/-- The pattern used for a filter in the middle of the range, on `[0,1,2,3,4,5]`. -/
example : Pattern 6 (fun j => (j : ℝ)) (fun j => if j = 0 ∨ j = 4 then 0 else if j = 2 then 1 else -1) where
  val j hj := by
    have : j = 0 ∨ j = 1 ∨ j = 2 ∨ j = 3 ∨ j = 4 := by omega
    rcases this with rfl | rfl | rfl | rfl | rfl <;> simp
  trans j hj h := by
    have : j = 0 ∨ j = 1 ∨ j = 2 ∨ j = 3 ∨ j = 4 := by omega
    rcases this with rfl | rfl | rfl | rfl | rfl <;> simp at h <;> norm_num
  other j hj h := by
    have : j = 0 ∨ j = 1 ∨ j = 2 ∨ j = 3 := by omega
    rcases this with rfl | rfl | rfl | rfl <;> simp at h <;> norm_num
  same j hj h h' := by
    have : j = 0 ∨ j = 1 ∨ j = 2 ∨ j = 3 := by omega
    rcases this with rfl | rfl | rfl | rfl <;> simp at h h'

/-- With base degree 0 the transition piece on `[1,2]` is linear, from 0 to 1: coefficients 1/2, 1/2. -/
example (bf0 junk : Arr) : hermite bf0 (fun j => (j : ℝ)) 6 (fun j => if j = 0 ∨ j = 4 then 0 else if j = 2 then 1 else -1) 0 junk 2 = 1 / 2 ∧
    hermite bf0 (fun j => (j : ℝ)) 6 (fun j => if j = 0 ∨ j = 4 then 0 else if j = 2 then 1 else -1) 0 junk 3 = 1 / 2 := by
  constructor <;> norm_num [hermite, loop, hermiteStep, newton, newtonOut, newtonIn, expand, expandStep, wr]

end Verif.Filt
