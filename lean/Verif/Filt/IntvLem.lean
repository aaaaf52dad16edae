import Verif.Filt.IntvModel
import Verif.Filt.IntvSpec

/-! # Lemmas on the choice of the intervals -/

set_option linter.all false

namespace Verif.Filt

open Classical

theorem bis_mem (g : ℝ → ℝ) : ∀ (n : ℕ) (c1 c2 f : ℝ), c1 < c2 → c1 < bis g n c1 c2 f ∧ bis g n c1 c2 f < c2 := by
  intro n
  induction n with
  | zero => intro c1 c2 f h; rw [bis]; constructor <;> linarith
  | succ n ih =>
    intro c1 c2 f h
    rw [bis]
    by_cases h1 : n = 0 ∨ |g ((c1 + c2) / 2)| ≤ 1 / 10000
    · rw [if_pos h1]; constructor <;> linarith
    rw [if_neg h1]
    by_cases h2 : g ((c1 + c2) / 2) * f < 0
    · rw [if_pos h2]
      have := ih ((c1 + c2) / 2) c2 f (by linarith)
      constructor <;> linarith [this.1, this.2]
    · rw [if_neg h2]
      have := ih c1 ((c1 + c2) / 2) (g ((c1 + c2) / 2)) (by linarith)
      constructor <;> linarith [this.1, this.2]

theorem minScan_spec (y : ℕ → ℝ) (ins : ℕ → Prop) (hmono : ∀ i j, i ≤ j → ins j → ins i) : ∀ (n k : ℕ) (lo hi : ℝ),
    (minScan y ins n k lo hi).1 ≤ lo ∧
    ((minScan y ins n k lo hi).1 = lo ∨ ∃ j, k < j ∧ ins j ∧ (minScan y ins n k lo hi).1 = y j) ∧
    ∀ j, k < j → j ≤ k + n → ins j → (minScan y ins n k lo hi).1 ≤ y j := by
  intro n
  induction n with
  | zero => intro k lo hi; rw [minScan]; exact ⟨le_rfl, Or.inl rfl, fun j h1 h2 _ => by omega⟩
  | succ n ih =>
    intro k lo hi
    rw [minScan]
    by_cases h1 : ins (k + 1)
    · rw [if_pos h1]
      obtain ⟨a1, a2, a3⟩ := ih (k + 1) (if y (k + 1) < lo then y (k + 1) else lo) (if y (k + 1) > hi then y (k + 1) else hi)
      have e1 : (if y (k + 1) < lo then y (k + 1) else lo) ≤ lo := by
        by_cases h : y (k + 1) < lo
        · rw [if_pos h]; exact h.le
        · rw [if_neg h]
      have e2 : (if y (k + 1) < lo then y (k + 1) else lo) ≤ y (k + 1) := by
        by_cases h : y (k + 1) < lo
        · rw [if_pos h]
        · rw [if_neg h]; exact not_lt.1 h
      refine ⟨a1.trans e1, ?_, fun j hj1 hj2 hj3 => ?_⟩
      · rcases a2 with a2 | ⟨j, hj1, hj2, hj3⟩
        · by_cases h : y (k + 1) < lo
          · exact Or.inr ⟨k + 1, by omega, h1, by rw [a2, if_pos h]⟩
          · exact Or.inl (by rw [a2, if_neg h])
        · exact Or.inr ⟨j, by omega, hj2, hj3⟩
      · by_cases h : j = k + 1
        · subst h; exact a1.trans e2
        · exact a3 j (by omega) (by omega) hj3
    · rw [if_neg h1]
      exact ⟨le_rfl, Or.inl rfl, fun j hj1 hj2 hj3 => absurd (hmono _ _ (by omega) hj3) h1⟩

theorem phase1_spec (y : ℕ → ℝ) (ins : ℕ → Prop) (hmono : ∀ i j, i ≤ j → ins j → ins i) : ∀ (n k : ℕ), 1 ≤ n → ¬ ins (k + n) →
    k < (phase1 y ins n k (y k)).1 ∧ (phase1 y ins n k (y k)).2 = y ((phase1 y ins n k (y k)).1 - 1) ∧
    (∀ j, k < j → j < (phase1 y ins n k (y k)).1 → y j ≤ y (j - 1)) ∧
    (ins (phase1 y ins n k (y k)).1 → y ((phase1 y ins n k (y k)).1 - 1) < y (phase1 y ins n k (y k)).1) := by
  intro n
  induction n with
  | zero => intro k h; omega
  | succ n ih =>
    intro k _ hout
    rw [phase1]
    by_cases h1 : ins (k + 1)
    · rw [if_pos h1]
      have hn : 1 ≤ n := by
        by_contra hc
        have : n = 0 := by omega
        subst this
        exact hout h1
      have hout' : ¬ ins (k + 1 + n) := by rwa [show k + 1 + n = k + (n + 1) by omega]
      have hrec : ∀ v, v = y (k + 1) → y (k + 1) ≤ y k → k < (phase1 y ins n (k + 1) v).1 ∧ (phase1 y ins n (k + 1) v).2 = y ((phase1 y ins n (k + 1) v).1 - 1) ∧
          (∀ j, k < j → j < (phase1 y ins n (k + 1) v).1 → y j ≤ y (j - 1)) ∧
          (ins (phase1 y ins n (k + 1) v).1 → y ((phase1 y ins n (k + 1) v).1 - 1) < y (phase1 y ins n (k + 1) v).1) := by
        intro v hv hle
        subst hv
        obtain ⟨b1, b2, b3, b4⟩ := ih (k + 1) hn hout'
        refine ⟨by omega, b2, fun j hj1 hj2 => ?_, b4⟩
        by_cases h : j = k + 1
        · subst h; exact hle
        · exact b3 j (by omega) hj2
      by_cases h2 : y (k + 1) < y k
      · rw [if_pos h2]; exact hrec _ rfl h2.le
      · rw [if_neg h2]
        by_cases h3 : y (k + 1) > y k
        · rw [if_pos h3]
          exact ⟨by simp, by simp, fun j hj1 hj2 => by simp only at hj2; omega, fun _ => by simpa using h3⟩
        · rw [if_neg h3]
          exact hrec (y k) (le_antisymm (not_lt.1 h2) (not_lt.1 h3)) (not_lt.1 h3)
    · rw [if_neg h1]
      exact ⟨by simp, by simp, fun j hj1 hj2 => by simp only at hj2; omega, fun h => absurd h h1⟩

theorem phase2_spec (y : ℕ → ℝ) (ins : ℕ → Prop) (lim : ℝ) (hmono : ∀ i j, i ≤ j → ins j → ins i) : ∀ (n k : ℕ) (top bot : ℝ),
    (phase2 y ins lim n k top bot).1 = false → ∀ j, k < j → j ≤ k + n → ins j → y j ≤ max top lim := by
  intro n
  induction n with
  | zero => intro k top bot _ j h1 h2; omega
  | succ n ih =>
    intro k top bot hf j hj1 hj2 hj3
    have h1 : ins (k + 1) := hmono _ _ (by omega) hj3
    rw [phase2, if_pos h1] at hf
    by_cases h2 : y (k + 1) > top
    · rw [if_pos h2] at hf
      by_cases h3 : y (k + 1) > lim
      · rw [if_pos h3] at hf; cases hf
      · rw [if_neg h3] at hf
        have h3' := not_lt.1 h3
        by_cases h : j = k + 1
        · subst h; exact h3'.trans (le_max_right _ _)
        · have := ih _ _ _ hf j (by omega) (by omega) hj3
          rw [max_eq_right h3'] at this
          exact this.trans (le_max_right _ _)
    · rw [if_neg h2] at hf
      by_cases h : j = k + 1
      · subst h; exact (not_lt.1 h2).trans (le_max_left _ _)
      · exact ih _ _ _ hf j (by omega) (by omega) hj3

theorem sideScan_spec (y : ℕ → ℝ) (ins : ℕ → Prop) (lim : ℝ) (n : ℕ) (hmono : ∀ i j, i ≤ j → ins j → ins i) (hn : 1 ≤ n)
    (hout : ¬ ins n) (h : (sideScan y ins lim (y 0) n).1 = false) : RippleOk y ins lim := by
  obtain ⟨a1, a2, a3, a4⟩ := phase1_spec y ins hmono n 0 hn (by simpa using hout)
  rw [sideScan] at h
  refine ⟨(phase1 y ins n 0 (y 0)).1, a1, fun j h1 h2 => a3 j (by omega) h2, a4, fun j h1 h2 => ?_⟩
  rw [← a2]
  refine phase2_spec y ins lim hmono n _ _ _ h j h1 ?_ h2
  by_contra hc
  exact hout (hmono _ _ (by omega) h2)

end Verif.Filt
