import Verif.EPS.DiscardModel
import Mathlib.Tactic.NormNum

/-!
# C36: discarding keeps exactly the wanted eigenvalues
-/
set_option linter.all false

namespace Verif.EPS

theorem swapAt_eq (q : Nat → Nat) (i j : Nat) : swapAt q i j = q ∘ (Equiv.swap i j) := by
  funext k
  unfold swapAt
  simp only [Function.comp, Equiv.swap_apply_def]
  split_ifs <;> simp_all

theorem discardLoop_spec (out : Nat → Bool) (n : Nat) :
    ∀ (d i nc : Nat) (σ : Equiv.Perm Nat), nc - i = d → i ≤ nc → nc ≤ n → (∀ j, n ≤ j → σ j = j) →
      (∀ j, j < i → out (σ j) = false) → (∀ j, nc ≤ j → j < n → out (σ j) = true) →
      ∃ ρ : Equiv.Perm Nat, (discardLoop out i nc σ).2 = ρ ∧ (∀ j, n ≤ j → ρ j = j) ∧
        (discardLoop out i nc σ).1 ≤ n ∧
        (∀ j, j < (discardLoop out i nc σ).1 → out (ρ j) = false) ∧
        (∀ j, (discardLoop out i nc σ).1 ≤ j → j < n → out (ρ j) = true) := by
  intro d
  induction d using Nat.strong_induction_on with
  | _ d ih =>
    intro i nc σ hd hi hnc hfix hin hout
    rw [discardLoop]
    by_cases h : i < nc
    · rw [dif_pos h]
      by_cases ho : out (σ i) = true
      · rw [if_pos ho]
        by_cases h2 : i < nc - 1
        · rw [if_pos h2]
          have hs : swapAt σ i (nc - 1) = ((Equiv.swap i (nc - 1)).trans σ : Equiv.Perm Nat) := by
            rw [swapAt_eq]; rfl
          rw [hs]
          refine ih (nc - 1 - i) (by omega) i (nc - 1) _ rfl (by omega) (by omega) ?_ ?_ ?_
          · intro j hj
            simp only [Equiv.trans_apply]
            rw [Equiv.swap_apply_of_ne_of_ne (by omega) (by omega)]
            exact hfix j hj
          · intro j hj
            simp only [Equiv.trans_apply]
            rw [Equiv.swap_apply_of_ne_of_ne (by omega) (by omega)]
            exact hin j hj
          · intro j hj hj'
            simp only [Equiv.trans_apply]
            by_cases he : j = nc - 1
            · subst he
              rw [Equiv.swap_apply_right]
              exact ho
            · rw [Equiv.swap_apply_of_ne_of_ne (by omega) (by omega)]
              exact hout j (by omega) hj'
        · rw [if_neg h2]
          -- the last one is outside: `nc = i + 1`
          have hlast : discardLoop out (i + 1) (nc - 1) σ = (nc - 1, ⇑σ) := by
            rw [discardLoop, dif_neg (by omega)]
          rw [hlast]
          refine ⟨σ, rfl, hfix, by simp only; omega, ?_, ?_⟩
          · intro j hj
            simp only at hj
            exact hin j (by omega)
          · intro j hj hj'
            simp only at hj
            by_cases he : j = i
            · subst he; exact ho
            · exact hout j (by omega) hj'
      · rw [if_neg ho]
        refine ih (nc - (i + 1)) (by omega) (i + 1) nc σ rfl (by omega) hnc hfix ?_ hout
        intro j hj
        by_cases he : j = i
        · subst he; simpa using ho
        · exact hin j (by omega)
    · rw [dif_neg h]
      exact ⟨σ, rfl, hfix, hnc, fun j hj => hin j (by simp only at hj; omega), hout⟩

/-- **C36, kept values.** After the discard step position `i` of the first `nconv` refers (through the
permutation) to a computed pair inside the closed interval, every such pair is referred to by exactly one position,
and the value and the vector of a position belong to the same computed pair. -/
theorem C36_partial {V : Type} (a b : ℝ) (τ : Equiv.Perm Nat) (s : Solution V) :
    let r := computeValuesFilter a b τ s
    (∀ i, i < r.nconv → r.perm i < s.nconv ∧ a ≤ r.eig (r.perm i) ∧ r.eig (r.perm i) ≤ b) ∧
    (∀ j, j < s.nconv → a ≤ r.eig j → r.eig j ≤ b → ∃ i, (i < r.nconv ∧ r.perm i = j) ∧
      ∀ i', i' < r.nconv ∧ r.perm i' = j → i' = i) ∧
    (∀ i, ∃ j, r.eig (r.perm i) = s.eig j ∧ r.vec (r.perm i) = s.vec j) := by
  classical
  intro r
  obtain ⟨ρ, h1, h2, h3, h4, h5⟩ := discardLoop_spec
    (fun j => decide ((recompute τ s).eig j < a ∨ (recompute τ s).eig j > b)) s.nconv s.nconv 0 s.nconv
    (Equiv.refl Nat) rfl (Nat.zero_le _) (le_refl _) (fun _ _ => rfl) (fun j hj => by omega) (fun j hj hj' => by omega)
  have hp : r.perm = ρ := by
    rw [← h1]
    rfl
  have hn : r.nconv = (discardLoop (fun j => decide ((recompute τ s).eig j < a ∨ (recompute τ s).eig j > b)) 0 s.nconv
      (Equiv.refl Nat)).1 := rfl
  rw [← hn] at h3 h4 h5
  have hlt : ∀ j, j < s.nconv → ρ j < s.nconv := by
    intro j hj
    by_contra hc
    have : ρ (ρ j) = ρ j := h2 _ (by omega)
    have := ρ.injective this
    omega
  refine ⟨?_, ?_, ?_⟩
  · intro i hi
    rw [hp]
    have := h4 i hi
    simp only [decide_eq_false_iff_not, not_or, not_lt] at this
    exact ⟨hlt i (by omega), this.1, this.2⟩
  · intro j hj ha hb
    refine ⟨ρ.symm j, ⟨?_, by rw [hp]; simp⟩, ?_⟩
    · by_contra hc
      have hlt' : ρ.symm j < s.nconv := by
        by_contra hc'
        have := h2 (ρ.symm j) (by omega)
        simp at this
        omega
      have := h5 (ρ.symm j) (by omega) hlt'
      simp only [Equiv.apply_symm_apply, decide_eq_true_eq] at this
      rcases this with h | h
      · exact absurd ha (not_le.2 h)
      · exact absurd hb (not_le.2 h)
    · rintro i' ⟨_, hi'⟩
      rw [hp] at hi'
      rw [← hi']; simp
  · intro i
    exact ⟨τ (r.perm i), rfl, rfl⟩

/-- three values of which the middle one is in the interval -/
example : discard (fun j => j != 1) 3 = (1, (discard (fun j => j != 1) 3).2) ∧ (discard (fun j => j != 1) 3).2 0 = 1 := by
  refine ⟨Prod.ext ?_ rfl, ?_⟩ <;> simp [discard, discardLoop, swapAt]

/-- **C36 fails for the error estimates**: when recomputing the eigenvalues changes their order, the error
estimate found through the permutation belongs to another pair. -/
theorem C36_errest_false : ¬ ∀ (V : Type) (a b : ℝ) (τ : Equiv.Perm Nat) (s : Solution V) (i : Nat),
    (∀ j, s.nconv ≤ j → τ j = j) → i < (computeValuesFilter a b τ s).nconv →
    ∃ j, (computeValuesFilter a b τ s).vec ((computeValuesFilter a b τ s).perm i) = s.vec j ∧
      (computeValuesFilter a b τ s).eig ((computeValuesFilter a b τ s).perm i) = s.eig j ∧
      (computeValuesFilter a b τ s).errest ((computeValuesFilter a b τ s).perm i) = s.errest j := by
  intro h
  have hs : ∃ s : Solution Nat, s = ⟨2, fun j => j, fun j => j, fun j => j, id⟩ := ⟨_, rfl⟩
  obtain ⟨s, hs⟩ := hs
  have hd : discard (fun j => decide ((recompute (Equiv.swap 0 1) s).eig j < 0 ∨ (recompute (Equiv.swap 0 1) s).eig j > 1)) 2
      = (2, id) := by
    have e0 : (recompute (Equiv.swap 0 1) s).eig 0 = 1 := by subst hs; simp [recompute]
    have e1 : (recompute (Equiv.swap 0 1) s).eig 1 = 0 := by subst hs; simp [recompute]
    unfold discard
    rw [discardLoop, dif_pos (by norm_num), if_neg (by simp [e0]), discardLoop, dif_pos (by norm_num),
      if_neg (by simp [e1]), discardLoop, dif_neg (by norm_num)]
  have hr : computeValuesFilter 0 1 (Equiv.swap 0 1) s = { recompute (Equiv.swap 0 1) s with nconv := 2, perm := id } := by
    show ({ recompute (Equiv.swap 0 1) s with nconv := (discard _ s.nconv).1, perm := (discard _ s.nconv).2 } : Solution Nat) = _
    have : s.nconv = 2 := by subst hs; rfl
    rw [this]
    rw [show (discard _ 2) = (2, id) from hd]
  obtain ⟨j, h1, _, h3⟩ := h Nat 0 1 (Equiv.swap 0 1) s 0 (by
    intro j hj
    rw [hs] at hj
    exact Equiv.swap_apply_of_ne_of_ne (by simp at hj; omega) (by simp at hj; omega)) (by rw [hr]; exact Nat.zero_lt_two)
  rw [hr] at h1 h3
  subst hs
  have h1' : 1 = j := by simpa [recompute] using h1
  rw [← h1'] at h3
  norm_num [recompute] at h3

end Verif.EPS
