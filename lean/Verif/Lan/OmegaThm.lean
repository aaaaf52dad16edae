import Verif.Lan.OmegaModel

/-! # C158: estimates of the loss of orthogonality -/
set_option linter.all false

namespace Verif.Lan

/-- Specification: row `j+1` of the recurrence of Simon from rows `j` (`cur`) and `j-1` (`prev`):
`ω(j+1,k) = (β(k+1) ω(j,k+1) + (α(k)-α(j)) ω(j,k) + β(k) ω(j,k-1) - β(j) ω(j-1,k) ± T) / β(j+1)`,
with the values `T/β(j+1)` and `eps1` next to the diagonal. -/
noncomputable def simon (al be : ℕ → ℝ) (eps1 T : ℝ) (cur prev : ℕ → ℝ) (j k : ℕ) : ℝ :=
  if k = j then eps1
  else if k + 1 = j then T / be (j + 1)
  else
    let v := be (k + 1) * cur (k + 1) + (al k - al j) * cur k + (if k = 0 then 0 else be k * cur (k - 1)) - be j * prev k
    (v + (if v > 0 then T else -T)) / be (j + 1)

theorem omSwap_fst (a b : ℕ → ℝ) : ∀ (j k : ℕ), (omSwap j (a, b)).1 k = if k < j then b k else a k
  | 0, k => rfl
  | j + 1, k => by
    have ih1 := omSwap_fst a b j
    have ih2 : ∀ i, (omSwap j (a, b)).2 i = b i := by
      have : ∀ j i, (omSwap j (a, b)).2 i = b i := by
        intro j
        induction j with
        | zero => intro i; rfl
        | succ j ih =>
          intro i
          show Function.update (omSwap j (a, b)).2 j (Function.update (omSwap j (a, b)).1 j ((omSwap j (a, b)).2 j) j) i = b i
          rw [Function.update_self]
          by_cases e : i = j
          · subst e; rw [Function.update_self]; exact ih i
          · rw [Function.update_of_ne e]; exact ih i
      exact this j
    show Function.update (omSwap j (a, b)).1 j ((omSwap j (a, b)).2 j) k = _
    by_cases e : k = j
    · subst e; rw [Function.update_self, if_pos (by omega), ih2]
    · rw [Function.update_of_ne e, ih1 k]
      by_cases h : k < j
      · rw [if_pos h, if_pos (by omega)]
      · rw [if_neg h, if_neg (by omega)]

theorem omSwap_snd (a b : ℕ → ℝ) : ∀ (j k : ℕ), (omSwap j (a, b)).2 k = b k
  | 0, k => rfl
  | j + 1, k => by
    have ih := omSwap_snd a b j
    show Function.update (omSwap j (a, b)).2 j (Function.update (omSwap j (a, b)).1 j ((omSwap j (a, b)).2 j) j) k = b k
    rw [Function.update_self]
    by_cases e : k = j
    · subst e; rw [Function.update_self]; exact ih k
    · rw [Function.update_of_ne e]; exact ih k

/-- **C158, row formula.** If the two arrays contain the rows `j` and `j-1`, then after the call
`omega` contains row `j+1` of the recurrence. -/
theorem C158_row_partial (om old al be : ℕ → ℝ) (eps1 anorm : ℝ) (j k : ℕ) (hk : k ≤ j) :
    (updateOmega (om, old) j al be eps1 anorm).1 k = simon al be eps1 (eps1 * anorm) om old j k := by
  show Function.update (omSwap j (om, omRow om old j al be eps1 anorm)).1 j eps1 k = _
  unfold simon
  by_cases e : k = j
  · subst e; rw [Function.update_self, if_pos rfl]
  · rw [Function.update_of_ne e, if_neg e, omSwap_fst, if_pos (by omega)]
    unfold omRow omAdd
    by_cases e1 : k + 1 = j
    · rw [if_pos e1, if_pos e1]; ring
    · rw [if_neg e1, if_neg e1]
      by_cases e0 : k = 0
      · subst e0
        simp only [if_true, add_zero, zero_add]
        by_cases hv : be 1 * om 1 + (al 0 - al j) * om 0 - be j * old 0 > 0
        · rw [if_pos hv, if_pos hv]; ring
        · rw [if_neg hv, if_neg hv]; ring
      · rw [if_neg e0, if_pos (by omega : k + 1 < j)]
        simp only [if_neg e0]
        by_cases hv : be (k + 1) * om (k + 1) + (al k - al j) * om k + be k * om (k - 1) - be j * old k > 0
        · rw [if_pos hv, if_pos hv]; ring
        · rw [if_neg hv, if_neg hv]; ring

/-- **C158 is false: the previous row is lost.** After every call both arrays contain the new row, so
the next call does not use the row that the recurrence needs. -/
theorem C158_old_lost (om old al be : ℕ → ℝ) (eps1 anorm : ℝ) (j k : ℕ) (hk : k < j) :
    (updateOmega (om, old) j al be eps1 anorm).2 k = (updateOmega (om, old) j al be eps1 anorm).1 k := by
  show (omSwap j (om, omRow om old j al be eps1 anorm)).2 k = Function.update (omSwap j (om, omRow om old j al be eps1 anorm)).1 j eps1 k
  rw [Function.update_of_ne (by omega), omSwap_fst, omSwap_snd, if_pos hk]

/-- Specification: the rows of the recurrence, `(row n+1, row n)`, from zero arrays. -/
noncomputable def simonRun (al be : ℕ → ℝ) (eps1 T : ℝ) : ℕ → (ℕ → ℝ) × (ℕ → ℝ)
  | 0 => (fun _ => 0, fun _ => 0)
  | n + 1 => (simon al be eps1 T (simonRun al be eps1 T n).1 (simonRun al be eps1 T n).2 (n + 1),
      (simonRun al be eps1 T n).1)

/-- **C158 is false of the code.** With all `alpha` equal and all `beta` equal, already at the second
call the estimate exceeds a threshold according to the recurrence, but not as computed: the
reorthogonalization that the recurrence asks for is skipped. -/
theorem C158_false : ∃ (al be : ℕ → ℝ) (eps1 anorm delta : ℝ), 0 < eps1 ∧ 1 ≤ anorm ∧ eps1 < delta ∧ (∀ i, 0 < be i) ∧
    omTest delta 2 (simonRun al be eps1 (eps1 * anorm) 2).1 ∧ ¬ omTest delta 2 (omRun al be eps1 anorm 0 2).1 := by
  refine ⟨fun _ => 0, fun _ => 1, 2, 1, 3, by norm_num, by norm_num, by norm_num, fun _ => by norm_num, ⟨0, by norm_num, ?_⟩, ?_⟩
  · simp only [simonRun, simon]
    norm_num
  · have r1 : ∀ i, i < 1 → (omRun (fun _ => 0) (fun _ => 1) 2 1 0 1).1 i = 2 := fun i hi => by
      have : i = 0 := by omega
      subst this
      rw [show omRun (fun _ => 0) (fun _ => 1) 2 1 0 1 = updateOmega (fun _ => 0, fun _ => 0) 1 (fun _ => 0) (fun _ => 1) 2 1 from rfl,
        C158_row_partial _ _ _ _ _ _ _ _ (by omega)]
      norm_num [simon]
    have r11 : (omRun (fun _ => 0) (fun _ => 1) 2 1 0 1).1 1 = 2 := by
      rw [show omRun (fun _ => 0) (fun _ => 1) 2 1 0 1 = updateOmega (fun _ => 0, fun _ => 0) 1 (fun _ => 0) (fun _ => 1) 2 1 from rfl,
        C158_row_partial _ _ _ _ _ _ _ _ (by omega)]
      norm_num [simon]
    have o1 : (omRun (fun _ => 0) (fun _ => 1) 2 1 0 1).2 0 = 2 := by
      refine Eq.trans ?_ (r1 0 (by omega))
      exact C158_old_lost _ _ _ _ _ _ 1 0 (by omega)
    rintro ⟨i, hi, h⟩
    rw [show omRun (fun _ => 0) (fun _ => 1) 2 1 0 2 = updateOmega ((omRun (fun _ => 0) (fun _ => 1) 2 1 0 1).1, (omRun (fun _ => 0) (fun _ => 1) 2 1 0 1).2) 2 (fun _ => 0) (fun _ => 1) 2 1 from rfl,
      C158_row_partial _ _ _ _ _ _ _ _ (by omega)] at h
    have : i = 0 ∨ i = 1 := by omega
    rcases this with rfl | rfl
    · simp only [simon] at h
      rw [if_neg (by norm_num), if_neg (by norm_num), r11, o1] at h
      norm_num at h
    · norm_num [simon] at h

/-- **C158 is false with locked columns.** The estimates are read relative to the first active column,
but the recurrence is evaluated with the coefficients of the locked columns: with one locked column and
coefficients that for the active columns are those of the previous theorem, the reorthogonalization
is skipped as well. -/
theorem C158_locked_false : ∃ (al be : ℕ → ℝ) (eps1 anorm delta : ℝ), 0 < eps1 ∧ 1 ≤ anorm ∧ eps1 < delta ∧ be 1 = 0 ∧ (∀ i, 2 ≤ i → 0 < be i) ∧
    omTest delta 2 (simonRun (fun i => al (i + 1)) (fun i => be (i + 1)) eps1 (eps1 * anorm) 2).1 ∧ ¬ omTest delta 2 (omRun al be eps1 anorm 1 2).1 := by
  refine ⟨fun i => if i = 0 then 1 else 0, fun i => if i = 1 then 0 else 1, 2, 1, 3, by norm_num, by norm_num, by norm_num, by norm_num,
    fun i hi => by show (0:ℝ) < if i = 1 then 0 else 1; rw [if_neg (by omega)]; norm_num, ⟨0, by norm_num, ?_⟩, ?_⟩
  · simp only [simonRun, simon]
    norm_num
  · set al : ℕ → ℝ := fun i => if i = 0 then 1 else 0 with hal
    set be : ℕ → ℝ := fun i => if i = 1 then 0 else 1 with hbe
    have un : omRun al be 2 1 1 1 = updateOmega (fun _ => 0, fun _ => 0) 2 al be 2 1 := rfl
    have r0 : (omRun al be 2 1 1 1).1 0 = -2 := by
      rw [un, C158_row_partial _ _ _ _ _ _ _ _ (by omega)]
      norm_num [simon, hal, hbe]
    have r1 : (omRun al be 2 1 1 1).1 1 = 2 := by
      rw [un, C158_row_partial _ _ _ _ _ _ _ _ (by omega)]
      norm_num [simon, hal, hbe]
    have r2 : (omRun al be 2 1 1 1).1 2 = 2 := by
      rw [un, C158_row_partial _ _ _ _ _ _ _ _ (by omega)]
      norm_num [simon, hal, hbe]
    have o0 : (omRun al be 2 1 1 1).2 0 = -2 := by
      refine Eq.trans ?_ r0; exact C158_old_lost _ _ _ _ _ _ 2 0 (by omega)
    have o1 : (omRun al be 2 1 1 1).2 1 = 2 := by
      refine Eq.trans ?_ r1; exact C158_old_lost _ _ _ _ _ _ 2 1 (by omega)
    rintro ⟨i, hi, h⟩
    rw [show omRun al be 2 1 1 2 = updateOmega ((omRun al be 2 1 1 1).1, (omRun al be 2 1 1 1).2) 3 al be 2 1 from rfl,
      C158_row_partial _ _ _ _ _ _ _ _ (by omega)] at h
    have : i = 0 ∨ i = 1 := by omega
    rcases this with rfl | rfl
    · simp only [simon] at h
      rw [if_neg (by norm_num), if_neg (by norm_num), r0, r1, o0] at h
      norm_num [hal, hbe] at h
    · simp only [simon] at h
      rw [if_neg (by norm_num), if_neg (by norm_num), r1, r2, o1, if_neg (by norm_num), show (1:ℕ) - 1 = 0 from rfl, r0] at h
      norm_num [hal, hbe] at h

/-! ### Intervals -/

/-- Specification of the starting points: estimates of at least `delta`; if there are none, a position
of the largest one. -/
def IsSeed (mu : ℕ → ℝ) (delta : ℝ) (j s : ℕ) : Prop :=
  (s < j ∧ delta ≤ |mu s|) ∨ ((∀ i, i < j → |mu i| < delta) ∧ s = (ciScan mu delta j).2.1)

theorem ciScan_found (mu : ℕ → ℝ) (delta : ℝ) : ∀ j, (ciScan mu delta j).1 = true ↔ ∃ i, i < j ∧ delta ≤ |mu i|
  | 0 => by simp [ciScan]
  | j + 1 => by
    have ih := ciScan_found mu delta j
    show (if |mu j| ≥ delta then true else (ciScan mu delta j).1) = true ↔ _
    by_cases h : |mu j| ≥ delta
    · rw [if_pos h]; exact ⟨fun _ => ⟨j, by omega, h⟩, fun _ => rfl⟩
    · rw [if_neg h, ih]
      refine ⟨fun ⟨i, h1, h2⟩ => ⟨i, by omega, h2⟩, fun ⟨i, h1, h2⟩ => ⟨i, ?_, h2⟩⟩
      by_contra hc
      have : i = j := by omega
      subst this
      exact h h2

/-- **C158.** Without any estimate above `delta` the starting point is a largest one. -/
theorem C158_maxpos (mu : ℕ → ℝ) (delta : ℝ) : ∀ j, 0 < j →
    (ciScan mu delta j).2.1 < j ∧ ∀ i, i < j → |mu i| ≤ |mu (ciScan mu delta j).2.1| := by
  have key : ∀ j, ((ciScan mu delta j).2.2 = 0 ∧ (ciScan mu delta j).2.1 = 0 ∧ ∀ i, i < j → |mu i| = 0) ∨
      ((ciScan mu delta j).2.1 < j ∧ (ciScan mu delta j).2.2 = |mu (ciScan mu delta j).2.1| ∧
        ∀ i, i < j → |mu i| ≤ (ciScan mu delta j).2.2) := by
    intro j
    induction j with
    | zero => exact Or.inl ⟨rfl, rfl, fun i hi => by omega⟩
    | succ j ih =>
      have e : (ciScan mu delta (j + 1)).2 = if |mu j| > (ciScan mu delta j).2.2 then (j, |mu j|) else (ciScan mu delta j).2 := rfl
      rw [e]
      by_cases h : |mu j| > (ciScan mu delta j).2.2
      · rw [if_pos h]
        refine Or.inr ⟨by show j < j + 1; omega, rfl, fun i hi => ?_⟩
        show |mu i| ≤ |mu j|
        by_cases eij : i = j
        · rw [eij]
        · rcases ih with ⟨a, _, c⟩ | ⟨a, b, c⟩
          · rw [c i (by omega)]; exact abs_nonneg _
          · exact (c i (by omega)).trans h.le
      · rw [if_neg h]
        rcases ih with ⟨a, b, c⟩ | ⟨a, b, c⟩
        · refine Or.inl ⟨a, b, fun i hi => ?_⟩
          by_cases eij : i = j
          · rw [eij]; rw [a] at h; exact le_antisymm (not_lt.1 h) (abs_nonneg _)
          · exact c i (by omega)
        · refine Or.inr ⟨by omega, b, fun i hi => ?_⟩
          by_cases eij : i = j
          · rw [eij]; exact not_lt.1 h
          · exact c i (by omega)
  intro j hj
  rcases key j with ⟨a, b, c⟩ | ⟨a, b, c⟩
  · rw [b]; exact ⟨hj, fun i hi => by rw [c i hi]; exact abs_nonneg _⟩
  · exact ⟨a, fun i hi => by rw [← b]; exact c i hi⟩

theorem ciInit_iff (mu : ℕ → ℝ) (delta : ℝ) (j s : ℕ) : ciInit mu delta j s = true ↔ IsSeed mu delta j s := by
  unfold ciInit IsSeed
  have hf := ciScan_found mu delta j
  by_cases h : (ciScan mu delta j).1 = true
  · rw [if_pos h]
    obtain ⟨i, h1, h2⟩ := hf.1 h
    simp only [decide_eq_true_eq, ge_iff_le]
    exact ⟨Or.inl, fun hh => hh.elim id fun hh => absurd (hh.1 i h1) (not_lt.2 h2)⟩
  · rw [if_neg h]
    have hn : ∀ i, i < j → |mu i| < delta := fun i hi => by
      by_contra hc
      exact h (hf.2 ⟨i, hi, not_lt.1 hc⟩)
    by_cases e : s = (ciScan mu delta j).2.1
    · rw [← e, Function.update_self]; exact ⟨fun _ => Or.inr ⟨hn, rfl⟩, fun _ => rfl⟩
    · rw [Function.update_of_ne e]
      simp only [decide_eq_true_eq, ge_iff_le]
      exact ⟨Or.inl, fun hh => hh.elim id fun hh => absurd hh.2 e⟩

theorem ciLeft_set (mu : ℕ → ℝ) (eta : ℝ) (c : ℕ) (w : ℕ → Bool) (h : w c = true) : ciLeft mu eta (c + 1) w = w := by
  rw [ciLeft, if_pos (Or.inr h)]

theorem ciRight_mono (mu : ℕ → ℝ) (eta : ℝ) : ∀ (g k : ℕ) (w : ℕ → Bool) (p : ℕ), w p = true → ciRight mu eta g k w p = true
  | 0, k, w, p, h => h
  | g + 1, k, w, p, h => by
    rw [ciRight]
    by_cases hc : |mu k| < eta ∨ w k = true
    · rw [if_pos hc]; exact h
    · rw [if_neg hc]
      refine ciRight_mono mu eta g (k + 1) _ p ?_
      by_cases e : p = k
      · rw [e, Function.update_self]
      · rw [Function.update_of_ne e]; exact h

theorem ciRight_sound (mu : ℕ → ℝ) (eta : ℝ) : ∀ (g k : ℕ) (w : ℕ → Bool) (p : ℕ), ciRight mu eta g k w p = true →
    w p = true ∨ (k ≤ p ∧ p < k + g ∧ ∀ q, k ≤ q → q ≤ p → eta ≤ |mu q|)
  | 0, k, w, p, h => Or.inl h
  | g + 1, k, w, p, h => by
    rw [ciRight] at h
    by_cases hc : |mu k| < eta ∨ w k = true
    · rw [if_pos hc] at h; exact Or.inl h
    · rw [if_neg hc] at h
      push Not at hc
      rcases ciRight_sound mu eta g (k + 1) _ p h with h1 | ⟨h1, h2, h3⟩
      · by_cases e : p = k
        · refine Or.inr ⟨by omega, by omega, fun q q1 q2 => ?_⟩
          have : q = k := by omega
          rw [this]; exact hc.1
        · rw [Function.update_of_ne e] at h1; exact Or.inl h1
      · refine Or.inr ⟨by omega, by omega, fun q q1 q2 => ?_⟩
        by_cases e : q = k
        · rw [e]; exact hc.1
        · exact h3 q (by omega) q2

theorem ciRight_first (mu : ℕ → ℝ) (eta : ℝ) (g k : ℕ) (w : ℕ → Bool) (h : eta ≤ |mu k|) : ciRight mu eta (g + 1) k w k = true := by
  rw [ciRight]
  by_cases hc : |mu k| < eta ∨ w k = true
  · rw [if_pos hc]
    exact hc.elim (fun h' => absurd h (not_le.2 h')) id
  · rw [if_neg hc]
    exact ciRight_mono mu eta g (k + 1) _ k (by rw [Function.update_self])

/-- There is a starting point at or before `i` with a run of estimates of at least `eta` up to `i`. -/
def RunRight (mu : ℕ → ℝ) (delta eta : ℝ) (j i : ℕ) : Prop :=
  ∃ s, s ≤ i ∧ IsSeed mu delta j s ∧ ∀ p, s < p → p ≤ i → eta ≤ |mu p|

/-- **C158, intervals to the right.** The vectors selected by compute_int are exactly those
connected with a starting point before them by a run of estimates of at least `eta`. -/
theorem C158_intervals_partial (mu : ℕ → ℝ) (j : ℕ) (delta eta : ℝ) (i : ℕ) (hi : i < j) :
    computeInt mu j delta eta i = true ↔ RunRight mu delta eta j i := by
  have inv : ∀ n, n ≤ j → (∀ p, p < j → ciLoop mu eta j (ciInit mu delta j) n p = true → RunRight mu delta eta j p) ∧
      (∀ p, IsSeed mu delta j p → ciLoop mu eta j (ciInit mu delta j) n p = true) ∧
      (∀ p, p < j → p ≤ n → RunRight mu delta eta j p → ciLoop mu eta j (ciInit mu delta j) n p = true) := by
    intro n
    induction n with
    | zero =>
      intro _
      refine ⟨fun p hp h => ⟨p, le_refl _, (ciInit_iff _ _ _ _).1 h, fun q q1 q2 => by omega⟩, fun p h => (ciInit_iff _ _ _ _).2 h,
        fun p hp hn ⟨s, s1, s2, s3⟩ => ?_⟩
      have : s = p := by omega
      subst this
      exact (ciInit_iff _ _ _ _).2 s2
    | succ n ih =>
      intro hn
      obtain ⟨a1, a2, a3⟩ := ih (by omega)
      set v := ciLoop mu eta j (ciInit mu delta j) n with hv
      have un : ciLoop mu eta j (ciInit mu delta j) (n + 1)
          = if v n then ciRight mu eta (j - (n + 1)) (n + 1) (ciLeft mu eta (n + 1) v) else v := rfl
      rw [un]
      by_cases hvn : v n = true
      · rw [if_pos hvn, ciLeft_set _ _ _ _ hvn]
        obtain ⟨s, s1, s2, s3⟩ := a1 n (by omega) hvn
        refine ⟨fun p hp h => ?_, fun p h => ciRight_mono _ _ _ _ _ _ (a2 p h), fun p hp hpn hr => ?_⟩
        · rcases ciRight_sound _ _ _ _ _ _ h with h1 | ⟨h1, h2, h3⟩
          · exact a1 p hp h1
          · refine ⟨s, by omega, s2, fun q q1 q2 => ?_⟩
            by_cases hq : q ≤ n
            · exact s3 q q1 hq
            · exact h3 q (by omega) q2
        · by_cases e : p = n + 1
          · subst e
            obtain ⟨t, t1, t2, t3⟩ := hr
            by_cases et : t = n + 1
            · subst et; exact ciRight_mono _ _ _ _ _ _ (a2 _ t2)
            · obtain ⟨g, hg⟩ : ∃ g, j - (n + 1) = g + 1 := ⟨j - (n + 1) - 1, by omega⟩
              rw [hg]
              exact ciRight_first _ _ _ _ _ (t3 (n + 1) (by omega) (le_refl _))
          · exact ciRight_mono _ _ _ _ _ _ (a3 p hp (by omega) hr)
      · rw [if_neg hvn]
        refine ⟨a1, a2, fun p hp hpn hr => ?_⟩
        by_cases e : p = n + 1
        · subst e
          obtain ⟨t, t1, t2, t3⟩ := hr
          by_cases et : t = n + 1
          · subst et; exact a2 _ t2
          · exact absurd (a3 n (by omega) (le_refl _) ⟨t, by omega, t2, fun q q1 q2 => t3 q q1 (by omega)⟩) hvn
        · exact a3 p hp (by omega) hr
  obtain ⟨a1, a2, a3⟩ := inv j (le_refl _)
  exact ⟨a1 i hi, a3 i hi (by omega)⟩

/-- **C158 is false for intervals to the left.** A vector next to one whose estimate exceeds `delta`,
with an estimate above `eta`, is not selected if it comes before it. -/
theorem C158_left_false : ∃ (mu : ℕ → ℝ) (delta eta : ℝ), eta < delta ∧ IsSeed mu delta 2 1 ∧ eta ≤ |mu 0| ∧
    computeInt mu 2 delta eta 0 = false := by
  refine ⟨fun i => if i = 0 then 1 else 3, 2, 1, by norm_num, Or.inl ⟨by norm_num, by norm_num⟩, by norm_num, ?_⟩
  by_contra h
  have h : computeInt (fun i => if i = 0 then (1:ℝ) else 3) 2 2 1 0 = true := by simpa using h
  obtain ⟨s, s1, s2, s3⟩ := (C158_intervals_partial _ 2 2 1 0 (by norm_num)).1 h
  have : s = 0 := by omega
  subst this
  rcases s2 with ⟨_, h2⟩ | ⟨h2, _⟩
  · norm_num at h2
  · have := h2 1 (by norm_num); norm_num at this

/-- Beside `C158_intervals_partial`: a run to the right is found. -/
example : computeInt (fun i => if i = 0 then (3:ℝ) else 1) 2 2 1 1 = true :=
  (C158_intervals_partial _ 2 2 1 1 (by norm_num)).2 ⟨0, by norm_num, Or.inl ⟨by norm_num, by norm_num⟩, fun p h1 h2 => by
    have : p = 1 := by omega
    subst this; norm_num⟩

end Verif.Lan
