import Verif.Ts.SortModel

/-!
# C171: matching of left and right eigenvalues
-/
set_option linter.all false

namespace Verif.Ts

theorem best_mem (d : ℕ → ℝ) : ∀ (js : List ℕ) (b : ℕ), best d b js ∈ b :: js := by
  intro js
  induction js with
  | nil => intro b; simp [best]
  | cons j js ih =>
    intro b
    unfold best
    by_cases h : d j < d b
    · rw [if_pos h]; exact List.mem_cons_of_mem _ (ih j)
    · rw [if_neg h]
      have := ih b
      rcases List.mem_cons.mp this with h | h
      · rw [h]; exact List.mem_cons_self
      · exact List.mem_cons_of_mem _ (List.mem_cons_of_mem _ h)

theorem best_le (d : ℕ → ℝ) : ∀ (js : List ℕ) (b c : ℕ), c ∈ b :: js → d (best d b js) ≤ d c := by
  intro js
  induction js with
  | nil => intro b c hc; simp at hc; subst hc; simp [best]
  | cons j js ih =>
    intro b c hc
    unfold best
    by_cases h : d j < d b
    · rw [if_pos h]
      rcases List.mem_cons.mp hc with e | e
      · subst e; exact le_trans (ih j j List.mem_cons_self) (le_of_lt h)
      · exact ih j c e
    · rw [if_neg h]
      rcases List.mem_cons.mp hc with e | e
      · subst e; exact ih c c List.mem_cons_self
      · rcases List.mem_cons.mp e with e | e
        · subst e; exact le_trans (ih b b List.mem_cons_self) (not_lt.mp h)
        · exact ih b c (List.mem_cons_of_mem _ e)

theorem greedy_out (d : ℕ → ℕ → ℝ) : ∀ (is av : List ℕ) (p : ℕ → ℕ) (i : ℕ), i ∉ is → greedy d is av p i = p i := by
  intro is
  induction is with
  | nil => intro av p i _; rfl
  | cons j js ih =>
    intro av p i hi
    cases av with
    | nil => rfl
    | cons a av =>
      rw [greedy, ih _ _ _ (fun h => hi (List.mem_cons_of_mem _ h)), Function.update_of_ne]
      intro h; exact hi (h ▸ List.mem_cons_self)

theorem greedy_perm (d : ℕ → ℕ → ℝ) : ∀ (is av : List ℕ) (p : ℕ → ℕ), is.length = av.length → is.Nodup → (is.map (greedy d is av p)).Perm av := by
  intro is
  induction is with
  | nil =>
    intro av p hl _
    have : av = [] := List.length_eq_zero_iff.mp hl.symm
    subst this; exact List.Perm.refl _
  | cons j js ih =>
    intro av p hl hn
    cases av with
    | nil => simp at hl
    | cons a av =>
      have hb := best_mem (d j) av a
      have hn' := List.nodup_cons.mp hn
      rw [greedy, List.map_cons, greedy_out _ _ _ _ _ hn'.1, Function.update_self]
      refine List.Perm.trans (List.Perm.cons _ (ih _ _ ?_ hn'.2)) (List.perm_cons_erase hb).symm
      rw [List.length_erase_of_mem hb]
      simpa using hl

/-- **C171** no eigenvalue is lost or repeated: the result is a permutation of all positions, and it changes only positions with a mismatch. -/
theorem C171_perm (tol : ℝ) (n : ℕ) (l r : ℕ → ℂ) :
    ((List.range n).map (matchPerm tol n l r)).Perm (List.range n) ∧ ∀ i, ‖l i - r i‖ ≤ tol → matchPerm tol n l r i = i := by
  have hout : ∀ i, i ∉ mismatch tol n l r → matchPerm tol n l r i = i := fun i hi => greedy_out _ _ _ _ _ hi
  have hnd : (mismatch tol n l r).Nodup := List.nodup_range.filter _
  refine ⟨?_, fun i hi => hout i fun h => ?_⟩
  · have hsplit := List.filter_append_perm (fun i => decide (dist' l r i i > tol)) (List.range n)
    refine List.Perm.trans (hsplit.symm.map _) (List.Perm.trans ?_ hsplit)
    rw [List.map_append]
    refine List.Perm.append (greedy_perm _ _ _ _ rfl hnd) ?_
    have : ((List.range n).filter fun i => !decide (dist' l r i i > tol)).map (matchPerm tol n l r) = (List.range n).filter fun i => !decide (dist' l r i i > tol) := by
      conv_rhs => rw [← List.map_id ((List.range n).filter fun i => !decide (dist' l r i i > tol))]
      refine List.map_congr_left fun i hi => ?_
      refine hout i fun h => ?_
      have h1 := (List.mem_filter.mp hi).2
      have h2 := (List.mem_filter.mp h).2
      simp_all
    rw [this]
  · have := (List.mem_filter.mp h).2
    have : dist' l r i i > tol := by simpa using this
    unfold dist' at this; linarith

theorem greedy_unique {d : ℕ → ℕ → ℝ} {sg : ℕ → ℕ} : ∀ (is av : List ℕ) (p : ℕ → ℕ), is.Nodup → av.Perm (is.map sg) → (∀ i ∈ is, ∀ j ∈ is, j ≠ i → d i (sg i) < d i (sg j)) →
    ∀ i ∈ is, greedy d is av p i = sg i := by
  intro is
  induction is with
  | nil => intro _ _ _ _ _ i hi; cases hi
  | cons j js ih =>
    intro av p hn hp hd i hi
    have hn' := List.nodup_cons.mp hn
    cases av with
    | nil => exact absurd hp.length_eq (by simp)
    | cons a av =>
      have hb := best_mem (d j) av a
      have hbs : best (d j) a av = sg j := by
        obtain ⟨c, hc, hcb⟩ := List.mem_map.mp (hp.mem_iff.mp hb)
        by_contra hne
        have hcj : c ≠ j := fun h => hne (by rw [← hcb, h])
        have h1 := hd j List.mem_cons_self c hc hcj
        have h2 := best_le (d j) av a (sg j) (hp.mem_iff.mpr (List.mem_map.mpr ⟨j, List.mem_cons_self, rfl⟩))
        rw [← hcb] at h2; linarith
      rw [greedy, hbs]
      rcases List.mem_cons.mp hi with e | e
      · subst e; rw [greedy_out _ _ _ _ _ hn'.1, Function.update_self]
      · refine ih _ _ hn'.2 ?_ (fun a ha b hb => hd a (List.mem_cons_of_mem _ ha) b (List.mem_cons_of_mem _ hb)) i e
        have := hp.erase (sg j)
        rwa [List.map_cons, List.erase_cons_head] at this

/-- **C171** (partial: right eigenvalues separated). If some reordering `sg` of the left eigenvalues agrees with the right ones up to `delta ≤ tol` and different right eigenvalues differ by more than
`tol + delta`, that reordering is the one chosen. -/
theorem C171_match_partial {tol delta : ℝ} (h0 : delta ≤ tol) {n : ℕ} {l r : ℕ → ℂ} {sg : ℕ → ℕ} (hs : ((List.range n).map sg).Perm (List.range n)) (hd : ∀ i < n, ‖l (sg i) - r i‖ ≤ delta)
    (hsep : ∀ i < n, ∀ j < n, i ≠ j → tol + delta < ‖r i - r j‖) {i : ℕ} (hi : i < n) : matchPerm tol n l r i = sg i ∧ ‖l (matchPerm tol n l r i) - r i‖ ≤ delta := by
  have hlt : ∀ i < n, sg i < n := fun i hi => List.mem_range.mp (hs.mem_iff.mp (List.mem_map.mpr ⟨i, List.mem_range.mpr hi, rfl⟩))
  have hinj : ∀ i < n, ∀ j < n, sg i = sg j → i = j := by
    have hnd : ((List.range n).map sg).Nodup := hs.nodup_iff.mpr List.nodup_range
    intro i hi j hj h
    exact List.inj_on_of_nodup_map hnd (List.mem_range.mpr hi) (List.mem_range.mpr hj) h
  have hsur : ∀ i < n, ∃ j < n, sg j = i := fun i hi => by
    obtain ⟨j, hj, he⟩ := List.mem_map.mp (hs.mem_iff.mpr (List.mem_range.mpr hi))
    exact ⟨j, List.mem_range.mp hj, he⟩
  have tri : ∀ a b c : ℂ, ‖b - c‖ ≤ ‖a - b‖ + ‖a - c‖ := fun a b c => by
    have := norm_sub_le (a - c) (a - b)
    have e : a - c - (a - b) = b - c := by ring
    rw [e] at this; linarith
  have hfix : ∀ i < n, ‖l i - r i‖ ≤ tol → sg i = i := by
    intro i hi h
    obtain ⟨j, hj, he⟩ := hsur i hi
    by_cases e : j = i
    · rw [← e, he, e]
    · have h1 := hd j hj
      rw [he] at h1
      have h2 := hsep i hi j hj (Ne.symm e)
      have h3 := tri (l i) (r i) (r j)
      linarith
  have key : matchPerm tol n l r i = sg i := by
    have mem : ∀ i, i ∈ mismatch tol n l r ↔ i < n ∧ tol < ‖l i - r i‖ := by
      intro i; unfold mismatch dist'; rw [List.mem_filter, List.mem_range]; simp
    have hnd : (mismatch tol n l r).Nodup := List.nodup_range.filter _
    by_cases hm : tol < ‖l i - r i‖
    · refine greedy_unique _ _ _ hnd ?_ ?_ i ((mem i).mpr ⟨hi, hm⟩)
      · rw [List.perm_ext_iff_of_nodup hnd (List.Nodup.map_on (fun a ha b hb h => hinj a ((mem a).mp ha).1 b ((mem b).mp hb).1 h) hnd)]
        intro a
        rw [List.mem_map]
        constructor
        · intro ha
          obtain ⟨a1, a2⟩ := (mem a).mp ha
          obtain ⟨j, hj, he⟩ := hsur a a1
          refine ⟨j, (mem j).mpr ⟨hj, ?_⟩, he⟩
          by_contra hh
          have := hfix j hj (not_lt.mp hh)
          rw [he] at this
          subst this; exact hh a2
        · rintro ⟨j, hj, he⟩
          obtain ⟨j1, j2⟩ := (mem j).mp hj
          have h1 : a < n := he ▸ hlt j j1
          refine (mem a).mpr ⟨h1, ?_⟩
          by_contra hh
          have := hfix a h1 (not_lt.mp hh)
          have := hinj a h1 j j1 (by rw [this, he])
          subst this; exact hh j2
      · intro a ha b hb hne
        have h1 := hd a ((mem a).mp ha).1
        have h2 := hd b ((mem b).mp hb).1
        have h3 := hsep a ((mem a).mp ha).1 b ((mem b).mp hb).1 (Ne.symm hne)
        have h4 := tri (l (sg b)) (r a) (r b)
        unfold dist'; linarith
    · rw [(C171_perm tol n l r).2 i (not_lt.mp hm), hfix i hi (not_lt.mp hm)]
  exact ⟨key, by rw [key]; exact hd i hi⟩

/-- **C171 is false** without separation: exchanging both left values agrees with the right ones up to the tolerance, but only one position is seen as a mismatch and nothing is exchanged. -/
theorem C171_false {tol : ℝ} (ht : 0 < tol) : ∃ (l r : ℕ → ℂ) (sg : ℕ → ℕ), ((List.range 2).map sg).Perm (List.range 2) ∧ (∀ i < 2, ‖l (sg i) - r i‖ ≤ tol) ∧ tol < ‖l (matchPerm tol 2 l r 0) - r 0‖ := by
  refine ⟨fun i => if i = 0 then ((19 / 10 * tol : ℝ) : ℂ) else ((9 / 10 * tol : ℝ) : ℂ), fun i => if i = 0 then 0 else (tol : ℂ), fun i => 1 - i, ?_, ?_, ?_⟩
  · have : (List.range 2).map (fun i => 1 - i) = [1, 0] := rfl
    rw [this]; exact List.Perm.swap 0 1 []
  · intro i hi
    have h : i = 0 ∨ i = 1 := by omega
    rcases h with h | h <;> subst h
    · simp only [Nat.sub_zero, one_ne_zero, if_false, if_true, sub_zero]
      rw [Complex.norm_real, Real.norm_of_nonneg (by linarith)]; linarith
    · simp only [Nat.sub_self, one_ne_zero, if_false, if_true]
      rw [← Complex.ofReal_sub, Complex.norm_real, Real.norm_of_nonneg (by linarith)]; linarith
  · set l : ℕ → ℂ := fun i => if i = 0 then ((19 / 10 * tol : ℝ) : ℂ) else ((9 / 10 * tol : ℝ) : ℂ) with hl
    set r : ℕ → ℂ := fun i => if i = 0 then 0 else (tol : ℂ) with hr
    have d0 : ‖l 0 - r 0‖ = 19 / 10 * tol := by
      simp only [hl, hr, if_true, sub_zero]
      rw [Complex.norm_real, Real.norm_of_nonneg (by linarith)]
    have d1 : ‖l 1 - r 1‖ ≤ tol := by
      simp only [hl, hr, one_ne_zero, if_false]
      rw [← Complex.ofReal_sub, Complex.norm_real, Real.norm_eq_abs, abs_le]; constructor <;> linarith
    have p1 := (C171_perm tol 2 l r).2 1 d1
    have pp := (C171_perm tol 2 l r).1
    have e : (List.range 2).map (matchPerm tol 2 l r) = [matchPerm tol 2 l r 0, matchPerm tol 2 l r 1] := rfl
    rw [e, p1] at pp
    have m := pp.mem_iff.mpr (List.mem_range.mpr (by norm_num : 0 < 2))
    have p0 : matchPerm tol 2 l r 0 = 0 := by
      simp at m; exact m.symm
    rw [p0, d0]; linarith

/-- a case of the theorem: two exchanged values -/
example : ∃ (l r : ℕ → ℂ) (sg : ℕ → ℕ), ((List.range 2).map sg).Perm (List.range 2) ∧ (∀ i < 2, ‖l (sg i) - r i‖ ≤ (0 : ℝ)) ∧ (∀ i < 2, ∀ j < 2, i ≠ j → (1 / 2 : ℝ) + 0 < ‖r i - r j‖) ∧ sg 0 ≠ 0 := by
  refine ⟨fun i => if i = 0 then 1 else 0, fun i => if i = 0 then 0 else 1, fun i => 1 - i, ?_, ?_, ?_, by norm_num⟩
  · have : (List.range 2).map (fun i => 1 - i) = [1, 0] := rfl
    rw [this]; exact List.Perm.swap 0 1 []
  · intro i hi
    have h : i = 0 ∨ i = 1 := by omega
    rcases h with h | h <;> subst h <;> simp
  · intro i hi j hj hne
    have h : (i = 0 ∧ j = 1) ∨ (i = 1 ∧ j = 0) := by omega
    rcases h with ⟨h, h'⟩ | ⟨h, h'⟩ <;> subst h <;> subst h' <;> norm_num

end Verif.Ts
