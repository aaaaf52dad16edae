import Verif.DS.SortLemmas
import Mathlib.Order.Interval.Set.Basic
import Mathlib.Data.Set.Function
/-!
# Properties C25, C26, C55: permutations and sorting in the DS object

`IsGroup`, `VConsistent`, `VConj`, `RanksAt` are in `Verif.DS.SortSpec`.
-/
set_option linter.all false
namespace Verif.DS

/-! ### C25 -/

section
variable {S : Type}

theorem search_spec (perm : Nat → Nat) (len i : Nat) (s j : Nat) (hs : s ≤ j) (hj : j < len)
    (h : perm j = i) : ∃ j0, search perm len i s = some j0 ∧ s ≤ j0 ∧ j0 ≤ j ∧ perm j0 = i := by
  induction hk : j - s generalizing s with
  | zero =>
    have : s = j := by omega
    subst this
    unfold search
    rw [dif_pos hj, if_neg (by simpa using h)]
    exact ⟨s, rfl, le_refl _, le_refl _, h⟩
  | succ k ih =>
    unfold search
    rw [dif_pos (by omega)]
    by_cases hp : perm s = i
    · rw [if_neg (by simpa using hp)]
      exact ⟨s, rfl, le_refl _, hs, hp⟩
    · rw [if_pos hp]
      obtain ⟨j0, a, b, c, d⟩ := ih (s + 1) (by omega) (by omega)
      exact ⟨j0, a, by omega, c, d⟩

/-- The permutation loop succeeds, leaves `perm` equal to the identity on the range, and has the effect
of the permutation on everything that reacts to `swap` by exchanging two items. -/
theorem permuteLoop_spec (len : Nat) (swap : Nat → Nat → S → S) (m i : Nat) (perm : Nat → Nat) (s : S)
    (hlen : i + m ≤ len) (hb : Set.BijOn perm (Set.Ico i (i + m)) (Set.Ico i (i + m))) :
    ∃ perm' s', permuteLoop len swap m i perm s = some (perm', s') ∧
      (∀ c, i ≤ c → c < i + m → perm' c = c) ∧ (∀ c, c < i ∨ i + m ≤ c → perm' c = perm c) ∧
      (∀ (X : Type) (get : S → Nat → X), (∀ s p q c, get (swap p q s) c =
          if c = p then get s q else if c = q then get s p else get s c) →
        ∀ c, get s' c = if i ≤ c ∧ c < i + m then get s (perm c) else get s c) ∧
      (∀ (X : Type) (inv : S → X), (∀ s p q, inv (swap p q s) = inv s) → inv s' = inv s) := by
  induction m generalizing i perm s with
  | zero =>
    refine ⟨perm, s, rfl, fun c h1 h2 => by omega, fun c _ => rfl, ?_, ?_⟩
    · intro X get hget c; rw [if_neg (by omega)]
    · intros; rfl
  | succ m ih =>
    have hmem : ∀ c, i ≤ c → c < i + (m + 1) → i ≤ perm c ∧ perm c < i + (m + 1) := fun c h1 h2 => hb.1 ⟨h1, h2⟩
    have hinj : ∀ c d, i ≤ c → c < i + (m + 1) → i ≤ d → d < i + (m + 1) → perm c = perm d → c = d :=
      fun c d h1 h2 h3 h4 h => hb.2.1 ⟨h1, h2⟩ ⟨h3, h4⟩ h
    have hsur : ∀ c, i ≤ c → c < i + (m + 1) → ∃ d, i ≤ d ∧ d < i + (m + 1) ∧ perm d = c := by
      intro c h1 h2
      obtain ⟨d, hd, e⟩ := hb.2.2 (show c ∈ Set.Ico i (i + (m + 1)) from ⟨h1, h2⟩)
      exact ⟨d, hd.1, hd.2, e⟩
    by_cases hp : perm i = i
    · have hb' : Set.BijOn perm (Set.Ico (i + 1) (i + 1 + m)) (Set.Ico (i + 1) (i + 1 + m)) := by
        refine ⟨?_, ?_, ?_⟩
        · intro c hc
          have h1 := hmem c (by have := hc.1; omega) (by have := hc.2; omega)
          have h2 : perm c ≠ i := by
            intro h
            have := hinj c i (by have := hc.1; omega) (by have := hc.2; omega) (by omega) (by omega) (by rw [h, hp])
            have := hc.1; omega
          exact ⟨by omega, by omega⟩
        · intro c hc d hd h
          exact hinj c d (by have := hc.1; omega) (by have := hc.2; omega) (by have := hd.1; omega) (by have := hd.2; omega) h
        · intro c hc
          obtain ⟨d, h1, h2, h3⟩ := hsur c (by have := hc.1; omega) (by have := hc.2; omega)
          refine ⟨d, ⟨?_, by omega⟩, h3⟩
          have : d ≠ i := by rintro rfl; rw [hp] at h3; have := hc.1; omega
          omega
      obtain ⟨perm', s', a, b, b', c, d⟩ := ih (i + 1) perm s (by omega) hb'
      refine ⟨perm', s', ?_, ?_, ?_, ?_, d⟩
      · rw [permuteLoop]; simp only [hp, ne_eq, not_true_eq_false, if_false]; exact a
      · intro x h1 h2
        by_cases hx : x = i
        · subst hx; rw [b' x (by omega), hp]
        · exact b x (by omega) (by omega)
      · intro x hx; exact b' x (by omega)
      · intro X get hget x
        rw [c X get hget x]
        by_cases hx : x = i
        · subst hx; rw [if_neg (by omega), if_pos (by omega), hp]
        · by_cases h1 : i + 1 ≤ x ∧ x < i + 1 + m
          · rw [if_pos h1, if_pos (by omega)]
          · rw [if_neg h1, if_neg (by omega)]
    · obtain ⟨j, hj1, hj2, hj⟩ := hsur i (le_refl _) (by omega)
      have hji : j ≠ i := by rintro rfl; exact hp hj
      obtain ⟨j0, hs0, hs1, hs2, hs3⟩ := search_spec perm len i (i + 1) j (by omega) (by omega) hj
      have hjj : j0 = j := hinj j0 j (by omega) (by omega) hj1 hj2 (by rw [hs3, hj])
      subst hjj
      set perm1 := Function.update (Function.update perm j0 (perm i)) i i with hperm1
      have hpi := hmem i (le_refl _) (by omega)
      have hv : ∀ c, c ≠ i → perm1 c = if c = j0 then perm i else perm c := by
        intro c hc
        rw [hperm1, Function.update_of_ne hc]
        by_cases hcj : c = j0
        · subst hcj; simp
        · rw [Function.update_of_ne hcj, if_neg hcj]
      have hvi : perm1 i = i := by rw [hperm1]; simp
      have hb' : Set.BijOn perm1 (Set.Ico (i + 1) (i + 1 + m)) (Set.Ico (i + 1) (i + 1 + m)) := by
        refine ⟨?_, ?_, ?_⟩
        · intro c hc
          have c1 := hc.1
          have c2 := hc.2
          rw [hv c (by omega)]
          by_cases hcj : c = j0
          · rw [if_pos hcj]; exact ⟨by omega, by omega⟩
          · rw [if_neg hcj]
            have h1 := hmem c (by omega) (by omega)
            have h2 : perm c ≠ i := fun h => hcj (hinj c j0 (by omega) (by omega) (by omega) (by omega) (by rw [h, hj]))
            exact ⟨by omega, by omega⟩
        · intro c hc d hd h
          have c1 := hc.1
          have c2 := hc.2
          have d1 := hd.1
          have d2 := hd.2
          rw [hv c (by omega), hv d (by omega)] at h
          by_cases hcj : c = j0 <;> by_cases hdj : d = j0
          · rw [hcj, hdj]
          · rw [if_pos hcj, if_neg hdj] at h
            have := hinj i d (by omega) (by omega) (by omega) (by omega) h
            omega
          · rw [if_neg hcj, if_pos hdj] at h
            have := hinj c i (by omega) (by omega) (by omega) (by omega) h
            omega
          · rw [if_neg hcj, if_neg hdj] at h
            exact hinj c d (by omega) (by omega) (by omega) (by omega) h
        · intro c hc
          have c1 := hc.1
          have c2 := hc.2
          obtain ⟨d, h1, h2, h3⟩ := hsur c (by omega) (by omega)
          by_cases hdi : d = i
          · refine ⟨j0, ⟨by omega, by omega⟩, ?_⟩
            rw [hv j0 (by omega), if_pos rfl, ← h3, hdi]
          · refine ⟨d, ⟨by omega, by omega⟩, ?_⟩
            have hdj : d ≠ j0 := by rintro rfl; omega
            rw [hv d hdi, if_neg hdj, h3]
      obtain ⟨perm', s', a, b, b', c, d⟩ := ih (i + 1) perm1 (swap (perm i) i s) (by omega) hb'
      refine ⟨perm', s', ?_, ?_, ?_, ?_, ?_⟩
      · rw [permuteLoop]
        simp only [ne_eq, hp, not_false_eq_true, if_true, hs0, Option.bind_eq_bind, Option.bind_some]
        exact a
      · intro x h1 h2
        by_cases hx : x = i
        · subst hx; rw [b' x (by omega), hvi]
        · exact b x (by omega) (by omega)
      · intro x hx
        rw [b' x (by omega), hv x (by omega), if_neg (by omega)]
      · intro X get hget x
        rw [c X get hget x]
        by_cases hx : x = i
        · subst hx
          rw [if_neg (by omega), if_pos (by omega), hget, if_neg (fun h => hp h.symm), if_pos rfl]
        · by_cases h1 : i + 1 ≤ x ∧ x < i + 1 + m
          · rw [if_pos h1, if_pos (by omega), hget, hv x hx]
            by_cases hxj : x = j0
            · rw [if_pos hxj, if_pos rfl, hxj, hj]
            · have e1 : perm x ≠ perm i := fun h =>
                hx (hinj x i (by omega) (by omega) (by omega) (by omega) h)
              have e2 : perm x ≠ i := fun h =>
                hxj (hinj x j0 (by omega) (by omega) (by omega) (by omega) (by rw [h, hj]))
              rw [if_neg hxj, if_neg e1, if_neg e2]
          · have e1 : x ≠ perm i := by rintro rfl; omega
            rw [if_neg h1, if_neg (by omega), hget, if_neg e1, if_neg hx]
      · intro X inv hinv
        rw [d X inv hinv, hinv]
end

section
variable {α : Type}

/-- **C25** (columns). For every permutation of the column range, `DSPermuteColumns` ends without leaving
the array `perm`, puts old column `perm[i]` into position `i`, touches nothing else, and leaves the
identity in `perm`. -/
theorem C25_columns (len istart iend n : Nat) (perm : Nat → Nat) (Q : Nat → Nat → α)
    (h1 : istart ≤ iend) (h2 : iend ≤ len)
    (hb : Set.BijOn perm (Set.Ico istart iend) (Set.Ico istart iend)) :
    ∃ perm' Q', permuteColumns len istart iend n perm Q = some (perm', Q') ∧
      (∀ i, istart ≤ i → i < iend → perm' i = i) ∧
      (∀ k < n, ∀ i, istart ≤ i → i < iend → Q' k i = Q k (perm i)) ∧
      (∀ k i, n ≤ k ∨ i < istart ∨ iend ≤ i → Q' k i = Q k i) := by
  have e : istart + (iend - istart) = iend := by omega
  obtain ⟨perm', Q', a, b, b', c, d⟩ := permuteLoop_spec len (swapCols n) (iend - istart) istart perm Q
    (by omega) (by rw [e]; exact hb)
  refine ⟨perm', Q', a, by rw [e] at b; exact b, ?_, ?_⟩
  · intro k hk i hi1 hi2
    have := c α (fun s c => s k c) (by intro s p q c; simp [swapCols, hk]) i
    rw [if_pos (by omega)] at this
    exact this
  · intro k i hki
    by_cases hk : k < n
    · have := c α (fun s c => s k c) (by intro s p q c; simp [swapCols, hk]) i
      rw [if_neg (by omega)] at this
      exact this
    · exact d α (fun s => s k i) (by intro s p q; simp [swapCols, hk])

/-- **C25** (rows). -/
theorem C25_rows (len istart iend m : Nat) (perm : Nat → Nat) (Q : Nat → Nat → α)
    (h1 : istart ≤ iend) (h2 : iend ≤ len)
    (hb : Set.BijOn perm (Set.Ico istart iend) (Set.Ico istart iend)) :
    ∃ perm' Q', permuteRows len istart iend m perm Q = some (perm', Q') ∧
      (∀ i, istart ≤ i → i < iend → perm' i = i) ∧
      (∀ k < m, ∀ i, istart ≤ i → i < iend → Q' i k = Q (perm i) k) ∧
      (∀ k i, m ≤ k ∨ i < istart ∨ iend ≤ i → Q' i k = Q i k) := by
  have e : istart + (iend - istart) = iend := by omega
  obtain ⟨perm', Q', a, b, b', c, d⟩ := permuteLoop_spec len (swapRows m) (iend - istart) istart perm Q
    (by omega) (by rw [e]; exact hb)
  refine ⟨perm', Q', a, by rw [e] at b; exact b, ?_, ?_⟩
  · intro k hk i hi1 hi2
    have := c α (fun s c => s c k) (by intro s p q c; simp [swapRows, hk]) i
    rw [if_pos (by omega)] at this
    exact this
  · intro k i hki
    by_cases hk : k < m
    · have := c α (fun s c => s c k) (by intro s p q c; simp [swapRows, hk]) i
      rw [if_neg (by omega)] at this
      exact this
    · exact d α (fun s => s i k) (by intro s p q; simp [swapRows, hk])

/-- **C25** (two matrices at once, with different numbers of rows). -/
theorem C25_both (len istart iend n m : Nat) (perm : Nat → Nat) (U V : Nat → Nat → α)
    (h1 : istart ≤ iend) (h2 : iend ≤ len)
    (hb : Set.BijOn perm (Set.Ico istart iend) (Set.Ico istart iend)) :
    ∃ perm' U' V', permuteBoth len istart iend n m perm (U, V) = some (perm', (U', V')) ∧
      (∀ i, istart ≤ i → i < iend → perm' i = i) ∧
      (∀ k < n, ∀ i, istart ≤ i → i < iend → U' k i = U k (perm i)) ∧
      (∀ k i, n ≤ k ∨ i < istart ∨ iend ≤ i → U' k i = U k i) ∧
      (∀ k < m, ∀ i, istart ≤ i → i < iend → V' k i = V k (perm i)) ∧
      (∀ k i, m ≤ k ∨ i < istart ∨ iend ≤ i → V' k i = V k i) := by
  have e : istart + (iend - istart) = iend := by omega
  obtain ⟨perm', ⟨U', V'⟩, a, b, b', c, d⟩ := permuteLoop_spec len
    (fun p i (x : (Nat → Nat → α) × (Nat → Nat → α)) => (swapCols n p i x.1, swapCols m p i x.2))
    (iend - istart) istart perm (U, V) (by omega) (by rw [e]; exact hb)
  refine ⟨perm', U', V', a, by rw [e] at b; exact b, ?_, ?_, ?_, ?_⟩
  · intro k hk i hi1 hi2
    have := c α (fun s c => s.1 k c) (by intro s p q c; simp [swapCols, hk]) i
    rw [if_pos (by omega)] at this
    exact this
  · intro k i hki
    by_cases hk : k < n
    · have := c α (fun s c => s.1 k c) (by intro s p q c; simp [swapCols, hk]) i
      rw [if_neg (by omega)] at this
      exact this
    · exact d α (fun s => s.1 k i) (by intro s p q; simp [swapCols, hk])
  · intro k hk i hi1 hi2
    have := c α (fun s c => s.2 k c) (by intro s p q c; simp [swapCols, hk]) i
    rw [if_pos (by omega)] at this
    exact this
  · intro k i hki
    by_cases hk : k < m
    · have := c α (fun s c => s.2 k c) (by intro s p q c; simp [swapCols, hk]) i
      rw [if_neg (by omega)] at this
      exact this
    · exact d α (fun s => s.2 k i) (by intro s p q; simp [swapCols, hk])

/-- If `perm` is not a permutation of the range the search runs past the array: the hypothesis cannot
be dropped. -/
theorem C25_not_permutation_undefined (Q : Nat → Nat → α) :
    permuteColumns 2 0 2 2 (fun _ => 1) Q = none := by
  simp [permuteColumns, permuteLoop, search]

/-- Non-vacuity: a cyclic permutation of columns 1, 2, 3. -/
example : Set.BijOn (fun i => if i = 1 then 3 else if i = 2 then 1 else if i = 3 then 2 else i)
    (Set.Ico 1 4) (Set.Ico 1 4) := by
  refine ⟨?_, ?_, ?_⟩
  · rintro c ⟨h1, h2⟩
    simp only [Set.mem_Ico]
    split_ifs <;> omega
  · rintro c ⟨h1, h2⟩ d ⟨h3, h4⟩ h
    simp only at h
    split_ifs at h <;> omega
  · rintro c ⟨h1, h2⟩
    have : c = 1 ∨ c = 2 ∨ c = 3 := by omega
    rcases this with rfl | rfl | rfl
    · exact ⟨2, ⟨by omega, by omega⟩, rfl⟩
    · exact ⟨3, ⟨by omega, by omega⟩, rfl⟩
    · exact ⟨1, ⟨by omega, by omega⟩, rfl⟩

end

/-! ### C26 -/

section
variable {V : Type}

theorem group_ranks {cmp : VCmp V} {pr : V → Bool} {conj : V → V} {val : List V}
    (hc : VConsistent cmp) (hconj : VConj cmp pr conj) {b : List Nat} (hb : IsGroup pr conj val b) :
    ∃ p q v w, b.head? = some p ∧ b.getLast? = some q ∧ val[p]? = some v ∧ val[q]? = some w ∧
      ∀ x ∈ b, ∃ u, val[x]? = some u ∧ cmp u v ≤ 0 ∧ cmp v u ≤ 0 ∧ cmp u w ≤ 0 ∧ cmp w u ≤ 0 := by
  have hz : ∀ a b, cmp a b = 0 → cmp b a = 0 := by
    intro a b h
    have h1 := hc.anti a b
    have h2 := hc.anti b a
    omega
  have hrefl : ∀ a, cmp a a ≤ 0 := by
    intro a; have := hc.anti a a; omega
  rcases hb with ⟨p, v, rfl, h1, h2⟩ | ⟨p, q, v, rfl, h1, h2, h3, h4⟩
  · refine ⟨p, p, v, v, rfl, rfl, h1, h1, ?_⟩
    intro x hx
    simp at hx; subst hx
    exact ⟨v, h1, hrefl v, hrefl v, hrefl v, hrefl v⟩
  · have e := hconj v h3
    have e' := hz _ _ e
    refine ⟨p, q, v, conj v, rfl, rfl, h1, h2, ?_⟩
    intro x hx
    simp at hx
    rcases hx with rfl | rfl
    · exact ⟨v, h1, hrefl v, hrefl v, by omega, by omega⟩
    · exact ⟨conj v, h2, by omega, by omega, hrefl _, hrefl _⟩

/-- **C26** (pairs and locked values). Whatever the criterion answers, the sort makes no out-of-bounds
access, leaves positions below `l` and from `t` on as they are, and in between lists the same real values
and conjugate pairs, each pair still in adjacent positions and in its original order. -/
theorem C26_pairs (cmp : VCmp V) (pr : V → Bool) (conj : V → V) (test : Bool) (val : List V)
    (ht : test = false → ∀ v, pr v = false)
    (pre post : List Nat) (bs : List (List Nat)) (hne : bs ≠ [])
    (hr : ∀ b ∈ bs, IsGroup pr conj val b) :
    ∃ bs' : List (List Nat), bs'.Perm bs ∧
      sortEigenvalues cmp pr test val pre.length (pre.length + bs.flatten.length)
        (pre ++ (bs.flatten ++ post)) = some (pre ++ (bs'.flatten ++ post)) := by
  classical
  cases bs with
  | nil => exact absurd rfl hne
  | cons b0 bs =>
    refine ⟨_, ?_, sort_correct cmp pr conj val test ht b0 pre post bs hr⟩
    exact (List.reverse_perm _).trans ((List.perm_insertionSort _ _).trans (List.reverse_perm _))

theorem sorted_aux {cmp : VCmp V} {pr : V → Bool} {conj : V → V} {val : List V}
    (hc : VConsistent cmp) (hconj : VConj cmp pr conj) (bs : List (List Nat))
    (hr : ∀ b ∈ bs, IsGroup pr conj val b) [DecidableRel (rel cmp val)] :
    ((bs.reverse.insertionSort (rel cmp val)).reverse.flatten).Pairwise (RanksAt cmp val) := by
  -- work with a total transitive relation that agrees with `rel` on groups
  let key : List Nat → Option V := fun b => b.head?.bind fun p => val[p]?
  let R : List Nat → List Nat → Prop := fun b g => ∀ v w, key b = some v → key g = some w → cmp w v ≤ 0
  have hkey : ∀ b, IsGroup pr conj val b → ∃ v, key b = some v ∧
      (∀ q w, b.getLast? = some q → val[q]? = some w → cmp v w ≤ 0 ∧ cmp w v ≤ 0) ∧
      ∀ x ∈ b, ∃ u, val[x]? = some u ∧ cmp u v ≤ 0 ∧ cmp v u ≤ 0 := by
    intro b hb
    obtain ⟨p, q, v, w, h1, h2, h3, h4, h5⟩ := group_ranks hc hconj hb
    refine ⟨v, by simp [key, h1, h3], ?_, ?_⟩
    · intro q' w' hq' hw'
      rw [h2] at hq'; cases hq'
      rw [h4] at hw'; cases hw'
      obtain ⟨u, a1, a2, a3, a4, a5⟩ := h5 p (List.mem_of_head? h1)
      rw [h3] at a1; cases a1
      exact ⟨a4, a5⟩
    · intro x hx
      obtain ⟨u, a1, a2, a3, a4, a5⟩ := h5 x hx
      exact ⟨u, a1, a2, a3⟩
  have hRrel : ∀ b g, IsGroup pr conj val b → IsGroup pr conj val g → (rel cmp val b g ↔ R b g) := by
    intro b g hb hg
    obtain ⟨p, q, v, w, h1, h2, h3, h4, h5⟩ := group_ranks hc hconj hb
    obtain ⟨p', q', v', w', h1', h2', h3', h4', h5'⟩ := group_ranks hc hconj hg
    rw [rel_iff h1 h2' h3 h4']
    obtain ⟨u, a1, a2, a3, a4, a5⟩ := h5' p' (List.mem_of_head? h1')
    rw [h3'] at a1; cases a1
    have hk : R b g ↔ cmp v' v ≤ 0 := by
      simp [R, key, h1, h1', h3, h3']
    rw [hk]
    have hanti := hc.anti v w'
    constructor
    · intro h
      exact hc.trans _ _ _ a4 (by omega)
    · intro h hcon
      have := hc.trans _ _ _ a5 h
      omega
  have hins : ∀ (b : List Nat) (l : List (List Nat)), IsGroup pr conj val b →
      (∀ g ∈ l, IsGroup pr conj val g) → l.Pairwise R → (l.orderedInsert (rel cmp val) b).Pairwise R := by
    intro b l hb hl hp
    induction l with
    | nil => simp
    | cons g l ih =>
      rw [List.orderedInsert]
      have hg := hl g (by simp)
      have hl' : ∀ x ∈ l, IsGroup pr conj val x := fun x hx => hl x (by simp [hx])
      rw [List.pairwise_cons] at hp
      by_cases h : rel cmp val b g
      · rw [if_pos h, List.pairwise_cons]
        refine ⟨?_, List.pairwise_cons.2 hp⟩
        have hbg := (hRrel b g hb hg).1 h
        intro x hx
        simp at hx
        rcases hx with rfl | hx
        · exact hbg
        · intro v w hv hw
          obtain ⟨u, hu, _⟩ := hkey g hg
          exact hc.trans _ _ _ (hp.1 x hx u w hu hw) (hbg v u hv hu)
      · rw [if_neg h, List.pairwise_cons]
        refine ⟨?_, ih hl' hp.2⟩
        intro x hx
        rw [List.mem_orderedInsert] at hx
        rcases hx with rfl | hx
        · intro v w hv hw
          have : ¬ R x g := fun hh => h ((hRrel x g hb hg).2 hh)
          have hcon : ¬ cmp v w ≤ 0 := by
            intro hle
            apply this
            intro v' w' hv' hw'
            rw [hw] at hv'; cases hv'
            rw [hv] at hw'; cases hw'
            exact hle
          have := hc.anti w v
          omega
        · exact hp.1 x hx
  have hall : ∀ l : List (List Nat), (∀ b ∈ l, IsGroup pr conj val b) →
      (l.insertionSort (rel cmp val)).Pairwise R := by
    intro l hl
    induction l with
    | nil => simp
    | cons b l ih =>
      rw [List.insertionSort_cons]
      refine hins b _ (hl b (by simp)) ?_ (ih (fun x hx => hl x (by simp [hx])))
      intro g hg
      exact hl g (by simp [(List.perm_insertionSort _ l).mem_iff.1 hg])
  have hmem : ∀ b ∈ (bs.reverse.insertionSort (rel cmp val)).reverse, IsGroup pr conj val b := by
    intro b hb
    rw [List.mem_reverse, (List.perm_insertionSort _ _).mem_iff, List.mem_reverse] at hb
    exact hr b hb
  have hp := hall bs.reverse (by simpa using hr)
  rw [List.pairwise_flatten]
  constructor
  · intro b hb
    obtain ⟨v, hv, _, hx⟩ := hkey b (hmem b hb)
    refine List.pairwise_of_forall_mem_list ?_
    intro p hp q hq
    obtain ⟨u, a1, a2, a3⟩ := hx p hp
    obtain ⟨u', b1, b2, b3⟩ := hx q hq
    exact ⟨u, u', a1, b1, hc.trans _ _ _ a2 b3⟩
  · rw [List.pairwise_reverse]
    have hmem' : ∀ b ∈ bs.reverse.insertionSort (rel cmp val), IsGroup pr conj val b := by
      intro b hb; exact hmem b (by simpa using hb)
    refine List.Pairwise.imp_of_mem ?_ hp
    intro a b ha hb hab p hp q hq
    obtain ⟨va, hva, _, hxa⟩ := hkey a (hmem' a ha)
    obtain ⟨vb, hvb, _, hxb⟩ := hkey b (hmem' b hb)
    obtain ⟨u, a1, a2, a3⟩ := hxb p hp
    obtain ⟨u', b1, b2, b3⟩ := hxa q hq
    exact ⟨u, u', a1, b1, hc.trans _ _ _ a2 (hc.trans _ _ _ (hab va vb hva hvb) b3)⟩

/-- **C26** (order). For a consistent criterion that does not distinguish conjugates, the values of
positions `l..t-1` are listed in order, and the other positions are unchanged. -/
theorem C26_sorted (cmp : VCmp V) (hc : VConsistent cmp) (pr : V → Bool) (conj : V → V)
    (hconj : VConj cmp pr conj) (test : Bool) (val : List V) (ht : test = false → ∀ v, pr v = false)
    (pre mid post : List Nat) (hne : mid ≠ [])
    (hr : ∃ bs : List (List Nat), mid = bs.flatten ∧ ∀ b ∈ bs, IsGroup pr conj val b) :
    ∃ mid', sortEigenvalues cmp pr test val pre.length (pre.length + mid.length) (pre ++ (mid ++ post))
        = some (pre ++ (mid' ++ post)) ∧ mid'.Perm mid ∧ mid'.Pairwise (RanksAt cmp val) := by
  classical
  obtain ⟨bs, rfl, hbs⟩ := hr
  cases bs with
  | nil => exact absurd rfl hne
  | cons b0 bs =>
    refine ⟨_, sort_correct cmp pr conj val test ht b0 pre post bs hbs, ?_,
      sorted_aux hc hconj (b0 :: bs) hbs⟩
    exact ((List.reverse_perm _).trans ((List.perm_insertionSort _ _).trans (List.reverse_perm _))).flatten

/-- **C26** (stability). Values that the criterion considers equal to a given value `x` keep their
relative order. -/
theorem C26_stable (cmp : VCmp V) (hc : VConsistent cmp) (pr : V → Bool) (conj : V → V)
    (hconj : VConj cmp pr conj) (test : Bool) (val : List V) (ht : test = false → ∀ v, pr v = false)
    (pre mid post mid' : List Nat) (hne : mid ≠ [])
    (hr : ∃ bs : List (List Nat), mid = bs.flatten ∧ ∀ b ∈ bs, IsGroup pr conj val b)
    (hrun : sortEigenvalues cmp pr test val pre.length (pre.length + mid.length) (pre ++ (mid ++ post))
        = some (pre ++ (mid' ++ post))) (x : V) (same : Nat → Bool)
    (hsame : ∀ p, same p = true ↔ ∃ v, val[p]? = some v ∧ cmp v x = 0) :
    mid'.filter same = mid.filter same := by
  classical
  obtain ⟨bs, rfl, hbs⟩ := hr
  cases bs with
  | nil => exact absurd rfl hne
  | cons b0 bs =>
    rw [sort_correct cmp pr conj val test ht b0 pre post bs hbs] at hrun
    have hrun := Option.some.inj hrun
    rw [List.append_cancel_left_eq, List.append_cancel_right_eq] at hrun
    subst hrun
    have hz : ∀ a b, cmp a b = 0 ↔ cmp a b ≤ 0 ∧ cmp b a ≤ 0 := by
      intro a b
      have h1 := hc.anti a b
      have h2 := hc.anti b a
      omega
    let Q : List Nat → Bool := fun b => (b.head?.map same).getD false
    have huni : ∀ b, IsGroup pr conj val b → ∀ p ∈ b, same p = Q b := by
      intro b hb p hp
      obtain ⟨p', q, v, w, h1, h2, h3, h4, h5⟩ := group_ranks hc hconj hb
      obtain ⟨u, a1, a2, a3, _⟩ := h5 p hp
      simp only [Q, h1, Option.map_some, Option.getD_some]
      rw [Bool.eq_iff_iff, hsame, hsame]
      simp only [a1, h3, Option.some.injEq, exists_eq_left', hz]
      constructor
      · rintro ⟨h1, h2⟩; exact ⟨hc.trans _ _ _ a3 h1, hc.trans _ _ _ h2 a2⟩
      · rintro ⟨h1, h2⟩; exact ⟨hc.trans _ _ _ a2 h1, hc.trans _ _ _ h2 a3⟩
    let Q' : List Nat → Bool := fun b => Q b && decide (IsGroup pr conj val b)
    have huni' : ∀ b, IsGroup pr conj val b → ∀ p ∈ b, same p = Q' b := by
      intro b hb p hp
      simp only [Q', hb, decide_true, Bool.and_true]
      exact huni b hb p hp
    rw [Verif.Sort.filter_flatten_uniform same Q' (b0 :: bs) (fun b hb => huni' b (hbs b hb)),
      Verif.Sort.filter_flatten_uniform same Q' _ (fun b hb => huni' b (by
        rw [List.mem_reverse, (List.perm_insertionSort _ _).mem_iff, List.mem_reverse] at hb
        exact hbs b hb)),
      List.filter_reverse, Verif.Sort.filter_insertionSort, List.filter_reverse, List.reverse_reverse]
    intro a b ha hb
    simp only [Q', Bool.and_eq_true, decide_eq_true_eq] at ha hb
    obtain ⟨p, q, v, w, h1, h2, h3, h4, h5⟩ := group_ranks hc hconj ha.2
    obtain ⟨p', q', v', w', h1', h2', h3', h4', h5'⟩ := group_ranks hc hconj hb.2
    rw [rel_iff h1 h2' h3 h4']
    have e1 : same p = true := by have := ha.1; simpa [Q, h1] using this
    have e2 : same q' = true := by
      rw [huni b hb.2 q' (List.mem_of_getLast? h2')]; exact hb.1
    rw [hsame] at e1 e2
    simp only [h3, h4', Option.some.injEq, exists_eq_left', hz] at e1 e2
    have := hc.trans _ _ _ e2.1 e1.2
    have := hc.anti v w'
    omega

/-- Nothing to sort (`l = t`): the permutation is unchanged, provided that `l` is not the whole array. -/
theorem C26_empty (cmp : VCmp V) (pr : V → Bool) (test : Bool) (val : List V) (perm : List Nat) (l : Nat)
    (hl : l < perm.length) (hv : ∀ p ∈ perm, p < val.length) :
    sortEigenvalues cmp pr test val l l perm = some perm := by
  have hloop : ∀ fuel i, l < i → sortLoop cmp pr val l l fuel i perm = some perm := by
    intro fuel i hi
    cases fuel with
    | zero => rfl
    | succ f => rw [sortLoop, if_neg (by omega)]
  unfold sortEigenvalues
  cases test
  · simp only [Bool.false_eq_true, if_false]; exact hloop _ _ (by omega)
  · have h1 : perm[l]? = some perm[l] := by simp
    have h2 : val[perm[l]]? = some (val[perm[l]]'(hv _ (List.getElem_mem hl))) := by simp
    simp only [if_true, h1, h2, Option.bind_eq_bind, Option.bind_some]
    apply hloop
    split_ifs <;> omega

/-- When all `ld` values are locked the first entry examined lies outside the array. -/
theorem C26_all_locked_undefined (cmp : VCmp V) (pr : V → Bool) (val : List V) (perm : List Nat) (n : Nat) :
    sortEigenvalues cmp pr true val perm.length n perm = none := by
  simp [sortEigenvalues]

/-- **C26** (real eigenvalues). `DSSortEigenvaluesReal`: positions `l..t-1` sorted, the rest unchanged. -/
theorem C26_real (cmp : VCmp V) (hc : VConsistent cmp) (val : List V) (pre mid post : List Nat)
    (hv : ∀ p ∈ mid, p < val.length) :
    ∃ mid', sortReal cmp val pre.length (pre.length + mid.length) (pre ++ (mid ++ post))
        = some (pre ++ (mid' ++ post)) ∧ mid'.Perm mid ∧ mid'.Pairwise (RanksAt cmp val) := by
  classical
  refine ⟨_, sortReal_correct cmp val pre post mid hv, ?_, ?_⟩
  · exact (List.reverse_perm _).trans ((List.perm_insertionSort _ _).trans (List.reverse_perm _))
  · have h := sorted_aux (pr := fun _ => false) (conj := id) hc (by intro v hv; simp at hv)
      (mid.map fun p => [p]) (by
        intro b hb
        rw [List.mem_map] at hb
        obtain ⟨p, hp, rfl⟩ := hb
        exact Or.inl ⟨p, val[p]'(hv p hp), rfl, List.getElem?_eq_getElem _, rfl⟩)
    have e : ∀ l : List Nat, ((l.map fun p => [p]).insertionSort (rel cmp val))
        = (l.insertionSort (fun a b => rel cmp val [a] [b])).map fun p => [p] := by
      intro l
      induction l with
      | nil => rfl
      | cons a l ih =>
        rw [List.map_cons, List.insertionSort_cons, List.insertionSort_cons, ih]
        generalize l.insertionSort (fun a b => rel cmp val [a] [b]) = l'
        induction l' with
        | nil => rfl
        | cons b l' ih' =>
          rw [List.map_cons, List.orderedInsert, List.orderedInsert]
          by_cases h : rel cmp val [a] [b]
          · rw [if_pos h, if_pos h]; rfl
          · rw [if_neg h, if_neg h, ih']; rfl
    have e2 : ∀ l : List Nat, (l.map fun p => [p]).flatten = l := by
      intro l
      induction l with
      | nil => rfl
      | cons a l ih => rw [List.map_cons, List.flatten_cons, ih]; rfl
    rw [← List.map_reverse, e, ← List.map_reverse, e2] at h
    exact h

/-- **C26** (real eigenvalues, stability). -/
theorem C26_real_stable (cmp : VCmp V) (hc : VConsistent cmp) (val : List V) (pre mid post mid' : List Nat)
    (hv : ∀ p ∈ mid, p < val.length)
    (hrun : sortReal cmp val pre.length (pre.length + mid.length) (pre ++ (mid ++ post))
        = some (pre ++ (mid' ++ post))) (x : V) (same : Nat → Bool)
    (hsame : ∀ p, same p = true ↔ ∃ v, val[p]? = some v ∧ cmp v x = 0) :
    mid'.filter same = mid.filter same := by
  classical
  rw [sortReal_correct cmp val pre post mid hv] at hrun
  have hrun := Option.some.inj hrun
  rw [List.append_cancel_left_eq, List.append_cancel_right_eq] at hrun
  subst hrun
  rw [List.filter_reverse, Verif.Sort.filter_insertionSort, List.filter_reverse, List.reverse_reverse]
  intro a b ha hb
  rw [hsame] at ha hb
  obtain ⟨v, hva, hv0⟩ := ha
  obtain ⟨w, hwb, hw0⟩ := hb
  rw [rel_iff (p := a) (q := b) rfl rfl hva hwb]
  have h1 := hc.anti v w
  have h2 := hc.anti v x
  have h3 := hc.anti x v
  have := hc.trans w x v (by omega) (by omega)
  omega

/-! ### C55: sorting keeps eigenvalues and eigenvectors matched -/

/-- **C55**. After `DSSort` of a Hermitian problem, the value reported in position `i ≥ l` is the old value
of some position `σ i`, the vector in column `i` is the old column `σ i` (entries of its first `n` rows),
`σ` is a permutation of the unlocked positions, the values are in order, the diagonal agrees with the
reported values, and the locked columns are unchanged. -/
theorem C55_sort_hep (cmp : VCmp V) (hc : VConsistent cmp) (d : List V) (l n : Nat)
    (hln : l ≤ n) (hn : n ≤ d.length) (wr0 : Nat → Option V) (Q : Nat → Nat → V) :
    ∃ wr' d' Q' σ, sortHEP cmp d l n n wr0 Q = some (wr', d', Q') ∧
      Set.BijOn σ (Set.Ico l n) (Set.Ico l n) ∧
      (∀ i, l ≤ i → i < n → wr' i = d[σ i]? ∧ d' i = d[σ i]? ∧ ∀ k < n, Q' k i = Q k (σ i)) ∧
      (∀ i j v w, l ≤ i → i ≤ j → j < n → wr' i = some v → wr' j = some w → cmp v w ≤ 0) ∧
      (∀ i, i < l → d' i = d[i]? ∧ wr' i = wr0 i ∧ ∀ k, Q' k i = Q k i) := by
  have hrange : List.range d.length = List.range l ++ ((List.range (n - l)).map (l + ·) ++
      (List.range (d.length - n)).map (n + ·)) := by
    rw [show d.length = l + ((n - l) + (d.length - n)) by omega, List.range_add, List.range_add]
    rw [List.map_append, List.map_map]
    congr 2
    have : l + ((n - l) + (d.length - n)) - n = d.length - n := by omega
    rw [this]
    apply List.map_congr_left
    intro a _
    simp only [Function.comp_apply]
    omega
  set mid := (List.range (n - l)).map (l + ·) with hmid
  have hml : mid.length = n - l := by simp [hmid]
  obtain ⟨mid', h1, h2, h3⟩ := C26_real cmp hc d (List.range l) mid
    ((List.range (d.length - n)).map (n + ·)) (by
      intro p hp
      simp [hmid] at hp
      obtain ⟨a, ha, rfl⟩ := hp
      omega)
  rw [← hrange, hml, List.length_range, show l + (n - l) = n by omega] at h1
  set post := (List.range (d.length - n)).map (n + ·) with hpost
  have hml' : mid'.length = n - l := by rw [h2.length_eq, hml]
  let σ : Nat → Nat := fun i => (List.range l ++ (mid' ++ post)).getD i 0
  have hget : ∀ i, l ≤ i → i < n → (List.range l ++ (mid' ++ post))[i]? = mid'[i - l]? := by
    intro i h1 h2
    rw [List.getElem?_append_right (by simpa using h1), List.length_range,
      List.getElem?_append_left (by omega)]
  have hσ : ∀ i (h1 : l ≤ i) (h2 : i < n), σ i = mid'[i - l]'(by omega) := by
    intro i h1 h2
    simp only [σ, List.getD, hget i h1 h2]
    rw [List.getElem?_eq_getElem (by omega)]
    rfl
  have hnd : mid'.Nodup := by
    rw [h2.nodup_iff, hmid]
    exact (List.nodup_range).map (fun a b h => by simpa using h)
  have hmm : ∀ x, x ∈ mid' ↔ l ≤ x ∧ x < n := by
    intro x
    rw [h2.mem_iff, hmid]
    simp only [List.mem_map, List.mem_range]
    constructor
    · rintro ⟨a, ha, rfl⟩; omega
    · intro h; exact ⟨x - l, by omega, by omega⟩
  have hbij : Set.BijOn σ (Set.Ico l n) (Set.Ico l n) := by
    refine ⟨?_, ?_, ?_⟩
    · rintro i ⟨a, b⟩
      rw [hσ i a b]
      exact (hmm _).1 (List.getElem_mem _)
    · rintro i ⟨a, b⟩ j ⟨a', b'⟩ h
      rw [hσ i a b, hσ j a' b'] at h
      have := (hnd.getElem_inj_iff).1 h
      omega
    · rintro x hx
      obtain ⟨i, hi, e⟩ := List.getElem_of_mem ((hmm x).2 hx)
      refine ⟨l + i, ⟨by omega, by omega⟩, ?_⟩
      rw [hσ (l + i) (by omega) (by omega)]
      simp only [Nat.add_sub_cancel_left]
      exact e
  obtain ⟨perm', Q', a1, a2, a3, a4⟩ := C25_columns d.length l n n σ Q hln hn hbij
  have hperm : ∀ i, l ≤ i → i < n → (List.range l ++ (mid' ++ post))[i]? = some (σ i) := by
    intro i h1 h2
    rw [hget i h1 h2, hσ i h1 h2, List.getElem?_eq_getElem]
  refine ⟨_, _, Q', σ, by
    unfold sortHEP
    rw [h1]
    simp only [Option.bind_eq_bind, Option.bind_some]
    show (permuteColumns d.length l n n σ Q).bind _ = _
    rw [a1]
    rfl, hbij, ?_, ?_, ?_⟩
  · intro i hi1 hi2
    simp only [hi1, hi2, and_self, if_true, hperm i hi1 hi2, Option.bind_some, true_and]
    exact fun k hk => a3 k hk i hi1 hi2
  · intro i j v w hi hij hj hv hw
    simp only [hi, show i < n by omega, and_self, if_true, hperm i hi (by omega), Option.bind_some] at hv
    simp only [show l ≤ j by omega, hj, and_self, if_true, hperm j (by omega) hj, Option.bind_some] at hw
    rcases Nat.eq_or_lt_of_le hij with rfl | hlt
    · rw [hv] at hw; cases hw
      have := hc.anti v v; omega
    · have := List.pairwise_iff_getElem.1 h3 (i - l) (j - l) (by omega) (by omega) (by omega)
      obtain ⟨v', w', b1, b2, b3⟩ := this
      rw [← hσ i hi (by omega), hv] at b1
      rw [← hσ j (by omega) hj, hw] at b2
      cases b1; cases b2
      exact b3
  · intro i hi
    have : ¬ (l ≤ i ∧ i < n) := by omega
    simp only [this, if_false, true_and]
    exact fun k => a4 k i (Or.inr (Or.inl hi))

/-! ### Non-vacuity -/

/-- Largest real part first; values are pairs (real part, imaginary part). -/
def exCmp : VCmp (Int × Int) := fun a b => if a.1 < b.1 then 1 else if b.1 < a.1 then -1 else 0

example : VConsistent exCmp := by
  constructor
  · intro a b; unfold exCmp; split_ifs <;> omega
  · intro a b c; unfold exCmp; split_ifs <;> omega

example : VConj exCmp (fun v => v.2 != 0) (fun v => (v.1, -v.2)) := by
  intro v _; simp [exCmp]

example : ∃ bs : List (List Nat), [1, 2, 3, 4] = bs.flatten ∧
    ∀ b ∈ bs, IsGroup (fun v : Int × Int => v.2 != 0) (fun v => (v.1, -v.2))
      [(9, 0), (1, 0), (2, 5), (2, -5), (7, 0)] b := by
  refine ⟨[[1], [2, 3], [4]], rfl, ?_⟩
  intro b hb
  simp at hb
  rcases hb with rfl | rfl | rfl
  · exact Or.inl ⟨1, (1, 0), rfl, rfl, rfl⟩
  · exact Or.inr ⟨2, 3, (2, 5), rfl, rfl, rfl, rfl, rfl⟩
  · exact Or.inl ⟨4, (7, 0), rfl, rfl, rfl⟩

end
end Verif.DS
