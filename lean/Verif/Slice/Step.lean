import Verif.Slice.Insert
/-! One iteration of the main loop preserves the invariant. -/
set_option linter.all false
namespace Verif.Slice
noncomputable section
open Classical
section
variable {P : Par} {spec : Multiset ℝ} {S : SR} {st : St}

theorem R.bind_ok {α β : Type} {r : R α} {f : α → R β} {b : β} (h : r.bind f = .ok b) : ∃ a, r = .ok a ∧ f a = .ok b := by
  cases r with
  | ok a => exact ⟨a, rfl, h⟩
  | err => simp [R.bind] at h
  | null => simp [R.bind] at h
  | stale => simp [R.bind] at h
  | running => simp [R.bind] at h

theorem middle_cases (P : Par) (v n : ℝ) : middle P v n = v ∨ middle P v n = (v + n) / 2 := by
  unfold middle
  by_cases h : |v - (v + n) / 2| ≤ P.narrow * |v|
  · left; rw [if_pos h]
  · right; rw [if_neg h]

theorem cap_facts (hd : S.dir = 1 ∨ S.dir = -1) (x c : ℝ) (h1 : 0 ≤ (S.dir : ℝ) * (x - c)) (h2 : 0 ≤ (S.dir : ℝ) * (S.int1 - c)) :
    0 ≤ (S.dir : ℝ) * (cap S x - c) ∧ 0 ≤ (S.dir : ℝ) * (S.int1 - cap S x) := by
  unfold cap
  by_cases h : (S.dir : ℝ) * (S.int1 - x) < 0
  · rw [if_pos h]; exact ⟨h2, by simp⟩
  · rw [if_neg h]; exact ⟨h1, not_lt.mp h⟩

theorem dir_sq (hd : S.dir = 1 ∨ S.dir = -1) : (S.dir : ℝ) * S.dir = 1 := by
  rcases hd with h | h <;> rw [h] <;> norm_num

theorem forward (hd : S.dir = 1 ∨ S.dir = -1) (c t : ℝ) (ht : 0 ≤ t) : 0 ≤ (S.dir : ℝ) * (c + (S.dir : ℝ) * t - c) := by
  have := dir_sq hd
  have h2 : (S.dir : ℝ) * (c + (S.dir : ℝ) * t - c) = (S.dir * S.dir) * t := by ring
  rw [h2, this]; linarith

theorem dPrev_nonneg (st : St) : 0 ≤ dPrev P S st := by
  unfold dPrev
  cases prevDiff st.cur.inertia st.left with
  | some s => exact abs_nonneg _
  | none =>
    dsimp only
    split_ifs <;> positivity

theorem newRight_state (conv : List ℝ) (v : ℝ) (s' : St) (h : newRight P S st conv = .ok (v, s')) : ∃ k, s' = { st with nleap := k } := by
  unfold newRight at h
  split at h
  · injection h with h; injection h with h1 h2; exact ⟨st.nleap, h2.symm⟩
  · split at h
    · split at h
      · split at h
        · injection h with h; injection h with h1 h2; exact ⟨_, h2.symm⟩
        · simp at h
      · split at h
        · simp at h
        · injection h with h; injection h with h1 h2; exact ⟨st.nleap, h2.symm⟩
    · injection h with h; injection h with h1 h2; exact ⟨_, h2.symm⟩

theorem newRight_spec (hd : S.dir = 1 ∨ S.dir = -1) (conv : List ℝ) (v : ℝ) (s' : St) (h : newRight P S st conv = .ok (v, s'))
    (hc : 0 ≤ (S.dir : ℝ) * (S.int1 - st.cur.value)) :
    (∃ k, s' = { st with nleap := k }) ∧ (∀ n1 ∈ st.right.head?, v = middle P st.cur.value n1.value)
      ∧ (st.right = [] → 0 ≤ (S.dir : ℝ) * (v - st.cur.value) ∧ 0 ≤ (S.dir : ℝ) * (S.int1 - v)) := by
  refine ⟨newRight_state conv v s' h, ?_⟩
  unfold newRight at h
  cases hr : st.right with
  | cons n1 t =>
    rw [hr] at h
    injection h with h
    injection h with h1 h2
    refine ⟨fun n hn => ?_, fun hh => by simp at hh⟩
    simp at hn
    rw [← hn, ← h1]
  | nil =>
    rw [hr] at h
    dsimp only at h
    refine ⟨fun n hn => by simp at hn, fun _ => ?_⟩
    · by_cases hn : st.cur.neigs = 0
      · rw [if_pos hn] at h
        cases hl : st.left with
        | cons n0 t =>
          rw [hl] at h
          dsimp only at h
          split_ifs at h
          injection h with h
          injection h with h1 h2
          rw [← h1]
          refine cap_facts hd _ _ ?_ hc
          have := forward (S := S) hd st.cur.value (10 * |st.cur.value - n0.value|) (by positivity)
          rwa [show st.cur.value + 10 * (S.dir : ℝ) * |st.cur.value - n0.value| = st.cur.value + (S.dir : ℝ) * (10 * |st.cur.value - n0.value|) by ring]
        | nil =>
          rw [hl] at h
          dsimp only at h
          split_ifs at h
          injection h with h
          injection h with h1 h2
          rw [← h1]
          refine cap_facts hd _ _ ?_ hc
          unfold stepFirst
          dsimp only
          generalize hD : (if 0 < idxP S st.cur.value conv then |st.cur.value - at' conv 0| / ((idxP S st.cur.value conv : ℝ) + 0.3)
            else |st.cur.value - at' conv (conv.length - 1)| / ((conv.length : ℝ) + 0.3)) = D
          have hD0 : 0 ≤ D := by
            rw [← hD]; split_ifs <;> positivity
          have := forward (S := S) hd st.cur.value (D * P.nev / 2) (by positivity)
          rwa [show st.cur.value + (S.dir : ℝ) * D * P.nev / 2 = st.cur.value + (S.dir : ℝ) * (D * P.nev / 2) by ring]
      · rw [if_neg hn] at h
        injection h with h
        injection h with h1 h2
        rw [← h1]
        refine cap_facts hd _ _ ?_ hc
        unfold stepAccepted
        dsimp only
        have hD0 := dPrev_nonneg (P := P) (S := S) st
        generalize dPrev P S st = D at hD0
        have := forward (S := S) hd st.cur.value (D * P.nev / 2) (by positivity)
        rw [show st.cur.value + (S.dir : ℝ) * (D * P.nev / 2) = st.cur.value + (S.dir : ℝ) * D * P.nev / 2 by ring] at this
        split_ifs with h3
        · have h4 : (S.dir : ℝ) * (at' st.eigr (st.cur.index + st.cur.neigs - 1) + (S.dir : ℝ) * D * P.nev / 2 - st.cur.value)
            = (S.dir : ℝ) * (at' st.eigr (st.cur.index + st.cur.neigs - 1) - st.cur.value)
              + (S.dir : ℝ) * (st.cur.value + (S.dir : ℝ) * D * P.nev / 2 - st.cur.value) := by ring
          rw [h4]; linarith
        · exact this

/-- The effect of lines 1305-1308. -/
theorem doRight_spec (hd : S.dir = 1 ∨ S.dir = -1) (n1 f1 : ℤ) (conv : List ℝ) (s2 : St) (hslot : st.slot = some st.cur.id)
    (h : doRight P S n1 f1 conv st = .ok s2) (hc : 0 ≤ (S.dir : ℝ) * (S.int1 - st.cur.value))
    (hn : ∀ n ∈ st.right.head?, 0 < (S.dir : ℝ) * (n.value - st.cur.value)) :
    s2.left = st.left ∧ s2.cur = st.cur ∧ s2.eigr = st.eigr ∧ s2.perm = st.perm
    ∧ ∃ (Y : List Shift) (rp : Bool), s2.right = Y ++ st.right ∧ s2.next = st.next + Y.length
      ∧ s2.pend = (if rp = true then [st.cur.id] else []) ++ (idsOf Y ++ st.pend)
      ∧ ((Y = [] ∧ rp = false ∧ s2.slot = some st.cur.id) ∨ s2.slot = none)
      ∧ (rp = true → Y = [])
      ∧ (Y = [] ∨ ∃ y, Y = [y] ∧ 0 < (S.dir : ℝ) * (y.value - st.cur.value) ∧ 0 ≤ (S.dir : ℝ) * ((nbr S st).value - y.value)
      ∧ (∀ n1 ∈ st.right.head?, 0 < (S.dir : ℝ) * (n1.value - y.value)) ∧ st.next ≤ y.id ∧ y.id < st.next + 1)
      ∧ (Y ≠ [] ∨ rp = true ∨ ¬ f1 < n1) := by
  unfold doRight at h
  by_cases hf : f1 < n1
  · rw [if_pos hf] at h
    obtain ⟨⟨v, s'⟩, h1, h2⟩ := R.bind_ok h
    obtain ⟨⟨k, hk⟩, h3, h4⟩ := newRight_spec hd conv v s' h1 hc
    subst hk
    dsimp only at h2
    unfold createRight at h2
    by_cases hv : v = st.cur.value ∨ (∃ n1 ∈ st.right.head?, v = n1.value)
    · rw [if_pos hv] at h2
      unfold repush at h2
      rw [show ({ st with nleap := k } : St).slot = some st.cur.id from hslot] at h2
      injection h2 with h2
      subst h2
      exact ⟨rfl, rfl, rfl, rfl, [], true, rfl, rfl, rfl, Or.inr rfl, fun _ => rfl, Or.inl rfl, Or.inr (Or.inl rfl)⟩
    · rw [if_neg hv] at h2
      injection h2 with h2
      subst h2
      push Not at hv
      refine ⟨rfl, rfl, rfl, rfl, [⟨st.next, v, 0, 0, 0⟩], false, rfl, rfl, rfl, Or.inr rfl, (fun hh => by simp at hh), Or.inr ⟨_, rfl, ?_, ?_, ?_, le_refl _, Nat.lt_succ_self _⟩, Or.inl (by simp)⟩
      · show 0 < (S.dir : ℝ) * (v - st.cur.value)
        cases hr : st.right with
        | nil =>
          have := (h4 hr).1
          rcases lt_or_eq_of_le this with h5 | h5
          · exact h5
          · exfalso
            apply hv.1
            rcases hd with hd | hd <;> rw [hd] at h5 <;> push_cast at h5 <;> linarith
        | cons n t =>
          have h5 := h3 n (by rw [hr]; rfl)
          have h6 := hn n (by rw [hr]; rfl)
          rcases middle_cases P st.cur.value n.value with h7 | h7
          · exact absurd (h5.trans h7) hv.1
          · rw [h5, h7]; nlinarith
      · show 0 ≤ (S.dir : ℝ) * ((nbr S st).value - v)
        unfold nbr
        cases hr : st.right with
        | nil => exact (h4 hr).2
        | cons n t =>
          have h5 := h3 n (by rw [hr]; rfl)
          have h6 := hn n (by rw [hr]; rfl)
          show 0 ≤ (S.dir : ℝ) * (n.value - v)
          rcases middle_cases P st.cur.value n.value with h7 | h7
          · rw [h5, h7]; exact h6.le
          · rw [h5, h7]; nlinarith
      · intro n hn'
        show 0 < (S.dir : ℝ) * (n.value - v)
        have h5 := h3 n hn'
        have h6 := hn n hn'
        rcases middle_cases P st.cur.value n.value with h7 | h7
        · rw [h5, h7]; exact h6
        · rw [h5, h7]; nlinarith
  · rw [if_neg hf] at h
    injection h with h
    subst h
    exact ⟨rfl, rfl, rfl, rfl, [], false, rfl, rfl, rfl, Or.inl ⟨rfl, rfl, hslot⟩, fun _ => rfl, Or.inl rfl, Or.inr (Or.inr hf)⟩

/-- The effect of lines 1309-1313. -/
theorem doLeft_spec (n0 f0 : ℤ) (s3 : St) (hslot : st.slot = some st.cur.id ∨ st.slot = none)
    (h : doLeft P n0 f0 st = .ok s3) (hn : ∀ n ∈ st.left.head?, 0 < (S.dir : ℝ) * (st.cur.value - n.value)) :
    s3.right = st.right ∧ s3.cur = st.cur ∧ s3.eigr = st.eigr ∧ s3.perm = st.perm
    ∧ ((s3.left = st.left ∧ s3.next = st.next ∧ s3.pend = st.pend ∧ ¬ f0 < n0)
      ∨ (st.slot = some st.cur.id ∧ s3.left = st.left ∧ s3.next = st.next ∧ s3.pend = st.cur.id :: st.pend)
      ∨ (∃ x n, n ∈ st.left.head? ∧ s3.left = x :: st.left ∧ s3.next = st.next + 1 ∧ s3.pend = x.id :: st.pend ∧ x.id = st.next
          ∧ 0 < (S.dir : ℝ) * (x.value - n.value) ∧ 0 < (S.dir : ℝ) * (st.cur.value - x.value))) := by
  unfold doLeft at h
  by_cases hf : f0 < n0
  · rw [if_pos hf] at h
    obtain ⟨v, h1, h2⟩ := R.bind_ok h
    unfold newLeft at h1
    cases hl : st.left with
    | nil => rw [hl] at h1; simp at h1
    | cons n t =>
      rw [hl] at h1
      injection h1 with h1
      have hnn := hn n (by rw [hl]; rfl)
      unfold createLeft at h2
      by_cases hv : (∃ n0 ∈ st.left.head?, v = n0.value) ∨ v = st.cur.value
      · rw [if_pos hv] at h2
        unfold repush at h2
        rcases hslot with hs | hs
        · rw [hs] at h2
          injection h2 with h2
          subst h2
          exact ⟨rfl, rfl, rfl, rfl, Or.inr (Or.inl ⟨hs, hl, rfl, rfl⟩)⟩
        · rw [hs] at h2; simp at h2
      · rw [if_neg hv] at h2
        injection h2 with h2
        subst h2
        push Not at hv
        refine ⟨rfl, rfl, rfl, rfl, Or.inr (Or.inr ⟨⟨st.next, v, 0, 0, 0⟩, n, rfl, by rw [← hl], rfl, rfl, rfl, ?_, ?_⟩)⟩
        · show 0 < (S.dir : ℝ) * (v - n.value)
          rcases middle_cases P st.cur.value n.value with h7 | h7
          · exact absurd (h1.symm.trans h7) hv.2
          · rw [← h1, h7]; nlinarith
        · show 0 < (S.dir : ℝ) * (st.cur.value - v)
          rcases middle_cases P st.cur.value n.value with h7 | h7
          · exact absurd (h1.symm.trans h7) hv.2
          · rw [← h1, h7]; nlinarith
  · rw [if_neg hf] at h
    injection h with h
    subst h
    exact ⟨rfl, rfl, rfl, rfl, Or.inl ⟨rfl, rfl, rfl, hf⟩⟩

/-- The search at a shift and the creation of new shifts keep the invariant. -/
theorem work_spec (E : Env P spec S) (h : Inv P spec S st) (conv : List ℝ) (hs : Sound P spec S st conv) (s3 : St)
    (hw : work P S conv st = .ok s3) :
    PI P spec S (chain s3) s3.pend s3.next (s3.eigr : Multiset ℝ) ∧ Ord S s3 ∧ Good P spec s3.cur := by
  unfold work at hw
  split_ifs at hw with g1 g2
  obtain ⟨s1, w1, w2⟩ := R.bind_ok hw
  obtain ⟨s2, w3, w4⟩ := R.bind_ok w2
  obtain ⟨o1, o2, o3, o4, o5, o6, o7, o8, o9, o10⟩ := store_ord h.ord conv s1 w1
  have hlt := h.pi.lt
  unfold chain at hlt
  rw [List.isChain_append, List.isChain_cons] at hlt
  obtain ⟨l1, ⟨l2, l3⟩, l4⟩ := hlt
  obtain ⟨n1, n2, n3⟩ := nbr_facts E h.pi
  have hc : 0 ≤ (S.dir : ℝ) * (S.int1 - s1.cur.value) := by rw [o5]; nlinarith
  have hnbr : nbr S s1 = nbr S st := by unfold nbr; rw [o3]
  obtain ⟨a1, a2, a3, a4, Y, rp, a5, a6, a7, a8, a9, a10, a11⟩ :=
    doRight_spec E.hd _ _ conv s2 (by rw [o8, o4]; exact h.slot) w3 hc (by rw [o3, o5]; exact l2)
  rw [o3] at a5 a10
  rw [o4, o7] at a7
  rw [o4] at a8
  rw [o5, hnbr, o9] at a10
  rw [o9] at a6
  have hleft : ∀ n ∈ s2.left.head?, 0 < (S.dir : ℝ) * (s2.cur.value - n.value) := by
    rw [a1, o2, a2, o5]
    intro n hn
    exact l4 n (by rw [List.getLast?_reverse]; exact hn) st.cur rfl
  obtain ⟨b1, b2, b3, b4, b5⟩ := doLeft_spec (S := S) _ _ s3
    (by rw [a2, o4]; rcases a8 with a8 | a8
        · exact Or.inl a8.2.2
        · exact Or.inr a8) w4 hleft
  have hgood : Good P spec s3.cur := by
    rw [b2, a2]
    unfold Good
    rw [o5, o6]
    exact h.good
  have hord : Ord S s3 := by
    refine ⟨?_, ?_⟩
    · rw [b3, b4, a3, a4]; exact o1.perm
    · rw [b3, b4, a3, a4]; exact o1.srt
  refine ⟨?_, hord, hgood⟩
  obtain ⟨cs0, cs1⟩ := comp_sides E h.pi h.ord h.good conv hs
  have hK' := store_le E h.pi h.ord h.good conv hs
  have hKK : (st.eigr : Multiset ℝ) ≤ ((st.eigr ++ accepted P S st conv : List ℝ) : Multiset ℝ) := by
    rw [← Multiset.coe_add]; exact Multiset.le_add_right _ _
  have heig : s3.eigr = st.eigr ++ accepted P S st conv := by rw [b3, a3, o10]
  have hid : s3.cur.id = st.cur.id := by rw [b2, a2, o4]
  have hval : s3.cur.value = st.cur.value := by rw [b2, a2, o5]
  have hin : s3.cur.inertia = st.cur.inertia := by rw [b2, a2, o6]
  have gR : Y ≠ [] ∨ rp = true ∨ Complete spec S.dir (st.eigr ++ accepted P S st conv : List ℝ) st.cur.value (nbr S st).value := by
    rcases a11 with q | q | q
    · exact Or.inl q
    · exact Or.inr (Or.inl q)
    · exact Or.inr (Or.inr (cs1 q))
  have hYn : Y.length ≤ 1 := by
    rcases a10 with rfl | ⟨y, rfl, -⟩ <;> simp
  have hY' : ∀ k, st.next + Y.length ≤ k → (Y = [] ∨ ∃ y, Y = [y] ∧ 0 < (S.dir : ℝ) * (y.value - st.cur.value) ∧ 0 ≤ (S.dir : ℝ) * ((nbr S st).value - y.value)
      ∧ (∀ n1 ∈ st.right.head?, 0 < (S.dir : ℝ) * (n1.value - y.value)) ∧ st.next ≤ y.id ∧ y.id < k) := by
    intro k hk
    rcases a10 with q | ⟨y, q1, q2, q3, q4, q5, q6⟩
    · exact Or.inl q
    · refine Or.inr ⟨y, q1, q2, q3, q4, q5, ?_⟩
      rw [q1] at hk; simp at hk; omega
  have hYid : (idsOf Y).Nodup := by
    rcases a10 with rfl | ⟨y, rfl, -⟩ <;> simp [idsOf]
  rw [heig]
  rcases b5 with ⟨d1, d2, d3, d4⟩ | ⟨d0, d1, d2, d3⟩ | ⟨x, n, dn, d1, d2, d3, d4, d5, d6⟩
  · have := PI_build E h.pi h.good hKK hK' s3.cur hid hval hin [] Y rp (next' := s3.next) (by rw [d2, a6]; omega) (Or.inl rfl)
      (hY' _ (by rw [d2, a6])) (by simpa [idsOf] using hYid) a9 (Or.inr (Or.inr (cs0 d4))) gR
    have hch : chain s3 = st.left.reverse ++ ([] ++ s3.cur :: (Y ++ st.right)) := by
      unfold chain; rw [d1, a1, o2, b1, a5]; rfl
    have hpd : s3.pend = idsOf [] ++ ((if rp = true then [st.cur.id] else []) ++ (idsOf Y ++ st.pend)) := by
      rw [d3, a7]; rfl
    rw [hch, hpd]; exact this
  · have hq : Y = [] ∧ rp = false := by
      rcases a8 with q | q
      · exact ⟨q.1, q.2.1⟩
      · rw [q] at d0; simp at d0
    obtain ⟨rfl, rfl⟩ := hq
    have := PI_build E h.pi h.good hKK hK' s3.cur hid hval hin [] [] true (next' := s3.next) (by rw [d2, a6]; omega) (Or.inl rfl)
      (Or.inl rfl) (by simp [idsOf]) (fun _ => rfl) (Or.inr (Or.inl rfl)) (Or.inr (Or.inl rfl))
    have hch : chain s3 = st.left.reverse ++ ([] ++ s3.cur :: ([] ++ st.right)) := by
      unfold chain; rw [d1, a1, o2, b1, a5]; rfl
    have hpd : s3.pend = idsOf [] ++ ((if true = true then [st.cur.id] else []) ++ (idsOf [] ++ st.pend)) := by
      rw [d3, a7, a2, o4]; rfl
    rw [hch, hpd]; exact this
  · rw [a1, o2] at dn d1
    rw [a2, o5] at d6
    have := PI_build E h.pi h.good hKK hK' s3.cur hid hval hin [x] Y rp (next' := s3.next) (by rw [d2, a6]; omega)
      (Or.inr ⟨x, n, rfl, dn, d5, d6, by rw [d4, a6]; omega, by rw [d4, d2]; omega⟩)
      (hY' _ (by rw [d2, a6]; omega))
      (by
        rcases a10 with q | ⟨y, q1, q2, q3, q4, q5, q6⟩
        · rw [q]; simp [idsOf]
        · rw [q1]
          have : x.id ≠ y.id := by
            rw [d4, a6, q1]; simp; omega
          simp [idsOf, this])
      a9 (Or.inl (by simp)) gR
    have hch : chain s3 = st.left.reverse ++ ([x] ++ s3.cur :: (Y ++ st.right)) := by
      unfold chain; rw [d1, b1, a5]; simp
    have hpd : s3.pend = idsOf [x] ++ ((if rp = true then [st.cur.id] else []) ++ (idsOf Y ++ st.pend)) := by
      rw [d3, a7]; rfl
    rw [hch, hpd]; exact this
end
end
end Verif.Slice
