import Verif.Slice.Step
/-! The whole run: selection of the next shift, main loop, set-up. -/
set_option linter.all false
namespace Verif.Slice
noncomputable section
open Classical
section
variable {P : Par} {spec : Multiset ℝ} {S : SR} {st : St}

theorem locate_spec (t : ℕ) (acc C : List Shift) (l r : List Shift) (e : Shift) (h : locate t acc C = some (l, e, r)) :
    acc.reverse ++ C = l.reverse ++ e :: r ∧ e.id = t := by
  induction C generalizing acc with
  | nil => simp [locate] at h
  | cons a C ih =>
    unfold locate at h
    by_cases ha : a.id = t
    · rw [if_pos ha] at h
      simp only [Option.some.injEq, Prod.mk.injEq] at h
      obtain ⟨rfl, rfl, rfl⟩ := h
      exact ⟨rfl, ha⟩
    · rw [if_neg ha] at h
      have := ih _ h
      rw [List.reverse_cons, List.append_assoc] at this
      exact this

theorem place_spec (l r : List Shift) (e e' : Shift) (h : place P spec S l e r = .ok e') :
    e'.id = e.id ∧ e'.inertia = inertiaAt P spec e'.value ∧ (l = [] ∨ r = [] ∨ zerosAt P spec e.value = 0 → e'.value = e.value) := by
  unfold place at h
  by_cases hz : zerosAt P spec e.value ≠ 0
  · rw [if_pos hz] at h
    cases l with
    | nil => simp at h
    | cons n0 l =>
      cases r with
      | nil => simp at h
      | cons n1 r =>
        dsimp only at h
        split_ifs at h
        injection h with h
        subst h
        exact ⟨rfl, rfl, fun hh => by simp at hh; exact absurd hh hz⟩
  · rw [if_neg hz] at h
    injection h with h
    subst h
    exact ⟨rfl, rfl, fun _ => rfl⟩

/-- The current shift lies strictly between its neighbours. -/
def Between (S : SR) (st : St) : Prop :=
  (∀ n0 ∈ st.left.head?, 0 < (S.dir : ℝ) * (st.cur.value - n0.value)) ∧ (∀ n1 ∈ st.right.head?, 0 < (S.dir : ℝ) * (n1.value - st.cur.value))

theorem extract_spec (E : Env P spec S) (h : PI P spec S (chain st) st.pend st.next (st.eigr : Multiset ℝ)) (ho : Ord S st)
    (hg : Good P spec st.cur) (s2 : St) (hx : extract P spec S st = .ok (some s2)) (hv : s2.cur.value ∉ spec) (hb : Between S s2) :
    Inv P spec S s2 := by
  unfold extract at hx
  cases hp : st.pend with
  | nil => rw [hp] at hx; simp at hx
  | cons t ps =>
    rw [hp] at hx
    dsimp only at hx
    by_cases ht : t = st.cur.id
    · rw [if_pos ht] at hx
      injection hx with hx
      injection hx with hx
      subst hx
      refine ⟨?_, hg, by rw [ht], ⟨ho.perm, ho.srt⟩⟩
      have := h
      rw [hp, ht] at this
      exact this
    · rw [if_neg ht] at hx
      cases hl : locate t [] (chain st) with
      | none => rw [hl] at hx; simp at hx
      | some q =>
        obtain ⟨l, e, r⟩ := q
        rw [hl] at hx
        dsimp only at hx
        obtain ⟨e', hpl, hx⟩ := R.bind_ok hx
        injection hx with hx
        injection hx with hx
        obtain ⟨q1, q2⟩ := locate_spec t [] (chain st) l r e hl
        obtain ⟨r1, r2, r3⟩ := place_spec l r e e' hpl
        rw [List.reverse_nil, List.nil_append] at q1
        obtain ⟨st', hst'⟩ : ∃ st' : St, st' = { st with left := l, cur := e, right := r, pend := ps } := ⟨_, rfl⟩
        have hch : chain st' = chain st := by rw [q1, hst']; rfl
        have h' : PI P spec S (chain st') (st'.cur.id :: st'.pend) st.next (st.eigr : Multiset ℝ) := by
          rw [hch, hst']
          show PI P spec S (chain st) (e.id :: ps) st.next (st.eigr : Multiset ℝ)
          rw [q2, ← hp]
          exact h
        obtain ⟨c1, c2, c3, c4⟩ := chain_parts h'
        have hnb := nbr_good E h'
        obtain ⟨p1, p2, p3, p4⟩ := pend_right h'
        have hlt := h'.lt
        unfold chain at hlt
        rw [List.isChain_append, List.isChain_cons] at hlt
        obtain ⟨l1, ⟨l2, l3⟩, l4⟩ := hlt
        have hl' : st'.left = l := by rw [hst']
        have hr' : st'.right = r := by rw [hst']
        have hc' : st'.cur = e := by rw [hst']
        have hp' : st'.pend = ps := by rw [hst']
        rw [hl'] at c1 c2 p2 l1 l4
        rw [hr'] at c4 p1 l2 l3
        rw [hc'] at c1 c2 c3 c4 p2
        rw [hp'] at c1 c2 c3 c4 p1 p2
        have hCC : chain s2 = l.reverse ++ ([] ++ e' :: ([] ++ r)) := by rw [← hx]; rfl
        have hcur : s2.cur = e' := by rw [← hx]
        have hleft : s2.left = l := by rw [← hx]
        have hright : s2.right = r := by rw [← hx]
        have hpend : s2.pend = ps := by rw [← hx]
        have hb1 : ∀ n0 ∈ l.head?, 0 < (S.dir : ℝ) * (e'.value - n0.value) := by
          have := hb.1; rw [hcur, hleft] at this; exact this
        have hb2 : ∀ n0 ∈ r.head?, 0 < (S.dir : ℝ) * (n0.value - e'.value) := by
          have := hb.2; rw [hcur, hright] at this; exact this
        rw [hcur] at hv
        have hmap : (chain s2).map Shift.id = (chain st').map Shift.id := by
          rw [hCC, hch, q1]; simp [r1]
        refine ⟨⟨?_, ?_, ?_, ?_, ?_, ?_, ?_, ?_⟩, ?_, ?_, ?_⟩
        · rw [hmap, hcur, hpend, r1]
          have := h'.sub; rw [hc', hp'] at this; exact this
        · rw [hmap]; exact h'.nd
        · intro z hz
          rw [hCC] at hz
          have hn : s2.next = st.next := by rw [← hx]
          rw [hn]
          simp only [List.nil_append, List.mem_append, List.mem_cons] at hz
          rcases hz with hz | rfl | hz
          · exact h'.ids z (by rw [hch, q1]; simp [List.mem_reverse.mp hz])
          · rw [r1]; exact h'.ids e (by rw [hch, q1]; simp)
          · exact h'.ids z (by rw [hch, q1]; simp [hz])
        · have he : (s2.eigr : Multiset ℝ) = (st.eigr : Multiset ℝ) := by rw [← hx]
          rw [he, hCC, hcur, hpend, r1, List.append_assoc, List.append_assoc, List.cons_append, List.append_assoc]
          refine chain_build _ _ [] [] e' c1 c4 (Or.inl rfl) (Or.inl rfl) ?_ (fun x hh => by simp at hh) ?_ (fun x hh => by simp at hh)
          · intro _ n hn
            rw [List.getLast?_reverse] at hn
            exact ⟨(hb1 n hn).le, fun hc => absurd hc (p2 n (List.mem_of_mem_head? hn)), Or.inr (Or.inr (by rw [r1]; exact List.mem_cons_self))⟩
          · intro _ n hn
            have hnn : n = nbr S st' := by
              unfold nbr
              rw [hr']
              cases hr : r with
              | nil => rw [hr] at hn; simp at hn; rw [← hn]; rfl
              | cons a t => rw [hr] at hn; simp at hn; rw [← hn]; rfl
            refine ⟨?_, fun _ => by rw [hnn]; exact hnb, Or.inr (Or.inl (by rw [r1]; exact List.mem_cons_self))⟩
            cases hr : r with
            | nil =>
              rw [r3 (Or.inr (Or.inl hr)), hnn]; exact c3.le
            | cons a t =>
              rw [hr] at hn
              simp at hn
              rw [← hn]
              exact (hb2 a (by rw [hr]; rfl)).le
        · intro z hz
          rw [hCC] at hz
          rw [hcur, hpend, r1]
          simp only [List.nil_append, List.mem_append, List.mem_cons] at hz
          have hbad := h'.bad
          rw [hc', hp'] at hbad
          rcases hz with hz | rfl | hz
          · exact hbad z (by rw [hch, q1]; simp [List.mem_reverse.mp hz])
          · exact Or.inl ⟨hv, r2⟩
          · exact hbad z (by rw [hch, q1]; simp [hz])
        · obtain ⟨s0, T, hC, hv0⟩ := h'.hd
          rw [hch, q1] at hC
          cases hll : l.reverse with
          | nil =>
            rw [hll, List.nil_append, List.cons.injEq] at hC
            rw [List.reverse_eq_nil_iff] at hll
            refine ⟨e', r, by rw [hCC, hll]; rfl, ?_⟩
            rw [r3 (Or.inl hll), hC.1]; exact hv0
          | cons a A =>
            rw [hll, List.cons_append, List.cons.injEq] at hC
            exact ⟨a, A ++ (e' :: r), by rw [hCC, hll]; rfl, by rw [hC.1]; exact hv0⟩
        · have he : (s2.eigr : Multiset ℝ) = (st.eigr : Multiset ℝ) := by rw [← hx]
          rw [he]; exact h'.le
        · rw [hCC]
          refine chain_build _ _ [] [] e' l1 l3 (Or.inl rfl) (Or.inl rfl) ?_ (fun x hh => by simp at hh) ?_ (fun x hh => by simp at hh)
          · intro _ n hn
            rw [List.getLast?_reverse] at hn
            exact hb1 n hn
          · intro _ n hn
            exact hb2 n hn
        · rw [hcur]; exact ⟨hv, r2⟩
        · rw [hcur, ← hx, r1, q2]
        · rw [← hx]; exact ⟨ho.perm, ho.srt⟩

/-- A run in which the Lanczos process is sound at every shift and no shift is an eigenvalue (or, if a shift hits an eigenvalue and is moved, it stays
between its neighbours). -/
def Legal (P : Par) (spec : Multiset ℝ) (S : SR) : List (List ℝ) → St → Prop
  | [], _ => True
  | c :: cs, st => Sound P spec S st c ∧ ∀ s1, work P S c st = .ok s1 →
      ∀ s2, extract P spec S s1 = .ok (some s2) → s2.cur.value ∉ spec ∧ Between S s2 ∧ Legal P spec S cs s2

/-- All gaps complete: the stored values are the eigenvalues of the interval. -/
theorem PI_final (E : Env P spec S) {C : List Shift} {next : ℕ} {K : Multiset ℝ} (h : PI P spec S C [] next K) :
    K = spec.filter (btw S.dir S.int0 S.int1) := by
  obtain ⟨s0, T, hC, hv0⟩ := h.hd
  have hg : ∀ e ∈ C, Good P spec e := fun e he => (h.bad e he).resolve_right (by simp)
  have := chain_complete E (K_spec h) s0 (T ++ [sent S]) (sent S) (by rw [← List.cons_append, List.getLast?_append]; rfl) (by
      intro e he
      rw [← List.cons_append, ← hC] at he
      rcases List.mem_append.mp he with he | he
      · exact (hg e he).1
      · rw [List.mem_singleton] at he; rw [he]; exact E.i1) (by
      rw [← List.cons_append, ← hC]
      refine List.IsChain.imp ?_ h.ch
      intro u v hr
      refine ⟨hr.le, ?_⟩
      rcases hr.comp with h1 | h1 | h1
      · exact h1
      · simp at h1
      · simp at h1)
  have hc := this.2
  rw [hv0] at hc
  apply Multiset.eq_of_le_of_card_le h.le
  rw [← Multiset.countP_eq_card_filter]
  have h1 : spec.countP (btw S.dir S.int0 S.int1) = K.countP (btw S.dir S.int0 S.int1) := hc.symm
  rw [h1]
  exact Multiset.countP_le_card _ _

theorem loop_spec (E : Env P spec S) (cs : List (List ℝ)) (h : Inv P spec S st) (hL : Legal P spec S cs st) (sf : St)
    (hr : loop P spec S cs st = .ok sf) :
    PI P spec S (chain sf) [] sf.next (sf.eigr : Multiset ℝ) ∧ Ord S sf := by
  induction cs generalizing st with
  | nil => simp [loop] at hr
  | cons c cs ih =>
    unfold loop at hr
    obtain ⟨s1, w1, hr⟩ := R.bind_ok hr
    obtain ⟨o, w2, hr⟩ := R.bind_ok hr
    obtain ⟨hs, hL⟩ := hL
    obtain ⟨i1, i2, i3⟩ := work_spec E h c hs s1 w1
    cases o with
    | none =>
      dsimp only at hr
      injection hr with hr
      subst hr
      have hp : s1.pend = [] := by
        unfold extract at w2
        cases hp : s1.pend with
        | nil => rfl
        | cons t ps =>
          rw [hp] at w2
          dsimp only at w2
          split_ifs at w2
          · injection w2 with w2; simp at w2
          · cases hl : locate t [] (chain s1) with
            | none => rw [hl] at w2; simp at w2
            | some q =>
              rw [hl] at w2
              dsimp only at w2
              obtain ⟨e', -, w3⟩ := R.bind_ok w2
              injection w3 with w3; simp at w3
      rw [hp] at i1
      exact ⟨i1, i2⟩
    | some s2 =>
      dsimp only at hr
      obtain ⟨l1, l2, l3⟩ := hL s1 w1 s2 w2
      exact ih (extract_spec E i1 i2 i3 s2 w2 l1 l2) l3 hr

theorem start_inv (E : Env P spec S) : Inv P spec S (start S) := by
  have hch : chain (start S) = [⟨1, S.int0, S.inertia0, 0, 0⟩] := rfl
  refine ⟨⟨?_, ?_, ?_, ?_, ?_, ?_, ?_, ?_⟩, ⟨E.i0, E.n0⟩, rfl, ⟨?_, ?_⟩⟩
  · rw [hch]; exact List.Sublist.refl _
  · rw [hch]; simp
  · rw [hch]; intro e he; rw [List.mem_singleton] at he; subst he; exact ⟨le_refl _, (Nat.lt_succ_self 1 : 1 < 2)⟩
  · rw [hch]
    show List.IsChain _ [_, _]
    rw [List.isChain_pair]
    exact ⟨E.ord, fun _ => good_sent E, Or.inr (Or.inl List.mem_cons_self)⟩
  · rw [hch]; intro e he; rw [List.mem_singleton] at he; subst he; exact Or.inl ⟨E.i0, E.n0⟩
  · exact ⟨_, [], rfl, rfl⟩
  · exact Multiset.zero_le _
  · rw [hch]; exact List.isChain_singleton _
  · exact List.Perm.refl _
  · exact List.Pairwise.nil

theorem setup_spec (H : Hyp P spec) (a b : ℝ) (hab : a ≤ b) (ha : a ∉ spec) (hb : b ∉ spec) (S : SR) (hs : setup P spec a b = .ok S) :
    Env P spec S ∧ (∀ l, btw S.dir S.int0 S.int1 l ↔ a < l ∧ l < b) := by
  unfold setup at hs
  dsimp only at hs
  by_cases hf : -P.maxReal < a ∨ P.maxReal ≤ b
  · simp only [if_pos hf] at hs
    split_ifs at hs with h1 h2 h3
    · injection hs with hs
      subst hs
      refine ⟨⟨H, Or.inr rfl, hb, ha, ?_, rfl, rfl, ?_, rfl⟩, ?_⟩
      · push_cast; linarith
      · intro h
        exact absurd (h.symm.trans h3) (by simp)
      · intro l
        unfold btw
        push_cast
        constructor
        · rintro ⟨h4, h5⟩; constructor <;> linarith
        · rintro ⟨h4, h5⟩; constructor <;> linarith
    · injection hs with hs
      subst hs
      refine ⟨⟨H, Or.inl rfl, ha, hb, ?_, rfl, rfl, ?_, rfl⟩, ?_⟩
      · push_cast; linarith
      · intro _
        refine ⟨fun _ => ?_, fun h => by simp at h⟩
        simpa using h3
      · intro l
        unfold btw
        push_cast
        constructor
        · rintro ⟨h4, h5⟩; constructor <;> linarith
        · rintro ⟨h4, h5⟩; constructor <;> linarith
  · simp only [if_neg hf] at hs
    split_ifs at hs with h1 h2 h3
    · injection hs with hs
      subst hs
      refine ⟨⟨H, Or.inl rfl, ha, hb, ?_, rfl, rfl, ?_, rfl⟩, ?_⟩
      · push_cast; linarith
      · intro h
        exact absurd (h.symm.trans h3) (by simp)
      · intro l
        unfold btw
        push_cast
        constructor
        · rintro ⟨h4, h5⟩; constructor <;> linarith
        · rintro ⟨h4, h5⟩; constructor <;> linarith
    · injection hs with hs
      subst hs
      refine ⟨⟨H, Or.inr rfl, hb, ha, ?_, rfl, rfl, ?_, rfl⟩, ?_⟩
      · push_cast; linarith
      · intro _
        refine ⟨fun h => by simp at h, fun _ => ?_⟩
        simpa using h3
      · intro l
        unfold btw
        push_cast
        constructor
        · rintro ⟨h4, h5⟩; constructor <;> linarith
        · rintro ⟨h4, h5⟩; constructor <;> linarith

end
end
end Verif.Slice
