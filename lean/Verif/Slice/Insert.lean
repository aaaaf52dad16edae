import Verif.Slice.Found
/-! New shifts are inserted beside the current one. -/
set_option linter.all false
namespace Verif.Slice
noncomputable section
open Classical

theorem chain_build {α : Type} {Q : α → α → Prop} (L T X Y : List α) (c : α) (hL : L.IsChain Q) (hT : T.IsChain Q)
    (hX : X = [] ∨ ∃ x, X = [x]) (hY : Y = [] ∨ ∃ y, Y = [y])
    (jL : X = [] → ∀ n ∈ L.getLast?, Q n c) (jX : ∀ x, X = [x] → (∀ n ∈ L.getLast?, Q n x) ∧ Q x c)
    (jR : Y = [] → ∀ n ∈ T.head?, Q c n) (jY : ∀ y, Y = [y] → Q c y ∧ (∀ n ∈ T.head?, Q y n)) :
    (L ++ (X ++ c :: (Y ++ T))).IsChain Q := by
  have hR : (c :: (Y ++ T)).IsChain Q := by
    rcases hY with rfl | ⟨y, rfl⟩
    · rw [List.isChain_cons]; exact ⟨jR rfl, hT⟩
    · obtain ⟨a1, a2⟩ := jY y rfl
      rw [List.isChain_cons]
      refine ⟨?_, ?_⟩
      · intro z hz
        simp at hz
        rw [← hz]; exact a1
      · rw [List.singleton_append, List.isChain_cons]; exact ⟨a2, hT⟩
  rcases hX with rfl | ⟨x, rfl⟩
  · rw [List.nil_append, List.isChain_append]
    refine ⟨hL, hR, fun n hn z hz => ?_⟩
    simp at hz
    rw [← hz]; exact jL rfl n hn
  · obtain ⟨a1, a2⟩ := jX x rfl
    rw [List.isChain_append]
    refine ⟨hL, ?_, fun n hn z hz => ?_⟩
    · rw [List.singleton_append, List.isChain_cons]
      refine ⟨fun z hz => ?_, hR⟩
      simp at hz
      rw [← hz]; exact a2
    · simp at hz
      rw [← hz]; exact a1 n hn

section
variable {P : Par} {spec : Multiset ℝ} {S : SR} {st : St}

/-- Identifiers of a list of shifts. -/
def idsOf (l : List Shift) : List ℕ := l.map Shift.id

theorem PI_build (E : Env P spec S) {next next' : ℕ} {K K' : Multiset ℝ} (h : PI P spec S (chain st) (st.cur.id :: st.pend) next K)
    (hg : Good P spec st.cur) (hKK : K ≤ K') (hK' : K' ≤ spec.filter (btw S.dir S.int0 S.int1)) (c : Shift) (hid : c.id = st.cur.id)
    (hval : c.value = st.cur.value) (hin : c.inertia = st.cur.inertia) (X Y : List Shift) (rp : Bool) (hn : next ≤ next')
    (hX : X = [] ∨ ∃ x n0, X = [x] ∧ n0 ∈ st.left.head? ∧ 0 < (S.dir : ℝ) * (x.value - n0.value) ∧ 0 < (S.dir : ℝ) * (st.cur.value - x.value)
      ∧ next ≤ x.id ∧ x.id < next')
    (hY : Y = [] ∨ ∃ y, Y = [y] ∧ 0 < (S.dir : ℝ) * (y.value - st.cur.value) ∧ 0 ≤ (S.dir : ℝ) * ((nbr S st).value - y.value)
      ∧ (∀ n1 ∈ st.right.head?, 0 < (S.dir : ℝ) * (n1.value - y.value)) ∧ next ≤ y.id ∧ y.id < next')
    (hXY : (idsOf X ++ idsOf Y).Nodup) (hrp : rp = true → Y = [])
    (gL : X ≠ [] ∨ rp = true ∨ ∀ n0 ∈ st.left.head?, Complete spec S.dir K' n0.value st.cur.value)
    (gR : Y ≠ [] ∨ rp = true ∨ Complete spec S.dir K' st.cur.value (nbr S st).value) :
    PI P spec S (st.left.reverse ++ (X ++ c :: (Y ++ st.right))) (idsOf X ++ ((if rp = true then [st.cur.id] else []) ++ (idsOf Y ++ st.pend))) next' K' := by
  obtain ⟨p1, p2, p3, p4⟩ := pend_right h
  obtain ⟨c1, c2, c3, c4⟩ := chain_parts h
  have hlg := left_good h
  have hidL : ∀ e ∈ st.left, 1 ≤ e.id ∧ e.id < next := fun e he => h.ids e (by unfold chain; simp [he])
  have hidR : ∀ e ∈ st.right, 1 ≤ e.id ∧ e.id < next := fun e he => h.ids e (by unfold chain; simp [he])
  have hidC : 1 ≤ st.cur.id ∧ st.cur.id < next := h.ids _ (by unfold chain; simp)
  have hpl : ∀ i ∈ st.pend, 1 ≤ i ∧ i < next := by
    intro i hi
    obtain ⟨e, he, hh⟩ := List.mem_map.mp (p1.subset hi)
    rw [← hh]; exact hidR e he
  have hXid : ∀ i ∈ idsOf X, next ≤ i ∧ i < next' := by
    intro i hi
    rcases hX with rfl | ⟨x, n0, rfl, -, -, -, ha, hb⟩
    · simp [idsOf] at hi
    · simp [idsOf] at hi; rw [hi]; exact ⟨ha, hb⟩
  have hYid : ∀ i ∈ idsOf Y, next ≤ i ∧ i < next' := by
    intro i hi
    rcases hY with rfl | ⟨x, rfl, -, -, -, ha, hb⟩
    · simp [idsOf] at hi
    · simp [idsOf] at hi; rw [hi]; exact ⟨ha, hb⟩
  obtain ⟨pd, hpd⟩ : ∃ pd, pd = idsOf X ++ ((if rp = true then [st.cur.id] else []) ++ (idsOf Y ++ st.pend)) := ⟨_, rfl⟩
  have mpd : ∀ i, i ∈ pd ↔ i ∈ idsOf X ∨ (rp = true ∧ i = st.cur.id) ∨ i ∈ idsOf Y ∨ i ∈ st.pend := by
    intro i
    rw [hpd, List.mem_append, List.mem_append, List.mem_append]
    cases rp <;> simp
  have hLp : ∀ e ∈ st.left, e.id ∉ pd := by
    intro e he hc
    have := hidL e he
    rcases (mpd _).mp hc with h1 | ⟨-, h1⟩ | h1 | h1
    · have := hXid _ h1; omega
    · exact p3 e he h1
    · have := hYid _ h1; omega
    · exact p2 e he (List.mem_cons_of_mem _ h1)
  have hRp : ∀ e ∈ st.right, (e.id ∈ pd ↔ e.id ∈ st.pend) := by
    intro e he
    have := hidR e he
    rw [mpd]
    constructor
    · rintro (h1 | ⟨-, h1⟩ | h1 | h1)
      · have := hXid _ h1; omega
      · exact absurd h1 (p4 e he)
      · have := hYid _ h1; omega
      · exact h1
    · intro h1; exact Or.inr (Or.inr (Or.inr h1))
  have hs0 : (sent S).id ∉ pd := by
    intro hc
    have h0 : (sent S).id = 0 := rfl
    rw [h0] at hc
    rcases (mpd _).mp hc with h1 | ⟨-, h1⟩ | h1 | h1
    · have := hXid _ h1; omega
    · omega
    · have := hYid _ h1; omega
    · have := hpl _ h1; omega
  have hcp : st.cur.id ∈ pd ↔ rp = true := by
    rw [mpd]
    constructor
    · rintro (h1 | ⟨h1, -⟩ | h1 | h1)
      · have := hXid _ h1; omega
      · exact h1
      · have := hYid _ h1; omega
      · obtain ⟨e, he, hh⟩ := List.mem_map.mp (p1.subset h1)
        exact absurd hh (p4 e he)
    · intro h1; exact Or.inr (Or.inl ⟨h1, rfl⟩)
  have hgc : Good P spec c := by unfold Good; rw [hval, hin]; exact hg
  have hnb := nbr_good E h
  have hKs : K' ≤ spec := le_trans hK' (Multiset.filter_le _ _)
  rw [← hpd]
  have hmapC : (st.left.reverse ++ (X ++ c :: (Y ++ st.right))).map Shift.id
      = idsOf st.left.reverse ++ (idsOf X ++ st.cur.id :: (idsOf Y ++ idsOf st.right)) := by
    simp [idsOf, hid]
  have hheadT : ∀ n ∈ (st.right ++ [sent S]).head?, n = nbr S st := by
    intro n hn'
    unfold nbr
    cases hr : st.right with
    | nil => rw [hr] at hn'; simp at hn'; rw [← hn']; rfl
    | cons a t => rw [hr] at hn'; simp at hn'; rw [← hn']; rfl
  have hXs : X = [] ∨ ∃ x, X = [x] := by
    rcases hX with h1 | ⟨x, n0, h1, -⟩
    · exact Or.inl h1
    · exact Or.inr ⟨x, h1⟩
  have hYs : Y = [] ∨ ∃ x, Y = [x] := by
    rcases hY with h1 | ⟨x, h1, -⟩
    · exact Or.inl h1
    · exact Or.inr ⟨x, h1⟩
  refine ⟨?_, ?_, ?_, ?_, ?_, ?_, hK', ?_⟩
  · rw [hmapC, hpd]
    have e1 : (idsOf Y ++ st.pend).Sublist (idsOf Y ++ idsOf st.right) := (List.append_sublist_append_left _).mpr p1
    have e2 : ((if rp = true then [st.cur.id] else []) ++ (idsOf Y ++ st.pend)).Sublist (st.cur.id :: (idsOf Y ++ idsOf st.right)) := by
      cases rp
      · simpa using e1.cons st.cur.id
      · exact e1.cons_cons _
    exact List.Sublist.trans ((List.append_sublist_append_left _).mpr e2) (List.sublist_append_right _ _)
  · rw [hmapC]
    have hp : (idsOf st.left.reverse ++ (idsOf X ++ st.cur.id :: (idsOf Y ++ idsOf st.right))).Perm
        ((idsOf X ++ idsOf Y) ++ (chain st).map Shift.id) := by
      unfold chain
      rw [List.map_append, List.map_cons]
      show (idsOf st.left.reverse ++ (idsOf X ++ st.cur.id :: (idsOf Y ++ idsOf st.right))).Perm
        ((idsOf X ++ idsOf Y) ++ (idsOf st.left.reverse ++ st.cur.id :: idsOf st.right))
      rw [← Multiset.coe_eq_coe]
      simp only [← Multiset.coe_add, ← Multiset.cons_coe, ← Multiset.singleton_add]
      abel
    rw [hp.nodup_iff, List.nodup_append]
    refine ⟨hXY, h.nd, fun i hi j hj hij => ?_⟩
    obtain ⟨e, he, hh⟩ := List.mem_map.mp hj
    have h1 := h.ids e he
    rcases List.mem_append.mp hi with hi | hi
    · have := hXid i hi; omega
    · have := hYid i hi; omega
  · intro e he
    rw [List.mem_append, List.mem_reverse, List.mem_append, List.mem_cons, List.mem_append] at he
    rcases he with he | he | he | he | he
    · have := hidL e he; omega
    · have := hXid e.id (List.mem_map_of_mem he); omega
    · rw [he, hid]; omega
    · have := hYid e.id (List.mem_map_of_mem he); omega
    · have := hidR e he; omega
  · rw [List.append_assoc, List.append_assoc, List.cons_append, List.append_assoc]
    refine chain_build _ _ X Y c ?_ ?_ hXs hYs ?_ ?_ ?_ ?_
    · refine List.IsChain.imp_of_mem_imp ?_ c1
      intro u v hu hv hr
      rw [List.mem_reverse] at hu hv
      refine ⟨hr.le, fun hc => absurd hc (hLp u hu), ?_⟩
      rcases (hr.mono hKK hKs).comp with h1 | h1 | h1
      · exact Or.inl h1
      · exact absurd h1 (p2 u hu)
      · exact absurd h1 (p2 v hv)
    · refine List.IsChain.imp_of_mem_imp ?_ c4
      intro u v hu hv hr
      have hu' : u.id ∈ pd ↔ u.id ∈ st.cur.id :: st.pend := by
        rcases List.mem_append.mp hu with hu | hu
        · rw [hRp u hu, List.mem_cons]
          exact ⟨Or.inr, fun hh => hh.resolve_left (p4 u hu)⟩
        · rw [List.mem_singleton] at hu; subst hu
          refine ⟨fun hc => absurd hc hs0, fun hc => ?_⟩
          rcases List.mem_cons.mp hc with h1 | h1
          · have : (sent S).id = 0 := rfl
            omega
          · have : (sent S).id = 0 := rfl
            have := hpl _ h1; omega
      have hv' : v.id ∈ pd ↔ v.id ∈ st.cur.id :: st.pend := by
        rcases List.mem_append.mp hv with hv | hv
        · rw [hRp v hv, List.mem_cons]
          exact ⟨Or.inr, fun hh => hh.resolve_left (p4 v hv)⟩
        · rw [List.mem_singleton] at hv; subst hv
          refine ⟨fun hc => absurd hc hs0, fun hc => ?_⟩
          rcases List.mem_cons.mp hc with h1 | h1
          · have : (sent S).id = 0 := rfl
            omega
          · have : (sent S).id = 0 := rfl
            have := hpl _ h1; omega
      refine ⟨hr.le, fun hc => hr.good (hu'.mp hc), ?_⟩
      rw [hu', hv']
      exact (hr.mono hKK hKs).comp
    · intro hXe n hn'
      rw [List.getLast?_reverse] at hn'
      have hnl : n ∈ st.left := List.mem_of_mem_head? hn'
      have hr := c2 n hn'
      refine ⟨by rw [hval]; exact hr.le, fun hc => absurd hc (hLp n hnl), ?_⟩
      rw [hval, hid]
      rcases gL with h1 | h1 | h1
      · exact absurd hXe h1
      · exact Or.inr (Or.inr (hcp.mpr h1))
      · exact Or.inl (h1 n hn')
    · intro x hx
      rcases hX with h1 | ⟨x', n0, h1, h2, h3, h4, h5, h6⟩
      · rw [hx] at h1; simp at h1
      · rw [hx] at h1
        have hxx : x = x' := by simpa using h1
        subst hxx
        have hxp : x.id ∈ pd := (mpd _).mpr (Or.inl (by rw [hx]; simp [idsOf]))
        refine ⟨fun n hn' => ?_, by rw [hval]; exact h4.le, fun _ => hgc, Or.inr (Or.inl hxp)⟩
        rw [List.getLast?_reverse] at hn'
        have hnn : n = n0 := by
          rw [Option.mem_def] at hn' h2
          rw [hn'] at h2
          exact Option.some.inj h2
        rw [hnn]
        exact ⟨h3.le, fun hc => absurd hc (hLp n0 (List.mem_of_mem_head? h2)), Or.inr (Or.inr hxp)⟩
    · intro hYe n hn'
      rw [hheadT n hn']
      refine ⟨by rw [hval]; exact c3.le, fun _ => hnb, ?_⟩
      rw [hval, hid]
      rcases gR with h1 | h1 | h1
      · exact absurd hYe h1
      · exact Or.inr (Or.inl (hcp.mpr h1))
      · exact Or.inl h1
    · intro y hy
      rcases hY with h1 | ⟨y', h1, h3, h4, h5, h6, h7⟩
      · rw [hy] at h1; simp at h1
      · rw [hy] at h1
        have hyy : y = y' := by simpa using h1
        subst hyy
        have hyp : y.id ∈ pd := (mpd _).mpr (Or.inr (Or.inr (Or.inl (by rw [hy]; simp [idsOf]))))
        refine ⟨⟨by rw [hval]; exact h3.le, fun hc => ?_, Or.inr (Or.inr hyp)⟩, fun n hn' => ?_⟩
        · rw [hid, hcp] at hc
          have := hrp hc
          rw [hy] at this; simp at this
        · rw [hheadT n hn']
          exact ⟨h4, fun _ => hnb, Or.inr (Or.inl hyp)⟩
  · intro e he
    rw [List.mem_append, List.mem_reverse, List.mem_append, List.mem_cons, List.mem_append] at he
    rcases he with he | he | he | he | he
    · exact Or.inl (hlg e he)
    · exact Or.inr ((mpd _).mpr (Or.inl (List.mem_map_of_mem he)))
    · rw [he]; exact Or.inl hgc
    · exact Or.inr ((mpd _).mpr (Or.inr (Or.inr (Or.inl (List.mem_map_of_mem he)))))
    · rw [hRp e he]
      rcases h.bad e (by unfold chain; simp [he]) with h1 | h1
      · exact Or.inl h1
      · rcases List.mem_cons.mp h1 with h2 | h2
        · exact absurd h2 (p4 e he)
        · exact Or.inr h2
  · obtain ⟨s0, T, hC, hv0⟩ := h.hd
    unfold chain at hC
    cases hl : st.left.reverse with
    | nil =>
      rw [hl, List.nil_append, List.cons.injEq] at hC
      have hXe : X = [] := by
        rcases hX with h1 | ⟨x, n0, -, h2, -⟩
        · exact h1
        · rw [List.reverse_eq_nil_iff] at hl
          rw [hl] at h2; simp at h2
      rw [hXe]
      exact ⟨c, Y ++ st.right, rfl, by rw [hval, hC.1]; exact hv0⟩
    | cons a A =>
      rw [hl, List.cons_append, List.cons.injEq] at hC
      exact ⟨a, A ++ (X ++ c :: (Y ++ st.right)), rfl, by rw [hC.1]; exact hv0⟩
  · have hlt := h.lt
    unfold chain at hlt
    rw [List.isChain_append, List.isChain_cons] at hlt
    obtain ⟨l1, ⟨l2, l3⟩, l4⟩ := hlt
    refine chain_build _ _ X Y c l1 l3 hXs hYs ?_ ?_ ?_ ?_
    · intro _ n hn'
      have := l4 n hn' st.cur rfl
      rw [hval]; exact this
    · intro x hx
      rcases hX with h1 | ⟨x', n0, h1, h2, h3, h4, h5, h6⟩
      · rw [hx] at h1; simp at h1
      · rw [hx] at h1
        have hxx : x = x' := by simpa using h1
        subst hxx
        refine ⟨fun n hn' => ?_, by rw [hval]; exact h4⟩
        rw [List.getLast?_reverse] at hn'
        have hnn : n = n0 := by
          rw [Option.mem_def] at hn' h2
          rw [hn'] at h2
          exact Option.some.inj h2
        rw [hnn]; exact h3
    · intro _ n hn'
      rw [hval]; exact l2 n hn'
    · intro y hy
      rcases hY with h1 | ⟨y', h1, h3, h4, h5, h6, h7⟩
      · rw [hy] at h1; simp at h1
      · rw [hy] at h1
        have hyy : y = y' := by simpa using h1
        subst hyy
        exact ⟨by rw [hval]; exact h3, h5⟩
end
end
end Verif.Slice
