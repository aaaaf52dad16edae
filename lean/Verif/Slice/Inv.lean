import Verif.Slice.Count
import Mathlib.Data.List.Chain
/-! Invariant of the main loop of spectrum slicing. -/
set_option linter.all false
namespace Verif.Slice
noncomputable section
open Classical

/-- What the set-up establishes. -/
structure Env (P : Par) (spec : Multiset ℝ) (S : SR) : Prop where
  hyp : Hyp P spec
  hd : S.dir = 1 ∨ S.dir = -1
  i0 : S.int0 ∉ spec
  i1 : S.int1 ∉ spec
  ord : 0 ≤ (S.dir : ℝ) * (S.int1 - S.int0)
  n0 : S.inertia0 = inertiaAt P spec S.int0
  n1 : S.inertia1 = inertiaAt P spec S.int1
  fin : S.hasEnd = false → (S.dir = 1 → P.maxReal ≤ S.int1) ∧ (S.dir = -1 → S.int1 ≤ -P.maxReal)
  num : S.numEigs = S.dir * (S.inertia1 - S.inertia0)

def Good (P : Par) (spec : Multiset ℝ) (e : Shift) : Prop := e.value ∉ spec ∧ e.inertia = inertiaAt P spec e.value

def Complete (spec : Multiset ℝ) (d : ℤ) (K : Multiset ℝ) (x y : ℝ) : Prop := K.countP (btw d x y) = spec.countP (btw d x y)

/-- The end of the interval as a shift. -/
def sent (S : SR) : Shift := ⟨0, S.int1, S.inertia1, 0, 0⟩

theorem good_sent {P spec S} (E : Env P spec S) : Good P spec (sent S) := ⟨E.i1, E.n1⟩

structure Rel (P : Par) (spec : Multiset ℝ) (d : ℤ) (pend : List ℕ) (K : Multiset ℝ) (u v : Shift) : Prop where
  le : 0 ≤ (d : ℝ) * (v.value - u.value)
  good : u.id ∈ pend → Good P spec v
  comp : Complete spec d K u.value v.value ∨ u.id ∈ pend ∨ v.id ∈ pend

structure PI (P : Par) (spec : Multiset ℝ) (S : SR) (C : List Shift) (pend : List ℕ) (next : ℕ) (K : Multiset ℝ) : Prop where
  sub : pend.Sublist (C.map Shift.id)
  nd : (C.map Shift.id).Nodup
  ids : ∀ e ∈ C, 1 ≤ e.id ∧ e.id < next
  ch : (C ++ [sent S]).IsChain (Rel P spec S.dir pend K)
  bad : ∀ e ∈ C, Good P spec e ∨ e.id ∈ pend
  hd : ∃ s0 T, C = s0 :: T ∧ s0.value = S.int0
  le : K ≤ spec.filter (btw S.dir S.int0 S.int1)
  lt : C.IsChain (fun u v => 0 < (S.dir : ℝ) * (v.value - u.value))

/-- The order of the stored values. -/
structure Ord (S : SR) (st : St) : Prop where
  perm : st.perm.Perm (List.range st.eigr.length)
  srt : Srt S.dir (st.perm.map (at' st.eigr))

structure Inv (P : Par) (spec : Multiset ℝ) (S : SR) (st : St) : Prop where
  pi : PI P spec S (chain st) (st.cur.id :: st.pend) st.next (st.eigr : Multiset ℝ)
  good : Good P spec st.cur
  slot : st.slot = some st.cur.id
  ord : Ord S st

theorem map_at_range (l : List ℝ) : (List.range l.length).map (at' l) = l := by
  apply List.ext_getElem
  · simp
  · intro i h1 h2
    simp [at', List.getD_eq_getElem?_getD, h2]

theorem Ord.vals {S st} (h : Ord S st) : (st.perm.map (at' st.eigr)).Perm st.eigr := by
  refine (h.perm.map _).trans ?_
  rw [map_at_range]

theorem accepted_perm (P : Par) (S : SR) (st : St) (conv : List ℝ) :
    (accepted P S st conv).Perm (conv.filter (fun l => decide (0 < (S.dir : ℝ) * (l - ext0 S st) ∧ 0 < (S.dir : ℝ) * (ext1 P S st - l)))) := by
  unfold accepted
  refine List.Perm.filter _ ?_
  refine ((sortReal_perm _ _ _).map _).trans ?_
  rw [map_at_range]

/-- Nearest shift to the right, or the end. -/
def nbr (S : SR) (st : St) : Shift := st.right.head?.getD (sent S)

theorem ext1_iff {P spec S} (E : Env P spec S) (st : St) (l : ℝ) (hl : l ∈ spec) :
    0 < (S.dir : ℝ) * (ext1 P S st - l) ↔ 0 < (S.dir : ℝ) * ((nbr S st).value - l) := by
  unfold ext1 nbr
  cases hr : st.right with
  | cons n t => rfl
  | nil =>
    show 0 < (S.dir : ℝ) * ((if S.hasEnd = true then S.int1 else if 0 < S.dir then P.maxReal else -P.maxReal) - l) ↔ 0 < (S.dir : ℝ) * (S.int1 - l)
    cases he : S.hasEnd with
    | true => simp
    | false =>
      obtain ⟨h1, h2⟩ := E.fin he
      have hb := abs_lt.mp (E.hyp.bnd l hl)
      rw [if_neg (by simp)]
      rcases E.hd with hd | hd
      · rw [hd, if_pos (by norm_num)]
        have := h1 hd
        push_cast
        constructor <;> intro _ <;> linarith
      · rw [hd, if_neg (by norm_num)]
        have := h2 hd
        push_cast
        constructor <;> intro _ <;> linarith

/-! ### Consequences of the invariant at the current shift -/

section
variable {P : Par} {spec : Multiset ℝ} {S : SR} {st : St}

theorem Rel.mono {d pend K K' u v} (hK : K ≤ K') (hK' : K' ≤ spec) (h : Rel P spec d pend K u v) : Rel P spec d pend K' u v := by
  refine ⟨h.le, h.good, ?_⟩
  rcases h.comp with h | h
  · left
    unfold Complete at h ⊢
    apply le_antisymm (Multiset.countP_le_of_le _ hK')
    rw [← h]
    exact Multiset.countP_le_of_le _ hK
  · exact Or.inr h

theorem K_spec {C pend next K} (h : PI P spec S C pend next K) : K ≤ spec := le_trans h.le (Multiset.filter_le _ _)

theorem K_btw {C pend next K} (h : PI P spec S C pend next K) {l : ℝ} (hl : l ∈ K) : btw S.dir S.int0 S.int1 l :=
  (Multiset.mem_filter.mp (Multiset.mem_of_le h.le hl)).2

theorem pend_right (h : PI P spec S (chain st) (st.cur.id :: st.pend) next K) :
    st.pend.Sublist (st.right.map Shift.id) ∧ (∀ e ∈ st.left, e.id ∉ st.cur.id :: st.pend) ∧ (∀ e ∈ st.left, e.id ≠ st.cur.id)
      ∧ (∀ e ∈ st.right, e.id ≠ st.cur.id) := by
  have hs := h.sub
  have hn := h.nd
  unfold chain at hs hn
  rw [List.map_append, List.map_cons] at hs hn
  rw [List.nodup_append] at hn
  obtain ⟨hn1, hn2, hn3⟩ := hn
  rw [List.nodup_cons] at hn2
  have hcl : st.cur.id ∉ st.left.reverse.map Shift.id := fun hc => hn3 _ hc _ (List.mem_cons_self) rfl
  have hs2 : (st.cur.id :: st.pend).Sublist (st.cur.id :: st.right.map Shift.id) := by
    rw [List.sublist_append_iff] at hs
    obtain ⟨a, b, hab, ha, hb⟩ := hs
    cases a with
    | nil => rw [List.nil_append] at hab; rw [hab]; exact hb
    | cons x a =>
      rw [List.cons_append, List.cons.injEq] at hab
      exact absurd (ha.subset (by rw [hab.1]; exact List.mem_cons_self)) hcl
  have hs3 := (List.cons_sublist_cons).mp hs2
  refine ⟨hs3, fun e he hc => ?_, fun e he hc => ?_, fun e he hc => ?_⟩
  · have h1 : e.id ∈ st.left.reverse.map Shift.id := List.mem_map_of_mem (List.mem_reverse.mpr he)
    exact hn3 _ h1 _ (hs2.subset hc) rfl
  · exact hcl (by rw [← hc]; exact List.mem_map_of_mem (List.mem_reverse.mpr he))
  · exact hn2.1 (by rw [← hc]; exact List.mem_map_of_mem he)

theorem left_good (h : PI P spec S (chain st) (st.cur.id :: st.pend) next K) : ∀ e ∈ st.left, Good P spec e := by
  intro e he
  rcases h.bad e (by unfold chain; simp [he]) with h1 | h1
  · exact h1
  · exact absurd h1 ((pend_right h).2.1 e he)

theorem chain_parts (h : PI P spec S (chain st) (st.cur.id :: st.pend) next K) :
    st.left.reverse.IsChain (Rel P spec S.dir (st.cur.id :: st.pend) K)
    ∧ (∀ n0 ∈ st.left.head?, Rel P spec S.dir (st.cur.id :: st.pend) K n0 st.cur)
    ∧ Rel P spec S.dir (st.cur.id :: st.pend) K st.cur (nbr S st)
    ∧ (st.right ++ [sent S]).IsChain (Rel P spec S.dir (st.cur.id :: st.pend) K) := by
  have hc := h.ch
  unfold chain at hc
  rw [List.append_assoc, List.cons_append, List.isChain_append, List.isChain_cons] at hc
  obtain ⟨h1, ⟨h2, h3⟩, h4⟩ := hc
  refine ⟨h1, fun n0 hn => h4 n0 ?_ _ rfl, h2 _ ?_, h3⟩
  · rw [List.getLast?_reverse]; exact hn
  · unfold nbr
    cases st.right <;> simp

theorem nbr_good (E : Env P spec S) (h : PI P spec S (chain st) (st.cur.id :: st.pend) next K) : Good P spec (nbr S st) :=
  (chain_parts h).2.2.1.good List.mem_cons_self

/-- Everything between the first shift and a shift is known if all gaps are complete. -/
theorem chain_complete (E : Env P spec S) {K : Multiset ℝ} (hK : K ≤ spec) (s0 : Shift) (T : List Shift) (z : Shift)
    (hz : z ∈ (s0 :: T).getLast?) (hg : ∀ e ∈ s0 :: T, e.value ∉ spec)
    (hc : (s0 :: T).IsChain (fun u v => 0 ≤ (S.dir : ℝ) * (v.value - u.value) ∧ Complete spec S.dir K u.value v.value)) :
    0 ≤ (S.dir : ℝ) * (z.value - s0.value) ∧ Complete spec S.dir K s0.value z.value := by
  induction T generalizing s0 with
  | nil =>
    simp only [List.getLast?_singleton, Option.mem_some_iff] at hz
    subst hz
    refine ⟨by simp, ?_⟩
    have h0 : ∀ M : Multiset ℝ, M.countP (btw S.dir s0.value s0.value) = 0 := by
      intro M
      rw [Multiset.countP_eq_zero]
      rintro a - ⟨h1, h2⟩
      nlinarith
    unfold Complete
    rw [h0, h0]
  | cons s1 T ih =>
    rw [List.isChain_cons] at hc
    have h1 := hc.1 s1 rfl
    have h2 := ih s1 (by simpa using hz) (fun e he => hg e (List.mem_cons_of_mem _ he)) hc.2
    refine ⟨by linarith [h1.1, h2.1], ?_⟩
    have hm : s1.value ∉ spec := hg s1 (by simp)
    have hmK : s1.value ∉ K := fun hh => hm (Multiset.mem_of_le hK hh)
    unfold Complete
    rw [countP_split S.dir E.hd s0.value z.value s1.value h1.1 h2.1 K hmK,
      countP_split S.dir E.hd s0.value z.value s1.value h1.1 h2.1 spec hm, h1.2, h2.2]

/-- The part of the interval before the left neighbour is complete. -/
theorem left_complete (E : Env P spec S) (h : PI P spec S (chain st) (st.cur.id :: st.pend) next K) (n0 : Shift) (hn : n0 ∈ st.left.head?) :
    0 ≤ (S.dir : ℝ) * (n0.value - S.int0) ∧ Complete spec S.dir K S.int0 n0.value := by
  have hL := (chain_parts h).1
  have hp := (pend_right h).2.1
  have hgood := left_good h
  obtain ⟨s0, T, hC, hs0⟩ := h.hd
  have hne : st.left.reverse ≠ [] := by
    intro hc
    rw [List.reverse_eq_nil_iff] at hc
    rw [hc] at hn; simp at hn
  obtain ⟨a, A, hA⟩ := List.exists_cons_of_ne_nil hne
  have ha : a = s0 := by
    unfold chain at hC
    rw [hA, List.cons_append, List.cons.injEq] at hC
    exact hC.1
  subst ha
  rw [← hs0]
  refine chain_complete E (K_spec h) a A n0 ?_ ?_ ?_
  · rw [← hA, List.getLast?_reverse]; exact hn
  · intro e he
    rw [← hA, List.mem_reverse] at he
    exact (hgood e he).1
  · rw [← hA]
    refine List.IsChain.imp_of_mem_imp ?_ hL
    intro u v hu hv hr
    rw [List.mem_reverse] at hu hv
    refine ⟨hr.le, ?_⟩
    rcases hr.comp with h1 | h1 | h1
    · exact h1
    · exact absurd h1 (hp u hu)
    · exact absurd h1 (hp v hv)

/-- The left end of the search interval. -/
theorem ext0_facts (E : Env P spec S) (h : PI P spec S (chain st) (st.cur.id :: st.pend) next K) :
    ext0 S st ∉ spec ∧ 0 ≤ (S.dir : ℝ) * (ext0 S st - S.int0) ∧ 0 ≤ (S.dir : ℝ) * (st.cur.value - ext0 S st)
    ∧ (ini S st : ℕ) = K.countP (btw S.dir S.int0 (ext0 S st)) := by
  unfold ext0 ini
  cases hl : st.left with
  | nil =>
    obtain ⟨s0, T, hC, hs0⟩ := h.hd
    unfold chain at hC
    rw [hl] at hC
    simp only [List.reverse_nil, List.nil_append, List.cons.injEq] at hC
    refine ⟨E.i0, by simp, by rw [hC.1, hs0]; simp, ?_⟩
    symm
    rw [Multiset.countP_eq_zero]
    rintro a - ⟨h1, h2⟩
    simp only at h1 h2
    nlinarith
  | cons n0 t =>
    have hn : n0 ∈ st.left.head? := by rw [hl]; rfl
    have hg : Good P spec n0 := left_good h n0 (by rw [hl]; exact List.mem_cons_self)
    obtain ⟨h1, h2⟩ := left_complete E h n0 hn
    refine ⟨hg.1, h1, ((chain_parts h).2.1 n0 hn).le, ?_⟩
    show (S.dir * (n0.inertia - S.inertia0)).toNat = _
    rw [hg.2, E.n0, inertia_diff E.hyp S.dir E.hd _ _ h1 E.i0 hg.1, ← h2]
    simp

theorem nbr_facts (E : Env P spec S) (h : PI P spec S (chain st) (st.cur.id :: st.pend) next K) :
    (nbr S st).value ∉ spec ∧ 0 ≤ (S.dir : ℝ) * ((nbr S st).value - st.cur.value) ∧ 0 ≤ (S.dir : ℝ) * (S.int1 - (nbr S st).value) := by
  refine ⟨(nbr_good E h).1, (chain_parts h).2.2.1.le, ?_⟩
  have hR := (chain_parts h).2.2.2
  unfold nbr
  cases hr : st.right with
  | nil => simp [sent]
  | cons n t =>
    rw [hr] at hR
    have htr : ((n :: t) ++ [sent S]).IsChain (fun u v : Shift => (S.dir : ℝ) * u.value ≤ S.dir * v.value) := by
      refine List.IsChain.imp ?_ hR
      intro u v hh
      have := hh.le
      rw [mul_sub] at this
      linarith
    have : IsTrans Shift (fun u v : Shift => (S.dir : ℝ) * u.value ≤ S.dir * v.value) := ⟨fun a b c h1 h2 => le_trans h1 h2⟩
    have h2 := List.IsChain.rel_cons htr (b := sent S) (by simp)
    show 0 ≤ (S.dir : ℝ) * (S.int1 - n.value)
    rw [mul_sub]
    have h3 : (S.dir : ℝ) * n.value ≤ S.dir * S.int1 := h2
    linarith
end

end
end Verif.Slice
