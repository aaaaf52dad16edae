import Verif.Slice.Inv
/-! The values known and the values found at a shift. -/
set_option linter.all false
namespace Verif.Slice
noncomputable section
open Classical
section
variable {P : Par} {spec : Multiset ℝ} {S : SR} {st : St}

/-- The stored values in order. -/
def vals (st : St) : List ℝ := st.perm.map (at' st.eigr)

theorem neg_iff (d : ℤ) (x y : ℝ) : (d : ℝ) * (x - y) < 0 ↔ 0 < (d : ℝ) * (y - x) := by
  constructor <;> intro h <;> nlinarith

theorem ne_of_notin {d : ℤ} (hd : d = 1 ∨ d = -1) {x l : ℝ} (hx : x ≠ l) (h : ¬ 0 < (d : ℝ) * (x - l)) : 0 < (d : ℝ) * (l - x) := by
  rcases hd with rfl | rfl <;> push_cast at * <;> rcases lt_or_gt_of_ne hx with h1 | h1 <;> linarith

/-- Sorted values that are not before the left end. -/
theorem tailVals_eq (E : Env P spec S) (h : PI P spec S (chain st) (st.cur.id :: st.pend) next (st.eigr : Multiset ℝ)) (ho : Ord S st) :
    tailVals S st = (vals st).filter (fun v => !decide ((S.dir : ℝ) * (v - ext0 S st) < 0)) := by
  obtain ⟨h1, h2, h3, h4⟩ := ext0_facts E h
  unfold tailVals
  rw [← drop_countP S.dir (ext0 S st) (vals st) ho.srt]
  congr 1
  rw [h4, ← Multiset.coe_eq_coe.mpr ho.vals, Multiset.coe_countP]
  apply List.countP_congr
  intro v hv
  have hvK : v ∈ (st.eigr : Multiset ℝ) := by
    rw [Multiset.mem_coe]; exact ho.vals.mem_iff.mp hv
  have hb := K_btw h hvK
  simp only [decide_eq_true_eq, neg_iff]
  exact ⟨fun hh => hh.2, fun hh => ⟨hb.1, hh⟩⟩

theorem K_mem (h : PI P spec S (chain st) (st.cur.id :: st.pend) next K) {l : ℝ} (hl : l ∈ K) : l ∈ spec := Multiset.mem_of_le (K_spec h) hl

theorem known_eq (E : Env P spec S) (h : PI P spec S (chain st) (st.cur.id :: st.pend) next (st.eigr : Multiset ℝ)) (ho : Ord S st)
    (hg : Good P spec st.cur) :
    (known P S st).1 = (st.eigr : Multiset ℝ).countP (btw S.dir (ext0 S st) st.cur.value)
    ∧ (known P S st).2 = (st.eigr : Multiset ℝ).countP (btw S.dir st.cur.value (nbr S st).value)
    ∧ ((deflated P S st : List ℝ) : Multiset ℝ) = (st.eigr : Multiset ℝ).filter (btw S.dir (ext0 S st) (nbr S st).value) := by
  obtain ⟨h1, h2, h3, h4⟩ := ext0_facts E h
  obtain ⟨n1, n2, n3⟩ := nbr_facts E h
  have hsrt : Srt S.dir (tailVals S st) := by
    rw [tailVals_eq E h ho]
    exact List.Pairwise.filter _ ho.srt
  obtain ⟨s1, s2, s3⟩ := scan_eq S.dir st.cur.value (ext1 P S st) (tailVals S st) hsrt
  have hmem : ∀ v ∈ vals st, v ∈ spec ∧ v ≠ ext0 S st ∧ v ≠ st.cur.value := by
    intro v hv
    have hvK : v ∈ (st.eigr : Multiset ℝ) := by
      rw [Multiset.mem_coe]; exact ho.vals.mem_iff.mp hv
    have := K_mem h hvK
    exact ⟨this, fun hh => h1 (hh ▸ this), fun hh => hg.1 (hh ▸ this)⟩
  have hcoe : (st.eigr : Multiset ℝ) = (vals st : Multiset ℝ) := (Multiset.coe_eq_coe.mpr ho.vals).symm
  refine ⟨?_, ?_, ?_⟩
  · unfold known
    rw [s1, tailVals_eq E h ho, List.countP_filter, hcoe, Multiset.coe_countP]
    apply List.countP_congr
    intro v hv
    obtain ⟨m1, m2, m3⟩ := hmem v hv
    simp only [Bool.and_eq_true, decide_eq_true_eq, Bool.not_eq_true', decide_eq_false_iff_not, neg_iff]
    rw [ext1_iff E st v m1]
    constructor
    · rintro ⟨⟨a1, a2⟩, a3⟩
      exact ⟨ne_of_notin E.hd (Ne.symm m2) a3, a2⟩
    · rintro ⟨a1, a2⟩
      exact ⟨⟨by nlinarith, a2⟩, by intro hc; nlinarith⟩
  · unfold known
    rw [s2, tailVals_eq E h ho, List.countP_filter, hcoe, Multiset.coe_countP]
    apply List.countP_congr
    intro v hv
    obtain ⟨m1, m2, m3⟩ := hmem v hv
    simp only [Bool.and_eq_true, decide_eq_true_eq, Bool.not_eq_true', decide_eq_false_iff_not, neg_iff]
    rw [ext1_iff E st v m1]
    constructor
    · rintro ⟨⟨a1, a2⟩, a3⟩
      exact ⟨ne_of_notin E.hd (Ne.symm m3) a2, a1⟩
    · rintro ⟨a1, a2⟩
      exact ⟨⟨a2, by intro hc; nlinarith⟩, by intro hc; nlinarith⟩
  · unfold deflated known
    rw [s3, tailVals_eq E h ho, List.filter_filter, hcoe, Multiset.filter_coe, Multiset.coe_eq_coe]
    apply List.Perm.of_eq
    apply List.filter_congr
    intro v hv
    obtain ⟨m1, m2, m3⟩ := hmem v hv
    rw [Bool.eq_iff_iff]
    simp only [Bool.and_eq_true, decide_eq_true_eq, Bool.not_eq_true', decide_eq_false_iff_not, neg_iff]
    rw [ext1_iff E st v m1]
    constructor
    · rintro ⟨a1, a3⟩
      exact ⟨ne_of_notin E.hd (Ne.symm m2) a3, a1⟩
    · rintro ⟨a1, a2⟩
      exact ⟨a2, by intro hc; nlinarith⟩

/-- What is assumed of the Lanczos process at a shift: it finds eigenvalues, no more of them than there are besides the deflated ones. -/
def Sound (P : Par) (spec : Multiset ℝ) (S : SR) (st : St) (conv : List ℝ) : Prop :=
  ((conv : Multiset ℝ) + (deflated P S st : Multiset ℝ)) ≤ spec

theorem acc_eq (E : Env P spec S) (conv : List ℝ) (hs : Sound P spec S st conv) :
    ((accepted P S st conv : List ℝ) : Multiset ℝ) = (conv : Multiset ℝ).filter (btw S.dir (ext0 S st) (nbr S st).value) := by
  have hm : ∀ v ∈ conv, v ∈ spec := fun v hv =>
    Multiset.mem_of_le (le_trans (Multiset.le_add_right _ _) hs) (Multiset.mem_coe.mpr hv)
  rw [Multiset.coe_eq_coe.mpr (accepted_perm P S st conv), Multiset.filter_coe, Multiset.coe_eq_coe]
  apply List.Perm.of_eq
  apply List.filter_congr
  intro v hv
  rw [Bool.eq_iff_iff]
  simp only [decide_eq_true_eq]
  rw [ext1_iff E st v (hm v hv)]
  rfl

/-- The values known after the search. -/
theorem store_le (E : Env P spec S) (h : PI P spec S (chain st) (st.cur.id :: st.pend) next (st.eigr : Multiset ℝ)) (ho : Ord S st)
    (hg : Good P spec st.cur) (conv : List ℝ) (hs : Sound P spec S st conv) :
    ((st.eigr ++ accepted P S st conv : List ℝ) : Multiset ℝ) ≤ spec.filter (btw S.dir S.int0 S.int1) := by
  obtain ⟨h1, h2, h3, h4⟩ := ext0_facts E h
  obtain ⟨n1, n2, n3⟩ := nbr_facts E h
  have hdef := (known_eq E h ho hg).2.2
  unfold Sound at hs
  rw [hdef] at hs
  rw [← Multiset.coe_add, acc_eq E conv (by unfold Sound; rw [hdef]; exact hs)]
  have hle : (st.eigr : Multiset ℝ) + (conv : Multiset ℝ).filter (btw S.dir (ext0 S st) (nbr S st).value) ≤ spec := by
    rw [Multiset.le_iff_count]
    intro l
    rw [Multiset.count_add]
    by_cases hb : btw S.dir (ext0 S st) (nbr S st).value l
    · have := Multiset.le_iff_count.mp hs l
      rw [Multiset.count_add, Multiset.count_filter_of_pos hb] at this
      rw [Multiset.count_filter_of_pos hb]
      omega
    · rw [Multiset.count_filter_of_neg hb]
      simpa using Multiset.le_iff_count.mp (K_spec h) l
  rw [Multiset.le_filter]
  refine ⟨hle, fun l hl => ?_⟩
  rcases Multiset.mem_add.mp hl with hl | hl
  · exact K_btw h hl
  · have hb := (Multiset.mem_filter.mp hl).2
    exact ⟨by have := hb.1; nlinarith, by have := hb.2; nlinarith⟩

theorem found_counts (E : Env P spec S) (h : PI P spec S (chain st) (st.cur.id :: st.pend) next (st.eigr : Multiset ℝ)) (ho : Ord S st)
    (hg : Good P spec st.cur) (conv : List ℝ) (hs : Sound P spec S st conv) :
    ((st.eigr ++ accepted P S st conv : List ℝ) : Multiset ℝ).countP (btw S.dir (ext0 S st) st.cur.value)
      = (known P S st).1 + found0 S st conv
    ∧ ((st.eigr ++ accepted P S st conv : List ℝ) : Multiset ℝ).countP (btw S.dir st.cur.value (nbr S st).value)
      = (known P S st).2 + found1 P S st conv := by
  obtain ⟨h1, h2, h3, h4⟩ := ext0_facts E h
  obtain ⟨n1, n2, n3⟩ := nbr_facts E h
  obtain ⟨k1, k2, k3⟩ := known_eq E h ho hg
  have hm : ∀ v ∈ conv, v ∈ spec := fun v hv =>
    Multiset.mem_of_le (le_trans (Multiset.le_add_right _ _) hs) (Multiset.mem_coe.mpr hv)
  rw [← Multiset.coe_add, Multiset.countP_add, Multiset.countP_add, acc_eq E conv hs, k1, k2, Multiset.countP_filter, Multiset.countP_filter]
  refine ⟨?_, ?_⟩
  · congr 1
    unfold found0
    rw [Multiset.coe_countP]
    apply List.countP_congr
    intro v hv
    simp only [decide_eq_true_eq]
    constructor
    · rintro ⟨⟨a1, a2⟩, -⟩; exact ⟨a2, a1⟩
    · rintro ⟨a1, a2⟩; exact ⟨⟨a2, a1⟩, a2, by nlinarith⟩
  · congr 1
    unfold found1
    rw [Multiset.coe_countP]
    apply List.countP_congr
    intro v hv
    simp only [decide_eq_true_eq]
    rw [ext1_iff E st v (hm v hv)]
    constructor
    · rintro ⟨⟨a1, a2⟩, -⟩; exact ⟨a1, a2⟩
    · rintro ⟨a1, a2⟩; exact ⟨⟨a1, a2⟩, by nlinarith, a2⟩

/-- A side whose flag `comp` is set is complete. -/
theorem comp_sides (E : Env P spec S) (h : PI P spec S (chain st) (st.cur.id :: st.pend) next (st.eigr : Multiset ℝ)) (ho : Ord S st)
    (hg : Good P spec st.cur) (conv : List ℝ) (hs : Sound P spec S st conv) :
    (¬ (found0 S st conv : ℤ) < nsch0 P S st → ∀ n0 ∈ st.left.head?,
      Complete spec S.dir (st.eigr ++ accepted P S st conv : List ℝ) n0.value st.cur.value)
    ∧ (¬ (found1 P S st conv : ℤ) < nsch1 P S st →
      Complete spec S.dir (st.eigr ++ accepted P S st conv : List ℝ) st.cur.value (nbr S st).value) := by
  obtain ⟨h1, h2, h3, h4⟩ := ext0_facts E h
  obtain ⟨n1, n2, n3⟩ := nbr_facts E h
  obtain ⟨c0, c1⟩ := found_counts E h ho hg conv hs
  have hK : ((st.eigr ++ accepted P S st conv : List ℝ) : Multiset ℝ) ≤ spec :=
    le_trans (store_le E h ho hg conv hs) (Multiset.filter_le _ _)
  constructor
  · intro hc n0 hn
    have hgn : Good P spec n0 := left_good h n0 (List.mem_of_mem_head? hn)
    obtain ⟨t, ht⟩ : ∃ t, st.left = n0 :: t := by
      cases hl : st.left with
      | nil => rw [hl] at hn; simp at hn
      | cons a t => rw [hl] at hn; simp at hn; exact ⟨t, by rw [hn]⟩
    have he : ext0 S st = n0.value := by unfold ext0; rw [ht]
    have hns : nsch0 P S st = S.dir * (st.cur.inertia - n0.inertia) - ((known P S st).1 : ℤ) := by
      unfold nsch0; rw [ht]
    rw [he] at h3 c0
    rw [hg.2, hgn.2, inertia_diff E.hyp S.dir E.hd _ _ h3 hgn.1 hg.1] at hns
    unfold Complete
    have := Multiset.countP_le_of_le (btw S.dir n0.value st.cur.value) hK
    rw [c0] at this ⊢
    omega
  · intro hc
    unfold Complete
    have := Multiset.countP_le_of_le (btw S.dir st.cur.value (nbr S st).value) hK
    rw [c1] at this ⊢
    have hgn := nbr_good E h
    have hd := inertia_diff E.hyp S.dir E.hd _ _ n2 hg.1 n1
    rw [← hg.2, ← hgn.2] at hd
    have hns : nsch1 P S st ≥ S.dir * ((nbr S st).inertia - st.cur.inertia) - ((known P S st).2 : ℤ) := by
      unfold nsch1 nbr
      cases hr : st.right with
      | nil =>
        show S.dir * (S.inertia1 - st.cur.inertia) ≥ S.dir * (S.inertia1 - st.cur.inertia) - _
        omega
      | cons n t => exact le_refl _
    omega

theorem store_ord (h : Ord S st) (conv : List ℝ) (s1 : St) (hs : store P S st conv = .ok s1) :
    Ord S s1 ∧ s1.left = st.left ∧ s1.right = st.right ∧ s1.cur.id = st.cur.id ∧ s1.cur.value = st.cur.value ∧ s1.cur.inertia = st.cur.inertia
    ∧ s1.pend = st.pend ∧ s1.slot = st.slot ∧ s1.next = st.next ∧ s1.eigr = st.eigr ++ accepted P S st conv := by
  unfold store at hs
  dsimp only at hs
  split_ifs at hs
  injection hs with hs
  subst hs
  refine ⟨⟨?_, ?_⟩, rfl, rfl, rfl, rfl, rfl, rfl, rfl, rfl, rfl⟩
  · refine (sortReal_perm _ _ _).trans ?_
    dsimp only
    rw [List.length_append, List.range_add]
    refine h.perm.append ?_
    rw [List.range'_eq_map_range]
  · exact sortReal_sorted _ _ _

end
end
end Verif.Slice
