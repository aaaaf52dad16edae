import Verif.Slice.Gather
import Verif.Slice.Theorems
/-!
C108 (reported shifts and inertias) and C111 (several partitions).
-/
set_option linter.all false
namespace Verif.Slice
noncomputable section
open Classical

theorem setup_ends {P : Par} {spec : Multiset ℝ} (a b : ℝ) (hab : a < b) (S : SR) (hs : setup P spec a b = .ok S) :
    min S.int0 S.int1 = a ∧ max S.int0 S.int1 = b ∧ S.int0 ≠ S.int1 := by
  have : (S.int0 = a ∧ S.int1 = b) ∨ (S.int0 = b ∧ S.int1 = a) := by
    unfold setup at hs
    dsimp only at hs
    by_cases hf : -P.maxReal < a ∨ P.maxReal ≤ b
    · simp only [if_pos hf] at hs
      split_ifs at hs <;> injection hs with hs <;> subst hs
      · exact Or.inr ⟨rfl, rfl⟩
      · exact Or.inl ⟨rfl, rfl⟩
    · simp only [if_neg hf] at hs
      split_ifs at hs <;> injection hs with hs <;> subst hs
      · exact Or.inl ⟨rfl, rfl⟩
      · exact Or.inr ⟨rfl, rfl⟩
  rcases this with ⟨h0, h1⟩ | ⟨h0, h1⟩
  · rw [h0, h1]; exact ⟨min_eq_left hab.le, max_eq_right hab.le, ne_of_lt hab⟩
  · rw [h0, h1]; exact ⟨min_eq_right hab.le, max_eq_left hab.le, ne_of_gt hab⟩

/-- **C108** (partial: exact arithmetic, Lanczos process assumed).  After the run the shifts reported are strictly increasing, the first and the last are the
ends of the interval, and with each of them comes the number of smaller eigenvalues. -/
theorem slice_inertias_partial {P : Par} {spec : Multiset ℝ} (H : Hyp P spec) (a b : ℝ) (hab : a < b) (ha : a ∉ spec) (hb : b ∉ spec)
    (S : SR) (hS : setup P spec a b = .ok S) (cs : List (List ℝ)) (hL : Legal P spec S cs (start S)) (st : St)
    (hst : solveLocal P spec S cs = .ok st) :
    (getInertias S st).Pairwise (fun x y => x.1 < y.1)
      ∧ (getInertias S st).head?.map Prod.fst = some a ∧ (getInertias S st).getLast?.map Prod.fst = some b
      ∧ ∀ x ∈ getInertias S st, x.2 = (spec.countP (fun l => l < x.1) : ℤ) := by
  obtain ⟨E, -⟩ := setup_spec H a b hab.le ha hb S hS
  obtain ⟨e1, e2, e3⟩ := setup_ends a b hab S hS
  have := (local_spec E cs hL st hst).rep e3
  rw [e1, e2] at this
  exact ⟨this.inc, this.first, this.last, this.count⟩

example (st : St) (hst : solveLocal exP exSpec exS [[8.7], [2]] = .ok st) :
    ∀ x ∈ getInertias exS st, x.2 = (exSpec.countP (fun l => l < x.1) : ℤ) :=
  (slice_inertias_partial ex_hyp 1 10 (by norm_num) (by norm_num [exSpec]) (by norm_num [exSpec]) exS ex_setup _
    (ex_legal exS ex_setup) st hst).2.2.2

/-- The three shifts of the example with their inertias. -/
example : getInertias exS exSt3 = [(1, 0), (7.7, 1), (10, 2)] := by
  norm_num [getInertias, shiftsRaw, dropDup, chain, exSt3, exS, exSort, exPass]

/-- The ends of the subintervals before (`s`) and after (`t`) the first shift of every partition has been checked: each partition determines its first
end (in the direction of traversal), the neighbour receives it. -/
structure Bounds (P : Par) (spec : Multiset ℝ) (subintset : Bool) (dir : ℤ) (a b : ℝ) (npart : ℕ) (s t : ℕ → ℝ) : Prop where
  s0 : s 0 = a
  sn : s npart = b
  up : dir = 1 → (∀ c < npart, firstShift P spec subintset a b (s c) = .ok (t c)) ∧ t npart = s npart
  down : dir = -1 → (∀ c < npart, firstShift P spec subintset a b (s (c + 1)) = .ok (t (c + 1))) ∧ t 0 = s 0

theorem firstShift_end {P : Par} {spec : Multiset ℝ} {sub : Bool} {a b x y : ℝ} (hx : x = a ∨ x = b) (h : firstShift P spec sub a b x = .ok y) : y = x := by
  unfold firstShift at h
  split_ifs at h
  injection h with h
  exact h.symm

theorem Bounds.ends {P : Par} {spec : Multiset ℝ} {sub : Bool} {dir : ℤ} (hd : dir = 1 ∨ dir = -1) {a b : ℝ} {npart : ℕ} (hp : 1 ≤ npart) {s t : ℕ → ℝ}
    (B : Bounds P spec sub dir a b npart s t) : t 0 = a ∧ t npart = b := by
  rcases hd with hd | hd
  · obtain ⟨h1, h2⟩ := B.up hd
    exact ⟨(firstShift_end (Or.inl B.s0) (h1 0 (by omega))).trans B.s0, h2.trans B.sn⟩
  · obtain ⟨h1, h2⟩ := B.down hd
    refine ⟨h2.trans B.s0, ?_⟩
    have := h1 (npart - 1) (by omega)
    rw [show npart - 1 + 1 = npart by omega] at this
    exact (firstShift_end (Or.inr B.sn) this).trans B.sn

/-- What is assumed of a partitioned run: the ends of the subintervals are increasing and no eigenvalues, and each partition has finished a legal run. -/
structure PartRun (P : Par) (spec : Multiset ℝ) (dir : ℤ) (hasEnd : Bool) (npart : ℕ) (t : ℕ → ℝ) (cs : ℕ → List (List ℝ)) (st : ℕ → St) : Prop where
  mono : ∀ i < npart, t i < t (i + 1)
  gen : ∀ i ≤ npart, t i ∉ spec
  fin : hasEnd = false → (dir = 1 → P.maxReal ≤ t npart) ∧ (dir = -1 → t 0 ≤ -P.maxReal)
  legal : ∀ c < npart, Legal P spec (partSR P spec dir hasEnd npart t c) (cs c) (start (partSR P spec dir hasEnd npart t c))
  done : ∀ c < npart, solveLocal P spec (partSR P spec dir hasEnd npart t c) (cs c) = .ok (st c)

/-- **C111** (partial: the assumptions of `PartRun`; messages as if buffered).  The gathered values are the eigenvalues of the whole interval with
multiplicity, in increasing order, and the number of converged eigenvalues (sum over the partitions, line 376) is their number. -/
theorem parts_union_partial {P : Par} {spec : Multiset ℝ} (H : Hyp P spec) (sub : Bool) (dir : ℤ) (hd : dir = 1 ∨ dir = -1) (hasEnd : Bool)
    (a b : ℝ) (npart : ℕ) (hp : 1 ≤ npart) (s t : ℕ → ℝ) (B : Bounds P spec sub dir a b npart s t) (cs : ℕ → List (List ℝ)) (st : ℕ → St)
    (h : PartRun P spec dir hasEnd npart t cs st) :
    (gathered ((List.range npart).map fun c => ((st c).eigr, (st c).perm)) : Multiset ℝ) = spec.filter (fun l => a < l ∧ l < b)
      ∧ (gathered ((List.range npart).map fun c => ((st c).eigr, (st c).perm))).Pairwise (· ≤ ·)
      ∧ ((List.range npart).map fun c => (partSR P spec dir hasEnd npart t c).numEigs).sum = (spec.countP (fun l => a < l ∧ l < b) : ℤ) := by
  obtain ⟨ta, tb⟩ := B.ends hd hp
  have hloc : ∀ c < npart, LocalRes P spec (partSR P spec dir hasEnd npart t c) (st c)
      ∧ (st c).eigr = (spec.filter (fun l => t c < l ∧ l < t (c + 1)) : Multiset ℝ) := by
    intro c hc
    obtain ⟨E, hb, -, -, -⟩ := part_env H dir hd hasEnd npart t h.mono h.gen h.fin c hc
    have hl := local_spec E (cs c) (h.legal c hc) (st c) (h.done c hc)
    refine ⟨hl, ?_⟩
    rw [hl.eig]
    exact Multiset.filter_congr (fun l _ => hb l)
  have hg := gathered_eq ((List.range npart).map fun c => ((st c).eigr, (st c).perm)) (by
    intro q hq
    obtain ⟨c, hc, rfl⟩ := List.mem_map.mp hq
    exact (hloc c (List.mem_range.mp hc)).1.perm)
  rw [List.map_map] at hg
  have hV := union_spec t npart h.mono h.gen (fun c => (st c).perm.map (at' (st c).eigr)) (by
    intro c hc
    obtain ⟨h1, h2⟩ := hloc c hc
    refine ⟨?_, h1.asc⟩
    rw [← h2, Multiset.coe_eq_coe]
    refine (h1.perm.map _).trans ?_
    rw [map_at_range]) npart (le_refl _)
  rw [ta, tb] at hV
  have hg' : gathered ((List.range npart).map fun c => ((st c).eigr, (st c).perm))
      = ((List.range npart).map (fun c => (st c).perm.map (at' (st c).eigr))).flatten := hg
  refine ⟨by rw [hg']; exact hV.1, by rw [hg']; exact hV.2, ?_⟩
  rw [Multiset.countP_eq_card_filter, ← hV.1]
  rw [Multiset.coe_card, List.length_flatten, List.map_map]
  rw [Nat.cast_list_sum, List.map_map]
  congr 1
  apply List.map_congr_left
  intro c hc
  have h1 := (hloc c (List.mem_range.mp hc)).1
  rw [← h1.len]
  simp [h1.perm.length_eq]

/-- **C108** for several partitions (partial in the same way): the concatenation of the shifts of the partitions, with the shared ones removed. -/
theorem parts_inertias_partial {P : Par} {spec : Multiset ℝ} (H : Hyp P spec) (sub : Bool) (dir : ℤ) (hd : dir = 1 ∨ dir = -1) (hasEnd : Bool)
    (a b : ℝ) (npart : ℕ) (hp : 1 ≤ npart) (s t : ℕ → ℝ) (B : Bounds P spec sub dir a b npart s t) (cs : ℕ → List (List ℝ)) (st : ℕ → St)
    (h : PartRun P spec dir hasEnd npart t cs st) (L : List (ℝ × ℤ))
    (hL : L = ((List.range npart).map fun c => trimShifts dir npart c (partSR P spec dir hasEnd npart t c)
        (getInertias (partSR P spec dir hasEnd npart t c) (st c))).flatten) :
    L.Pairwise (fun x y => x.1 < y.1) ∧ L.head?.map Prod.fst = some a ∧ L.getLast?.map Prod.fst = some b
      ∧ ∀ x ∈ L, x.2 = (spec.countP (fun l => l < x.1) : ℤ) := by
  obtain ⟨ta, tb⟩ := B.ends hd hp
  obtain ⟨G, hG⟩ : ∃ G : ℕ → List (ℝ × ℤ), G = fun c => getInertias (partSR P spec dir hasEnd npart t c) (st c) := ⟨_, rfl⟩
  have hrep : ∀ c < npart, Reported P spec (t c) (t (c + 1)) (G c) := by
    intro c hc
    obtain ⟨E, hb, h1, h2, h3⟩ := part_env H dir hd hasEnd npart t h.mono h.gen h.fin c hc
    have := (local_spec E (cs c) (h.legal c hc) (st c) (h.done c hc)).rep h3
    rw [h1, h2] at this
    rw [hG]
    exact this
  have hlast : ∀ c < npart, ((G c).getD ((G c).length - 1) (0, 0)).1 = t (c + 1) := by
    intro c hc
    have := (hrep c hc).last
    rcases List.eq_nil_or_concat (G c) with h0 | ⟨T, z, hz⟩
    · rw [h0] at this; simp at this
    · rw [List.concat_eq_append] at hz
      rw [hz, getD_last]
      rw [hz] at this
      simpa using this
  obtain ⟨m, rfl⟩ : ∃ m, npart = m + 1 := ⟨npart - 1, by omega⟩
  have hfin : Reported P spec (t 0) (t (m + 1)) L := by
    rcases hd with rfl | rfl
    · have := shifts_up t (m + 1) h.mono G hrep m (by omega)
      have he : L = ((List.range m).map (fun c => (G c).dropLast)).flatten ++ G m := by
        rw [hL, List.range_succ, List.map_append, List.flatten_append]
        congr 1
        · congr 1
          apply List.map_congr_left
          intro c hc
          have hc' := List.mem_range.mp hc
          show trimShifts 1 (m + 1) c _ _ = _
          have hg : getInertias (partSR P spec 1 hasEnd (m + 1) t c) (st c) = G c := by rw [hG]
          rw [hg]
          unfold trimShifts
          rw [if_pos]
          refine ⟨by decide, ?_, by omega⟩
          rw [hlast c (by omega)]
          unfold partSR
          have hnl : isLast 1 (m + 1) c = false := by
            unfold isLast
            simp
            omega
          rw [hnl]
          simp
        · have hg : getInertias (partSR P spec 1 hasEnd (m + 1) t m) (st m) = G m := by rw [hG]
          simp only [List.map_cons, List.map_nil, List.flatten_cons, List.flatten_nil, List.append_nil]
          rw [hg]
          unfold trimShifts
          rw [if_neg (by rintro ⟨-, -, h3⟩; omega), if_neg (by rintro ⟨h1, -⟩; exact absurd h1 (by decide))]
      rw [he]
      exact this
    · have := shifts_down t (m + 1) h.mono G hrep m (by omega)
      have he : L = G 0 ++ ((List.range m).map (fun c => (G (c + 1)).tail)).flatten := by
        rw [hL, List.range_succ_eq_map, List.map_cons, List.flatten_cons, List.map_map]
        congr 1
        · have hg : getInertias (partSR P spec (-1) hasEnd (m + 1) t 0) (st 0) = G 0 := by rw [hG]
          rw [hg]
          unfold trimShifts
          rw [if_neg (by rintro ⟨h1, -⟩; exact absurd h1 (by decide)), if_neg (by rintro ⟨-, -, h3⟩; omega)]
        · congr 1
          apply List.map_congr_left
          intro c hc
          have hc' := List.mem_range.mp hc
          show trimShifts (-1) (m + 1) (c + 1) _ (getInertias (partSR P spec (-1) hasEnd (m + 1) t (c + 1)) (st (c + 1))) = _
          have hg : getInertias (partSR P spec (-1) hasEnd (m + 1) t (c + 1)) (st (c + 1)) = G (c + 1) := by rw [hG]
          rw [hg]
          unfold trimShifts
          rw [if_neg (by rintro ⟨h1, -⟩; exact absurd h1 (by decide)), if_pos]
          refine ⟨by decide, ?_, by omega⟩
          rw [hlast (c + 1) (by omega)]
          unfold partSR
          have hnl : isLast (-1) (m + 1) (c + 1) = false := by
            unfold isLast
            simp
          rw [hnl]
          simp
      rw [he]
      exact this
  rw [ta, tb] at hfin
  exact ⟨hfin.inc, hfin.first, hfin.last, hfin.count⟩

/-- **C111**, uniform subintervals: they start and end at the ends of the interval, are increasing, and every other number of the interval is in
exactly one of them. -/
theorem uniform_cover (a b : ℝ) (hab : a < b) (npart : ℕ) (hp : 1 ≤ npart) :
    uniform a b npart 0 = a ∧ uniform a b npart npart = b
      ∧ (∀ i < npart, uniform a b npart i < uniform a b npart (i + 1))
      ∧ ∀ x, a < x → x < b → (∀ i ≤ npart, x ≠ uniform a b npart i) →
          ∃! c, c < npart ∧ uniform a b npart c < x ∧ x < uniform a b npart (c + 1) := by
  have hn : (0 : ℝ) < npart := by exact_mod_cast hp
  have hw : 0 < (b - a) / (npart : ℝ) := div_pos (by linarith) hn
  have hu : ∀ i ≤ npart, uniform a b npart i = a + (i : ℝ) * ((b - a) / (npart : ℝ)) := by
    intro i hi
    unfold uniform
    split_ifs with h
    · subst h; field_simp; ring
    · rfl
  have hmono : ∀ i < npart, uniform a b npart i < uniform a b npart (i + 1) := by
    intro i hi
    rw [hu i (by omega), hu (i + 1) (by omega)]
    push_cast
    nlinarith
  refine ⟨by rw [hu 0 (by omega)]; simp, by unfold uniform; simp, hmono, ?_⟩
  intro x hax hxb hne
  have hu0 : uniform a b npart 0 = a := by rw [hu 0 (by omega)]; simp
  have hun : uniform a b npart npart = b := by unfold uniform; simp
  have hex : ∃ k, k ≤ npart ∧ x < uniform a b npart k := ⟨npart, le_refl _, by rw [hun]; exact hxb⟩
  obtain ⟨k, hk⟩ : ∃ k, k = Nat.find hex := ⟨_, rfl⟩
  have hks := Nat.find_spec hex
  rw [← hk] at hks
  have hk0 : k ≠ 0 := by
    intro h0
    rw [h0, hu0] at hks
    linarith [hks.2]
  obtain ⟨c, rfl⟩ : ∃ c, k = c + 1 := ⟨k - 1, by omega⟩
  have hnot : ¬ (c ≤ npart ∧ x < uniform a b npart c) := Nat.find_min hex (by omega)
  have hlt : uniform a b npart c < x := by
    have h1 : ¬ x < uniform a b npart c := fun h => hnot ⟨by omega, h⟩
    exact lt_of_le_of_ne (not_lt.mp h1) (fun h => hne c (by omega) h.symm)
  refine ⟨c, ⟨by omega, hlt, hks.2⟩, ?_⟩
  rintro c' ⟨h1, h2, h3⟩
  by_contra hcc
  rcases Nat.lt_or_gt_of_ne hcc with hl | hl
  · have := mono_le (uniform a b npart) npart hmono (c' + 1) c (by omega) (by omega)
    linarith
  · have := mono_le (uniform a b npart) npart hmono (c + 1) c' (by omega) (by omega)
    linarith [hks.2]

end
end Verif.Slice
