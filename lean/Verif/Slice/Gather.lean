import Verif.Slice.Report
/-! Lemmas on several partitions. -/
set_option linter.all false
namespace Verif.Slice
noncomputable section
open Classical

theorem updPerm_map (L : List (List ℝ × List ℕ)) (h : ∀ q ∈ L, q.2.Perm (List.range q.1.length)) (prev off : ℕ) (E : List ℝ)
    (hE : E.length = off + prev) :
    (updPerm prev off (L.map (fun q => q.1.length)) (L.map Prod.snd).flatten).map (at' (E ++ (L.map Prod.fst).flatten))
      = (L.map (fun q => q.2.map (at' q.1))).flatten := by
  induction L generalizing prev off E with
  | nil => rfl
  | cons q L ih =>
    have hq := h q List.mem_cons_self
    have hlen : q.2.length = q.1.length := by rw [hq.length_eq, List.length_range]
    simp only [List.map_cons, List.flatten_cons, updPerm]
    rw [← hlen, List.take_left' rfl, List.drop_left' rfl, List.map_append, List.map_map]
    congr 1
    · apply List.map_congr_left
      intro j hj
      have hj' : j < q.1.length := by simpa using hq.mem_iff.mp hj
      simp only [Function.comp, at', List.getD_eq_getElem?_getD]
      rw [List.getElem?_append_right (by omega), List.getElem?_append_left (by omega)]
      congr 2
      omega
    · have := ih (fun q' hq' => h q' (List.mem_cons_of_mem _ hq')) q.2.length (off + prev) (E ++ q.1) (by simp [hE, hlen])
      rw [List.append_assoc] at this
      exact this

theorem updPerm_length (ns : List ℕ) (prev off : ℕ) (p : List ℕ) (h : p.length = ns.sum) : (updPerm prev off ns p).length = p.length := by
  induction ns generalizing prev off p with
  | nil => rfl
  | cons n ns ih =>
    simp only [List.sum_cons] at h
    simp only [updPerm, List.length_append, List.length_map, List.length_take]
    rw [ih _ _ _ (by simp; omega), List.length_drop]
    omega

theorem gathered_eq (L : List (List ℝ × List ℕ)) (h : ∀ q ∈ L, q.2.Perm (List.range q.1.length)) :
    gathered L = (L.map (fun q => q.2.map (at' q.1))).flatten := by
  cases L with
  | nil => rfl
  | cons q L =>
    have hq := h q List.mem_cons_self
    have hlen : q.2.length = q.1.length := by rw [hq.length_eq, List.length_range]
    have h1 : (gather (q :: L)).1 = q.1 ++ (L.map Prod.fst).flatten := by simp [gather]
    have h2 : (gather (q :: L)).2 = q.2 ++ updPerm q.1.length 0 (L.map (fun q => q.1.length)) (L.map Prod.snd).flatten := by
      simp only [gather, List.map_cons, List.flatten_cons]
      rw [← hlen, List.take_left' rfl, List.drop_left' rfl]
    have hall : ∀ q ∈ L, q.2.length = q.1.length := fun q' hq' => by
      rw [(h q' (List.mem_cons_of_mem _ hq')).length_eq, List.length_range]
    have hfl : (L.map Prod.snd).flatten.length = (L.map (fun q => q.1.length)).sum := by
      rw [List.length_flatten, List.map_map]
      congr 1
      exact List.map_congr_left (fun q' hq' => hall q' hq')
    have hl2 : (gather (q :: L)).2.length = (gather (q :: L)).1.length := by
      rw [h1, h2, List.length_append, List.length_append, updPerm_length _ _ _ _ hfl, hfl, List.length_flatten, List.map_map, hlen]
      rfl
    unfold gathered
    rw [← hl2]
    have hr : ∀ (p : List ℕ) (f : ℕ → ℝ), (List.range p.length).map (fun i => f (p.getD i i)) = p.map f := by
      intro p f
      apply List.ext_getElem
      · simp
      · intro i h1 h2
        have : i < p.length := by simpa using h2
        simp [List.getD_eq_getElem?_getD, this]
    rw [hr, h2, List.map_append, h1, List.map_cons, List.flatten_cons]
    congr 1
    · apply List.map_congr_left
      intro j hj
      have hj' : j < q.1.length := by simpa using hq.mem_iff.mp hj
      simp only [at', List.getD_eq_getElem?_getD]
      rw [List.getElem?_append_left (by omega)]
    · exact updPerm_map L (fun q' hq' => h q' (List.mem_cons_of_mem _ hq')) q.1.length 0 q.1 (by simp)

section
variable {P : Par} {spec : Multiset ℝ}

/-- The set-up of partition `c`. -/
theorem part_env (H : Hyp P spec) (dir : ℤ) (hd : dir = 1 ∨ dir = -1) (hasEnd : Bool) (npart : ℕ) (t : ℕ → ℝ)
    (hmono : ∀ i < npart, t i < t (i + 1)) (hn : ∀ i ≤ npart, t i ∉ spec)
    (hfin : hasEnd = false → (dir = 1 → P.maxReal ≤ t npart) ∧ (dir = -1 → t 0 ≤ -P.maxReal)) (c : ℕ) (hc : c < npart) :
    Env P spec (partSR P spec dir hasEnd npart t c)
      ∧ (∀ l, btw (partSR P spec dir hasEnd npart t c).dir (partSR P spec dir hasEnd npart t c).int0 (partSR P spec dir hasEnd npart t c).int1 l
          ↔ t c < l ∧ l < t (c + 1))
      ∧ min (partSR P spec dir hasEnd npart t c).int0 (partSR P spec dir hasEnd npart t c).int1 = t c
      ∧ max (partSR P spec dir hasEnd npart t c).int0 (partSR P spec dir hasEnd npart t c).int1 = t (c + 1)
      ∧ (partSR P spec dir hasEnd npart t c).int0 ≠ (partSR P spec dir hasEnd npart t c).int1 := by
  have h1 := hmono c hc
  have n0 := hn c (by omega)
  have n1 := hn (c + 1) (by omega)
  obtain ⟨L, hL⟩ : ∃ L, isLast dir npart c = L := ⟨_, rfl⟩
  rcases hd with rfl | rfl
  · unfold partSR
    rw [hL]
    simp only [if_true]
    by_cases hl : L = true ∧ (if L = true then hasEnd else true) = true
    · rw [if_pos hl]
      refine ⟨⟨H, Or.inr rfl, n1, n0, ?_, rfl, rfl, ?_, rfl⟩, ?_, ?_, ?_, ?_⟩
      · push_cast; linarith
      · intro hh; exact absurd (hh.symm.trans hl.2) (by simp)
      · intro l; unfold btw; push_cast; constructor <;> rintro ⟨h4, h5⟩ <;> constructor <;> linarith
      · exact min_eq_right h1.le
      · exact max_eq_left h1.le
      · exact ne_of_gt h1
    · rw [if_neg hl]
      refine ⟨⟨H, Or.inl rfl, n0, n1, ?_, rfl, rfl, ?_, rfl⟩, ?_, ?_, ?_, ?_⟩
      · push_cast; linarith
      · intro hh
        refine ⟨fun _ => ?_, fun h => by simp at h⟩
        have hh' : (if L = true then hasEnd else true) = false := hh
        cases L with
        | false => simp at hh'
        | true =>
          simp at hh'
          have hlast : c = npart - 1 := by
            unfold isLast at hL
            simpa using hL
          have := (hfin hh').1 rfl
          rw [show c + 1 = npart by omega]
          exact this
      · intro l; unfold btw; push_cast; constructor <;> rintro ⟨h4, h5⟩ <;> constructor <;> linarith
      · exact min_eq_left h1.le
      · exact max_eq_right h1.le
      · exact ne_of_lt h1
  · unfold partSR
    rw [hL]
    simp only [show ¬ ((-1 : ℤ) = 1) by decide, if_false]
    by_cases hl : L = true ∧ (if L = true then hasEnd else true) = true
    · rw [if_pos hl]
      refine ⟨⟨H, Or.inl rfl, n0, n1, ?_, rfl, rfl, ?_, rfl⟩, ?_, ?_, ?_, ?_⟩
      · push_cast; linarith
      · intro hh; exact absurd (hh.symm.trans hl.2) (by simp)
      · intro l; unfold btw; push_cast; constructor <;> rintro ⟨h4, h5⟩ <;> constructor <;> linarith
      · exact min_eq_left h1.le
      · exact max_eq_right h1.le
      · exact ne_of_lt h1
    · rw [if_neg hl]
      refine ⟨⟨H, Or.inr rfl, n1, n0, ?_, rfl, rfl, ?_, rfl⟩, ?_, ?_, ?_, ?_⟩
      · push_cast; linarith
      · intro hh
        refine ⟨fun h => by simp at h, fun _ => ?_⟩
        have hh' : (if L = true then hasEnd else true) = false := hh
        cases L with
        | false => simp at hh'
        | true =>
          simp at hh'
          have hlast : c = 0 := by
            unfold isLast at hL
            simpa using hL
          have := (hfin hh').2 rfl
          rw [hlast]
          exact this
      · intro l; unfold btw; push_cast; constructor <;> rintro ⟨h4, h5⟩ <;> constructor <;> linarith
      · exact min_eq_right h1.le
      · exact max_eq_left h1.le
      · exact ne_of_gt h1

theorem mono_le (t : ℕ → ℝ) (n : ℕ) (h : ∀ i < n, t i < t (i + 1)) (i j : ℕ) (hij : i ≤ j) (hj : j ≤ n) : t i ≤ t j := by
  induction j with
  | zero => rw [Nat.le_zero.mp hij]
  | succ j ih =>
    rcases Nat.eq_or_lt_of_le hij with rfl | h1
    · exact le_refl _
    · exact le_trans (ih (by omega) (by omega)) (h j (by omega)).le

/-- Consecutive subintervals. -/
theorem union_spec (t : ℕ → ℝ) (n : ℕ) (hmono : ∀ i < n, t i < t (i + 1)) (hn : ∀ i ≤ n, t i ∉ spec) (V : ℕ → List ℝ)
    (hV : ∀ c < n, (V c : Multiset ℝ) = spec.filter (fun l => t c < l ∧ l < t (c + 1)) ∧ (V c).Pairwise (· ≤ ·)) (k : ℕ) (hk : k ≤ n) :
    (((List.range k).map V).flatten : Multiset ℝ) = spec.filter (fun l => t 0 < l ∧ l < t k) ∧ ((List.range k).map V).flatten.Pairwise (· ≤ ·) := by
  induction k with
  | zero =>
    refine ⟨?_, List.Pairwise.nil⟩
    symm
    rw [show (((List.range 0).map V).flatten : Multiset ℝ) = 0 from rfl, Multiset.filter_eq_nil]
    rintro l - ⟨h1, h2⟩
    linarith
  | succ k ih =>
    obtain ⟨i1, i2⟩ := ih (by omega)
    obtain ⟨v1, v2⟩ := hV k (by omega)
    rw [List.range_succ, List.map_append, List.flatten_append]
    simp only [List.map_cons, List.map_nil, List.flatten_cons, List.flatten_nil, List.append_nil]
    have h0 := mono_le t n hmono 0 k (by omega) (by omega)
    have h1 := hmono k (by omega)
    constructor
    · rw [← Multiset.coe_add, i1, v1, Multiset.filter_add_filter]
      have e1 : spec.filter (fun l => (t 0 < l ∧ l < t k) ∧ t k < l ∧ l < t (k + 1)) = 0 := by
        rw [Multiset.filter_eq_nil]
        rintro l - ⟨⟨-, a⟩, b, -⟩
        linarith
      rw [e1, add_zero]
      apply Multiset.filter_congr
      intro l hl
      have hne : l ≠ t k := fun h => hn k (by omega) (h ▸ hl)
      constructor
      · rintro (⟨a, b⟩ | ⟨a, b⟩)
        · exact ⟨a, by linarith⟩
        · exact ⟨by linarith, b⟩
      · rintro ⟨a, b⟩
        rcases lt_or_gt_of_ne hne with h | h
        · exact Or.inl ⟨a, h⟩
        · exact Or.inr ⟨h, b⟩
    · rw [List.pairwise_append]
      refine ⟨i2, v2, ?_⟩
      intro x hx y hy
      have hx' : x ∈ spec.filter (fun l => t 0 < l ∧ l < t k) := by rw [← i1]; exact hx
      have hy' : y ∈ spec.filter (fun l => t k < l ∧ l < t (k + 1)) := by rw [← v1]; exact hy
      have a1 := (Multiset.mem_filter.mp hx').2.2
      have a2 := (Multiset.mem_filter.mp hy').2.1
      linarith

theorem Reported.dropLast_append {lo m hi : ℝ} {A B : List (ℝ × ℤ)} (hA : Reported P spec lo m A) (hB : Reported P spec m hi B) (hl : lo < m) :
    Reported P spec lo hi (A.dropLast ++ B) := by
  rcases List.eq_nil_or_concat A with rfl | ⟨T, z, hz⟩
  · have := hA.first; simp at this
  · rw [List.concat_eq_append] at hz
    subst hz
    rw [List.dropLast_concat]
    have h1 := hA.inc
    rw [List.pairwise_append] at h1
    have hzm : z.1 = m := by have := hA.last; simpa using this
    cases B with
    | nil => have := hB.first; simp at this
    | cons b B =>
      have hbm : b.1 = m := by have := hB.first; simpa using this
      have h2 := hB.inc
      rw [List.pairwise_cons] at h2
      refine ⟨?_, ?_, ?_, ?_⟩
      · rw [List.pairwise_append]
        refine ⟨h1.1, hB.inc, ?_⟩
        intro x hx y hy
        have a1 := h1.2.2 x hx z (by simp)
        rcases List.mem_cons.mp hy with rfl | hy
        · rw [hbm, ← hzm]; exact a1
        · have := h2.1 y hy; rw [hbm] at this; linarith
      · cases T with
        | nil =>
          have := hA.first
          simp at this
          linarith
        | cons x T => have := hA.first; simpa using this
      · have := hB.last
        rw [List.getLast?_append]
        rw [List.getLast?_cons] at this ⊢
        simpa using this
      · intro x hx
        rcases List.mem_append.mp hx with hx | hx
        · exact hA.count x (List.mem_append_left _ hx)
        · exact hB.count x hx

theorem Reported.append_tail {lo m hi : ℝ} {A B : List (ℝ × ℤ)} (hA : Reported P spec lo m A) (hB : Reported P spec m hi B) (hl : m < hi) :
    Reported P spec lo hi (A ++ B.tail) := by
  rcases List.eq_nil_or_concat A with rfl | ⟨T, z, hz⟩
  · have := hA.first; simp at this
  · rw [List.concat_eq_append] at hz
    subst hz
    have h1 := hA.inc
    rw [List.pairwise_append] at h1
    have hzm : z.1 = m := by have := hA.last; simpa using this
    cases B with
    | nil => have := hB.first; simp at this
    | cons b B =>
      have hbm : b.1 = m := by have := hB.first; simpa using this
      have h2 := hB.inc
      rw [List.pairwise_cons] at h2
      rw [List.tail_cons]
      refine ⟨?_, ?_, ?_, ?_⟩
      · rw [List.pairwise_append]
        refine ⟨hA.inc, h2.2, ?_⟩
        intro x hx y hy
        have a1 := h2.1 y hy
        rcases List.mem_append.mp hx with hx | hx
        · have := h1.2.2 x hx z (by simp); linarith
        · rw [List.mem_singleton] at hx; subst hx; linarith
      · have := hA.first
        cases T <;> simpa using this
      · have := hB.last
        rcases List.eq_nil_or_concat B with rfl | ⟨B', y, hy⟩
        · simp at this; linarith
        · rw [List.concat_eq_append] at hy
          subst hy
          rw [← List.cons_append, List.getLast?_concat] at this
          rw [← List.append_assoc, List.getLast?_concat]
          exact this
      · intro x hx
        rcases List.mem_append.mp hx with hx | hx
        · exact hA.count x hx
        · exact hB.count x (List.mem_cons_of_mem _ hx)

/-- The shifts of all partitions, `dir=1`. -/
theorem shifts_up (t : ℕ → ℝ) (n : ℕ) (hmono : ∀ i < n, t i < t (i + 1)) (L : ℕ → List (ℝ × ℤ))
    (hL : ∀ c < n, Reported P spec (t c) (t (c + 1)) (L c)) (k : ℕ) (hk : k < n) :
    Reported P spec (t 0) (t (k + 1)) (((List.range k).map (fun c => (L c).dropLast)).flatten ++ L k) := by
  induction k with
  | zero => exact hL 0 hk
  | succ k ih =>
    have i := ih (by omega)
    have hne : L k ≠ [] := by
      intro h0
      have := (hL k (by omega)).first
      rw [h0] at this
      simp at this
    have := i.dropLast_append (hL (k + 1) hk) (by
      have := mono_le t n hmono 0 k (by omega) (by omega)
      have := hmono k (by omega)
      linarith)
    rw [List.dropLast_append_of_ne_nil hne] at this
    rw [List.range_succ, List.map_append, List.flatten_append]
    simpa using this

/-- The shifts of all partitions, `dir=-1`. -/
theorem shifts_down (t : ℕ → ℝ) (n : ℕ) (hmono : ∀ i < n, t i < t (i + 1)) (L : ℕ → List (ℝ × ℤ))
    (hL : ∀ c < n, Reported P spec (t c) (t (c + 1)) (L c)) (k : ℕ) (hk : k < n) :
    Reported P spec (t 0) (t (k + 1)) (L 0 ++ ((List.range k).map (fun c => (L (c + 1)).tail)).flatten) := by
  induction k with
  | zero => simpa using hL 0 hk
  | succ k ih =>
    have := (ih (by omega)).append_tail (hL (k + 1) hk) (hmono (k + 1) hk)
    rw [List.range_succ, List.map_append, List.flatten_append]
    simpa using this

end
end
end Verif.Slice
