import Verif.RG.MemberLemmas
import Mathlib.Data.List.Rotate

/-! Helper lemmas for polygons. -/
set_option linter.all false

namespace Verif.RG

/-- height at which the segment meets the vertical axis (rgpolygon.c:387) -/
noncomputable def height (x y x' y' : ℝ) : ℝ := (y * x' - x * y') / (x' - x)

/-- exactly one end strictly to the left -/
def Straddles (x x' : ℝ) : Prop := (x < 0 ∧ 0 ≤ x') ∨ (0 ≤ x ∧ x' < 0)

theorem polyStep_not {eps x y x' y' : ℝ} {io : ℤ} (h : ¬ Straddles x x') :
    polyStep eps x y x' y' io = some io := by
  unfold Straddles at h
  unfold polyStep
  by_cases h1 : x < 0 <;> by_cases h2 : x' < 0
  · simp [h1, h2]
  · exact absurd (.inl ⟨h1, not_lt.1 h2⟩) h
  · exact absurd (.inr ⟨not_lt.1 h1, h2⟩) h
  · simp [h1, h2]

theorem height_sub {x y x' y' : ℝ} (h : x' - x ≠ 0) :
    height x y x' y' = y + (-x / (x' - x)) * (y' - y) := by
  unfold height; field_simp; ring

theorem straddle_t {x x' : ℝ} (h : Straddles x x') :
    x' - x ≠ 0 ∧ 0 ≤ -x / (x' - x) ∧ -x / (x' - x) ≤ 1 := by
  rcases h with ⟨h1, h2⟩ | ⟨h1, h2⟩
  · have : 0 < x' - x := by linarith
    refine ⟨this.ne', div_nonneg (by linarith) this.le, ?_⟩
    rw [div_le_one this]; linarith
  · have : x' - x < 0 := by linarith
    refine ⟨this.ne, div_nonneg_of_nonpos (by linarith) this.le, ?_⟩
    rw [div_le_one_of_neg this]; linarith

theorem height_between {x y x' y' : ℝ} (h : Straddles x x') :
    (0 ≤ y → 0 ≤ y' → 0 ≤ height x y x' y') ∧ (y < 0 → y' < 0 → height x y x' y' < 0) := by
  obtain ⟨h0, h1, h2⟩ := straddle_t h
  rw [height_sub h0]
  generalize -x / (x' - x) = t at *
  constructor
  · intro a b; nlinarith [mul_nonneg h1 b, mul_nonneg (sub_nonneg.2 h2) a]
  · intro a b
    rcases lt_or_ge t 1 with h | h
    · nlinarith [mul_nonneg h1 (neg_nonneg.2 b.le), mul_pos (sub_pos.2 h) (neg_pos.2 a)]
    · have : t = 1 := le_antisymm h2 h
      subst this; linarith

/-- The step on an edge that straddles the vertical line and whose meeting height is at least
`eps` away. -/
theorem polyStep_straddle {eps x y x' y' : ℝ} {io : ℤ} (he : 0 < eps) (h : Straddles x x')
    (hc : eps ≤ |height x y x' y'|) :
    polyStep eps x y x' y' io = some (if 0 < height x y x' y' then -io else io) := by
  obtain ⟨hp, hn⟩ := height_between (y := y) (y' := y') h
  have hm : decide (¬ x < 0) = !decide (¬ x' < 0) := by
    rcases h with ⟨h1, h2⟩ | ⟨h1, h2⟩
    · simp [h1, not_lt.2 h2]
    · simp [h2, not_lt.2 h1]
  unfold polyStep
  simp only [hm]
  generalize hnx : decide (¬ x' < 0) = nx
  have hval : (y * x' - x * y') / (x' - x) = height x y x' y' := rfl
  simp only [hval]
  generalize hH : height x y x' y' = H at *
  have hne : ¬ |H| < eps := not_lt.2 hc
  by_cases hy : y < 0 <;> by_cases hy' : y' < 0
  · have := hn hy hy'
    cases nx <;> simp [hy, hy', not_lt.2 this.le]
  · cases nx <;> simp [hy, hy', hne, hc] <;> split_ifs <;> rfl
  · cases nx <;> simp [hy, hy', hne, hc] <;> split_ifs <;> rfl
  · have h1 := hp (not_lt.1 hy) (not_lt.1 hy')
    have h2 : 0 < H := by
      rcases lt_or_eq_of_le h1 with h2 | h2
      · exact h2
      · rw [← h2, abs_zero] at hc; linarith
    cases nx <;> simp [hy, hy', h2]

/-- If the step returns early then the vertical line meets the edge within `eps`. -/
theorem polyStep_none {eps x y x' y' : ℝ} {io : ℤ} (h : polyStep eps x y x' y' io = none) :
    Straddles x x' ∧ (0 ≤ y ∨ 0 ≤ y') ∧ (y < 0 ∨ y' < 0) ∧ |height x y x' y'| < eps := by
  have hs : Straddles x x' := by
    by_contra hc; rw [polyStep_not hc] at h; exact absurd h (by simp)
  refine ⟨hs, ?_⟩
  have hm : decide (¬ x < 0) = !decide (¬ x' < 0) := by
    rcases hs with ⟨h1, h2⟩ | ⟨h1, h2⟩
    · simp [h1, not_lt.2 h2]
    · simp [h2, not_lt.2 h1]
  unfold polyStep at h
  simp only [hm] at h
  generalize hnx : decide (¬ x' < 0) = nx at h
  have hval : (y * x' - x * y') / (x' - x) = height x y x' y' := rfl
  simp only [hval] at h
  by_cases hy : y < 0 <;> by_cases hy' : y' < 0
  · cases nx <;> simp [hy, hy'] at h
  · refine ⟨.inr (not_lt.1 hy'), .inl hy, ?_⟩
    by_contra hc
    cases nx <;> simp [hy, hy', hc] at h <;> split_ifs at h
  · refine ⟨.inl (not_lt.1 hy), .inr hy', ?_⟩
    by_contra hc
    cases nx <;> simp [hy, hy', hc] at h <;> split_ifs at h
  · cases nx <;> simp [hy, hy'] at h

/-- A step that changes the state needs a straddling edge with an end at or above. -/
theorem polyStep_change {eps x y x' y' : ℝ} {io : ℤ} (h : polyStep eps x y x' y' io ≠ some io) :
    Straddles x x' ∧ (0 ≤ y ∨ 0 ≤ y') := by
  have hs : Straddles x x' := by
    by_contra hc; exact h (polyStep_not hc)
  refine ⟨hs, ?_⟩
  by_contra hc
  push Not at hc
  apply h
  unfold polyStep
  simp [hc.1, hc.2]

/-- With both ends at or above, the step flips exactly on straddling edges. -/
theorem polyStep_above {eps x y x' y' : ℝ} {io : ℤ} (hy : 0 ≤ y) (hy' : 0 ≤ y') :
    polyStep eps x y x' y' io =
      some (if decide (x < 0) = decide (x' < 0) then io else -io) := by
  unfold polyStep
  by_cases h1 : x < 0 <;> by_cases h2 : x' < 0 <;> simp [h1, h2, not_lt.2 hy, not_lt.2 hy']

theorem polyLoop_change {eps px py : ℝ} : ∀ (l : List ((ℝ × ℝ) × (ℝ × ℝ))) (io : ℤ),
    polyLoop eps px py l io ≠ io →
    ∃ e ∈ l, Straddles (e.1.1 - px) (e.2.1 - px) ∧ (0 ≤ e.1.2 - py ∨ 0 ≤ e.2.2 - py)
  | [], io, h => absurd rfl h
  | (p, q) :: l, io, h => by
    by_cases hs : polyStep eps (p.1 - px) (p.2 - py) (q.1 - px) (q.2 - py) io = some io
    · unfold polyLoop at h; rw [hs] at h
      obtain ⟨e, he, hh⟩ := polyLoop_change l io h
      exact ⟨e, List.mem_cons_of_mem _ he, hh⟩
    · exact ⟨(p, q), List.mem_cons_self, polyStep_change hs⟩

/-- number of sign changes parity along the edges -/
theorem polyLoop_above {eps px py : ℝ} : ∀ (l : List ((ℝ × ℝ) × (ℝ × ℝ))) (io : ℤ),
    (∀ e ∈ l, 0 ≤ e.1.2 - py ∧ 0 ≤ e.2.2 - py) →
    polyLoop eps px py l io =
      l.foldl (fun s e => if decide (e.1.1 - px < 0) = decide (e.2.1 - px < 0) then s else -s) io
  | [], io, _ => rfl
  | (p, q) :: l, io, h => by
    obtain ⟨h1, h2⟩ := h _ List.mem_cons_self
    unfold polyLoop
    rw [polyStep_above h1 h2]
    exact polyLoop_above l _ (fun e he => h e (List.mem_cons_of_mem _ he))

/-- Telescoping of sign changes along a chain of vertices. -/
theorem chain_flip (f : ℝ × ℝ → Bool) : ∀ (a : ℝ × ℝ) (l : List (ℝ × ℝ)) (b : ℝ × ℝ) (io : ℤ),
    ((a :: l).zip (l ++ [b])).foldl (fun s e => if f e.1 = f e.2 then s else -s) io =
      if f a = f b then io else -io
  | a, [], b, io => by simp
  | a, c :: l, b, io => by
    have := chain_flip f c l b (if f a = f c then io else -io)
    simp only [List.cons_append, List.zip_cons_cons, List.foldl_cons]
    rw [this]
    cases f a <;> cases f b <;> cases f c <;> simp

theorem edges_cons (a : ℝ × ℝ) (l : List (ℝ × ℝ)) : edges (a :: l) = (a :: l).zip (l ++ [a]) := by
  unfold edges; simp

theorem mem_edges {v : List (ℝ × ℝ)} {e : (ℝ × ℝ) × (ℝ × ℝ)} (h : e ∈ edges v) :
    e.1 ∈ v ∧ e.2 ∈ v := by
  have h1 := List.of_mem_zip (a := e.1) (b := e.2) (l₁ := v) (l₂ := v.rotate 1) h
  exact ⟨h1.1, by simpa using h1.2⟩

theorem checkPolygon_above {eps px py : ℝ} {v : List (ℝ × ℝ)} (h : ∀ p ∈ v, py ≤ p.2) :
    checkPolygon eps v px py = -1 := by
  unfold checkPolygon
  rw [polyLoop_above _ _ (fun e he => ⟨sub_nonneg.2 (h _ (mem_edges he).1),
    sub_nonneg.2 (h _ (mem_edges he).2)⟩)]
  cases v with
  | nil => rfl
  | cons a l =>
    rw [edges_cons]
    have := chain_flip (fun p => decide (p.1 - px < 0)) a l a (-1)
    rw [this]; simp

/-- A point reported as inside or on the contour lies in the range of the vertices. -/
theorem checkPolygon_range {eps px py : ℝ} {v : List (ℝ × ℝ)} (h : checkPolygon eps v px py ≠ -1) :
    (∃ p ∈ v, p.1 ≤ px) ∧ (∃ p ∈ v, px ≤ p.1) ∧ (∃ p ∈ v, p.2 ≤ py) ∧ (∃ p ∈ v, py ≤ p.2) := by
  obtain ⟨e, he, hs, hy⟩ := polyLoop_change _ _ h
  obtain ⟨m1, m2⟩ := mem_edges he
  refine ⟨?_, ?_, ?_, ?_⟩
  · rcases hs with ⟨h1, h2⟩ | ⟨h1, h2⟩
    · exact ⟨_, m1, by linarith⟩
    · exact ⟨_, m2, by linarith⟩
  · rcases hs with ⟨h1, h2⟩ | ⟨h1, h2⟩
    · exact ⟨_, m2, by linarith⟩
    · exact ⟨_, m1, by linarith⟩
  · by_contra hc
    push Not at hc
    exact h (checkPolygon_above (fun p hp => (hc p hp).le))
  · rcases hy with h1 | h1
    · exact ⟨_, m1, by linarith⟩
    · exact ⟨_, m2, by linarith⟩

/-! bounding box of a polygon -/

theorem bbox_fold (v : List (ℝ × ℝ)) : ∀ (B : Box) (B' : Box),
    v.foldl (fun B p => (⟨min B.a p.1, max B.b p.1, min B.c p.2, max B.d p.2⟩ : Box)) B = B' →
    (B'.a ≤ B.a ∧ B.b ≤ B'.b ∧ B'.c ≤ B.c ∧ B.d ≤ B'.d) ∧
    ∀ p ∈ v, B'.a ≤ p.1 ∧ p.1 ≤ B'.b ∧ B'.c ≤ p.2 ∧ p.2 ≤ B'.d := by
  induction v with
  | nil => rintro B B' rfl; simp
  | cons q v ih =>
    intro B B' h
    simp only [List.foldl_cons] at h
    obtain ⟨⟨h1, h2, h3, h4⟩, h5⟩ := ih _ _ h
    simp only at h1 h2 h3 h4
    refine ⟨⟨h1.trans (min_le_left _ _), (le_max_left _ _).trans h2, h3.trans (min_le_left _ _),
      (le_max_left _ _).trans h4⟩, ?_⟩
    intro p hp
    rcases List.mem_cons.1 hp with rfl | hp
    · exact ⟨h1.trans (min_le_right _ _), (le_max_right _ _).trans h2, h3.trans (min_le_right _ _),
        (le_max_right _ _).trans h4⟩
    · exact h5 p hp

end Verif.RG
