import Verif.RG.PolyLemmas
import Mathlib.Analysis.Convex.Hull
import Mathlib.Topology.Algebra.Module.Basic
import Mathlib.Algebra.Ring.Parity
import Mathlib.Data.List.Count

/-!
C13 for polygons: crossing parity in general, and full correctness for strictly convex polygons.
-/
set_option linter.all false

namespace Verif.RG
open Spec

/-- Edge from `p` to `q` has exactly one end strictly to the left of the vertical line through
`(px,·)`, and meets this line strictly above `py`. -/
def CrossesAbove (px py : ℝ) (p q : ℝ × ℝ) : Prop :=
  ((p.1 < px ∧ px ≤ q.1) ∨ (q.1 < px ∧ px ≤ p.1)) ∧
  ∃ t : ℝ, 0 ≤ t ∧ t ≤ 1 ∧ p.1 + t * (q.1 - p.1) = px ∧ py < p.2 + t * (q.2 - p.2)

/-- No point of the edge, on the vertical line through `px`, is at vertical distance less than
`eps` from `py`. -/
def Clear (eps px py : ℝ) (p q : ℝ × ℝ) : Prop :=
  ∀ t : ℝ, 0 ≤ t → t ≤ 1 → p.1 + t * (q.1 - p.1) = px → eps ≤ |p.2 + t * (q.2 - p.2) - py|

theorem edges_getElem (v : List (ℝ × ℝ)) (i : ℕ) (h : i < v.length) :
    (edges v)[i]? = some (v[i], v[(i + 1) % v.length]'(Nat.mod_lt _ (by omega))) := by
  unfold edges
  rw [List.getElem?_eq_getElem (by simpa using h)]
  simp [List.getElem_rotate]

theorem straddles_iff {px : ℝ} {p q : ℝ × ℝ} : Straddles (p.1 - px) (q.1 - px) ↔
    ((p.1 < px ∧ px ≤ q.1) ∨ (q.1 < px ∧ px ≤ p.1)) := by
  unfold Straddles
  constructor
  · rintro (⟨h1, h2⟩ | ⟨h1, h2⟩)
    · exact .inl ⟨by linarith, by linarith⟩
    · exact .inr ⟨by linarith, by linarith⟩
  · rintro (⟨h1, h2⟩ | ⟨h1, h2⟩)
    · exact .inl ⟨by linarith, by linarith⟩
    · exact .inr ⟨by linarith, by linarith⟩

noncomputable abbrev hgt (px py : ℝ) (p q : ℝ × ℝ) : ℝ :=
  height (p.1 - px) (p.2 - py) (q.1 - px) (q.2 - py)

theorem meets_unique {px py : ℝ} {p q : ℝ × ℝ} (h : Straddles (p.1 - px) (q.1 - px)) {t : ℝ}
    (ht : p.1 + t * (q.1 - p.1) = px) : p.2 + t * (q.2 - p.2) - py = hgt px py p q := by
  obtain ⟨h0, -, -⟩ := straddle_t h
  rw [hgt, height_sub h0]
  have h0' : q.1 - p.1 ≠ 0 := by intro h'; exact h0 (by linarith)
  have : t = -(p.1 - px) / (q.1 - px - (p.1 - px)) := by
    rw [eq_div_iff h0]; linarith
  rw [← this]; ring

theorem meets_exists {px py : ℝ} {p q : ℝ × ℝ} (h : Straddles (p.1 - px) (q.1 - px)) :
    ∃ t, 0 ≤ t ∧ t ≤ 1 ∧ p.1 + t * (q.1 - p.1) = px := by
  obtain ⟨h0, h1, h2⟩ := straddle_t h
  refine ⟨_, h1, h2, ?_⟩
  have h0' : q.1 - p.1 ≠ 0 := by intro h'; exact h0 (by linarith)
  rw [show q.1 - px - (p.1 - px) = q.1 - p.1 by ring]
  field_simp; ring

theorem crossesAbove_iff {px py : ℝ} {p q : ℝ × ℝ} : CrossesAbove px py p q ↔
    Straddles (p.1 - px) (q.1 - px) ∧ 0 < hgt px py p q := by
  constructor
  · rintro ⟨h, t, -, -, h1, h2⟩
    have hs := straddles_iff.2 h
    refine ⟨hs, ?_⟩
    rw [← meets_unique hs h1]; linarith
  · rintro ⟨h, h'⟩
    obtain ⟨t, t0, t1, ht⟩ := meets_exists (py := py) h
    refine ⟨straddles_iff.1 h, t, t0, t1, ht, ?_⟩
    have := meets_unique (py := py) h ht
    linarith

open Classical in
theorem polyLoop_count {eps px py : ℝ} (he : 0 < eps) :
    ∀ (l : List ((ℝ × ℝ) × (ℝ × ℝ))) (io : ℤ), (∀ e ∈ l, Clear eps px py e.1 e.2) →
    polyLoop eps px py l io =
      (-1) ^ (l.countP (fun e => decide (CrossesAbove px py e.1 e.2))) * io
  | [], io, _ => by simp [polyLoop]
  | (p, q) :: l, io, h => by
    have ih := fun io => polyLoop_count (px := px) (py := py) he l io
      (fun e he => h e (List.mem_cons_of_mem _ he))
    have hc := h _ List.mem_cons_self
    unfold polyLoop
    by_cases hs : Straddles (p.1 - px) (q.1 - px)
    · have hcl : eps ≤ |hgt px py p q| := by
        obtain ⟨t, t0, t1, ht⟩ := meets_exists (py := py) hs
        rw [← meets_unique hs ht]; exact hc t t0 t1 ht
      rw [polyStep_straddle he hs hcl]
      simp only
      rw [ih, List.countP_cons]
      by_cases hp : 0 < hgt px py p q
      · have : CrossesAbove px py p q := crossesAbove_iff.2 ⟨hs, hp⟩
        simp only [this, decide_true, if_true]
        rw [if_pos hp, pow_succ]; ring
      · have : ¬ CrossesAbove px py p q := fun h => hp (crossesAbove_iff.1 h).2
        simp only [this, decide_false]
        rw [if_neg hp]; simp
    · rw [polyStep_not hs]
      simp only
      have : ¬ CrossesAbove px py p q := fun h => hs (crossesAbove_iff.1 h).1
      rw [ih, List.countP_cons]; simp [this]

open Classical in
/-- **C13, polygon, any polygon** (self-intersections, holes by repeated edges... included): for
every point at vertical distance at least `eps` (10 machine epsilons in the code) from the
polygonal line, the answer is 1 when the vertical ray above the point crosses an odd number of
edges (an edge through whose end the ray passes counting only if its other end is strictly to the
left) and -1 when this number is even.

Missing with respect to the full property: points on the contour, for which the answer is wrong
in general, see `C13_polygon_false`; and the identification of the parity with the interior of
the Jordan curve, proved here for strictly convex polygons in `C13_polygon_convex`. -/
theorem C13_polygon_partial (eps : ℝ) (he : 0 < eps) (v : List (ℝ × ℝ)) (px py : ℝ)
    (hc : ∀ e ∈ edges v, Clear eps px py e.1 e.2) :
    checkPolygon eps v px py =
      if Odd ((edges v).countP (fun e => decide (CrossesAbove px py e.1 e.2))) then 1 else -1 := by
  unfold checkPolygon
  rw [polyLoop_count he _ _ hc]
  split_ifs with h
  · rw [h.neg_one_pow]; norm_num
  · rw [(Nat.not_odd_iff_even.1 h).neg_one_pow]; norm_num

/-- **C13, polygon: an answer of 0 is never far off**: it is only given for points at vertical
distance less than `eps` from a point of the polygonal line. -/
theorem C13_polygon_zero (eps : ℝ) (v : List (ℝ × ℝ)) (px py : ℝ)
    (h : checkPolygon eps v px py = 0) :
    ∃ e ∈ edges v, ∃ t, 0 ≤ t ∧ t ≤ 1 ∧ e.1.1 + t * (e.2.1 - e.1.1) = px ∧
      |e.1.2 + t * (e.2.2 - e.1.2) - py| < eps := by
  have key : ∀ (l : List ((ℝ × ℝ) × (ℝ × ℝ))) (io : ℤ), io = 1 ∨ io = -1 →
      polyLoop eps px py l io = 0 → ∃ e ∈ l, ∃ t, 0 ≤ t ∧ t ≤ 1 ∧ e.1.1 + t * (e.2.1 - e.1.1) = px ∧
      |e.1.2 + t * (e.2.2 - e.1.2) - py| < eps := by
    intro l
    induction l with
    | nil => intro io h1 h2; rcases h1 with rfl | rfl <;> simp [polyLoop] at h2
    | cons e l ih =>
      obtain ⟨p, q⟩ := e
      intro io h1 h2
      unfold polyLoop at h2
      cases hst : polyStep eps (p.1 - px) (p.2 - py) (q.1 - px) (q.2 - py) io with
      | none =>
        obtain ⟨hs, -, -, hh⟩ := polyStep_none hst
        obtain ⟨t, t0, t1, ht⟩ := meets_exists (py := py) hs
        refine ⟨(p, q), List.mem_cons_self, t, t0, t1, ht, ?_⟩
        rw [meets_unique hs ht]; exact hh
      | some io' =>
        rw [hst] at h2
        have : io' = 1 ∨ io' = -1 := by
          unfold polyStep at hst
          simp only at hst
          split_ifs at hst <;> simp at hst <;> omega
        obtain ⟨e, he, hh⟩ := ih io' this h2
        exact ⟨e, List.mem_cons_of_mem _ he, hh⟩
  exact key _ _ (.inr rfl) h

/-- **C13 is false of polygons on the contour**: for the square of vertices 0, 2, 2+2i, 2i, the
points `i` and `2+i` of its boundary are reported as outside and inside, respectively (instead
of 0), whatever the tolerance. -/
theorem C13_polygon_false (eps : ℝ) :
    checkPolygon eps [(0, 0), (2, 0), (2, 2), (0, 2)] 0 1 = -1 ∧
    checkPolygon eps [(0, 0), (2, 0), (2, 2), (0, 2)] 2 1 = 1 ∧
    (⟨0, 1⟩ : ℂ) ∈ frontier (rect 0 2 0 2) ∧ (⟨2, 1⟩ : ℂ) ∈ frontier (rect 0 2 0 2) := by
  refine ⟨?_, ?_, ?_, ?_⟩
  · norm_num [checkPolygon, edges, polyLoop, polyStep, List.rotate, List.rotate_cons_succ]
  · norm_num [checkPolygon, edges, polyLoop, polyStep, List.rotate, List.rotate_cons_succ]
  · rw [frontier, (rect_closed _ _ _ _).closure_eq, Set.mem_diff, mem_rect, mem_interior_rect]
    norm_num
  · rw [frontier, (rect_closed _ _ _ _).closure_eq, Set.mem_diff, mem_rect, mem_interior_rect]
    norm_num

/-! ### Strictly convex polygons -/

/-- Twice the signed area of the triangle `p,q,w`. -/
def cross (p q w : ℝ × ℝ) : ℝ := (q.1 - p.1) * (w.2 - p.2) - (q.2 - p.2) * (w.1 - p.1)

/-- The vertices are distinct and go around a convex polygon with no three vertices on a side,
counterclockwise (`σ = 1`) or clockwise (`σ = -1`). -/
structure StrictlyConvex (σ : ℝ) (v : List (ℝ × ℝ)) : Prop where
  sign : σ = 1 ∨ σ = -1
  three : 3 ≤ v.length
  nodup : v.Nodup
  left : ∀ e ∈ edges v, ∀ w ∈ v, w ≠ e.1 → w ≠ e.2 → 0 < σ * cross e.1 e.2 w

theorem cross_comb (p q x y : ℝ × ℝ) (a b : ℝ) (h : a + b = 1) :
    cross p q (a • x + b • y) = a * cross p q x + b * cross p q y := by
  unfold cross
  simp only [Prod.fst_add, Prod.snd_add, Prod.smul_fst, Prod.smul_snd, smul_eq_mul]
  have : b = 1 - a := by linarith
  subst this; ring

theorem left_weak {σ : ℝ} {v : List (ℝ × ℝ)} (h : StrictlyConvex σ v) {e} (he : e ∈ edges v) {w}
    (hw : w ∈ v) : 0 ≤ σ * cross e.1 e.2 w := by
  by_cases h1 : w = e.1
  · subst h1; unfold cross; simp
  · by_cases h2 : w = e.2
    · subst h2; unfold cross
      have : (e.2.1 - e.1.1) * (e.2.2 - e.1.2) - (e.2.2 - e.1.2) * (e.2.1 - e.1.1) = 0 := by ring
      rw [this]; simp
    · exact (h.left e he w hw h1 h2).le

theorem hull_left {σ : ℝ} {v : List (ℝ × ℝ)} (h : StrictlyConvex σ v) {e} (he : e ∈ edges v) :
    convexHull ℝ {w | w ∈ v} ⊆ {w | 0 ≤ σ * cross e.1 e.2 w} := by
  apply convexHull_min
  · intro w hw; exact left_weak h he hw
  · intro x hx y hy a b ha hb hab
    simp only [Set.mem_setOf_eq] at *
    rw [cross_comb _ _ _ _ _ _ hab]
    nlinarith [mul_nonneg ha hx, mul_nonneg hb hy]

/-- interior points of a set on which an affine function is nonnegative -/
theorem interior_pos {S : Set (ℝ × ℝ)} {L : ℝ × ℝ → ℝ} (d : ℝ × ℝ) (k : ℝ) (hk : k < 0)
    (hS : ∀ u ∈ S, 0 ≤ L u) (w : ℝ × ℝ) (hL : ∀ t : ℝ, L (w + t • d) = L w + t * k)
    (hw : w ∈ interior S) : 0 < L w := by
  have hcont : Continuous (fun t : ℝ => w + t • d) := by fun_prop
  have h1 : ∀ᶠ t in nhds (0 : ℝ), w + t • d ∈ S := by
    have : Filter.Tendsto (fun t : ℝ => w + t • d) (nhds 0) (nhds w) := by
      have := hcont.tendsto 0; simpa using this
    exact this (mem_interior_iff_mem_nhds.1 hw)
  obtain ⟨ε, hε, hb⟩ := Metric.eventually_nhds_iff.1 h1
  have := hS _ (hb (y := ε / 2) (by simp [abs_of_pos hε]; linarith))
  rw [hL] at this
  nlinarith

theorem edges_ne {σ : ℝ} {v : List (ℝ × ℝ)} (h : StrictlyConvex σ v) {e} (he : e ∈ edges v) :
    e.1 ≠ e.2 := by
  obtain ⟨i, hi, rfl⟩ := List.getElem_of_mem he
  have hi' : i < v.length := by simpa [edges] using hi
  have h1 := edges_getElem v i hi'
  rw [List.getElem?_eq_getElem hi, Option.some.injEq] at h1
  rw [h1]; simp only
  intro hc
  have := (h.nodup.getElem_inj_iff).1 hc
  have h3 := h.three
  rcases Nat.lt_or_ge (i + 1) v.length with hl | hl
  · rw [Nat.mod_eq_of_lt hl] at this; omega
  · have : i + 1 = v.length := by omega
    simp [this] at *
    omega

theorem interior_left {σ : ℝ} {v : List (ℝ × ℝ)} (h : StrictlyConvex σ v) {e} (he : e ∈ edges v)
    {w} (hw : w ∈ interior (convexHull ℝ {w | w ∈ v})) : 0 < σ * cross e.1 e.2 w := by
  have hne := edges_ne h he
  have hpos : 0 < (e.2.1 - e.1.1) ^ 2 + (e.2.2 - e.1.2) ^ 2 := by
    by_contra hc
    have h1 : (e.2.1 - e.1.1) ^ 2 = 0 := by nlinarith [sq_nonneg (e.2.1 - e.1.1), sq_nonneg (e.2.2 - e.1.2)]
    have h2 : (e.2.2 - e.1.2) ^ 2 = 0 := by nlinarith [sq_nonneg (e.2.1 - e.1.1), sq_nonneg (e.2.2 - e.1.2)]
    apply hne
    apply Prod.ext
    · have := pow_eq_zero_iff (two_ne_zero) |>.1 h1; linarith
    · have := pow_eq_zero_iff (two_ne_zero) |>.1 h2; linarith
  refine interior_pos (S := convexHull ℝ {w | w ∈ v}) (L := fun w => σ * cross e.1 e.2 w)
    (σ * (e.2.2 - e.1.2), -σ * (e.2.1 - e.1.1))
    (-((e.2.1 - e.1.1) ^ 2 + (e.2.2 - e.1.2) ^ 2)) (by linarith) (fun u hu => hull_left h he hu) w ?_ hw
  intro t
  have hσ : σ ^ 2 = 1 := by rcases h.sign with rfl | rfl <;> norm_num
  unfold cross
  simp only [Prod.fst_add, Prod.snd_add, Prod.smul_fst, Prod.smul_snd, smul_eq_mul]
  linear_combination (-t * ((e.2.1 - e.1.1) ^ 2 + (e.2.2 - e.1.2) ^ 2)) * hσ

/-- cross product of an edge with the point of the vertical line at height `py + y` -/
theorem cross_vertical {px py : ℝ} {p q : ℝ × ℝ} (hs : Straddles (p.1 - px) (q.1 - px)) (y : ℝ) :
    cross p q (px, py + y) = (q.1 - p.1) * (y - hgt px py p q) := by
  obtain ⟨h0, -, -⟩ := straddle_t hs
  have h0' : q.1 - p.1 ≠ 0 := by intro h'; exact h0 (by linarith)
  have e : hgt px py p q = ((p.2 - py) * (q.1 - px) - (p.1 - px) * (q.2 - py)) / (q.1 - p.1) := by
    unfold hgt height; congr 1; ring
  rw [e]; unfold cross; field_simp; ring

/-- the meeting point of a straddling edge with the vertical line -/
theorem meet_comb {px py : ℝ} {p q : ℝ × ℝ} (hs : Straddles (p.1 - px) (q.1 - px)) :
    ∃ a b : ℝ, 0 ≤ a ∧ 0 ≤ b ∧ a + b = 1 ∧ (px, py + hgt px py p q) = a • p + b • q ∧
      (a = 0 → px = q.1) ∧ (b = 0 → px = p.1) := by
  obtain ⟨t, t0, t1, ht⟩ := meets_exists (py := py) hs
  have hm := meets_unique (py := py) hs ht
  refine ⟨1 - t, t, by linarith, t0, by ring, ?_, ?_, ?_⟩
  · apply Prod.ext
    · simp only [Prod.fst_add, Prod.smul_fst, smul_eq_mul]; linarith
    · simp only [Prod.snd_add, Prod.smul_snd, smul_eq_mul]; linarith
  · intro h; have : t = 1 := by linarith
    subst this; linarith
  · intro h; subst h; linarith

/-- Two edges crossing the vertical line in the same sense are the same edge. -/
theorem same_edge {σ : ℝ} {v : List (ℝ × ℝ)} (h : StrictlyConvex σ v) {px : ℝ} {e f}
    (he : e ∈ edges v) (hf : f ∈ edges v)
    (hd : (px ≤ e.1.1 ∧ e.2.1 < px ∧ px ≤ f.1.1 ∧ f.2.1 < px) ∨
      (e.1.1 < px ∧ px ≤ e.2.1 ∧ f.1.1 < px ∧ px ≤ f.2.1)) :
    e = f := by
  have hinj : ∀ e ∈ edges v, ∀ f ∈ edges v, (e.1 = f.1 ∨ e.2 = f.2) → e = f := by
    intro e he f hf hh
    obtain ⟨i, hi, rfl⟩ := List.getElem_of_mem he
    obtain ⟨j, hj, rfl⟩ := List.getElem_of_mem hf
    unfold edges at hi hj hh
    simp only [List.getElem_zip] at hh
    have hr : (v.rotate 1).Nodup := List.nodup_rotate.2 h.nodup
    have : i = j := by
      rcases hh with hh | hh
      · exact (h.nodup.getElem_inj_iff).1 hh
      · exact (hr.getElem_inj_iff).1 hh
    subst this; rfl
  have hse : Straddles (e.1.1 - px) (e.2.1 - px) := by
    rw [straddles_iff]; rcases hd with hd | hd
    · exact .inr ⟨hd.2.1, hd.1⟩
    · exact .inl ⟨hd.1, hd.2.1⟩
  have hsf : Straddles (f.1.1 - px) (f.2.1 - px) := by
    rw [straddles_iff]; rcases hd with hd | hd
    · exact .inr ⟨hd.2.2.2, hd.2.2.1⟩
    · exact .inl ⟨hd.2.2.1, hd.2.2.2⟩
  have mem : ∀ {g}, g ∈ edges v → g.1 ∈ v ∧ g.2 ∈ v := fun hg => mem_edges hg
  obtain ⟨a, b, a0, b0, ab, hpt, ha, hb⟩ := meet_comb (py := 0) hsf
  obtain ⟨a', b', a0', b0', ab', hpt', ha', hb'⟩ := meet_comb (py := 0) hse
  have c1 := cross_vertical (py := 0) hse (hgt px 0 f.1 f.2)
  have c2 := cross_vertical (py := 0) hsf (hgt px 0 e.1 e.2)
  rw [hpt, cross_comb _ _ _ _ _ _ ab] at c1
  rw [hpt', cross_comb _ _ _ _ _ _ ab'] at c2
  have n1 := left_weak h he (mem hf).1
  have n2 := left_weak h he (mem hf).2
  have n3 := left_weak h hf (mem he).1
  have n4 := left_weak h hf (mem he).2
  have k1 : 0 ≤ σ * ((e.2.1 - e.1.1) * (hgt px 0 f.1 f.2 - hgt px 0 e.1 e.2)) := by
    rw [← c1]; nlinarith [mul_nonneg a0 n1, mul_nonneg b0 n2]
  have k2 : 0 ≤ σ * ((f.2.1 - f.1.1) * (hgt px 0 e.1 e.2 - hgt px 0 f.1 f.2)) := by
    rw [← c2]; nlinarith [mul_nonneg a0' n3, mul_nonneg b0' n4]
  have keq : hgt px 0 f.1 f.2 = hgt px 0 e.1 e.2 := by
    rcases h.sign with rfl | rfl <;> rcases hd with ⟨d1, d2, d3, d4⟩ | ⟨d1, d2, d3, d4⟩ <;>
    · apply le_antisymm
      · by_contra hc; push Not at hc; nlinarith
      · by_contra hc; push Not at hc; nlinarith
  rw [keq, sub_self, mul_zero] at c1
  have z0 : a * (σ * cross e.1 e.2 f.1) + b * (σ * cross e.1 e.2 f.2) = 0 := by
    linear_combination σ * c1
  have z1 : a * (σ * cross e.1 e.2 f.1) = 0 := by
    linarith [mul_nonneg a0 n1, mul_nonneg b0 n2]
  have z2 : b * (σ * cross e.1 e.2 f.2) = 0 := by
    linarith [mul_nonneg a0 n1, mul_nonneg b0 n2]
  rcases hd with ⟨d1, d2, d3, d4⟩ | ⟨d1, d2, d3, d4⟩
  · have ane : a ≠ 0 := fun h0 => by have := ha h0; linarith
    have hf1 : f.1 = e.1 := by
      by_contra hc
      have hne : f.1 ≠ e.2 := by intro h'; rw [h'] at d3; linarith
      have := h.left e he f.1 (mem hf).1 hc hne
      exact (mul_ne_zero ane this.ne') z1
    exact hinj e he f hf (.inl hf1.symm)
  · have bne : b ≠ 0 := fun h0 => by have := hb h0; linarith
    have hf2 : f.2 = e.2 := by
      by_contra hc
      have hne : f.2 ≠ e.1 := by intro h'; rw [h'] at d4; linarith
      have := h.left e he f.2 (mem hf).2 hne hc
      exact (mul_ne_zero bne this.ne') z2
    exact hinj e he f hf (.inr hf2.symm)

theorem countP_le_one {α} {l : List α} (hn : l.Nodup) (P : α → Bool)
    (h : ∀ x ∈ l, ∀ y ∈ l, P x = true → P y = true → x = y) : l.countP P ≤ 1 := by
  induction l with
  | nil => simp
  | cons a l ih =>
    rw [List.nodup_cons] at hn
    rw [List.countP_cons]
    have ih' := ih hn.2 (fun x hx y hy => h x (List.mem_cons_of_mem _ hx) y (List.mem_cons_of_mem _ hy))
    by_cases ha : P a = true
    · have : l.countP P = 0 := by
        rw [List.countP_eq_zero]
        intro x hx hp
        have := h a List.mem_cons_self x (List.mem_cons_of_mem _ hx) ha hp
        exact hn.1 (this ▸ hx)
      simp [ha, this]
    · simp [ha]; exact ih'

/-- parity of the number of sign changes around a cycle -/
theorem cycle_even (f : ℝ × ℝ → Bool) (v : List (ℝ × ℝ)) :
    Even ((edges v).countP (fun e => f e.1 != f e.2)) := by
  have key : ∀ (l : List ((ℝ × ℝ) × (ℝ × ℝ))) (io : ℤ),
      l.foldl (fun s e => if f e.1 = f e.2 then s else -s) io =
        (-1) ^ (l.countP (fun e => f e.1 != f e.2)) * io := by
    intro l
    induction l with
    | nil => intro io; simp
    | cons e l ih =>
      intro io
      rw [List.foldl_cons, ih, List.countP_cons]
      by_cases h : f e.1 = f e.2
      · simp [h]
      · simp [h, pow_succ]
  cases v with
  | nil => simp [edges]
  | cons a l =>
    have h1 := key (edges (a :: l)) 1
    rw [edges_cons, chain_flip f a l a 1, if_pos rfl, mul_one] at h1
    rw [edges_cons]
    by_contra hc
    rw [Nat.not_even_iff_odd] at hc
    rw [hc.neg_one_pow] at h1; norm_num at h1

/-- without sign changes along the edges all vertices have the same sign -/
theorem cycle_const (f : ℝ × ℝ → Bool) : ∀ (a : ℝ × ℝ) (l : List (ℝ × ℝ)) (b : ℝ × ℝ),
    (∀ e ∈ (a :: l).zip (l ++ [b]), f e.1 = f e.2) → ∀ w ∈ a :: l, f w = f a
  | a, [], b, h, w, hw => by simp at hw; rw [hw]
  | a, c :: l, b, h, w, hw => by
    have h1 : f a = f c := h (a, c) (by simp)
    rcases List.mem_cons.1 hw with rfl | hw
    · rfl
    · rw [h1]
      exact cycle_const f c l b (fun e he => h e (by
        simp only [List.cons_append, List.zip_cons_cons, List.mem_cons] at he ⊢; exact .inr he)) w hw

open Classical in
/-- **C13, strictly convex polygons.**  For every strictly convex polygon, of either orientation,
and every point not on the contour, and at vertical distance at least `eps` from the edges: the answer is 1 exactly in
the interior, and -1 exactly outside, of the convex hull of the vertices. -/
theorem C13_polygon_convex (eps : ℝ) (he : 0 < eps) (σ : ℝ) (v : List (ℝ × ℝ))
    (hv : StrictlyConvex σ v) (px py : ℝ) (hc : ∀ e ∈ edges v, Clear eps px py e.1 e.2)
    (hfr : (px, py) ∉ frontier (convexHull ℝ {w | w ∈ v})) :
    (checkPolygon eps v px py = 1 ↔ (px, py) ∈ interior (convexHull ℝ {w | w ∈ v})) ∧
    (checkPolygon eps v px py = -1 ↔ (px, py) ∉ convexHull ℝ {w | w ∈ v}) := by
  set R : ((ℝ × ℝ) × (ℝ × ℝ)) → Bool := fun e => decide (px ≤ e.1.1 ∧ e.2.1 < px) with hR
  set L : ((ℝ × ℝ) × (ℝ × ℝ)) → Bool := fun e => decide (e.1.1 < px ∧ px ≤ e.2.1) with hL
  set U : ((ℝ × ℝ) × (ℝ × ℝ)) → Bool := fun e => decide (CrossesAbove px py e.1 e.2) with hU
  have hnd : (edges v).Nodup := by
    have : ((edges v).map Prod.fst).Nodup := by
      unfold edges; rw [List.map_fst_zip (by simp)]; exact hv.nodup
    exact List.Nodup.of_map _ this
  have hR1 : (edges v).countP R ≤ 1 := countP_le_one hnd R (by
    intro x hx y hy h1 h2
    simp only [hR, decide_eq_true_eq] at h1 h2
    exact same_edge hv hx hy (.inl ⟨h1.1, h1.2, h2.1, h2.2⟩))
  have hL1 : (edges v).countP L ≤ 1 := countP_le_one hnd L (by
    intro x hx y hy h1 h2
    simp only [hL, decide_eq_true_eq] at h1 h2
    exact same_edge hv hx hy (.inr ⟨h1.1, h1.2, h2.1, h2.2⟩))
  have hsum : ∀ l : List ((ℝ × ℝ) × (ℝ × ℝ)), l.countP (fun e => decide (e.1.1 < px) != decide (e.2.1 < px)) =
      l.countP R + l.countP L := by
    intro l
    induction l with
    | nil => simp
    | cons e l ih =>
      simp only [List.countP_cons, ih]
      have : (if (decide (e.1.1 < px) != decide (e.2.1 < px)) = true then 1 else 0) =
          (if R e = true then 1 else 0) + (if L e = true then 1 else 0) := by
        simp only [hR, hL]
        by_cases h1 : e.1.1 < px <;> by_cases h2 : e.2.1 < px
        · have a1 : ¬ px ≤ e.1.1 := not_le.2 h1
          have a2 : ¬ px ≤ e.2.1 := not_le.2 h2
          simp [h1, h2, a1, a2]
        · have a1 : ¬ px ≤ e.1.1 := not_le.2 h1
          have a2 : px ≤ e.2.1 := not_lt.1 h2
          simp [h1, h2, a1, a2]
        · have a1 : px ≤ e.1.1 := not_lt.1 h1
          have a2 : ¬ px ≤ e.2.1 := not_le.2 h2
          simp [h1, h2, a1, a2]
        · have a1 : px ≤ e.1.1 := not_lt.1 h1
          have a2 : px ≤ e.2.1 := not_lt.1 h2
          simp [h1, h2, a1, a2]
      rw [this]; omega
  have heven := cycle_even (fun p => decide (p.1 < px)) v
  rw [hsum] at heven
  have hRL : ((edges v).countP R = 0 ∧ (edges v).countP L = 0) ∨
      ((edges v).countP R = 1 ∧ (edges v).countP L = 1) := by
    obtain ⟨k, hk⟩ := heven
    omega
  have hUsum : ∀ l : List ((ℝ × ℝ) × (ℝ × ℝ)), l.countP U =
      l.countP (fun e => R e && U e) + l.countP (fun e => L e && U e) := by
    intro l
    induction l with
    | nil => simp
    | cons e l ih =>
      simp only [List.countP_cons, ih]
      have : (if U e = true then 1 else 0) =
          (if (R e && U e) = true then 1 else 0) + (if (L e && U e) = true then 1 else 0) := by
        by_cases hu : U e = true
        · have hu' := hu
          simp only [hU, decide_eq_true_eq] at hu'
          rcases hu'.1 with h1 | h1
          · have r : R e = false := by simp only [hR, decide_eq_false_iff_not]; intro h; linarith
            have l : L e = true := by simp only [hL, decide_eq_true_eq]; exact h1
            simp [hu, r, l]
          · have r : R e = true := by simp only [hR, decide_eq_true_eq]; exact ⟨h1.2, h1.1⟩
            have l : L e = false := by simp only [hL, decide_eq_false_iff_not]; intro h; linarith
            simp [hu, r, l]
        · simp [hu]
      rw [this]; omega
  have hres := C13_polygon_partial eps he v px py hc
  change _ = if Odd ((edges v).countP U) then (1 : ℤ) else -1 at hres
  rw [hUsum] at hres
  have hsub : (px, py) ∈ interior (convexHull ℝ {w | w ∈ v}) →
      (px, py) ∈ convexHull ℝ {w | w ∈ v} := fun h => interior_subset h
  -- it suffices to treat the two cases
  suffices hs : (checkPolygon eps v px py = 1 ∧ (px, py) ∈ interior (convexHull ℝ {w | w ∈ v})) ∨
      (checkPolygon eps v px py = -1 ∧ (px, py) ∉ convexHull ℝ {w | w ∈ v}) by
    rcases hs with ⟨h1, h2⟩ | ⟨h1, h2⟩
    · rw [h1]; exact ⟨⟨fun _ => h2, fun _ => rfl⟩, ⟨fun h => by norm_num at h, fun h => absurd (hsub h2) h⟩⟩
    · rw [h1]; exact ⟨⟨fun h => by norm_num at h, fun h => absurd (hsub h) h2⟩, ⟨fun _ => h2, fun _ => rfl⟩⟩
  have hstr : ∀ e ∈ edges v, (R e = true ∨ L e = true) → Straddles (e.1.1 - px) (e.2.1 - px) := by
    intro e he h
    rw [straddles_iff]
    rcases h with h | h
    · simp only [hR, decide_eq_true_eq] at h; exact .inr ⟨h.2, h.1⟩
    · simp only [hL, decide_eq_true_eq] at h; exact .inl ⟨h.1, h.2⟩
  have hone : ∀ P : ((ℝ × ℝ) × (ℝ × ℝ)) → Bool, (∀ e ∈ edges v, P e = true → Straddles (e.1.1 - px) (e.2.1 - px)) →
      (edges v).countP P = 1 → ∃ e ∈ edges v, P e = true ∧
      (edges v).countP (fun e => P e && U e) = if 0 < hgt px py e.1 e.2 then 1 else 0 := by
    intro P hP h1
    have hpos : 0 < (edges v).countP P := by omega
    obtain ⟨e, hev, hPe⟩ := List.countP_pos_iff.1 hpos
    refine ⟨e, hev, hPe, ?_⟩
    have huniq : ∀ x ∈ edges v, P x = true → x = e := by
      intro x hx hpx
      by_contra hne
      have h2 : ({x, e} : Finset _).card ≤ ((edges v).filter P).toFinset.card := by
        apply Finset.card_le_card
        intro y hy
        simp only [Finset.mem_insert, Finset.mem_singleton] at hy
        rw [List.mem_toFinset, List.mem_filter]
        rcases hy with rfl | rfl
        · exact ⟨hx, hpx⟩
        · exact ⟨hev, hPe⟩
      have h3 := List.toFinset_card_le ((edges v).filter P)
      rw [← List.countP_eq_length_filter, h1] at h3
      rw [Finset.card_pair hne] at h2
      omega
    have hle : (edges v).countP (fun e => P e && U e) ≤ 1 := by
      rw [← h1]; apply List.countP_mono_left
      intro x _ hx; simp at hx; exact hx.1
    by_cases hh : 0 < hgt px py e.1 e.2
    · rw [if_pos hh]
      have : 0 < (edges v).countP (fun e => P e && U e) := by
        rw [List.countP_pos_iff]
        refine ⟨e, hev, ?_⟩
        have : U e = true := by
          simp only [hU, decide_eq_true_eq]; exact crossesAbove_iff.2 ⟨hP e hev hPe, hh⟩
        simp [hPe, this]
      omega
    · rw [if_neg hh, List.countP_eq_zero]
      intro x hx hxx
      simp only [Bool.and_eq_true] at hxx
      have := huniq x hx hxx.1
      subst this
      have h2 := hxx.2
      simp only [hU, decide_eq_true_eq] at h2
      exact hh (crossesAbove_iff.1 h2).2
  by_cases hin : (px, py) ∈ convexHull ℝ {w | w ∈ v}
  · left
    have hint : (px, py) ∈ interior (convexHull ℝ {w | w ∈ v}) := by
      by_contra hc'
      exact hfr ⟨subset_closure hin, hc'⟩
    refine ⟨?_, hint⟩
    rcases hRL with ⟨hr, hl⟩ | ⟨hr, hl⟩
    · exfalso
      have hno : (edges v).countP (fun e => decide (e.1.1 < px) != decide (e.2.1 < px)) = 0 := by
        rw [hsum]; omega
      have h3 := hv.three
      obtain ⟨a, l, rfl⟩ : ∃ a l, v = a :: l := by
        cases v with
        | nil => simp at h3
        | cons a l => exact ⟨a, l, rfl⟩
      have hall := cycle_const (fun p => decide (p.1 < px)) a l a (by
        intro e he
        rw [← edges_cons] at he
        have := (List.countP_eq_zero.1 hno) e he
        simpa using this)
      by_cases ha : a.1 < px
      · have hS : convexHull ℝ {w | w ∈ a :: l} ⊆ {w | w.1 < px} := by
          apply convexHull_min
          · intro w hw
            have := hall w hw
            simp only [ha, decide_true, decide_eq_true_eq] at this
            exact this
          · intro x hx y hy α β hα hβ hαβ
            simp only [Set.mem_setOf_eq, Prod.fst_add, Prod.smul_fst, smul_eq_mul] at *
            rcases lt_or_eq_of_le hα with h | h
            · have hb : β = 1 - α := by linarith
              subst hb
              nlinarith [mul_nonneg hβ (sub_nonneg.2 hy.le), mul_pos h (sub_pos.2 hx)]
            · have : β = 1 := by linarith
              subst this; subst h; linarith
        have := hS hin
        simp at this
      · have hS : convexHull ℝ {w | w ∈ a :: l} ⊆ {w | 0 ≤ w.1 - px} := by
          apply convexHull_min
          · intro w hw
            have := hall w hw
            simp only [ha, decide_false, decide_eq_false_iff_not] at this
            have := not_lt.1 this
            simp only [Set.mem_setOf_eq]; linarith
          · intro x hx y hy α β hα hβ hαβ
            simp only [Set.mem_setOf_eq, Prod.fst_add, Prod.smul_fst, smul_eq_mul] at *
            have : β = 1 - α := by linarith
            subst this
            nlinarith [mul_nonneg hα hx, mul_nonneg hβ hy]
        have := interior_pos (L := fun w => w.1 - px) (-1, 0) (-1) (by norm_num)
          (fun u hu => hS hu) (px, py) (by intro t; simp) hint
        simp at this
    · obtain ⟨e, hev, hRe, hce⟩ := hone R (fun e he h => hstr e he (.inl h)) hr
      obtain ⟨f, hfv, hLf, hcf⟩ := hone L (fun e he h => hstr e he (.inr h)) hl
      have i1 := interior_left hv hev hint
      have i2 := interior_left hv hfv hint
      have c1 := cross_vertical (py := py) (hstr e hev (.inl hRe)) 0
      have c2 := cross_vertical (py := py) (hstr f hfv (.inr hLf)) 0
      rw [add_zero] at c1 c2
      rw [c1] at i1
      rw [c2] at i2
      simp only [hR, decide_eq_true_eq] at hRe
      simp only [hL, decide_eq_true_eq] at hLf
      rw [hce, hcf] at hres
      have d1 : e.2.1 - e.1.1 < 0 := by linarith
      have d2 : 0 < f.2.1 - f.1.1 := by linarith
      generalize hgt px py e.1 e.2 = H1 at *
      generalize hgt px py f.1 f.2 = H2 at *
      rcases hv.sign with hσ | hσ
      · rw [hσ] at i1 i2
        have p1 : 0 < H1 := by by_contra hc'; push Not at hc'; nlinarith
        have p2 : ¬ 0 < H2 := by intro hc'; nlinarith
        rw [if_pos p1, if_neg p2] at hres
        rw [hres]; norm_num
      · rw [hσ] at i1 i2
        have p1 : ¬ 0 < H1 := by intro hc'; nlinarith
        have p2 : 0 < H2 := by by_contra hc'; push Not at hc'; nlinarith
        rw [if_neg p1, if_pos p2] at hres
        rw [hres]; norm_num
  · right
    refine ⟨?_, hin⟩
    rcases hRL with ⟨hr, hl⟩ | ⟨hr, hl⟩
    · have z1 : (edges v).countP (fun e => R e && U e) = 0 := by
        rw [List.countP_eq_zero] at hr ⊢
        intro x hx hxx; simp only [Bool.and_eq_true] at hxx; exact hr x hx hxx.1
      have z2 : (edges v).countP (fun e => L e && U e) = 0 := by
        rw [List.countP_eq_zero] at hl ⊢
        intro x hx hxx; simp only [Bool.and_eq_true] at hxx; exact hl x hx hxx.1
      rw [z1, z2] at hres
      rw [hres]; simp
    · obtain ⟨e, hev, hRe, hce⟩ := hone R (fun e he h => hstr e he (.inl h)) hr
      obtain ⟨f, hfv, hLf, hcf⟩ := hone L (fun e he h => hstr e he (.inr h)) hl
      have hmeet : ∀ g ∈ edges v, Straddles (g.1.1 - px) (g.2.1 - px) →
          (px, py + hgt px py g.1 g.2) ∈ convexHull ℝ {w | w ∈ v} := by
        intro g hg hs
        obtain ⟨a, b, a0, b0, ab, hpt, -, -⟩ := meet_comb (py := py) hs
        rw [hpt]
        exact (convex_convexHull ℝ {w | w ∈ v}) (subset_convexHull ℝ {w | w ∈ v} (mem_edges hg).1)
          (subset_convexHull ℝ {w | w ∈ v} (mem_edges hg).2) a0 b0 ab
      have m1 := hmeet e hev (hstr e hev (.inl hRe))
      have m2 := hmeet f hfv (hstr f hfv (.inr hLf))
      rw [hce, hcf] at hres
      generalize hgt px py e.1 e.2 = H1 at *
      generalize hgt px py f.1 f.2 = H2 at *
      have hseg : ∀ A B : ℝ, (px, py + A) ∈ convexHull ℝ {w | w ∈ v} →
          (px, py + B) ∈ convexHull ℝ {w | w ∈ v} → 0 < A → ¬ 0 < B → False := by
        intro A B hA hB a0 b0
        apply hin
        have b0' := not_lt.1 b0
        have hd : 0 < A - B := by linarith
        have hcomb : (px, py) = (-B / (A - B)) • ((px, py + A) : ℝ × ℝ) +
            (A / (A - B)) • ((px, py + B) : ℝ × ℝ) := by
          apply Prod.ext
          · simp only [Prod.fst_add, Prod.smul_fst, smul_eq_mul]; field_simp; ring
          · simp only [Prod.snd_add, Prod.smul_snd, smul_eq_mul]; field_simp; ring
        rw [hcomb]
        exact (convex_convexHull ℝ _) hA hB (div_nonneg (by linarith) hd.le)
          (div_nonneg a0.le hd.le) (by field_simp; ring)
      by_cases p1 : 0 < H1 <;> by_cases p2 : 0 < H2
      · rw [if_pos p1, if_pos p2] at hres; rw [hres]; simp
      · exact absurd (hseg H1 H2 m1 m2 p1 p2) id
      · exact absurd (hseg H2 H1 m2 m1 p2 p1) id
      · rw [if_neg p1, if_neg p2] at hres; rw [hres]; simp

/-- Non-vacuity: a trapezoid, in both orientations. -/
example : StrictlyConvex 1 [(0, 0), (3, 0), (2, 1), (1, 1)] := by
  refine ⟨.inl rfl, by simp, by simp, ?_⟩
  intro e he w hw h1 h2
  simp [edges, List.rotate] at he hw
  rcases he with rfl | rfl | rfl | rfl <;> rcases hw with rfl | rfl | rfl | rfl <;>
    simp_all [cross] <;> norm_num

end Verif.RG
