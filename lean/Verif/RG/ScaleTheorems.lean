import Verif.RG.PolyTheorems
import Mathlib.Topology.Algebra.ConstMulAction
import Mathlib.Algebra.GroupWithZero.Action.Pointwise.Set

/-!
C14: scaling and push/pop histories.  C16: bounding box.
-/
set_option linter.all false

namespace Verif.RG
open Complex Spec Pointwise

/-! ### C14 -/

/-- **C14, scale**: with scale factor `s`, the answer at `(x,y)` is the unscaled answer at
`(x/s,y/s)`. -/
theorem C14_scale_point (eps : ℝ) (rg rg' : RG) (s x y : ℝ) (h : setScale rg s = some rg') (h1 : rg.sfactor = 1) :
    checkInside eps rg' x y = checkInside eps rg (x / s) (y / s) := by
  unfold setScale at h
  split_ifs at h with hs
  obtain rfl := Option.some.inj h
  unfold checkInside
  simp only [h1, ne_eq, not_true_eq_false, if_false]
  by_cases h2 : s = 1
  · subst h2; simp
  · simp only [h2, not_false_eq_true, if_true]

theorem mem_smul_iff {s : ℝ} (hs : 0 < s) (S : Set ℂ) (z : ℂ) :
    z ∈ s • S ↔ (⟨z.re / s, z.im / s⟩ : ℂ) ∈ S := by
  rw [Set.mem_smul_set_iff_inv_smul_mem₀ hs.ne']
  have : s⁻¹ • z = ⟨z.re / s, z.im / s⟩ := by
    apply Complex.ext <;> simp <;> field_simp
  rw [this]

/-- **C14, scaled region**: if the unscaled object classifies the points of a region `S`, then
after `RGSetScale(rg,s)` it classifies the points of `s·S`. -/
theorem C14_scaled_region (eps : ℝ) (rg rg' : RG) (s : ℝ) (S : Set ℂ) (h1 : rg.sfactor = 1)
    (hS : Classifies (fun z => checkInside eps rg z.re z.im) S) (h : setScale rg s = some rg') :
    Classifies (fun z => checkInside eps rg' z.re z.im) (s • S) := by
  have hs : 0 < s := by unfold setScale at h; split_ifs at h with hs; exact hs
  intro z
  have hz := hS ⟨z.re / s, z.im / s⟩
  simp only [C14_scale_point eps rg rg' s _ _ h h1] at hz ⊢
  have hi : z ∈ interior (s • S) ↔ (⟨z.re / s, z.im / s⟩ : ℂ) ∈ interior S := by
    rw [interior_smul₀ hs.ne', mem_smul_iff hs]
  have hc : z ∈ closure (s • S) ↔ (⟨z.re / s, z.im / s⟩ : ℂ) ∈ closure S := by
    rw [closure_smul₀' hs.ne', mem_smul_iff hs]
  have hf : z ∈ frontier (s • S) ↔ (⟨z.re / s, z.im / s⟩ : ℂ) ∈ frontier S := by
    unfold frontier; rw [Set.mem_diff, Set.mem_diff, hi, hc]
  rw [hi, hf, hc]
  exact hz

/-- Calls in a history of a region object. -/
inductive Op where
  | setScale (s : ℝ)
  | push (s : ℝ)
  | pop
  | setComplement (f : Bool)
  | query (x y : ℝ)

/-- What a call answers. -/
inductive Reply where
  | ok
  | error
  | answer (v : ℤ)
  deriving DecidableEq

/-- A call, an error leaving the object unchanged. -/
noncomputable def step (eps : ℝ) (rg : RG) : Op → RG × Reply
  | .setScale s => match setScale rg s with
    | some rg' => (rg', .ok)
    | none => (rg, .error)
  | .push s => match pushScale rg s with
    | some rg' => (rg', .ok)
    | none => (rg, .error)
  | .pop => match popScale rg with
    | some rg' => (rg', .ok)
    | none => (rg, .error)
  | .setComplement f => (setComplement rg f, .ok)
  | .query x y => (rg, .answer (checkInside eps rg x y))

/-- A history of calls, with the replies. -/
noncomputable def run (eps : ℝ) : RG → List Op → RG × List Reply
  | rg, [] => (rg, [])
  | rg, op :: ops =>
    let r := step eps rg op
    let q := run eps r.1 ops
    (q.1, r.2 :: q.2)

theorem run_append (eps : ℝ) (rg : RG) (l m : List Op) :
    run eps rg (l ++ m) = ((run eps (run eps rg l).1 m).1, (run eps rg l).2 ++ (run eps (run eps rg l).1 m).2) := by
  induction l generalizing rg with
  | nil => rfl
  | cons op l ih => simp [run, ih]

theorem run_queries (eps : ℝ) (rg : RG) (qs : List (ℝ × ℝ)) :
    run eps rg (qs.map fun q => .query q.1 q.2) =
      (rg, qs.map fun q => .answer (checkInside eps rg q.1 q.2)) := by
  induction qs with
  | nil => rfl
  | cons q qs ih => simp only [List.map_cons, run, step]; rw [ih]

/-- Invariant of all histories: positive scale, saved scale zero or positive. -/
theorem run_inv (eps : ℝ) (h : List Op) (rg : RG) (hs : 0 < rg.sfactor) (ho : 0 ≤ rg.osfactor) :
    0 < (run eps rg h).1.sfactor ∧ 0 ≤ (run eps rg h).1.osfactor := by
  induction h generalizing rg with
  | nil => exact ⟨hs, ho⟩
  | cons op h ih =>
    have : 0 < (step eps rg op).1.sfactor ∧ 0 ≤ (step eps rg op).1.osfactor := by
      cases op with
      | setScale s =>
        unfold step setScale
        by_cases h' : 0 < s
        · simp [h', ho]
        · simp [h', hs, ho]
      | push s =>
        unfold step pushScale
        by_cases h' : 0 < s
        · by_cases h2 : rg.osfactor = 0
          · simp [h', h2, hs, hs.le]
          · simp [h', h2, hs, ho]
        · simp [h', hs, ho]
      | pop =>
        unfold step popScale
        by_cases h2 : rg.osfactor = 0
        · simp [h2, hs, ho]
        · simp [h2]; exact lt_of_le_of_ne ho (Ne.symm h2)
      | setComplement f => exact ⟨hs, ho⟩
      | query x y => exact ⟨hs, ho⟩
    exact ih _ this.1 this.2

/-- Whether a push has not been popped yet, computed from the calls alone. -/
def pushedAfter : Bool → List Op → Bool
  | b, [] => b
  | b, .push _ :: l => pushedAfter true l
  | b, .pop :: l => pushedAfter false l
  | b, _ :: l => pushedAfter b l

/-- In histories whose pushes have positive factors, a factor is saved exactly when a push has
not been popped. -/
theorem run_pushed (eps : ℝ) (h : List Op) (rg : RG) (hs : 0 < rg.sfactor) (ho : 0 ≤ rg.osfactor)
    (hp : ∀ s, Op.push s ∈ h → 0 < s) :
    ((run eps rg h).1.osfactor ≠ 0) ↔ pushedAfter (decide (rg.osfactor ≠ 0)) h = true := by
  induction h generalizing rg with
  | nil => simp [run, pushedAfter]
  | cons op h ih =>
    have hinv := run_inv eps [op] rg hs ho
    simp only [run] at hinv
    have ih' := ih (step eps rg op).1 hinv.1 hinv.2 (fun s hs => hp s (List.mem_cons_of_mem _ hs))
    change ((run eps (step eps rg op).1 h).1.osfactor ≠ 0) ↔ _
    rw [ih']
    cases op with
    | setScale s =>
      simp only [pushedAfter]
      have : (step eps rg (.setScale s)).1.osfactor = rg.osfactor := by
        unfold step setScale; by_cases h' : 0 < s <;> simp [h']
      rw [this]
    | push s =>
      simp only [pushedAfter]
      have h' : 0 < s := hp s List.mem_cons_self
      have : (step eps rg (.push s)).1.osfactor ≠ 0 := by
        unfold step pushScale
        by_cases h2 : rg.osfactor = 0
        · simp [h', h2, hs.ne']
        · simp [h', h2]
      simp [this]
    | pop =>
      simp only [pushedAfter]
      have : (step eps rg .pop).1.osfactor = 0 := by
        unfold step popScale
        by_cases h2 : rg.osfactor = 0 <;> simp [h2]
      simp [this]
    | setComplement f => simp only [pushedAfter]; rfl
    | query x y => simp only [pushedAfter]; rfl

/-- **C14, push/pop**: after any history (with positive push factors) in which no push is pending,
`RGPushScale(s)`, any sequence of membership queries and `RGPopScale` all succeed; the queries are
answered for the region scaled by the product of the two factors, and afterwards the object is
exactly as before, so that every later history gives the same replies. -/
theorem C14_push_pop (eps : ℝ) (sh : Shape) (hist : List Op) (s : ℝ) (hs : 0 < s)
    (qs : List (ℝ × ℝ)) (hp : ∀ x, Op.push x ∈ hist → 0 < x)
    (hno : pushedAfter false hist = false) :
    let rg := (run eps (create sh) hist).1
    run eps rg (.push s :: (qs.map fun q => .query q.1 q.2) ++ [.pop]) =
      (rg, .ok :: (qs.map fun q => .answer
        (checkInside eps { rg with sfactor := rg.sfactor * s } q.1 q.2)) ++ [.ok]) := by
  intro rg
  have hi := run_inv eps hist (create sh) (by simp [create]) (by simp [create])
  have hpu := run_pushed eps hist (create sh) (by simp [create]) (by simp [create]) hp
  have h0 : rg.osfactor = 0 := by
    by_contra hc
    have := hpu.1 hc
    simp only [create, ne_eq, not_true_eq_false, decide_false] at this
    rw [hno] at this; cases this
  have hpos : 0 < rg.sfactor := hi.1
  rw [run_append]
  have e1 : step eps rg (.push s) = ({ rg with osfactor := rg.sfactor, sfactor := rg.sfactor * s }, .ok) := by
    unfold step pushScale; simp [hs, h0]
  have e2 : run eps rg (.push s :: (qs.map fun q => .query q.1 q.2)) =
      ({ rg with osfactor := rg.sfactor, sfactor := rg.sfactor * s }, .ok :: (qs.map fun q => .answer
        (checkInside eps { rg with sfactor := rg.sfactor * s } q.1 q.2))) := by
    unfold run; simp only [e1, run_queries]; rfl
  rw [e2]
  have e3 : run eps ({ rg with osfactor := rg.sfactor, sfactor := rg.sfactor * s } : RG) [.pop] =
      (rg, [.ok]) := by
    unfold run step popScale
    simp only [hpos.ne', if_false]
    unfold run
    have : ({ rg with sfactor := rg.sfactor, osfactor := 0 } : RG) = rg := by
      conv_rhs => rw [show rg = ⟨rg.shape, rg.complement, rg.sfactor, rg.osfactor⟩ from rfl, h0]
    rw [this]
  rw [e3]

example : pushedAfter false [.setScale 2, .push 3, .query 1 1, .pop, .push 5, .pop, .query 0 0] = false :=
  rfl

/-- **C14, nesting is refused**: a second push, or a pop without a push, is an error and changes
nothing. -/
theorem C14_nesting (eps : ℝ) (sh : Shape) (hist : List Op)
    (hp : ∀ x, Op.push x ∈ hist → 0 < x) (s : ℝ) :
    let rg := (run eps (create sh) hist).1
    (pushedAfter false hist = true → step eps rg (.push s) = (rg, .error)) ∧
    (pushedAfter false hist = false → step eps rg .pop = (rg, .error)) := by
  intro rg
  have hpu := run_pushed eps hist (create sh) (by simp [create]) (by simp [create]) hp
  simp only [create, ne_eq, not_true_eq_false, decide_false] at hpu
  constructor
  · intro h
    have := hpu.2 h
    unfold step pushScale
    by_cases h' : 0 < s <;> simp [h'] <;> simp [rg, create, this]
  · intro h
    have : rg.osfactor = 0 := by
      by_contra hc; have := hpu.1 hc; rw [h] at this; cases this
    unfold step popScale; simp [this]

/-! ### C16 -/

/-- Parameters with which the objects can be set up (`RG*Set*` functions). -/
def ValidShape : Shape → Prop
  | .interval r => r.a ≤ r.b ∧ r.c ≤ r.d
  | .ellipse e => 0 < e.radius ∧ 0 < e.vscale
  | .ring g => 0 < g.radius ∧ 0 < g.vscale ∧ 0 < g.width ∧ g.width ≠ 2 * g.radius
  | .polygon v => True

theorem quad_box {c : ℂ} {R v : ℝ} (hR : 0 < R) (hv : 0 < v) {z : ℂ} (h : quad c R v z ≤ 1) :
    (c.re - R ≤ z.re ∧ z.re ≤ c.re + R) ∧ (c.im - R * v ≤ z.im ∧ z.im ≤ c.im + R * v) := by
  unfold quad at h
  have h1 : ((z.re - c.re) / R) ^ 2 ≤ 1 := by nlinarith [sq_nonneg ((z.im - c.im) / (R * v))]
  have h2 : ((z.im - c.im) / (R * v)) ^ 2 ≤ 1 := by nlinarith [sq_nonneg ((z.re - c.re) / R)]
  rw [sq_le_one_iff_abs_le_one, abs_le] at h1 h2
  have hRv : 0 < R * v := mul_pos hR hv
  rw [le_div_iff₀ hR, div_le_iff₀ hR] at h1
  rw [le_div_iff₀ hRv, div_le_iff₀ hRv] at h2
  exact ⟨⟨by linarith [h1.1], by linarith [h1.2]⟩, ⟨by linarith [h2.1], by linarith [h2.2]⟩⟩

theorem ring_outer {g : Ring} (hg : ValidShape (.ring g)) {z : ℂ}
    (h : checkRing g z.re z.im ≠ -1) : quad g.center (g.radius + g.width / 2) g.vscale z ≤ 1 := by
  obtain ⟨hr, hv, hw, hne⟩ := hg
  by_contra hc
  push Not at hc
  apply h
  have hout : 0 < g.radius + g.width / 2 := by linarith
  have a1 : ringOuter g z.re z.im = -1 := by
    rw [ringOuter_eq g hv.ne', psign_neg]; linarith
  have a2 : ringInner g z.re z.im = 1 := by
    rw [ringInner_eq g hv.ne', psign_pos]
    have hE := (one_lt_quad hout hv.ne').1 hc
    rw [quad_eq_erad hv.ne', div_pow, sub_pos]
    have hd : 0 < (g.radius - g.width / 2) ^ 2 := by
      apply sq_pos_of_ne_zero; intro h0; apply hne; linarith
    rw [one_lt_div hd]
    nlinarith
  unfold checkRing
  rw [a1, a2]; norm_num

theorem shape_box (eps M : ℝ) (sh : Shape) (hsh : ValidShape sh) (z : ℂ)
    (h : checkShape eps sh z.re z.im ≠ -1) :
    ((bboxShape M sh).a ≤ z.re ∧ z.re ≤ (bboxShape M sh).b) ∧
    ((bboxShape M sh).c ≤ z.im ∧ z.im ≤ (bboxShape M sh).d) := by
  cases sh with
  | interval r => exact (checkInterval_ne hsh.1 hsh.2).1 h
  | ellipse e =>
    simp only [checkShape, checkEllipse_eq e hsh.2.ne', ne_eq, psign_neg] at h
    exact quad_box hsh.1 hsh.2 (by linarith)
  | ring g =>
    have := ring_outer hsh h
    exact quad_box (by have := hsh.1; have := hsh.2.2.1; linarith) hsh.2.1 this
  | polygon v =>
    obtain ⟨⟨p1, m1, h1⟩, ⟨p2, m2, h2⟩, ⟨p3, m3, h3⟩, ⟨p4, m4, h4⟩⟩ := checkPolygon_range h
    have hb := (bbox_fold v _ _ (rfl : bboxPolygon M v = _)).2
    exact ⟨⟨(hb p1 m1).1.trans h1, h2.trans (hb p2 m2).2.1⟩,
      ⟨(hb p3 m3).2.2.1.trans h3, h4.trans (hb p4 m4).2.2.2⟩⟩

/-- **C16**: for a region of any of the four types, with any scale factor and complement flag, every
representable point (coordinates within `±PETSC_MAX_REAL`) which is reported as inside or on the
contour lies in the box returned by `RGComputeBoundingBox`. -/
theorem C16_bounding_box (eps M : ℝ) (rg : RG) (hsh : ValidShape rg.shape) (hs : 0 < rg.sfactor)
    (x y : ℝ) (hx : |x| ≤ M) (hy : |y| ≤ M) (h : checkInside eps rg x y ≠ -1) :
    ((boundingBox M rg).a ≤ x ∧ x ≤ (boundingBox M rg).b) ∧
    ((boundingBox M rg).c ≤ y ∧ y ≤ (boundingBox M rg).d) := by
  rw [abs_le] at hx hy
  unfold boundingBox
  by_cases hc : rg.complement = true
  · rw [if_pos hc]; exact ⟨hx, hy⟩
  · rw [if_neg hc]
    have hpt : checkShape eps rg.shape (x / rg.sfactor) (y / rg.sfactor) ≠ -1 := by
      unfold checkInside at h
      simp only [hc, Bool.false_eq_true, if_false] at h
      by_cases h1 : rg.sfactor = 1
      · simpa [h1] using h
      · simpa [h1] using h
    obtain ⟨⟨k1, k2⟩, ⟨k3, k4⟩⟩ := shape_box eps M rg.shape hsh ⟨x / rg.sfactor, y / rg.sfactor⟩ hpt
    simp only at k1 k2 k3 k4
    rw [le_div_iff₀ hs] at k1 k3
    rw [div_le_iff₀ hs] at k2 k4
    simp only
    refine ⟨⟨?_, ?_⟩, ⟨?_, ?_⟩⟩
    · by_cases h0 : (bboxShape M rg.shape).a = -M
      · rw [if_neg (not_not.2 h0), h0]; exact hx.1
      · rw [if_pos h0]; exact k1
    · by_cases h0 : (bboxShape M rg.shape).b = M
      · rw [if_neg (not_not.2 h0), h0]; exact hx.2
      · rw [if_pos h0]; exact k2
    · by_cases h0 : (bboxShape M rg.shape).c = -M
      · rw [if_neg (not_not.2 h0), h0]; exact hy.1
      · rw [if_pos h0]; exact k3
    · by_cases h0 : (bboxShape M rg.shape).d = M
      · rw [if_neg (not_not.2 h0), h0]; exact hy.2
      · rw [if_pos h0]; exact k4

example : ∃ rg : RG, ValidShape rg.shape ∧ 0 < rg.sfactor ∧ rg.sfactor ≠ 1 ∧
    ∃ x y, checkInside 0 rg x y = 1 :=
  ⟨⟨.interval ⟨-1, 1, -1, 1⟩, false, 2, 0⟩, by norm_num [ValidShape], by norm_num, by norm_num, 1, 1, by
    norm_num [checkInside, checkShape, checkInterval, side]⟩

/-- **C14, bounding box**: the box of a bounded, non complemented region is multiplied by the
scale factor. -/
theorem C14_bounding_box (M : ℝ) (sh : Shape) (s s' : ℝ)
    (hb : (bboxShape M sh).a ≠ -M ∧ (bboxShape M sh).b ≠ M ∧ (bboxShape M sh).c ≠ -M ∧
      (bboxShape M sh).d ≠ M) :
    boundingBox M ⟨sh, false, s, s'⟩ =
      ⟨s * (boundingBox M ⟨sh, false, 1, s'⟩).a, s * (boundingBox M ⟨sh, false, 1, s'⟩).b,
       s * (boundingBox M ⟨sh, false, 1, s'⟩).c, s * (boundingBox M ⟨sh, false, 1, s'⟩).d⟩ := by
  unfold boundingBox
  simp only [Bool.false_eq_true, if_false, hb.1, hb.2.1, hb.2.2.1, hb.2.2.2, ne_eq,
    not_false_eq_true, if_true, mul_one]
  simp only [mul_comm s]

end Verif.RG
