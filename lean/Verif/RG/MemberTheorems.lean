import Verif.RG.MemberLemmas

/-!
C13: the membership test is the mathematical membership.
-/
set_option linter.all false

namespace Verif.RG
open Complex Spec

/-- **C13, interval.**  For all endpoints accepted by `RGIntervalSetEndpoints`, in both builds and
including segments, the answer is 1, 0, -1 in the interior/boundary/exterior of the rectangle. -/
theorem C13_interval (realBuild : Bool) (a b c d : ℝ) (r : Interval)
    (h : setEndpoints realBuild a b c d = some r) :
    Classifies (fun z => checkInterval r z.re z.im) (rect a b c d) := by
  have hr : r = ⟨a, b, c, d⟩ ∧ a ≤ b ∧ c ≤ d := by
    unfold setEndpoints at h
    split_ifs at h with h1 h2 h3 h4 h5 h6
    exact ⟨(Option.some.inj h).symm, h3, h5⟩
  obtain ⟨rfl, hab, hcd⟩ := hr
  refine classifies_of (rect_closed _ _ _ _) (fun z => checkInterval_cases _ _ _) ?_ ?_
  · intro z; rw [checkInterval_one, mem_interior_rect]
  · intro z; rw [checkInterval_ne hab hcd, mem_rect]

example : setEndpoints true (-1) 2 (-3) 3 = some ⟨-1, 2, -3, 3⟩ := by
  unfold setEndpoints; norm_num

/-- Whatever the interval, the two acceptance rules for endpoints: every proper rectangle is
accepted in the complex build, and every symmetric one in the real build. -/
theorem setEndpoints_accepts (realBuild : Bool) (a b c d : ℝ) (h1 : a < b) (h2 : c < d)
    (h3 : realBuild = true → c = -d) : setEndpoints realBuild a b c d = some ⟨a, b, c, d⟩ := by
  unfold setEndpoints
  rw [if_neg (by rintro ⟨rfl, rfl, _⟩; exact lt_irrefl _ h1), if_neg (fun h => h1.ne h.1),
    if_neg (not_not.2 h1.le), if_neg (fun h => h2.ne h.1), if_neg (not_not.2 h2.le),
    if_neg (fun h => h.2 (h3 h.1))]

/-- **C13, ellipse.** -/
theorem C13_ellipse (e : Ellipse) (hr : 0 < e.radius) (hv : 0 < e.vscale) :
    Classifies (fun z => checkEllipse e z.re z.im) (ellipse e.center e.radius e.vscale) := by
  refine classifies_of (ellipse_closed _ _ _ hr.ne' hv.ne') ?_ ?_ ?_
  · intro z
    simp only [checkEllipse_eq e hv.ne']
    rcases psign_cases (1 - quad e.center e.radius e.vscale z) with h | h | h
    · exact .inl h.1
    · exact .inr (.inl h.1)
    · exact .inr (.inr h.1)
  · intro z
    simp only [checkEllipse_eq e hv.ne', mem_interior_ellipse hr.ne' hv.ne', psign_pos]
    constructor <;> intro h <;> linarith
  · intro z
    simp only [checkEllipse_eq e hv.ne', mem_ellipse hr.ne' hv.ne', ne_eq, psign_neg]
    constructor <;> intro h <;> linarith

example : ∃ e : Ellipse, 0 < e.radius ∧ 0 < e.vscale ∧ e.vscale ≠ 1 :=
  ⟨⟨⟨1, 2⟩, 3, 1 / 2⟩, by norm_num, by norm_num, by norm_num⟩

/-- **C13, ring, what holds.**  For a ring with `width < 2*radius`, and points which are not on
the zero-angle ray when the span ends exactly at angle 1 (and does not start at 0):
the answer is 1 exactly on the part of the ring strictly between the two ellipses (the two
straight sides included), 0 exactly on the two ellipses — whatever the angle —, and -1 elsewhere.

Missing with respect to the full property: see `C13_ring_false` and `C13_ring_ray_false`. -/
theorem C13_ring_partial (rb : Bool) (center : ℂ) (radius vscale s e width : ℝ) (g : Ring)
    (h : setRing rb center radius vscale s e width = some g) (hw : width < 2 * radius) (z : ℂ)
    (hz : ¬ (e = 1 ∧ 0 < s ∧ center.re < z.re ∧ z.im = center.im)) :
    (checkRing g z.re z.im = 1 ↔ z ∈ ringOpen center radius vscale s e width) ∧
    (checkRing g z.re z.im = 0 ↔ z ∈ ellipseCurve center (radius + width / 2) vscale ∨
      z ∈ ellipseCurve center (radius - width / 2) vscale) ∧
    (checkRing g z.re z.im = 1 ∨ checkRing g z.re z.im = 0 ∨ checkRing g z.re z.im = -1) := by
  unfold setRing at h
  split_ifs at h with h1 h2 h3 h4 h5 h6 h7 h8
  obtain rfl := Option.some.inj h
  have hin : 0 < radius - width / 2 := by linarith
  have hout : 0 < radius + width / 2 := by linarith
  have hv := h2.ne'
  have q1 := ringOuter_eq ⟨center, radius, vscale, s, e, width⟩ hv z
  have q2 := ringInner_eq ⟨center, radius, vscale, s, e, width⟩ hv z
  simp only at q1 q2
  rw [mem_ellipseCurve hout.ne' hv, mem_ellipseCurve hin.ne' hv, quad_eq_one hout hv,
    quad_eq_one hin hv]
  generalize hE : erad center vscale z = E
  have hnot : ∀ (x : ℝ), z ∈ ringOpen center radius vscale s e width →
      radius - width / 2 < E ∧ E < radius + width / 2 := by
    rintro - ⟨ρ, θ, hρ, hθ, hzz⟩
    rw [abs_lt] at hρ
    obtain ⟨hh, -⟩ := polar_eq h2 (by linarith) hzz
    rw [← hE, hh]; constructor <;> linarith
  unfold checkRing
  rw [q1, q2]
  rcases lt_trichotomy E (radius + width / 2) with hA | hA | hA
  · have a1 : psign (1 - quad center (radius + width / 2) vscale z) = 1 := by
      rw [psign_pos]; have := (quad_lt_one hout hv (c := center) (z := z)).2 (by rw [hE]; exact hA)
      linarith
    rw [a1, one_mul]
    rcases lt_trichotomy E (radius - width / 2) with hB | hB | hB
    · have a2 : psign (quad center (radius - width / 2) vscale z - 1) = -1 := by
        rw [psign_neg]; have := (quad_lt_one hin hv (c := center) (z := z)).2 (by rw [hE]; exact hB)
        linarith
      rw [a2, if_neg (by norm_num)]
      refine ⟨⟨fun h => by norm_num at h, fun h => by have := hnot 0 h; linarith⟩,
        ⟨fun h => by norm_num at h, ?_⟩, .inr (.inr rfl)⟩
      rintro (h | h) <;> linarith
    · have a2 : psign (quad center (radius - width / 2) vscale z - 1) = 0 := by
        rw [psign_zero]; have := (quad_eq_one hin hv (c := center) (z := z)).2 (by rw [hE]; exact hB)
        linarith
      rw [a2, if_neg (by norm_num)]
      exact ⟨⟨fun h => by norm_num at h, fun h => by have := hnot 0 h; linarith⟩,
        ⟨fun _ => .inr hB, fun _ => rfl⟩, .inr (.inl rfl)⟩
    · have a2 : psign (quad center (radius - width / 2) vscale z - 1) = 1 := by
        rw [psign_pos]; have := (one_lt_quad hin hv (c := center) (z := z)).2 (by rw [hE]; exact hB)
        linarith
      rw [a2, if_pos rfl]
      have hEpos : 0 < erad center vscale z := by rw [hE]; linarith
      obtain ⟨r0, r1, rz⟩ := polar_erad h2 hEpos
      change (ringAngleTest _ (eang center vscale z) 1 = 1 ↔ _) ∧
        (ringAngleTest _ (eang center vscale z) 1 = 0 ↔ _) ∧ (ringAngleTest _ (eang center vscale z) 1 = 1 ∨
          ringAngleTest _ (eang center vscale z) 1 = 0 ∨ ringAngleTest _ (eang center vscale z) 1 = -1)
      have hx : ¬ (e = 1 ∧ 0 < s ∧ eang center vscale z = 0) := by
        rintro ⟨e1, s1, r00⟩
        rw [r00] at rz
        refine hz ⟨e1, s1, ?_, ?_⟩
        · rw [rz]; simp [polar]; exact hEpos
        · rw [rz]; simp [polar]
      have hmem : z ∈ ringOpen center radius vscale s e width ↔
          ∃ n : ℤ, eang center vscale z + n ∈ arc s e := by
        constructor
        · rintro ⟨ρ, θ, hρ, hθ, hzz⟩
          rw [abs_lt] at hρ
          obtain ⟨-, n, hn⟩ := polar_eq h2 (by linarith) hzz
          exact ⟨n, hn ▸ hθ⟩
        · rintro ⟨n, hn⟩
          refine ⟨erad center vscale z, _, ?_, hn, ?_⟩
          · rw [hE, abs_lt]; constructor <;> linarith
          · conv_lhs => rw [rz]
            have : 2 * Real.pi * (eang center vscale z + n) =
              2 * Real.pi * eang center vscale z + n * (2 * Real.pi) := by ring
            simp only [polar, this, Real.cos_add_int_mul_two_pi, Real.sin_add_int_mul_two_pi]
      have hcase : (ringAngleTest ⟨center, radius, vscale, s, e, width⟩ (eang center vscale z) 1 = 1 ∧
          z ∈ ringOpen center radius vscale s e width) ∨
          (ringAngleTest ⟨center, radius, vscale, s, e, width⟩ (eang center vscale z) 1 = -1 ∧
          ¬ z ∈ ringOpen center radius vscale s e width) := by
        rw [hmem, arc_iff h3 h4 h5 h6 r0 r1 hx]
        unfold ringAngleTest
        simp only
        by_cases hes : e < s
        · rw [if_pos hes, if_pos hes]
          by_cases hh : e < eang center vscale z ∧ eang center vscale z < s
          · rw [if_pos hh]; exact .inr ⟨rfl, not_not.2 hh⟩
          · rw [if_neg hh]; exact .inl ⟨rfl, hh⟩
        · rw [if_neg hes, if_neg hes]
          by_cases hh : eang center vscale z < s ∨ e < eang center vscale z
          · rw [if_pos hh]; exact .inr ⟨rfl, not_not.2 hh⟩
          · rw [if_neg hh]; exact .inl ⟨rfl, hh⟩
      have hne : ¬ (E = radius + width / 2 ∨ E = radius - width / 2) := by
        rintro (h | h) <;> linarith
      rcases hcase with ⟨h, h'⟩ | ⟨h, h'⟩
      · rw [h]; exact ⟨⟨fun _ => h', fun _ => rfl⟩,
          ⟨fun h => by norm_num at h, fun h => absurd h hne⟩, .inl rfl⟩
      · rw [h]; exact ⟨⟨fun h => by norm_num at h, fun h => absurd h h'⟩,
          ⟨fun h => by norm_num at h, fun h => absurd h hne⟩, .inr (.inr rfl)⟩
  · have a1 : psign (1 - quad center (radius + width / 2) vscale z) = 0 := by
      rw [psign_zero]; have := (quad_eq_one hout hv (c := center) (z := z)).2 (by rw [hE]; exact hA)
      linarith
    rw [a1, zero_mul, if_neg (by norm_num)]
    exact ⟨⟨fun h => by norm_num at h, fun h => by have := hnot 0 h; linarith⟩,
        ⟨fun _ => .inl hA, fun _ => rfl⟩, .inr (.inl rfl)⟩
  · have a1 : psign (1 - quad center (radius + width / 2) vscale z) = -1 := by
      rw [psign_neg]; have := (one_lt_quad hout hv (c := center) (z := z)).2 (by rw [hE]; exact hA)
      linarith
    have a2 : psign (quad center (radius - width / 2) vscale z - 1) = 1 := by
      rw [psign_pos]
      have := (one_lt_quad hin hv (c := center) (z := z)).2 (by rw [hE]; linarith)
      linarith
    rw [a1, a2, if_neg (by norm_num)]
    refine ⟨⟨fun h => by norm_num at h, fun h => by have := hnot 0 h; linarith⟩,
        ⟨fun h => by norm_num at h, ?_⟩, .inr (.inr (by norm_num))⟩
    rintro (h | h) <;> linarith

example : setRing false ⟨0, 1⟩ 2 (1 / 2) (3 / 4) (1 / 4) 1 =
    some ⟨⟨0, 1⟩, 2, 1 / 2, 3 / 4, 1 / 4, 1⟩ ∧ (1 : ℝ) < 2 * 2 := by
  unfold setRing; norm_num

/-- **C13 is false of rings**: for the upper half ring (angles 0 to 1/2) the point `-3i` of the
lower half of the outer circle, far outside, is reported as "on the contour" (rgring.c:356: the
angle is only checked for strictly interior points). -/
theorem C13_ring_false :
    ∃ g, setRing false 0 2 1 0 (1 / 2) 2 = some g ∧
      checkRing g (-3 * I).re (-3 * I).im = 0 ∧ (-3 * I) ∉ closure (ring 0 2 1 0 (1 / 2) 2) := by
  refine ⟨⟨0, 2, 1, 0, 1 / 2, 2⟩, by unfold setRing; norm_num, ?_, ?_⟩
  · unfold checkRing ringOuter ringInner psign; norm_num
  · intro h
    have hsub : ring 0 2 1 0 (1 / 2) 2 ⊆ {z : ℂ | 0 ≤ z.im} := by
      rintro z ⟨ρ, θ, hρ, hθ, rfl⟩
      have hθ' : θ ∈ Set.Icc (0 : ℝ) (1 / 2) := by
        have : arc 0 (1 / 2) = Set.Icc (0 : ℝ) (1 / 2) := by unfold arc; norm_num
        rwa [this] at hθ
      rw [abs_le] at hρ
      have hpi := Real.pi_pos
      have hs : 0 ≤ Real.sin (2 * Real.pi * θ) := by
        apply Real.sin_nonneg_of_nonneg_of_le_pi
        · have := hθ'.1; positivity
        · have := hθ'.2; nlinarith
      simp only [polar, Set.mem_setOf_eq, Complex.zero_im, zero_add, one_mul]
      exact mul_nonneg (by linarith) hs
    have hcl : IsClosed {z : ℂ | 0 ≤ z.im} := isClosed_le continuous_const Complex.continuous_im
    have := closure_minimal hsub hcl h
    norm_num at this

/-- **C13 is false of rings on the zero-angle ray**: for the lower half ring (angles 1/2 to 1) the
point 2, at angle 1 and strictly between the two circles, is reported as outside while -2, at
angle 1/2, is reported as inside. -/
theorem C13_ring_ray_false :
    ∃ g, setRing false 0 2 1 (1 / 2) 1 2 = some g ∧ (2 : ℂ) ∈ ringOpen 0 2 1 (1 / 2) 1 2 ∧
      checkRing g 2 0 = -1 ∧ checkRing g (-2) 0 = 1 := by
  refine ⟨⟨0, 2, 1, 1 / 2, 1, 2⟩, by unfold setRing; norm_num, ?_, ?_, ?_⟩
  · refine ⟨2, 1, by norm_num, ?_, ?_⟩
    · unfold arc; norm_num
    · apply Complex.ext <;> simp [polar]
  · unfold checkRing ringOuter ringInner psign; norm_num [ringAngleTest, ringAngle]
  · unfold checkRing ringOuter ringInner psign; norm_num [ringAngleTest, ringAngle]

/-- **C13, complement**: `RGSetComplement(TRUE)` negates every answer, whatever the type, the
parameters and the scale. -/
theorem C13_complement (eps : ℝ) (rg : RG) (x y : ℝ) :
    checkInside eps (setComplement rg true) x y = - checkInside eps (setComplement rg false) x y := by
  simp only [checkInside, setComplement, if_true, Bool.false_eq_true, if_false]
  rfl

end Verif.RG
