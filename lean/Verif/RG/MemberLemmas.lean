import Verif.RG.Lemmas

/-! Helper lemmas for membership: topology of rectangles and ellipses, and the ring. -/
set_option linter.all false

namespace Verif.RG
open Complex Spec

theorem classifies_of {f : ℂ → ℤ} {S : Set ℂ} (hS : IsClosed S)
    (hv : ∀ z, f z = 1 ∨ f z = 0 ∨ f z = -1)
    (h1 : ∀ z, f z = 1 ↔ z ∈ interior S) (h2 : ∀ z, f z ≠ -1 ↔ z ∈ S) : Classifies f S := by
  intro z
  have hint : z ∈ interior S → z ∈ S := fun h => interior_subset h
  refine ⟨h1 z, ?_, ?_⟩
  · rw [frontier, hS.closure_eq, Set.mem_diff, ← h1 z, ← h2 z]
    rcases hv z with h | h | h <;> rw [h] <;> norm_num
  · rw [hS.closure_eq, ← h2 z, not_not]

theorem checkInterval_cases (r : Interval) (x y : ℝ) :
    checkInterval r x y = 1 ∨ checkInterval r x y = 0 ∨ checkInterval r x y = -1 := by
  unfold checkInterval side
  split_ifs <;> simp_all

theorem checkInterval_one {r : Interval} {x y : ℝ} :
    checkInterval r x y = 1 ↔ (r.a < x ∧ x < r.b) ∧ (r.c < y ∧ y < r.d) := by
  unfold checkInterval side
  by_cases h1 : r.a < x ∧ x < r.b
  · by_cases h2 : r.c < y ∧ y < r.d
    · simp [h1, h2]
    · by_cases h3 : y = r.c ∨ y = r.d
      · simp only [h1, h2, h3]; norm_num
      · simp only [h1, h2, h3]; norm_num
  · by_cases h0 : x = r.a ∨ x = r.b
    · by_cases h2 : r.c < y ∧ y < r.d
      · simp only [h1, h0, h2]; norm_num
      · by_cases h3 : y = r.c ∨ y = r.d
        · simp only [h1, h0, h2, h3]; norm_num
        · simp only [h1, h0, h2, h3]; norm_num
    · simp only [h1, h0]; norm_num

theorem side_ne {a b x : ℝ} (hab : a ≤ b) : 0 ≤ side a b x ↔ a ≤ x ∧ x ≤ b := by
  unfold side
  by_cases h1 : a < x ∧ x < b
  · rw [if_pos h1]; simp; exact ⟨h1.1.le, h1.2.le⟩
  · rw [if_neg h1]
    by_cases h2 : x = a ∨ x = b
    · rw [if_pos h2]; simp; rcases h2 with h | h <;> subst h <;> simp [hab]
    · rw [if_neg h2]; norm_num
      intro h; by_contra hc
      push Not at hc
      push Not at h2
      exact h1 ⟨lt_of_le_of_ne h (Ne.symm h2.1), lt_of_le_of_ne hc h2.2⟩

theorem checkInterval_ne {r : Interval} {x y : ℝ} (hab : r.a ≤ r.b) (hcd : r.c ≤ r.d) :
    checkInterval r x y ≠ -1 ↔ (r.a ≤ x ∧ x ≤ r.b) ∧ (r.c ≤ y ∧ y ≤ r.d) := by
  rw [← side_ne hab, ← side_ne hcd]
  unfold checkInterval
  by_cases h : 0 ≤ side r.a r.b x
  · simp only [h, if_true, true_and]
    unfold side at h ⊢
    by_cases h1 : r.c < y ∧ y < r.d
    · simp only [h1]; norm_num; intro h'; rw [h'] at h; norm_num at h
    · by_cases h2 : y = r.c ∨ y = r.d
      · simp only [h1, h2]; norm_num
      · simp only [h1, h2]; norm_num
  · simp only [h, if_false, false_and, iff_false, not_not]
    unfold side at h ⊢
    split_ifs at h ⊢ <;> first | rfl | (exfalso; norm_num at h)

theorem rect_closed (a b c d : ℝ) : IsClosed (rect a b c d) :=
  isClosed_Icc.reProdIm isClosed_Icc

theorem mem_rect {a b c d : ℝ} {z : ℂ} :
    z ∈ rect a b c d ↔ (a ≤ z.re ∧ z.re ≤ b) ∧ (c ≤ z.im ∧ z.im ≤ d) := by
  simp [rect, mem_reProdIm]

theorem mem_interior_rect {a b c d : ℝ} {z : ℂ} :
    z ∈ interior (rect a b c d) ↔ (a < z.re ∧ z.re < b) ∧ (c < z.im ∧ z.im < d) := by
  simp [rect, interior_reProdIm, mem_reProdIm]

/-! ellipse -/

/-- The quadratic form of the ellipse. -/
noncomputable def quad (c : ℂ) (R v : ℝ) (z : ℂ) : ℝ :=
  ((z.re - c.re) / R) ^ 2 + ((z.im - c.im) / (R * v)) ^ 2

theorem mem_ellipse {c : ℂ} {R v : ℝ} (hR : R ≠ 0) (hv : v ≠ 0) {z : ℂ} :
    z ∈ ellipse c R v ↔ quad c R v z ≤ 1 := by
  constructor
  · rintro ⟨x, y, h, rfl⟩
    have : quad c R v ⟨c.re + R * x, c.im + R * v * y⟩ = x ^ 2 + y ^ 2 := by
      unfold quad; simp; field_simp
    rw [this]; exact h
  · intro h
    refine ⟨(z.re - c.re) / R, (z.im - c.im) / (R * v), h, ?_⟩
    apply Complex.ext <;> simp <;> field_simp <;> ring

theorem mem_ellipseCurve {c : ℂ} {R v : ℝ} (hR : R ≠ 0) (hv : v ≠ 0) {z : ℂ} :
    z ∈ ellipseCurve c R v ↔ quad c R v z = 1 := by
  constructor
  · rintro ⟨x, y, h, rfl⟩
    have : quad c R v ⟨c.re + R * x, c.im + R * v * y⟩ = x ^ 2 + y ^ 2 := by
      unfold quad; simp; field_simp
    rw [this]; exact h
  · intro h
    refine ⟨(z.re - c.re) / R, (z.im - c.im) / (R * v), h, ?_⟩
    apply Complex.ext <;> simp <;> field_simp <;> ring

/-- Affine change of variables sending the ellipse to the unit disc. -/
noncomputable def ellHomeo (c : ℂ) (R v : ℝ) (hR : R ≠ 0) (hv : v ≠ 0) : ℂ ≃ₜ ℂ where
  toFun z := ⟨(z.re - c.re) / R, (z.im - c.im) / (R * v)⟩
  invFun w := ⟨c.re + R * w.re, c.im + R * v * w.im⟩
  left_inv z := by apply Complex.ext <;> simp <;> field_simp <;> ring
  right_inv w := by apply Complex.ext <;> simp <;> field_simp
  continuous_toFun := by
    have : (fun z : ℂ => (⟨(z.re - c.re) / R, (z.im - c.im) / (R * v)⟩ : ℂ)) =
        fun z : ℂ => (((z.re - c.re) / R : ℝ) : ℂ) + (((z.im - c.im) / (R * v) : ℝ) : ℂ) * I := by
      funext z; apply Complex.ext <;>
        simp only [add_re, add_im, mul_re, mul_im, ofReal_re, ofReal_im, I_re, I_im] <;> ring
    rw [this]; fun_prop
  continuous_invFun := by
    have : (fun w : ℂ => (⟨c.re + R * w.re, c.im + R * v * w.im⟩ : ℂ)) =
        fun w : ℂ => ((c.re + R * w.re : ℝ) : ℂ) + ((c.im + R * v * w.im : ℝ) : ℂ) * I := by
      funext z; apply Complex.ext <;>
        simp only [add_re, add_im, mul_re, mul_im, ofReal_re, ofReal_im, I_re, I_im] <;> ring
    rw [this]; fun_prop

theorem norm_le_one_iff (w : ℂ) : ‖w‖ ≤ 1 ↔ w.re ^ 2 + w.im ^ 2 ≤ 1 := by
  rw [← sq_le_one_iff₀ (norm_nonneg w), ← Complex.normSq_eq_norm_sq, Complex.normSq_apply]
  constructor <;> intro h <;> nlinarith
theorem norm_lt_one_iff (w : ℂ) : ‖w‖ < 1 ↔ w.re ^ 2 + w.im ^ 2 < 1 := by
  rw [← sq_lt_one_iff₀ (norm_nonneg w), ← Complex.normSq_eq_norm_sq, Complex.normSq_apply]
  constructor <;> intro h <;> nlinarith

theorem ellipse_preimage (c : ℂ) (R v : ℝ) (hR : R ≠ 0) (hv : v ≠ 0) :
    ellipse c R v = ellHomeo c R v hR hv ⁻¹' Metric.closedBall 0 1 := by
  ext z
  rw [mem_ellipse hR hv, Set.mem_preimage, mem_closedBall_zero_iff, norm_le_one_iff]
  rfl

theorem ellipse_closed (c : ℂ) (R v : ℝ) (hR : R ≠ 0) (hv : v ≠ 0) : IsClosed (ellipse c R v) := by
  rw [ellipse_preimage c R v hR hv]
  exact Metric.isClosed_closedBall.preimage (ellHomeo c R v hR hv).continuous

theorem mem_interior_ellipse {c : ℂ} {R v : ℝ} (hR : R ≠ 0) (hv : v ≠ 0) {z : ℂ} :
    z ∈ interior (ellipse c R v) ↔ quad c R v z < 1 := by
  rw [ellipse_preimage c R v hR hv, ← Homeomorph.preimage_interior,
    interior_closedBall _ one_ne_zero, Set.mem_preimage, mem_ball_zero_iff, norm_lt_one_iff]
  rfl

theorem mem_frontier_ellipse {c : ℂ} {R v : ℝ} (hR : R ≠ 0) (hv : v ≠ 0) {z : ℂ} :
    z ∈ frontier (ellipse c R v) ↔ quad c R v z = 1 := by
  rw [frontier, (ellipse_closed c R v hR hv).closure_eq, Set.mem_diff, mem_ellipse hR hv,
    mem_interior_ellipse hR hv]
  constructor
  · rintro ⟨h, h'⟩; linarith
  · intro h; exact ⟨h.le, by linarith⟩

theorem checkEllipse_eq (e : Ellipse) (hv : e.vscale ≠ 0) (z : ℂ) :
    checkEllipse e z.re z.im = psign (1 - quad e.center e.radius e.vscale z) := by
  unfold checkEllipse quad
  congr 1
  simp only [div_pow, mul_pow]
  by_cases hR : e.radius = 0
  · simp [hR]
  · field_simp; ring

/-! ring -/

theorem ringOuter_eq (g : Ring) (hv : g.vscale ≠ 0) (z : ℂ) :
    ringOuter g z.re z.im = psign (1 - quad g.center (g.radius + g.width / 2) g.vscale z) := by
  unfold ringOuter quad
  congr 1
  generalize g.radius + g.width / 2 = R
  by_cases hR : R = 0
  · simp [hR]
  · field_simp; ring
theorem ringInner_eq (g : Ring) (hv : g.vscale ≠ 0) (z : ℂ) :
    ringInner g z.re z.im = psign (quad g.center (g.radius - g.width / 2) g.vscale z - 1) := by
  unfold ringInner quad
  congr 1
  generalize g.radius - g.width / 2 = R
  by_cases hR : R = 0
  · simp [hR]
  · field_simp; ring

/-- The elliptic radius of `z` seen from the centre. -/
noncomputable def erad (c : ℂ) (v : ℝ) (z : ℂ) : ℝ :=
  √((z.re - c.re) ^ 2 + ((z.im - c.im) / v) ^ 2)

theorem quad_eq_erad {c : ℂ} {R v : ℝ} (hv : v ≠ 0) {z : ℂ} :
    quad c R v z = (erad c v z / R) ^ 2 := by
  unfold quad erad
  rw [div_pow (√_), Real.sq_sqrt (by positivity)]
  by_cases hR : R = 0
  · simp [hR]
  · field_simp

theorem erad_nonneg (c : ℂ) (v : ℝ) (z : ℂ) : 0 ≤ erad c v z := Real.sqrt_nonneg _

theorem quad_lt_one {c : ℂ} {R v : ℝ} (hR : 0 < R) (hv : v ≠ 0) {z : ℂ} :
    quad c R v z < 1 ↔ erad c v z < R := by
  rw [quad_eq_erad hv, sq_lt_one_iff₀ (div_nonneg (erad_nonneg _ _ _) hR.le), div_lt_one hR]
theorem quad_eq_one {c : ℂ} {R v : ℝ} (hR : 0 < R) (hv : v ≠ 0) {z : ℂ} :
    quad c R v z = 1 ↔ erad c v z = R := by
  rw [quad_eq_erad hv, pow_eq_one_iff_of_nonneg (div_nonneg (erad_nonneg _ _ _) hR.le) two_ne_zero,
    div_eq_one_iff_eq hR.ne']
theorem one_lt_quad {c : ℂ} {R v : ℝ} (hR : 0 < R) (hv : v ≠ 0) {z : ℂ} :
    1 < quad c R v z ↔ R < erad c v z := by
  rw [quad_eq_erad hv, one_lt_sq_iff₀ (div_nonneg (erad_nonneg _ _ _) hR.le), one_lt_div hR]

theorem erad_polar {c : ℂ} {v ρ θ : ℝ} (hv : v ≠ 0) (hρ : 0 ≤ ρ) :
    erad c v (polar c v ρ θ) = ρ := by
  unfold erad polar
  have : (c.re + ρ * Real.cos (2 * Real.pi * θ) - c.re) ^ 2 +
      ((c.im + v * (ρ * Real.sin (2 * Real.pi * θ)) - c.im) / v) ^ 2 = ρ ^ 2 := by
    have h1 := Real.sin_sq_add_cos_sq (2 * Real.pi * θ)
    have : (c.im + v * (ρ * Real.sin (2 * Real.pi * θ)) - c.im) / v =
      ρ * Real.sin (2 * Real.pi * θ) := by field_simp; ring
    rw [this]; linear_combination ρ ^ 2 * h1
  simp only
  rw [this, Real.sqrt_sq hρ]

/-- The angle, in `[0,1)`, computed by the code for a point different from the centre. -/
noncomputable def eang (c : ℂ) (v : ℝ) (z : ℂ) : ℝ := ringAngle v (z.re - c.re) (z.im - c.im)

theorem polar_erad {c : ℂ} {v : ℝ} (hv : 0 < v) {z : ℂ} (hz : 0 < erad c v z) :
    0 ≤ eang c v z ∧ eang c v z < 1 ∧ z = polar c v (erad c v z) (eang c v z) := by
  have hne : ¬ (z.re - c.re = 0 ∧ z.im - c.im = 0) := by
    rintro ⟨h1, h2⟩; unfold erad at hz; rw [h1, h2] at hz; simp at hz
  obtain ⟨h1, h2, h3, h4⟩ := ringAngle_spec hv hne
  refine ⟨h1, h2, ?_⟩
  apply Complex.ext
  · simp only [polar]; unfold erad eang; linarith
  · simp only [polar]; unfold erad eang
    rw [← h4]; field_simp; ring

theorem polar_eq {c : ℂ} {v : ℝ} (hv : 0 < v) {ρ θ : ℝ} (hρ : 0 < ρ) {z : ℂ}
    (h : z = polar c v ρ θ) : erad c v z = ρ ∧ ∃ n : ℤ, θ = eang c v z + n := by
  have he : erad c v z = ρ := by rw [h]; exact erad_polar hv.ne' hρ.le
  refine ⟨he, ?_⟩
  obtain ⟨_, _, h3⟩ := polar_erad hv (c := c) (z := z) (by rw [he]; exact hρ)
  rw [he] at h3
  have h4 := h.symm.trans h3
  have hr := congrArg Complex.re h4
  have hi := congrArg Complex.im h4
  simp only [polar] at hr hi
  exact (polar_unique hρ hρ (by linarith)
    (by have := mul_left_cancel₀ hv.ne' (add_left_cancel hi); linarith)).2

/-- The angular test of the code in terms of the span of angles. -/
theorem arc_iff {s e r : ℝ} (hs0 : 0 ≤ s) (hs1 : s ≤ 1) (he0 : 0 ≤ e) (he1 : e ≤ 1)
    (hr0 : 0 ≤ r) (hr1 : r < 1) (hx : ¬ (e = 1 ∧ 0 < s ∧ r = 0)) :
    (∃ n : ℤ, r + n ∈ arc s e) ↔
      (if e < s then ¬ (e < r ∧ r < s) else ¬ (r < s ∨ e < r)) := by
  by_cases h : e < s
  · have ha : arc s e = Set.Icc (s - 1) e := by unfold arc; rw [if_neg (not_le.2 h)]
    rw [if_pos h, ha]
    constructor
    · rintro ⟨n, h1, h2⟩ ⟨h3, h4⟩
      have n1 : (n : ℝ) < 0 := by linarith
      have n2 : (-1 : ℝ) < n := by linarith
      have n1' : n < 0 := by exact_mod_cast n1
      have n2' : -1 < n := by exact_mod_cast n2
      omega
    · intro h'
      by_cases h3 : e < r
      · have h4 : s ≤ r := by by_contra hc; exact h' ⟨h3, not_le.1 hc⟩
        refine ⟨-1, ?_, ?_⟩ <;> push_cast <;> linarith
      · refine ⟨0, ?_, ?_⟩ <;> push_cast <;> linarith
  · have ha : arc s e = Set.Icc s e := by unfold arc; rw [if_pos (not_lt.1 h)]
    rw [if_neg h, ha]
    constructor
    · rintro ⟨n, h1, h2⟩
      have n1 : (-1 : ℝ) < n := by linarith
      have n2 : (n : ℝ) ≤ 1 := by linarith
      have n1' : -1 < n := by exact_mod_cast n1
      have n2' : n ≤ 1 := by exact_mod_cast n2
      have : n = 0 ∨ n = 1 := by omega
      rcases this with rfl | rfl
      · push_cast at h1 h2; rintro (h3 | h3) <;> linarith
      · push_cast at h1 h2
        have hr : r = 0 := by linarith
        have hee : e = 1 := by linarith
        have hs : s ≤ 0 := by
          by_contra hc; exact hx ⟨hee, not_le.1 hc, hr⟩
        rintro (h3 | h3) <;> linarith
    · intro h'
      push Not at h'
      exact ⟨0, by push_cast; linarith, by push_cast; linarith⟩

end Verif.RG
