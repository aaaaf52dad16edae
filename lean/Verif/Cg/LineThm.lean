import Verif.Cg.LineModel

/-!
# C161: the line search of EPSRQCG minimizes the Rayleigh quotient
-/
set_option linter.all false

namespace Verif.Cg

/-! ## scalars -/

theorem stepOf_zero : stepOf 0 0 0 = 0 := by unfold stepOf; simp

/-- the step is a root of the derivative at which it goes from negative to positive, unless there is no minimum -/
theorem stepOf_root {a b c : ℝ} (hd : 0 ≤ b * b - 4 * a * c) (h : ¬ (a = 0 ∧ 0 ≤ b)) :
    a * stepOf a b c ^ 2 - b * stepOf a b c + c = 0 ∧ b ≤ 2 * a * stepOf a b c := by
  obtain ⟨d, hdd, hd0⟩ : ∃ d, √|b * b - 4 * a * c| = d ∧ 0 ≤ d := ⟨_, rfl, Real.sqrt_nonneg _⟩
  have hsq : d * d = b * b - 4 * a * c := by
    rw [← hdd, abs_of_nonneg hd]; exact Real.mul_self_sqrt hd
  unfold stepOf
  rw [hdd]
  by_cases hb : 0 ≤ b
  · have ha : a ≠ 0 := fun e => h ⟨e, hb⟩
    rw [if_pos ⟨hb, ha⟩]
    refine ⟨?_, ?_⟩
    · field_simp
      nlinarith
    · have : 2 * a * ((b + d) / (2 * a)) = b + d := by field_simp
      rw [this]; linarith
  · have hb := not_le.mp hb
    have hne : b ≠ d := by intro e; linarith
    have hbd : b - d ≠ 0 := sub_ne_zero.mpr hne
    rw [if_neg (by rintro ⟨h1, -⟩; linarith), if_pos hne]
    have key : 4 * a * c = (b - d) * (b + d) := by nlinarith
    refine ⟨?_, ?_⟩
    · have : a * (2 * c / (b - d)) ^ 2 - b * (2 * c / (b - d)) + c = c * ((4 * a * c) + (b - d) * (b - d) - 2 * b * (b - d)) / (b - d) ^ 2 := by
        field_simp
        ring
      rw [this, key]
      have : (b - d) * (b + d) + (b - d) * (b - d) - 2 * b * (b - d) = 0 := by ring
      rw [this]; simp
    · have : 2 * a * (2 * c / (b - d)) = (4 * a * c) / (b - d) := by field_simp; ring
      rw [this, key, mul_div_cancel_left₀ _ hbd]
      linarith

theorem stepOf_nomin {a b c : ℝ} (h : a = 0 ∧ 0 ≤ b) : stepOf a b c = 0 := by
  obtain ⟨ha, hb⟩ := h
  subst ha
  unfold stepOf
  rw [if_neg (by simp), if_neg]
  push Not
  have : b * b - 4 * 0 * c = b * b := by ring
  rw [this, abs_of_nonneg (mul_self_nonneg b), Real.sqrt_mul_self hb]

/-- the scaled coefficients are a positive multiple of the original ones -/
theorem rqAlpha_spec (nu mu pax pbx pap pbp : ℂ) : ∃ s : ℝ, 0 < s ∧
    rqAlpha nu mu pax pbx pap pbp = stepOf (s * (pap * pbx - pax * pbp).re) (s * (nu * pbp - mu * pap).re) (s * (mu * pax - nu * pbx).re) := by
  unfold rqAlpha
  set t := max (max |(pap * pbx - pax * pbp).re| |(nu * pbp - mu * pap).re|) |(mu * pax - nu * pbx).re| with ht
  by_cases h : t ≠ 0
  · rw [if_pos h]
    have h0 : 0 ≤ t := le_trans (abs_nonneg _) (le_max_right _ _)
    refine ⟨1 / t, one_div_pos.mpr (lt_of_le_of_ne h0 (Ne.symm h)), ?_⟩
    congr 1 <;> ring
  · rw [if_neg h]
    exact ⟨1, one_pos, by simp⟩

/-- discriminant of the derivative -/
theorem disc_eq (nu mu x y pap pbp : ℝ) (hmu : mu ≠ 0) :
    (nu * pbp - mu * pap) * (nu * pbp - mu * pap) - 4 * (pap * y - x * pbp) * (mu * x - nu * y) =
      (nu * (pbp - y ^ 2 / mu) - mu * (pap - 2 * (y / mu) * (x - y / mu * nu) - (y / mu) ^ 2 * nu)) ^ 2 + 4 * mu * (pbp - y ^ 2 / mu) * (x - y / mu * nu) ^ 2 := by
  field_simp
  ring

/-! ## vectors -/

variable {E : Type*} [NormedAddCommGroup E] [InnerProductSpace ℂ E]

/-- Rayleigh quotient of a pencil -/
noncomputable def rayleigh (A B : E →ₗ[ℂ] E) (x : E) : ℝ := (inner ℂ x (A x)).re / (inner ℂ x (B x)).re

/-- positive definite -/
def PosDef (B : E →ₗ[ℂ] E) : Prop := B.IsSymmetric ∧ ∀ x, x ≠ 0 → 0 < (inner ℂ x (B x)).re

theorem sym_im {A : E →ₗ[ℂ] E} (hA : A.IsSymmetric) (x : E) : (inner ℂ x (A x)).im = 0 := by
  have h := inner_conj_symm (𝕜 := ℂ) x (A x)
  rw [hA x x] at h
  exact Complex.conj_eq_iff_im.mp h

theorem quad_expand {A : E →ₗ[ℂ] E} (hA : A.IsSymmetric) (x p : E) (r : ℝ) :
    (inner ℂ (x + (r : ℂ) • p) (A (x + (r : ℂ) • p))).re = (inner ℂ x (A x)).re + 2 * r * (inner ℂ p (A x)).re + r ^ 2 * (inner ℂ p (A p)).re := by
  have h1 : (inner ℂ x (A p)).re = (inner ℂ p (A x)).re := by
    have h := inner_conj_symm (𝕜 := ℂ) x (A p)
    rw [hA p x] at h
    have := congrArg Complex.re h
    rw [Complex.conj_re] at this
    exact this.symm
  rw [map_add, map_smul, inner_add_left, inner_add_right, inner_add_right, inner_smul_left, inner_smul_left, inner_smul_right, inner_smul_right]
  simp only [Complex.add_re, Complex.mul_re, Complex.conj_ofReal, Complex.ofReal_re, Complex.ofReal_im]
  rw [h1]
  ring

/-- Real coefficients of the line search. -/
theorem coefs {A B : E →ₗ[ℂ] E} (hA : A.IsSymmetric) (hB : B.IsSymmetric) (x p : E) :
    ((inner ℂ p (A p) * inner ℂ p (B x) - inner ℂ p (A x) * inner ℂ p (B p) : ℂ)).re = (inner ℂ p (A p)).re * (inner ℂ p (B x)).re - (inner ℂ p (A x)).re * (inner ℂ p (B p)).re ∧
    ((inner ℂ x (A x) * inner ℂ p (B p) - inner ℂ x (B x) * inner ℂ p (A p) : ℂ)).re = (inner ℂ x (A x)).re * (inner ℂ p (B p)).re - (inner ℂ x (B x)).re * (inner ℂ p (A p)).re ∧
    ((inner ℂ x (B x) * inner ℂ p (A x) - inner ℂ x (A x) * inner ℂ p (B x) : ℂ)).re = (inner ℂ x (B x)).re * (inner ℂ p (A x)).re - (inner ℂ x (A x)).re * (inner ℂ p (B x)).re := by
  simp only [Complex.sub_re, Complex.mul_re, sym_im hA, sym_im hB]
  refine ⟨?_, ?_, ?_⟩ <;> ring

/-- the comparison of two points of the line -/
theorem cross (nu mu x y pap pbp s r : ℝ) :
    (nu + 2 * s * x + s ^ 2 * pap) * (mu + 2 * r * y + r ^ 2 * pbp) - (nu + 2 * r * x + r ^ 2 * pap) * (mu + 2 * s * y + s ^ 2 * pbp) =
      (s - r) * (2 * (mu * x - nu * y) - (nu * pbp - mu * pap) * (s + r) + 2 * (pap * y - x * pbp) * s * r) := by ring

section main
variable {A B : E →ₗ[ℂ] E} {x p : E}

/-- step 0 when the direction is a multiple of the iterate -/
theorem step_dep (hA : A.IsSymmetric) (hB : B.IsSymmetric) {k : ℝ} (hp : p = (k : ℂ) • x) : lineStep A B x p = 0 := by
  obtain ⟨s, -, he⟩ := rqAlpha_spec (inner ℂ x (A x)) (inner ℂ x (B x)) (inner ℂ p (A x)) (inner ℂ p (B x)) (inner ℂ p (A p)) (inner ℂ p (B p))
  unfold lineStep
  obtain ⟨h1, h2, h3⟩ := coefs hA hB x p
  rw [he, h1, h2, h3, hp]
  have e1 : ∀ (C : E →ₗ[ℂ] E), (inner ℂ ((k : ℂ) • x) (C x)).re = k * (inner ℂ x (C x)).re := by
    intro C; rw [inner_smul_left]; simp
  have e2 : ∀ (C : E →ₗ[ℂ] E), (inner ℂ ((k : ℂ) • x) (C ((k : ℂ) • x))).re = k * (k * (inner ℂ x (C x)).re) := by
    intro C; rw [map_smul, inner_smul_left, inner_smul_right]; simp
  rw [e1, e1, e2, e2]
  convert stepOf_zero using 2 <;> ring

theorem den_pos (hB : PosDef B) (hx : x ≠ 0) (hp : ¬ ∃ k : ℝ, p = (k : ℂ) • x) :
    p ≠ 0 ∧ ∀ r : ℝ, x + (r : ℂ) • p ≠ 0 := by
  refine ⟨fun h => hp ⟨0, by simp [h]⟩, fun r h => ?_⟩
  have hr : r ≠ 0 := by rintro rfl; simp at h; exact hx h
  refine hp ⟨-(1 / r), ?_⟩
  have hrc : (r : ℂ) ≠ 0 := by exact_mod_cast hr
  have h' : (r : ℂ) • p = -x := by rw [eq_neg_iff_add_eq_zero, add_comm]; exact h
  have : p = (1 / (r : ℂ)) • ((r : ℂ) • p) := by rw [smul_smul, one_div, inv_mul_cancel₀ hrc, one_smul]
  rw [this, h', smul_neg]
  push_cast
  rw [neg_smul]

/-- all facts used below about an independent direction -/
theorem step_facts (hA : A.IsSymmetric) (hB : PosDef B) (hx : x ≠ 0) (hp : ¬ ∃ k : ℝ, p = (k : ℂ) • x) :
    (∀ r : ℝ, (inner ℂ (x + ((lineStep A B x p : ℝ) : ℂ) • p) (A (x + ((lineStep A B x p : ℝ) : ℂ) • p))).re * (inner ℂ (x + (r : ℂ) • p) (B (x + (r : ℂ) • p))).re ≤
        (inner ℂ (x + (r : ℂ) • p) (A (x + (r : ℂ) • p))).re * (inner ℂ (x + ((lineStep A B x p : ℝ) : ℂ) • p) (B (x + ((lineStep A B x p : ℝ) : ℂ) • p))).re) ∨
      (lineStep A B x p = 0 ∧ ∀ s : ℝ, ∃ r : ℝ, (inner ℂ (x + (r : ℂ) • p) (A (x + (r : ℂ) • p))).re * (inner ℂ (x + (s : ℂ) • p) (B (x + (s : ℂ) • p))).re <
        (inner ℂ (x + (s : ℂ) • p) (A (x + (s : ℂ) • p))).re * (inner ℂ (x + (r : ℂ) • p) (B (x + (r : ℂ) • p))).re) := by
  obtain ⟨hp0, hden⟩ := den_pos hB hx hp
  have hmu := hB.2 x hx
  have hpbp := hB.2 p hp0
  have hD : ∀ r : ℝ, 0 < (inner ℂ x (B x)).re + 2 * r * (inner ℂ p (B x)).re + r ^ 2 * (inner ℂ p (B p)).re := by
    intro r; rw [← quad_expand hB.1]; exact hB.2 _ (hden r)
  obtain ⟨t, ht, he⟩ := rqAlpha_spec (inner ℂ x (A x)) (inner ℂ x (B x)) (inner ℂ p (A x)) (inner ℂ p (B x)) (inner ℂ p (A p)) (inner ℂ p (B p))
  obtain ⟨h1, h2, h3⟩ := coefs hA hB.1 x p
  rw [h1, h2, h3] at he
  change lineStep A B x p = _ at he
  simp only [quad_expand hA, quad_expand hB.1]
  generalize lineStep A B x p = al at he ⊢
  generalize (inner ℂ x (A x)).re = nu at *
  generalize (inner ℂ x (B x)).re = mu at *
  generalize (inner ℂ p (A x)).re = pax at *
  generalize (inner ℂ p (B x)).re = y at *
  generalize (inner ℂ p (A p)).re = pap at *
  generalize (inner ℂ p (B p)).re = pbp at *
  have hq : 0 < pbp - y ^ 2 / mu := by
    have := hD (-(y / pbp))
    have e : mu + 2 * (-(y / pbp)) * y + (-(y / pbp)) ^ 2 * pbp = (mu * pbp - y ^ 2) / pbp := by field_simp; ring
    rw [e] at this
    have h4 : 0 < mu * pbp - y ^ 2 := by
      by_contra hc
      have := div_nonpos_of_nonpos_of_nonneg (not_lt.mp hc) hpbp.le
      linarith
    have e2 : pbp - y ^ 2 / mu = (mu * pbp - y ^ 2) / mu := by field_simp
    rw [e2]
    exact div_pos h4 hmu
  have hdisc := disc_eq nu mu pax y pap pbp hmu.ne'
  set a := pap * y - pax * pbp with ha
  set b := nu * pbp - mu * pap with hb
  set c := mu * pax - nu * y with hc
  have hdn : 0 ≤ b * b - 4 * a * c := by
    rw [hdisc]; positivity
  have hdn' : 0 ≤ (t * b) * (t * b) - 4 * (t * a) * (t * c) := by
    have : (t * b) * (t * b) - 4 * (t * a) * (t * c) = t ^ 2 * (b * b - 4 * a * c) := by ring
    rw [this]; positivity
  by_cases hcase : t * a = 0 ∧ 0 ≤ t * b
  · have h0 : al = 0 := he.trans (stepOf_nomin hcase)
    have ha0 : a = 0 := (mul_eq_zero.mp hcase.1).resolve_left ht.ne'
    have hb0 : 0 ≤ b := by by_contra hn; nlinarith [hcase.2, not_le.mp hn]
    rcases hb0.lt_or_eq with hbpos | hbz
    · right
      refine ⟨h0, fun s => ?_⟩
      obtain ⟨r, hr⟩ : ∃ r : ℝ, 0 < (s - r) * (2 * c - b * (s + r)) := by
        refine ⟨max (s + 1) (2 * c / b - s + 1), ?_⟩
        have g1 := le_max_left (s + 1) (2 * c / b - s + 1)
        have g2 := le_max_right (s + 1) (2 * c / b - s + 1)
        generalize max (s + 1) (2 * c / b - s + 1) = r at *
        have : 2 * c - b * (s + r) < 0 := by
          have h5 : 2 * c / b < s + r := by linarith
          have := (div_lt_iff₀ hbpos).mp h5
          linarith
        nlinarith
      refine ⟨r, ?_⟩
      have := cross nu mu pax y pap pbp s r
      rw [← ha, ← hb, ← hc, ha0] at this
      have e : (s - r) * (2 * c - b * (s + r) + 2 * 0 * s * r) = (s - r) * (2 * c - b * (s + r)) := by ring
      rw [e] at this
      linarith
    · left
      intro r
      have hz := hdisc
      rw [ha0, ← hbz] at hz
      have hx0 : pax - y / mu * nu = 0 := by
        by_contra hn
        have h6 : 0 < 4 * mu * (pbp - y ^ 2 / mu) * (pax - y / mu * nu) ^ 2 := by positivity
        nlinarith [sq_nonneg (nu * (pbp - y ^ 2 / mu) - mu * (pap - 2 * (y / mu) * (pax - y / mu * nu) - (y / mu) ^ 2 * nu))]
      have hc0 : c = 0 := by
        rw [hc]
        have : mu * pax - nu * y = mu * (pax - y / mu * nu) := by field_simp
        rw [this, hx0, mul_zero]
      have := cross nu mu pax y pap pbp al r
      rw [← ha, ← hb, ← hc, ha0, ← hbz, hc0] at this
      have e : (al - r) * (2 * 0 - 0 * (al + r) + 2 * 0 * al * r) = 0 := by ring
      rw [e] at this
      linarith
  · left
    intro r
    obtain ⟨r1, r2⟩ := stepOf_root hdn' hcase
    rw [← he] at r1 r2
    have r1 : a * al ^ 2 - b * al + c = 0 := by
      have : t * (a * al ^ 2 - b * al + c) = 0 := by linarith
      exact (mul_eq_zero.mp this).resolve_left ht.ne'
    have r2 : b ≤ 2 * a * al := by
      have : t * b ≤ t * (2 * a * al) := by linarith
      exact le_of_mul_le_mul_left this ht
    have := cross nu mu pax y pap pbp al r
    rw [← ha, ← hb, ← hc] at this
    have e : (al - r) * (2 * c - b * (al + r) + 2 * a * al * r) = (al - r) ^ 2 * (b - 2 * a * al) := by
      have : c = b * al - a * al ^ 2 := by linarith
      rw [this]; ring
    rw [e] at this
    exact sub_nonpos.mp (this.trans_le (mul_nonpos_of_nonneg_of_nonpos (sq_nonneg _) (sub_nonpos.mpr r2)))

/-- **C161.**  The new iterate is not zero and has the smallest Rayleigh quotient on the line, whenever
a smallest one exists; otherwise the iterate is kept. -/
theorem C161_min (hA : A.IsSymmetric) (hB : PosDef B) (hx : x ≠ 0) :
    lineMove A B x p ≠ 0 ∧
    ((∃ s : ℝ, x + (s : ℂ) • p ≠ 0 ∧ ∀ r : ℝ, x + (r : ℂ) • p ≠ 0 → rayleigh A B (x + (s : ℂ) • p) ≤ rayleigh A B (x + (r : ℂ) • p)) →
      ∀ r : ℝ, x + (r : ℂ) • p ≠ 0 → rayleigh A B (lineMove A B x p) ≤ rayleigh A B (x + (r : ℂ) • p)) ∧
    ((¬ ∃ s : ℝ, x + (s : ℂ) • p ≠ 0 ∧ ∀ r : ℝ, x + (r : ℂ) • p ≠ 0 → rayleigh A B (x + (s : ℂ) • p) ≤ rayleigh A B (x + (r : ℂ) • p)) →
      lineMove A B x p = x) := by
  by_cases hp : ∃ k : ℝ, p = (k : ℂ) • x
  · obtain ⟨k, hk⟩ := hp
    have h0 := step_dep (p := p) hA hB.1 hk
    have hm : lineMove A B x p = x := by unfold lineMove; rw [h0]; simp
    refine ⟨by rw [hm]; exact hx, fun _ r hr => ?_, fun _ => hm⟩
    rw [hm]
    have e : x + (r : ℂ) • p = ((1 + r * k : ℝ) : ℂ) • x := by
      rw [hk, smul_smul]; push_cast; rw [add_smul, one_smul]
    have hne : (1 + r * k : ℝ) ≠ 0 := by
      intro h; rw [e, h] at hr; simp at hr
    rw [e]
    unfold rayleigh
    rw [map_smul, map_smul, inner_smul_left, inner_smul_left, inner_smul_right, inner_smul_right]
    simp only [Complex.conj_ofReal, Complex.re_ofReal_mul]
    rw [mul_div_mul_left _ _ hne, mul_div_mul_left _ _ hne]
  · obtain ⟨hp0, hden⟩ := den_pos hB hx hp
    have hD := fun r => hB.2 _ (hden r)
    refine ⟨hden _, ?_⟩
    rcases step_facts hA hB hx hp with h | ⟨h0, h⟩
    · have hmin : ∀ r : ℝ, x + (r : ℂ) • p ≠ 0 → rayleigh A B (lineMove A B x p) ≤ rayleigh A B (x + (r : ℂ) • p) := by
        intro r _
        unfold rayleigh lineMove
        rw [div_le_div_iff₀ (hD _) (hD r)]
        exact h r
      exact ⟨fun _ => hmin, fun hn => absurd ⟨_, hden _, hmin⟩ hn⟩
    · refine ⟨?_, fun _ => by unfold lineMove; rw [h0]; simp⟩
      rintro ⟨s, -, hs⟩
      obtain ⟨r, hr⟩ := h s
      have := hs r (hden r)
      unfold rayleigh at this
      rw [div_le_div_iff₀ (hD s) (hD r)] at this
      linarith

/-- **C161.**  The Rayleigh quotient never increases in the step. -/
theorem C161_decrease (hA : A.IsSymmetric) (hB : PosDef B) (hx : x ≠ 0) :
    rayleigh A B (lineMove A B x p) ≤ rayleigh A B x := by
  obtain ⟨-, h1, h2⟩ := C161_min (p := p) hA hB hx
  by_cases h : ∃ s : ℝ, x + (s : ℂ) • p ≠ 0 ∧ ∀ r : ℝ, x + (r : ℂ) • p ≠ 0 → rayleigh A B (x + (s : ℂ) • p) ≤ rayleigh A B (x + (r : ℂ) • p)
  · have := h1 h 0 (by simpa using hx)
    simpa using this
  · rw [h2 h]

end main

end Verif.Cg
