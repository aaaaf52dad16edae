import Verif.Cg.IterThm

/-!
# C163, C164: witnesses
-/
set_option linter.all false

namespace Verif.Cg

open Finset Iter

/-- `diag(0,1)` -/
noncomputable def D01 : E2 →ₗ[ℂ] E2 := op2 0 0 0 1

theorem E2_eta (z : E2) : z = vec2 (z 0) (z 1) := by
  ext i; fin_cases i <;> simp [vec2]

theorem op2_sym {a d : ℝ} {b : ℂ} : (op2 a b (star b) d).IsSymmetric := by
  intro x y
  rw [E2_eta x, E2_eta y, op2_vec, op2_vec, inner2, inner2]
  simp only [star_add, star_mul', star_star, Complex.star_def, Complex.conj_ofReal, Complex.conj_conj]
  ring

theorem D01_sym : D01.IsSymmetric := by
  have := op2_sym (a := 0) (d := 1) (b := 0)
  simpa [D01] using this

theorem D01_vec (x y : ℂ) : D01 (vec2 x y) = vec2 0 y := by
  unfold D01; rw [op2_vec]; simp

theorem star_mul_self_re (z : ℂ) : (star z * z).re = ‖z‖ ^ 2 := by
  rw [mul_comm]
  have := Complex.mul_conj' z
  rw [show (star z) = (starRingEnd ℂ) z from rfl, this]
  norm_cast

theorem rayleigh_D01 (a b : ℂ) : rayleigh D01 LinearMap.id (vec2 a b) = ‖b‖ ^ 2 / (‖a‖ ^ 2 + ‖b‖ ^ 2) := by
  unfold rayleigh
  rw [D01_vec, LinearMap.id_apply, inner2, inner2, Complex.add_re, star_mul_self_re, mul_zero, Complex.zero_re, zero_add, Complex.add_re, star_mul_self_re, star_mul_self_re]

/-- The exact minimizer: from `(s,c)` along the gradient one reaches a multiple of `e1`. -/
theorem move_e1 {s c : ℝ} (hs : s ≠ 0) (hsc : s ^ 2 + c ^ 2 = 1) :
    ∃ a : ℂ, a ≠ 0 ∧ lineMove D01 LinearMap.id (vec2 s c) (vec2 (-(c ^ 2 * s : ℝ)) ((c * s ^ 2 : ℝ))) = vec2 a 0 := by
  have hx : vec2 (s : ℂ) c ≠ 0 := by
    intro h
    have : vec2 (s : ℂ) c = vec2 0 0 := by
      rw [h]; ext i; fin_cases i <;> simp [vec2]
    exact hs (by exact_mod_cast (vec2_inj this).1)
  have hgen : ∀ r : ℝ, vec2 (s : ℂ) c + (r : ℂ) • vec2 (-(c ^ 2 * s : ℝ)) ((c * s ^ 2 : ℝ)) = vec2 ((s - r * (c ^ 2 * s) : ℝ)) ((c + r * (c * s ^ 2) : ℝ)) := by
    intro r
    rw [smul2, add2]
    push_cast
    congr 1
    ring
  obtain ⟨hne, hmin, -⟩ := C161_min (p := vec2 (-(c ^ 2 * s : ℝ)) ((c * s ^ 2 : ℝ))) D01_sym id_posDef hx
  have h0 : vec2 (s : ℂ) c + ((-(1 / s ^ 2) : ℝ) : ℂ) • vec2 (-(c ^ 2 * s : ℝ)) ((c * s ^ 2 : ℝ)) = vec2 ((1 / s : ℝ)) 0 := by
    rw [hgen]
    congr 1
    · congr 1
      field_simp
      nlinarith
    · have : c + -(1 / s ^ 2) * (c * s ^ 2) = 0 := by field_simp; ring
      rw [this]; simp
  have h0ne : vec2 (s : ℂ) c + ((-(1 / s ^ 2) : ℝ) : ℂ) • vec2 (-(c ^ 2 * s : ℝ)) ((c * s ^ 2 : ℝ)) ≠ 0 := by
    rw [h0]
    intro h
    have h' : vec2 ((1 / s : ℝ) : ℂ) 0 = vec2 0 0 := by
      rw [h]; ext i; fin_cases i <;> simp [vec2]
    have := (vec2_inj h').1
    have : (1 / s : ℝ) = 0 := by exact_mod_cast this
    exact one_div_ne_zero hs this
  have hr0 : rayleigh D01 LinearMap.id (vec2 (s : ℂ) c + ((-(1 / s ^ 2) : ℝ) : ℂ) • vec2 (-(c ^ 2 * s : ℝ)) ((c * s ^ 2 : ℝ))) = 0 := by
    rw [h0, rayleigh_D01]; simp
  have hnn : ∀ z : E2, 0 ≤ rayleigh D01 LinearMap.id z := by
    intro z; rw [E2_eta z, rayleigh_D01]; positivity
  have hle := hmin ⟨_, h0ne, fun r _ => by rw [hr0]; exact hnn _⟩ _ h0ne
  rw [hr0] at hle
  obtain ⟨a, b, hab⟩ : ∃ a b, lineMove D01 LinearMap.id (vec2 s c) (vec2 (-(c ^ 2 * s : ℝ)) ((c * s ^ 2 : ℝ))) = vec2 a b := ⟨_, _, E2_eta _⟩
  rw [hab] at hle hne ⊢
  rw [rayleigh_D01] at hle
  have hb : b = 0 := by
    by_contra hb
    have : 0 < ‖b‖ := norm_pos_iff.mpr hb
    have : 0 < ‖b‖ ^ 2 / (‖a‖ ^ 2 + ‖b‖ ^ 2) := by positivity
    linarith
  subst hb
  refine ⟨a, ?_, rfl⟩
  rintro rfl
  apply hne
  ext i; fin_cases i <;> simp [vec2]

/-- nev=2, ncv=2, mpd=1, at most 100 iterations, residual relative to the value (the default criterion) -/
noncomputable def cfgW (tol : ℝ) : RCfg := ⟨2, 2, 1, 100, tol, fun e r => r / |e|⟩

/-- **C163 is false of the code, for every tolerance:** the first iteration accepts a vector near an eigenvector and then moves it to another one; the
returned pair has error estimate below the tolerance but relative residual 1.  By `C163_run_locked` the pair stays so. -/
theorem C163_false {tol : ℝ} (htol : 0 < tol) (rnd : ℕ → E2) : ∃ st st' : RSt E2, st.nconv = 0 ∧ OrthoN st.V 2 ∧
    iter (cfgW tol) D01 LinearMap.id 1 none rnd st = some (st', false) ∧ st'.nconv = 1 ∧ st'.errest 0 < tol ∧ 1 / 2 < st'.eigr 0 ∧
    ‖D01 (st'.V 0) - (st'.eigr 0 : ℂ) • st'.V 0‖ / |st'.eigr 0| = 1 := by
  obtain ⟨s, hs0, hs1, hst⟩ : ∃ s : ℝ, 0 < s ∧ s ≤ 1 / 2 ∧ 2 * s ≤ tol := ⟨min tol 1 / 2, by positivity, by linarith [min_le_right tol 1], by linarith [min_le_left tol 1]⟩
  obtain ⟨c, hc0, hsc⟩ : ∃ c : ℝ, 0 < c ∧ s ^ 2 + c ^ 2 = 1 := by
    refine ⟨√(1 - s ^ 2), Real.sqrt_pos.mpr (by nlinarith), ?_⟩
    rw [Real.sq_sqrt (by nlinarith)]; ring
  have hc1 : 1 / 2 < c := by nlinarith
  have hc2 : 1 / 2 < c ^ 2 := by nlinarith
  obtain ⟨V, hV0, hV1⟩ : ∃ V : ℕ → E2, V 0 = vec2 s c ∧ V 1 = vec2 (-c : ℝ) s := ⟨fun i => if i = 0 then vec2 s c else vec2 (-c : ℝ) s, rfl, rfl⟩
  have hth : (inner ℂ (V 0) (D01 (V 0))).re = c ^ 2 := by
    rw [hV0, D01_vec, inner2, mul_zero, zero_add, star_mul_self_re]
    simp
  have hgr : D01 (V 0) - ((c ^ 2 : ℝ) : ℂ) • V 0 = vec2 (-(c ^ 2 * s : ℝ)) ((c * s ^ 2 : ℝ)) := by
    rw [hV0, D01_vec, smul2, sub2]
    congr 1
    · push_cast; ring
    · have : c - c ^ 2 * c = c * s ^ 2 := by
        have : s ^ 2 = 1 - c ^ 2 := by linarith
        rw [this]; ring
      rw [← this]; push_cast; ring
  have hgn : ‖D01 (V 0) - ((c ^ 2 : ℝ) : ℂ) • V 0‖ = c * s := by
    rw [hgr]
    apply norm2_of (by positivity)
    rw [norm_neg, Complex.norm_real, Complex.norm_real, Real.norm_eq_abs, Real.norm_eq_abs, sq_abs, sq_abs]
    have : s ^ 2 = 1 - c ^ 2 := by linarith
    calc (c ^ 2 * s) ^ 2 + (c * s ^ 2) ^ 2 = (c * s) ^ 2 * (s ^ 2 + c ^ 2) := by ring
      _ = _ := by rw [hsc, mul_one]
  obtain ⟨a, ha, hmv⟩ := move_e1 (s := s) (c := c) hs0.ne' hsc
  obtain ⟨st, hst1, hst2⟩ : ∃ st : RSt E2, st.V = V ∧ st.nconv = 0 := ⟨⟨V, fun _ => 0, fun _ => 0, fun _ => 0, fun _ => 0, 0⟩, rfl, rfl⟩
  have hnv : (cfgW tol).nv 0 = 1 := rfl
  have hval : valsAt D01 0 1 none V st.eigr 0 = c ^ 2 := by unfold valsAt; rw [if_pos ⟨le_refl _, one_pos⟩]; exact hth
  have herr : errAt (cfgW tol) D01 0 1 V (valsAt D01 0 1 none V st.eigr) st.errest 0 = s / c := by
    unfold errAt grad
    rw [if_pos ⟨le_refl _, one_pos⟩, hval, hgn]
    show c * s / |c ^ 2| = _
    rw [abs_of_pos (by positivity)]
    field_simp
  have hsmall : s / c < tol := by
    rw [div_lt_iff₀ hc0]
    nlinarith
  have hk : firstBad tol (errAt (cfgW tol) D01 0 1 V (valsAt D01 0 1 none V st.eigr) st.errest) 0 1 = 1 := by
    unfold firstBad
    rw [herr, if_neg (not_le.mpr hsmall)]
    rfl
  obtain ⟨o, ho⟩ : ∃ o, iter (cfgW tol) D01 LinearMap.id 1 none rnd st = o := ⟨_, rfl⟩
  have hcase : ∃ st', o = some (st', false) := by
    rw [← ho]
    unfold iter
    simp only [hst2, hnv, hst1]
    rw [show vecsAt 0 1 none V = V from rfl, show (cfgW tol).tol = tol from rfl, show (1 - 0 : ℕ) = 1 from rfl, hk]
    rw [if_neg (by unfold stopB cfgW; simp), if_neg (by simp)]
    exact ⟨_, rfl⟩
  obtain ⟨st', hst'⟩ := hcase
  rw [hst'] at ho
  obtain ⟨h1, h2, h3, -, -, h6⟩ := iter_cases ho
  obtain ⟨h7, -, h8, -⟩ := h6 rfl
  rw [hst2, hnv, hst1] at h1 h2
  rw [hst2, hnv] at h3
  rw [hst2, hnv, hst1] at h7 h8
  have hv : vecsAt 0 1 (none : Option ((ℕ → ℕ → ℂ) × (ℕ → ℝ))) V = V := rfl
  rw [hv] at h2 h7 h8
  have e1 : st'.eigr 0 = c ^ 2 := by rw [h1]; exact hval
  have e2 : st'.errest 0 = s / c := by rw [h2, h1]; exact herr
  have hP : st'.P 0 = vec2 (-(c ^ 2 * s : ℝ)) ((c * s ^ 2 : ℝ)) := by
    rw [h8, if_pos (by norm_num)]
    unfold dirAt gsCol
    simp only [Nat.add_zero, range_zero, sum_empty, sub_zero, LinearMap.id_apply]
    rw [if_neg (by simp), zero_smul, add_zero]
    unfold grad
    rw [e1, hgr]
  have hV' : st'.V 0 = ((1 / ‖vec2 a 0‖ : ℝ) : ℂ) • vec2 a 0 := by
    rw [h7, moves_first _ _ _ _ _ _ (by norm_num), hP, hV0, hmv]
    unfold normCol
    have : gsCol V 0 (vec2 a 0) = vec2 a 0 := by unfold gsCol; simp
    rw [this, if_neg]
    intro h
    have h' : vec2 a 0 = vec2 0 0 := by rw [h]; ext i; fin_cases i <;> simp [vec2]
    exact ha (vec2_inj h').1
  refine ⟨st, st', hst2, ?_, ho, ?_, ?_, ?_, ?_⟩
  · rw [hst1]
    intro i hi j hj
    have q : (s : ℂ) ^ 2 + (c : ℂ) ^ 2 = 1 := by exact_mod_cast hsc
    interval_cases i <;> interval_cases j <;> simp only [hV0, hV1, inner2] <;> simp
    · linear_combination q
    · ring
    · ring
    · linear_combination q
  · rw [h3, h2, h1]; exact hk
  · rw [e2]; exact hsmall
  · rw [e1]; exact hc2
  · rw [e1, hV']
    have hn : ‖vec2 a 0‖ = ‖a‖ := norm2_of (norm_nonneg _) (by simp)
    have hna : ‖a‖ ≠ 0 := norm_ne_zero_iff.mpr ha
    rw [hn, map_smul, D01_vec, smul2, smul2, smul2, sub2]
    rw [norm2_of (r := c ^ 2) (by positivity)]
    · rw [abs_of_pos (by positivity)]; exact div_self (by positivity)
    · simp only [mul_zero, zero_sub, sub_zero, norm_neg, norm_mul, Complex.norm_real, norm_zero]
      rw [norm_div, norm_one, Real.norm_eq_abs, Real.norm_eq_abs, abs_of_nonneg (norm_nonneg a), abs_of_pos (by positivity : 0 < c ^ 2)]
      field_simp
      ring

/-- **C164, a case:** vector 1 after vector 0 has converged; its own last direction (position 1) is zero, but the new direction is that of the converged vector. -/
theorem C164_false (rnd : ℕ → E2) : ∃ st st' : RSt E2, ∃ c : RCfg, st.nconv = 1 ∧ dirOf st 0 1 = 0 ∧ dirOf st 0 0 = vec2 0 1 ∧ gamOf st 0 1 = 1 ∧
    iter c (op2 0 1 1 0) LinearMap.id 2 none rnd st = some (st', false) ∧ dirOf st' 1 1 = vec2 0 1 ∧
    gsCol st.V 1 (grad (op2 0 1 1 0) st.V st'.eigr 1 +
      (inner ℂ (grad (op2 0 1 1 0) st.V st'.eigr 1) (grad (op2 0 1 1 0) st.V st'.eigr 1) / gamOf st 0 1) • dirOf st 0 1) = 0 := by
  obtain ⟨V, hV0, hV1⟩ : ∃ V : ℕ → E2, V 0 = vec2 1 0 ∧ V 1 = vec2 0 1 := ⟨fun i => if i = 0 then vec2 1 0 else vec2 0 1, rfl, rfl⟩
  obtain ⟨c, hc⟩ : ∃ c : RCfg, c = ⟨2, 2, 1, 100, 1 / 2, fun e r => r⟩ := ⟨_, rfl⟩
  obtain ⟨st, s1, s2, s3, s4, s5⟩ : ∃ st : RSt E2, st.V = V ∧ st.nconv = 1 ∧ st.P 0 = vec2 0 1 ∧ st.P 1 = 0 ∧ ∀ i, st.gamma i = 1 :=
    ⟨⟨V, fun _ => 0, fun _ => 0, fun i => if i = 0 then vec2 0 1 else 0, fun _ => 1, 1⟩, rfl, rfl, rfl, rfl, fun _ => rfl⟩
  have hnv : c.nv 1 = 2 := by rw [hc]; rfl
  have hA1 : op2 0 1 1 0 (V 1) = vec2 1 0 := by rw [hV1, op2_vec]; simp
  have hval : valsAt (op2 0 1 1 0) 1 2 none V st.eigr 1 = 0 := by
    unfold valsAt
    rw [if_pos ⟨le_refl _, by norm_num⟩]
    show (inner ℂ (V 1) (op2 0 1 1 0 (V 1))).re = 0
    rw [hA1, hV1, inner2]; simp
  have herr : errAt c (op2 0 1 1 0) 1 2 V (valsAt (op2 0 1 1 0) 1 2 none V st.eigr) st.errest 1 = 1 := by
    unfold errAt grad
    rw [if_pos ⟨le_refl _, by norm_num⟩, hval, hA1, hc]
    show ‖vec2 1 0 - ((0 : ℝ) : ℂ) • V 1‖ = 1
    rw [Complex.ofReal_zero, zero_smul, sub_zero]
    exact norm2_of zero_le_one (by simp)
  have hk : firstBad (1 / 2) (errAt c (op2 0 1 1 0) 1 2 V (valsAt (op2 0 1 1 0) 1 2 none V st.eigr) st.errest) 1 1 = 1 := by
    unfold firstBad
    rw [herr, if_pos (by norm_num)]
  obtain ⟨o, ho⟩ : ∃ o, iter c (op2 0 1 1 0) LinearMap.id 2 none rnd st = o := ⟨_, rfl⟩
  have hcase : ∃ st', o = some (st', false) := by
    rw [← ho]
    unfold iter
    simp only [s2, hnv, s1]
    rw [show vecsAt 1 2 none V = V from rfl, show c.tol = 1 / 2 by rw [hc], show (2 - 1 : ℕ) = 1 from rfl, hk]
    rw [if_neg (by rw [hc]; unfold stopB; simp), if_neg]
    · exact ⟨_, rfl⟩
    · rintro ⟨-, i, -, hi⟩
      rw [s5] at hi
      exact one_ne_zero hi
  obtain ⟨st', hst'⟩ := hcase
  rw [hst'] at ho
  obtain ⟨h1, -⟩ := iter_cases ho
  rw [s2, hnv, s1] at h1
  have e1 : st'.eigr 1 = 0 := by rw [h1]; exact hval
  have hg : grad (op2 0 1 1 0) st.V st'.eigr 1 = vec2 1 0 := by
    unfold grad
    rw [e1, s1, hA1]; simp
  have hpos := (C164_position ho (by norm_num) (j := 1) (by rw [s2]) (by rw [s2, hnv]; norm_num)).1
  rw [s2, hg, s5, s3, s1] at hpos
  have hgs : ∀ x y : ℂ, gsCol V 1 (vec2 x y) = vec2 0 y := by
    intro x y
    unfold gsCol
    rw [sum_range_one, hV0, inner2, smul2, sub2]
    congr 1 <;> simp
  refine ⟨st, st', c, s2, s4, s3, s5 1, ho, ?_, ?_⟩
  · refine hpos.trans ?_
    rw [LinearMap.id_apply, inner2, smul2, add2, hgs]
    simp
  · rw [hg, s1]
    show gsCol V 1 (_ + _ • st.P 1) = 0
    rw [s4, smul_zero, add_zero, hgs]
    ext i; fin_cases i <;> simp [vec2]

/-- A case for C161: from `(3/5,4/5)` along the gradient one reaches a multiple of the eigenvector of the smallest eigenvalue. -/
example : ∃ a : ℂ, a ≠ 0 ∧ lineMove D01 LinearMap.id (vec2 ((3 / 5 : ℝ)) ((4 / 5 : ℝ))) (vec2 (-(((4 / 5) ^ 2 * (3 / 5) : ℝ))) (((4 / 5) * (3 / 5) ^ 2 : ℝ))) = vec2 a 0 :=
  move_e1 (by norm_num) (by norm_num)

end Verif.Cg
