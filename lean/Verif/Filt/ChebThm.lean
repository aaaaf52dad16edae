import Verif.Filt.DampLem
import Verif.Filt.ChebSpec
import Mathlib.Analysis.SpecialFunctions.Trigonometric.Bounds

/-! # Theorems C135 to C138 -/

set_option linter.all false

namespace Verif.Filt

open Polynomial Finset

variable {V : Type*} [AddCommGroup V] [Module ℝ V]

/-! ## C135 -/

theorem aeval_ser (M : V →ₗ[ℝ] V) (e : Arr) (n : ℕ) (x : V) :
    aeval M (ser e 0 n) x = ∑ k ∈ range n, e k • aeval M (Chebyshev.T ℝ (k : ℤ)) x := by
  rw [ser, map_sum, LinearMap.sum_apply]
  exact sum_congr rfl fun k _ => by rw [zero_add, aeval_C_mul]

/-- **C135** Vector and block application of the filter. -/
theorem C135 (A : V →ₗ[ℝ] V) (d c : Arr) (left right : ℝ) (degree : ℕ) (M : V →ₗ[ℝ] V)
    (hM : M = (2 / (right - left)) • A - ((right + left) / (right - left)) • LinearMap.id) :
    (∀ (junk : ℕ → V) (x : V), chebMult A d c left right degree junk x =
      ∑ k ∈ range (degree + 1), (d k * c k) • aeval M (Chebyshev.T ℝ (k : ℤ)) x) ∧
    (∀ {ι : Type} (junk : ℕ → ι → V) (B : ι → V) (j : ι), chebMatMult A d c left right degree junk B j =
      ∑ k ∈ range (degree + 1), (d k * c k) • aeval M (Chebyshev.T ℝ (k : ℤ)) (B j)) := by
  have h1 : ∀ (junk : ℕ → V) (x : V), chebMult A d c left right degree junk x =
      ∑ k ∈ range (degree + 1), (d k * c k) • aeval M (Chebyshev.T ℝ (k : ℤ)) x := by
    intro junk x
    rw [chebMult_eq, aeval_ser, hM]; rfl
  exact ⟨h1, fun junk B j => by rw [chebMatMult_col, h1]⟩

/-- An eigenvector of the matrix is one of the filter, its eigenvalue is mapped by the series. -/
theorem C135_eigen (A : V →ₗ[ℝ] V) (d c : Arr) (left right : ℝ) (degree : ℕ) (junk : ℕ → V) (v : V) (μ : ℝ)
    (hv : A v = μ • v) :
    chebMult A d c left right degree junk v = series d c degree (toUnit left right μ) • v := by
  obtain ⟨M, hM⟩ : ∃ M : V →ₗ[ℝ] V, M = (2 / (right - left)) • A - ((right + left) / (right - left)) • LinearMap.id := ⟨_, rfl⟩
  have hMv : M v = toUnit left right μ • v := by
    rw [hM]
    show (2 / (right - left)) • A v - ((right + left) / (right - left)) • v = _
    rw [hv, smul_smul, ← sub_smul, toUnit]; congr 1; ring
  have : ∀ q : ℝ[X], aeval M q v = q.eval (toUnit left right μ) • v := by
    intro q
    induction q using Polynomial.induction_on' with
    | add p q hp hq => rw [map_add, LinearMap.add_apply, hp, hq, eval_add, add_smul]
    | monomial n a =>
      rw [aeval_monomial, eval_monomial]
      have : ∀ n : ℕ, (M ^ n) v = toUnit left right μ ^ n • v := by
        intro n
        induction n with
        | zero => simp
        | succ n ih => rw [pow_succ', Module.End.mul_apply, ih, map_smul, hMv, smul_smul, pow_succ]
      rw [Module.End.mul_apply, this, map_smul]
      simp [Module.algebraMap_end_apply, smul_smul, mul_comm]
  rw [(C135 A d c left right degree M hM).1, series, sum_smul]
  exact sum_congr rfl fun k _ => by rw [this, smul_smul]

/-! ## C136 -/

theorem ser_eval_series (d c : Arr) (n : ℕ) (x : ℝ) : (ser (fun k => d k * c k) 0 (n + 1)).eval x = series d c n x := by
  rw [ser, eval_finset_sum, series]
  exact sum_congr rfl fun k _ => by simp

/-- **C136, part** For even degree the threshold is the value at the lower end of the interval. -/
theorem C136_partial (d c : Arr) (inta left right : ℝ) (degree : ℕ) (hd : degree % 2 = 0) (hlr : left < right) :
    chebThreshold d c inta left right degree = series d c degree (toUnit left right inta) := by
  rw [chebThreshold]
  rw [clenshaw_eq, if_pos hd, ser_eval_series, toUnit]
  have : right - left ≠ 0 := sub_ne_zero.mpr hlr.ne'
  congr 1
  field_simp

/-- For degree 1 the threshold is off by the coefficient of degree 1. -/
theorem C136_degree_one (d c : Arr) (inta left right : ℝ) (hlr : left < right) :
    chebThreshold d c inta left right 1 = series d c 1 (toUnit left right inta) - d 1 * c 1 := by
  rw [chebThreshold]
  have : right - left ≠ 0 := sub_ne_zero.mpr hlr.ne'
  rw [clenshaw_eq, if_neg (by omega), toUnit, show (inta - (right + left) / 2) / ((right - left) / 2) = (2 * inta - (right + left)) / (right - left) by field_simp]
  simp [series, bq, bp, sum_range_succ]
  ring

/-! ## C137 -/

theorem toUnit_range {left right z : ℝ} (h : left < right) (h1 : left ≤ z) (h2 : z ≤ right) :
    -1 ≤ toUnit left right z ∧ toUnit left right z ≤ 1 := by
  have : 0 < right - left := sub_pos.mpr h
  rw [toUnit]
  exact ⟨by rw [le_div_iff₀ this]; linarith, by rw [div_le_one this]; linarith⟩

theorem toUnit_mono {left right z w : ℝ} (h : left < right) (h1 : z ≤ w) : toUnit left right z ≤ toUnit left right w := by
  have : 0 < right - left := sub_pos.mpr h
  rw [toUnit, toUnit]
  exact div_le_div_of_nonneg_right (by linarith) this.le

theorem raw_ind {a b : ℝ} (ha : -1 ≤ a) (hab : a ≤ b) (hb : b ≤ 1) (k : ℕ) :
    raw (Real.arccos a) (Real.arccos b) k = indCoef a b k := raw_integral a b k ha hab hb

/-- Values of the unscaled series, in terms of the quantities computed by the code. -/
theorem series_raw (d : Arr) {a b phi : ℝ} (ha : -1 ≤ a) (hab : a ≤ b) (hb : b ≤ 1) (n : ℕ) (h0 : d 0 = 1) (x : ℝ)
    (hx : -1 ≤ x) (hx1 : x ≤ 1) :
    raw (Real.arccos a) (Real.arccos b) 0 + ∑ k ∈ range n, d (k + 1) * raw (Real.arccos a) (Real.arccos b) (k + 1) *
      Real.cos (((k + 1 : ℕ) : ℝ) * Real.arccos x) = series d (indCoef a b) n x := by
  rw [← raw_value d _ _ _ n h0, Real.cos_arccos hx hx1, ← ser_eval_series]
  congr 2
  funext k
  rw [raw_ind ha hab hb]

theorem coefs_eq (d : Arr) (inta intb left right : ℝ) (n : ℕ) (junk : Arr) (h0 : d 0 = 1) (hlr : left < right)
    (h1 : left ≤ inta) (h2 : inta ≤ intb) (h3 : intb ≤ right) (k : ℕ) (hk : k ≤ n) :
    coefs d inta intb left right n junk k =
      coefScale (toUnit left right inta) (toUnit left right intb)
        (series d (indCoef (toUnit left right inta) (toUnit left right intb)) n (toUnit left right inta))
        (series d (indCoef (toUnit left right inta) (toUnit left right intb)) n (toUnit left right intb)) *
      indCoef (toUnit left right inta) (toUnit left right intb) k := by
  have ra := toUnit_range hlr h1 (h2.trans h3)
  have rb := toUnit_range hlr (h1.trans h2) h3
  have rab := toUnit_mono hlr h2
  have ea : sInta inta left right = toUnit left right inta := max_eq_left ra.1
  have eb : sIntb intb left right = toUnit left right intb := min_eq_left rb.2
  rw [coefs]
  rw [ea, eb]
  obtain ⟨c1, c2, c3⟩ := coefLoop_eq d (Real.arccos (toUnit left right inta)) (Real.arccos (toUnit left right intb)) n junk
  rw [scale_loop, if_pos (by omega), c1, if_pos hk, c2, c3,
    series_raw (phi := 0) d ra.1 rab rb.2 n h0 _ ra.1 ra.2, series_raw (phi := 0) d ra.1 rab rb.2 n h0 _ rb.1 rb.2,
    raw_ind ra.1 rab rb.2]

theorem series_smul (d c c' : Arr) (s : ℝ) (n : ℕ) (h : ∀ k ≤ n, c k = s * c' k) (x : ℝ) : series d c n x = s * series d c' n x := by
  rw [series, series, mul_sum]
  refine sum_congr rfl fun k hk => ?_
  rw [h k (by have := mem_range.mp hk; omega)]; ring

/-- **C137, part** The coefficients are those of the indicator function up to one factor, which is
positive and makes 1/2 the smaller modulus of the values at the two ends, unless the interval starts
at the left end of the range: then it makes 1/2 the modulus of the value there. -/
theorem C137_partial (d : Arr) (inta intb left right : ℝ) (n : ℕ) (junk : Arr) (h0 : d 0 = 1) (hlr : left < right)
    (h1 : left ≤ inta) (h2 : inta ≤ intb) (h3 : intb ≤ right) (a b : ℝ) (ha : a = toUnit left right inta) (hb : b = toUnit left right intb) :
    ∃ s, (∀ k ≤ n, coefs d inta intb left right n junk k = s * indCoef a b k) ∧
      (series d (indCoef a b) n a ≠ 0 → series d (indCoef a b) n b ≠ 0 → 0 < s ∧
        (inta ≠ left → min |series d (coefs d inta intb left right n junk) n a| |series d (coefs d inta intb left right n junk) n b| = 1 / 2) ∧
        (inta = left → |series d (coefs d inta intb left right n junk) n a| = 1 / 2)) := by
  obtain ⟨s, hs⟩ : ∃ s, s = coefScale a b (series d (indCoef a b) n a) (series d (indCoef a b) n b) := ⟨_, rfl⟩
  have hc : ∀ k ≤ n, coefs d inta intb left right n junk k = s * indCoef a b k := by
    intro k hk
    rw [coefs_eq d inta intb left right n junk h0 hlr h1 h2 h3 k hk, hs, ha, hb]
  have hleft : a = -1 ↔ inta = left := by
    have : right - left ≠ 0 := sub_ne_zero.mpr hlr.ne'
    rw [ha, toUnit, div_eq_iff this]
    exact ⟨fun h => by linarith, fun h => by rw [h]; ring⟩
  refine ⟨s, hc, fun na nb => ?_⟩
  have pa : 0 < |series d (indCoef a b) n a| := abs_pos.mpr na
  have pb : 0 < |series d (indCoef a b) n b| := abs_pos.mpr nb
  have hm : 0 < min |series d (indCoef a b) n a| |series d (indCoef a b) n b| := lt_min pa pb
  rw [series_smul d _ _ s n hc, series_smul d _ _ s n hc, abs_mul, abs_mul]
  by_cases hl : inta = left
  · have e : s = 0.5 / |series d (indCoef a b) n a| := by rw [hs, coefScale, if_pos (hleft.mpr hl)]
    have hp : 0 < s := by rw [e]; positivity
    refine ⟨hp, fun h => absurd hl h, fun _ => ?_⟩
    rw [abs_of_pos hp, e, div_mul_cancel₀ _ pa.ne']; norm_num
  · have e : s = 0.5 / min |series d (indCoef a b) n a| |series d (indCoef a b) n b| := by
      rw [hs, coefScale, if_neg (fun h => hl (hleft.mp h))]
      by_cases hb1 : b = 1
      · rw [if_pos hb1]
      · rw [if_neg hb1]
    have hp : 0 < s := by rw [e]; positivity
    refine ⟨hp, fun _ => ?_, fun h => absurd h hl⟩
    rw [abs_of_pos hp, ← mul_min_of_nonneg _ _ hp.le, e, div_mul_cancel₀ _ hm.ne']; norm_num

/-! ## C138 -/

/-- **C138** Fejér and Jackson damping: values between 0 and 1 on the whole range; all damping
coefficients between 0 and 1. -/
theorem C138 (t : Damping) (n : ℕ) :
    damp t n 0 = 1 ∧ (∀ k ≤ n, 0 ≤ damp t n k ∧ damp t n k ≤ 1) ∧
    (t = .fejer ∨ t = .jackson → ∀ left right inta intb, left < right → left ≤ inta → inta ≤ intb → intb ≤ right →
      ∀ z, left ≤ z → z ≤ right →
        0 ≤ series (damp t n) (indCoef (toUnit left right inta) (toUnit left right intb)) n (toUnit left right z) ∧
        series (damp t n) (indCoef (toUnit left right inta) (toUnit left right intb)) n (toUnit left right z) ≤ 1) := by
  have h0 : damp t n 0 = 1 := rfl
  refine ⟨h0, fun k hk => ?_, fun ht left right inta intb hlr h1 h2 h3 z hz1 hz2 => ?_⟩
  · cases t with
    | none =>
      have : damp .none n k = 1 := by rw [damp]; by_cases hk : k = 0 <;> simp [hk]
      rw [this]; exact ⟨zero_le_one, le_rfl⟩
    | jackson => exact (jackson_auto n).rng k hk
    | lanczos => exact lanczos_range n k hk
    | fejer => exact (fejer_auto n).rng k hk
  · obtain ⟨a, ha⟩ : ∃ a, Auto n (damp t n) a := by
      rcases ht with rfl | rfl
      · exact ⟨_, fejer_auto n⟩
      · exact ⟨_, jackson_auto n⟩
    have ra := toUnit_range hlr h1 (h2.trans h3)
    have rb := toUnit_range hlr (h1.trans h2) h3
    have rz := toUnit_range hlr hz1 hz2
    rw [← series_raw (phi := 0) (damp t n) ra.1 (toUnit_mono hlr h2) rb.2 n h0 _ rz.1 rz.2]
    exact raw_value_range _ a n ha _ _ _ (Real.arccos_nonneg _) (Real.arccos_le_arccos (toUnit_mono hlr h2)) (Real.arccos_le_pi _)

end Verif.Filt
