import Verif.Contour.QuadModel
import Mathlib.LinearAlgebra.Lagrange
import Mathlib.RingTheory.RootsOfUnity.Complex
import Mathlib.Algebra.Ring.GeomSum
import Mathlib.Analysis.SpecialFunctions.Complex.Circle
import Mathlib.Tactic

/-!
C52: the quadrature rules annihilate polynomials of degree up to n-2, and the rule on a circle gives
the expected rational filter.  C53: the rescaling of eigenvalues inverts the normalization of the
quadrature points.
-/
set_option linter.all false

namespace Verif.Contour

open Verif.RG Finset

/-! ### Sums over equidistant points -/

theorem cos_sum_zero (n m : ℕ) (hm : 0 < m) (hmn : m < 2 * n) :
    ∑ i ∈ range n, Real.cos (m * chebTheta n i) = 0 := by
  have hn : (0 : ℝ) < n := by
    have : 0 < n := by omega
    exact_mod_cast this
  set a : ℝ := m * Real.pi / (2 * n) with ha
  have hmR : (0 : ℝ) < m := by exact_mod_cast hm
  have hmn' : (m : ℝ) < 2 * n := by exact_mod_cast hmn
  have hs : 0 < Real.sin a := by
    apply Real.sin_pos_of_pos_of_lt_pi
    · positivity
    · rw [ha, div_lt_iff₀ (by positivity)]
      nlinarith [Real.pi_pos]
  have step : ∀ i : ℕ, 2 * Real.sin a * Real.cos (m * chebTheta n i) =
      Real.sin (2 * a * ((i + 1 : ℕ) : ℝ)) - Real.sin (2 * a * (i : ℝ)) := by
    intro i
    have e1 : 2 * a * ((i + 1 : ℕ) : ℝ) = (m * chebTheta n i) + a := by
      rw [ha, chebTheta]; push_cast; field_simp; ring
    have e2 : 2 * a * (i : ℝ) = (m * chebTheta n i) - a := by
      rw [ha, chebTheta]; field_simp; ring
    rw [e1, e2, Real.sin_add, Real.sin_sub]; ring
  have hsum : 2 * Real.sin a * ∑ i ∈ range n, Real.cos (m * chebTheta n i) = 0 := by
    rw [Finset.mul_sum, Finset.sum_congr rfl fun i _ => step i,
      Finset.sum_range_sub (fun i : ℕ => Real.sin (2 * a * (i : ℝ)))]
    have : 2 * a * (n : ℝ) = m * Real.pi := by rw [ha]; field_simp
    rw [this, Real.sin_nat_mul_pi]; simp
  rcases mul_eq_zero.1 hsum with h | h
  · exfalso; nlinarith
  · exact h

theorem cheb_sum (n : ℕ) : ∀ k m : ℕ, k < m → m + k < 2 * n →
    ∑ i ∈ range n, Real.cos (m * chebTheta n i) * Real.cos (chebTheta n i) ^ k = 0 := by
  intro k
  induction k with
  | zero => intro m h1 h2; simpa using cos_sum_zero n m h1 (by omega)
  | succ k ih =>
    intro m h1 h2
    have e : ∀ i ∈ range n, Real.cos (m * chebTheta n i) * Real.cos (chebTheta n i) ^ (k + 1) =
        (1 / 2) * (Real.cos ((m + 1 : ℕ) * chebTheta n i) * Real.cos (chebTheta n i) ^ k) +
        (1 / 2) * (Real.cos ((m - 1 : ℕ) * chebTheta n i) * Real.cos (chebTheta n i) ^ k) := by
      intro i _
      have h3 : ((m - 1 : ℕ) : ℝ) = m - 1 := by rw [Nat.cast_sub (by omega)]; simp
      rw [h3]; push_cast
      rw [add_mul, sub_mul, one_mul, Real.cos_add, Real.cos_sub]; ring
    rw [Finset.sum_congr rfl e, Finset.sum_add_distrib, ← Finset.mul_sum, ← Finset.mul_sum,
      ih (m + 1) (by omega) (by omega), ih (m - 1) (by omega) (by omega)]
    simp

/-- The points `e^(2 pi i (i+1/2)/n)`. -/
noncomputable def zeta (n i : ℕ) : ℂ :=
  Complex.exp (2 * Real.pi * Complex.I * ((i : ℂ) + 1 / 2) / n)

theorem zeta_ne (n i : ℕ) : zeta n i ≠ 0 := Complex.exp_ne_zero _

theorem zeta_pow_n (n i : ℕ) (hn : n ≠ 0) : zeta n i ^ n = -1 := by
  have h0 : (n : ℂ) ≠ 0 := by exact_mod_cast hn
  rw [zeta, ← Complex.exp_nat_mul]
  have : (n : ℂ) * (2 * Real.pi * Complex.I * ((i : ℂ) + 1 / 2) / n) =
      Real.pi * Complex.I + i * (2 * Real.pi * Complex.I) := by field_simp; ring
  rw [this, Complex.exp_add, Complex.exp_nat_mul_two_pi_mul_I, mul_one, Complex.exp_pi_mul_I]

theorem zeta_pow_sum (n m : ℕ) (hm : 0 < m) (hmn : m < n) : ∑ i ∈ range n, zeta n i ^ m = 0 := by
  have hn : n ≠ 0 := by omega
  have h0 : (n : ℂ) ≠ 0 := by exact_mod_cast hn
  have hw := Complex.isPrimitiveRoot_exp n hn
  set om := Complex.exp (2 * Real.pi * Complex.I / n) with hom
  have e : ∀ i ∈ range n, zeta n i ^ m = zeta n 0 ^ m * (om ^ m) ^ i := by
    intro i _
    have : zeta n i = zeta n 0 * om ^ i := by
      rw [hom, ← Complex.exp_nat_mul, zeta, zeta, ← Complex.exp_add]
      congr 1; push_cast; field_simp; ring
    rw [this, mul_pow, ← pow_mul, ← pow_mul, mul_comm i m]
  rw [Finset.sum_congr rfl e, ← Finset.mul_sum]
  have h1 : om ^ m ≠ 1 := hw.pow_ne_one_of_pos_of_lt (by omega) hmn
  have h2 : (∑ i ∈ range n, (om ^ m) ^ i) * (om ^ m - 1) = 0 := by
    rw [geom_sum_mul, ← pow_mul, mul_comm m n, pow_mul, hw.pow_eq_one, one_pow, sub_self]
  rcases mul_eq_zero.1 h2 with h | h
  · rw [h, mul_zero]
  · exact absurd (sub_eq_zero.1 h) h1

theorem zeta_inv_sum (n m : ℕ) (hm : 0 < m) (hmn : m < n) :
    ∑ i ∈ range n, (zeta n i)⁻¹ ^ m = 0 := by
  have e : ∀ i ∈ range n, (zeta n i)⁻¹ ^ m = - zeta n i ^ (n - m) := by
    intro i _
    have h1 := zeta_pow_n n i (by omega)
    have h2 : zeta n i ^ (n - m) * zeta n i ^ m = -1 := by
      rw [← pow_add, Nat.sub_add_cancel (by omega), h1]
    have h3 := pow_ne_zero m (zeta_ne n i)
    rw [inv_pow]
    field_simp
    linear_combination h2
  rw [Finset.sum_congr rfl e, Finset.sum_neg_distrib, zeta_pow_sum n (n - m) (by omega) (by omega),
    neg_zero]

/-- `(K+1)(x-y)(x+y)^K`, expanded. -/
theorem weighted_binomial (x y : ℂ) (K : ℕ) :
    ((K : ℂ) + 1) * ((x - y) * (x + y) ^ K) =
      ∑ l ∈ range (K + 2), ((K + 1).choose l : ℂ) * ((l : ℂ) - ((K + 1 - l : ℕ) : ℂ)) *
        (x ^ l * y ^ (K + 1 - l)) := by
  have h1 : ∑ l ∈ range (K + 2), ((K + 1).choose l : ℂ) * (l : ℂ) * (x ^ l * y ^ (K + 1 - l)) =
      ((K : ℂ) + 1) * (x * (x + y) ^ K) := by
    rw [Finset.sum_range_succ']
    simp only [Nat.cast_zero, mul_zero, zero_mul, add_zero]
    rw [add_pow, Finset.mul_sum, Finset.mul_sum]
    refine Finset.sum_congr rfl fun l hl => ?_
    have hc : ((K + 1 : ℕ) : ℂ) * (K.choose l : ℂ) = ((K + 1).choose (l + 1) : ℂ) * ((l + 1 : ℕ) : ℂ) := by
      exact_mod_cast Nat.add_one_mul_choose_eq K l
    have he : K + 1 - (l + 1) = K - l := by omega
    rw [he, ← hc]; push_cast; ring
  have h2 : ∑ l ∈ range (K + 2), ((K + 1).choose l : ℂ) * ((K + 1 - l : ℕ) : ℂ) *
      (x ^ l * y ^ (K + 1 - l)) = ((K : ℂ) + 1) * (y * (x + y) ^ K) := by
    rw [Finset.sum_range_succ]
    simp only [Nat.sub_self, Nat.cast_zero, mul_zero, zero_mul, add_zero]
    rw [add_pow, Finset.mul_sum, Finset.mul_sum]
    refine Finset.sum_congr rfl fun l hl => ?_
    have hl' := mem_range.1 hl
    have hc : (K.choose l : ℂ) * ((K + 1 : ℕ) : ℂ) = ((K + 1).choose l : ℂ) * ((K + 1 - l : ℕ) : ℂ) := by
      exact_mod_cast Nat.choose_mul_succ_eq K l
    have he : K + 1 - l = (K - l) + 1 := by omega
    rw [← hc, he, pow_succ]; push_cast; ring
  have : ∀ l ∈ range (K + 2), ((K + 1).choose l : ℂ) * ((l : ℂ) - ((K + 1 - l : ℕ) : ℂ)) *
        (x ^ l * y ^ (K + 1 - l)) = ((K + 1).choose l : ℂ) * (l : ℂ) * (x ^ l * y ^ (K + 1 - l)) -
        ((K + 1).choose l : ℂ) * ((K + 1 - l : ℕ) : ℂ) * (x ^ l * y ^ (K + 1 - l)) := by
    intro l _; ring
  rw [Finset.sum_congr rfl this, Finset.sum_sub_distrib, h1, h2]; ring

theorem zeta_trig (n i : ℕ) : zeta n i = ⟨Real.cos (2 * Real.pi * (i + 0.5) / n),
    Real.sin (2 * Real.pi * (i + 0.5) / n)⟩ := by
  have : (2 * Real.pi * Complex.I * ((i : ℂ) + 1 / 2) / n) =
      ((2 * Real.pi * (i + 0.5) / n : ℝ) : ℂ) * Complex.I := by push_cast; norm_num; ring
  rw [zeta, this]
  apply Complex.ext
  · simp only [Complex.exp_ofReal_mul_I_re]
  · simp only [Complex.exp_ofReal_mul_I_im]

theorem zeta_inv (n i : ℕ) : (zeta n i)⁻¹ = ⟨Real.cos (2 * Real.pi * (i + 0.5) / n),
    -Real.sin (2 * Real.pi * (i + 0.5) / n)⟩ := by
  rw [zeta_trig]
  apply inv_eq_of_mul_eq_one_right
  apply Complex.ext
  · simp only [Complex.mul_re, Complex.one_re]
    nlinarith [Real.sin_sq_add_cos_sq (2 * Real.pi * (i + 0.5) / n : ℝ)]
  · simp only [Complex.mul_im, Complex.one_im]; ring

theorem ellZn_zeta (e : Ellipse) (n i : ℕ) :
    ellZn e n i = ((1 + e.vscale) / 2 : ℝ) * zeta n i + ((1 - e.vscale) / 2 : ℝ) * (zeta n i)⁻¹ := by
  rw [zeta_inv, zeta_trig, ellZn]
  apply Complex.ext <;> simp <;> ring

theorem ellW_zeta (e : Ellipse) (s : ℝ) (n i : ℕ) :
    ellW e s n i = (((1 + e.vscale) / 2 : ℝ) * zeta n i - ((1 - e.vscale) / 2 : ℝ) * (zeta n i)⁻¹) *
      (e.radius * s / n) := by
  have : (⟨e.vscale * Real.cos (2 * Real.pi * (i + 0.5) / n),
      Real.sin (2 * Real.pi * (i + 0.5) / n)⟩ : ℂ) =
      (((1 + e.vscale) / 2 : ℝ) * zeta n i - ((1 - e.vscale) / 2 : ℝ) * (zeta n i)⁻¹) := by
    rw [zeta_inv, zeta_trig]
    apply Complex.ext <;> simp <;> ring
  rw [ellW]
  show (⟨e.vscale * Real.cos (2 * Real.pi * (i + 0.5) / n),
      Real.sin (2 * Real.pi * (i + 0.5) / n)⟩ : ℂ) * e.radius * s / n = _
  rw [this]; ring

/-! ### C52 -/

/-- C52, ellipse (complex scalars): the quadrature of every power up to `n-2` of the normalized
variable around the ellipse is zero, as for the exact contour integral. -/
theorem C52_ellipse (e : Ellipse) (s : ℝ) (n k : ℕ) (hk : k + 2 ≤ n) :
    ∑ i ∈ range n, ellW e s n i * ellZn e n i ^ k = 0 := by
  set a : ℂ := (((1 + e.vscale) / 2 : ℝ) : ℂ)
  set b : ℂ := (((1 - e.vscale) / 2 : ℝ) : ℂ)
  have hk1 : ((k : ℂ) + 1) ≠ 0 := by exact_mod_cast Nat.succ_ne_zero k
  have e1 : ∀ i ∈ range n, ellW e s n i * ellZn e n i ^ k =
      (e.radius * s / n / ((k : ℂ) + 1)) * ∑ l ∈ range (k + 2), ((k + 1).choose l : ℂ) *
        ((l : ℂ) - ((k + 1 - l : ℕ) : ℂ)) * (a ^ l * b ^ (k + 1 - l)) *
        (zeta n i ^ l * (zeta n i)⁻¹ ^ (k + 1 - l)) := by
    intro i _
    have h := weighted_binomial (a * zeta n i) (b * (zeta n i)⁻¹) k
    have h2 : ∑ l ∈ range (k + 2), ((k + 1).choose l : ℂ) *
        ((l : ℂ) - ((k + 1 - l : ℕ) : ℂ)) * (a ^ l * b ^ (k + 1 - l)) *
        (zeta n i ^ l * (zeta n i)⁻¹ ^ (k + 1 - l)) =
        ((k : ℂ) + 1) * ((a * zeta n i - b * (zeta n i)⁻¹) * (a * zeta n i + b * (zeta n i)⁻¹) ^ k) := by
      rw [h]
      refine Finset.sum_congr rfl fun l _ => ?_
      rw [mul_pow, mul_pow]; ring
    rw [h2, ellZn_zeta, ellW_zeta]
    have h3 : ∀ X c : ℂ, X * c = c / ((k : ℂ) + 1) * (((k : ℂ) + 1) * X) := by
      intro X c; field_simp
    rw [← h3]; ring
  rw [Finset.sum_congr rfl e1, ← Finset.mul_sum, Finset.sum_comm]
  have e2 : ∀ l ∈ range (k + 2), ∑ i ∈ range n, ((k + 1).choose l : ℂ) *
        ((l : ℂ) - ((k + 1 - l : ℕ) : ℂ)) * (a ^ l * b ^ (k + 1 - l)) *
        (zeta n i ^ l * (zeta n i)⁻¹ ^ (k + 1 - l)) = 0 := by
    intro l hl
    have hl' := mem_range.1 hl
    rw [← Finset.mul_sum]
    rcases lt_trichotomy l (k + 1 - l) with h | h | h
    · have : ∀ i ∈ range n, zeta n i ^ l * (zeta n i)⁻¹ ^ (k + 1 - l) =
          (zeta n i)⁻¹ ^ (k + 1 - l - l) := by
        intro i _
        have h3 : k + 1 - l = (k + 1 - l - l) + l := by omega
        rw [h3, pow_add, inv_pow _ l]
        have := pow_ne_zero l (zeta_ne n i)
        field_simp
        congr 1; omega
      rw [Finset.sum_congr rfl this, zeta_inv_sum n _ (by omega) (by omega), mul_zero]
    · rw [← h, sub_self, mul_zero, zero_mul, zero_mul]
    · have : ∀ i ∈ range n, zeta n i ^ l * (zeta n i)⁻¹ ^ (k + 1 - l) =
          zeta n i ^ (l - (k + 1 - l)) := by
        intro i _
        have h3 : l = (l - (k + 1 - l)) + (k + 1 - l) := by omega
        have h4 : zeta n i ^ l = zeta n i ^ (l - (k + 1 - l)) * zeta n i ^ (k + 1 - l) := by
          rw [← pow_add]; congr 1
        rw [h4, inv_pow]
        have := pow_ne_zero (k + 1 - l) (zeta_ne n i)
        field_simp
      rw [Finset.sum_congr rfl this, zeta_pow_sum n _ (by omega) (by omega), mul_zero]
  rw [Finset.sum_eq_zero e2, mul_zero]

/-- C52, Chebyshev rules (interval, ring, and ellipse in real scalars): the quadrature of every
power up to `n-2` of the normalized variable is zero. -/
theorem C52_chebyshev (n k : ℕ) (hk : k + 2 ≤ n) :
    ∑ i ∈ range n, chebW n i * chebZn n i ^ k = 0 := by
  have h := cheb_sum n k (n - 1) (by omega) (by omega)
  have e : ∀ i ∈ range n, chebW n i * chebZn n i ^ k =
      (1 / n) * (Real.cos ((n - 1 : ℕ) * chebTheta n i) * Real.cos (chebTheta n i) ^ k) := by
    intro i _
    rw [chebW, chebZn, Nat.cast_sub (by omega)]; push_cast; ring
  rw [Finset.sum_congr rfl e, ← Finset.mul_sum, h, mul_zero]

theorem trapRaw_sum (z : ℕ → ℂ) (n k : ℕ) (hk : k + 2 ≤ n) (hz : Set.InjOn z (range n)) :
    ∑ i ∈ range n, trapRaw z n i * z i ^ k = 0 := by
  have h := Lagrange.coeff_eq_sum (s := range n) (v := z) hz (P := (Polynomial.X : Polynomial ℂ) ^ k)
    (by rw [Polynomial.degree_X_pow, card_range]; exact_mod_cast (by omega : k < n))
  rw [card_range, Polynomial.coeff_X_pow, if_neg (by omega)] at h
  have e : ∀ i ∈ range n, trapRaw z n i * z i ^ k = ((∏ j ∈ range n, z j) * (-1) ^ (n - 1)) *
      (((Polynomial.X : Polynomial ℂ) ^ k).eval (z i) / ∏ j ∈ (range n).erase i, (z i - z j)) := by
    intro i hi
    have h1 : ∏ j ∈ (range n).filter (fun j => j ≠ i), (z j - z i) =
        (-1) ^ (n - 1) * ∏ j ∈ (range n).erase i, (z i - z j) := by
      rw [Finset.filter_ne']
      have : ∀ j ∈ (range n).erase i, z j - z i = (-1) * (z i - z j) := fun j _ => by ring
      rw [Finset.prod_congr rfl this, Finset.prod_mul_distrib, Finset.prod_const,
        Finset.card_erase_of_mem hi, card_range]
    rw [trapRaw, h1, Polynomial.eval_pow, Polynomial.eval_X]
    have h2 : ((-1 : ℂ) ^ (n - 1))⁻¹ = (-1) ^ (n - 1) := by
      rw [← inv_pow]; norm_num
    rw [div_mul_eq_mul_div, div_eq_mul_inv, mul_inv, h2]; ring
  rw [Finset.sum_congr rfl e, ← Finset.mul_sum, ← h, mul_zero]

/-- C52, trapezoidal rule on intervals and rings: whenever the quadrature points are distinct, the
quadrature of every power up to `n-2` of the points is zero. -/
theorem C52_trapezoidal (z : ℕ → ℂ) (n k : ℕ) (hk : k + 2 ≤ n) (hz : Set.InjOn z (range n)) :
    ∑ i ∈ range n, trapW z n i * z i ^ k = 0 := by
  have e : ∀ i ∈ range n, trapW z n i * z i ^ k =
      (trapMax z n : ℂ)⁻¹ * (trapRaw z n i * z i ^ k) := by
    intro i _; rw [trapW]; ring
  rw [Finset.sum_congr rfl e, ← Finset.mul_sum, trapRaw_sum z n k hk hz, mul_zero]

/-- The weights of the trapezoidal rule are normalized: none exceeds 1 in modulus. -/
theorem C52_normalized (z : ℕ → ℂ) (n i : ℕ) (hi : i < n) : ‖trapW z n i‖ ≤ 1 := by
  have mono : ∀ m, i < m → ‖trapRaw z n i‖ ≤
      (List.range m).foldl (fun m i => max ‖trapRaw z n i‖ m) (0 : ℝ) := by
    intro m hm
    induction m with
    | zero => omega
    | succ m ih =>
      rw [List.range_succ, List.foldl_append]
      simp only [List.foldl_cons, List.foldl_nil]
      rcases Nat.lt_succ_iff_lt_or_eq.1 hm with h | h
      · exact le_max_of_le_right (ih h)
      · subst h; exact le_max_left _ _
  have h1 := mono n hi
  rw [trapW, norm_div, Complex.norm_real, Real.norm_eq_abs]
  have h2 : 0 ≤ trapMax z n := le_trans (norm_nonneg _) h1
  rw [abs_of_nonneg h2]
  exact div_le_one_of_le₀ h1 h2

/-- C52, filter: on a circle the rule applied to `1/(z-lambda)` gives `1/(1+u^n)`, where `u` is the
position of `lambda` relative to the circle: close to 1 inside and to 0 outside. -/
theorem C52_filter (e : Ellipse) (hv : e.vscale = 1) (s : ℝ) (hs : 0 < s) (hr : 0 < e.radius)
    (n : ℕ) (hn : 0 < n) (lam u : ℂ) (hu : lam = s * (e.center + e.radius * u)) (hun : u ^ n ≠ -1) :
    ∑ i ∈ range n, ellW e s n i / (ellZ e s n i - lam) = 1 / (1 + u ^ n) := by
  have h0 : (n : ℂ) ≠ 0 := by exact_mod_cast hn.ne'
  have hs' : (s : ℂ) ≠ 0 := by exact_mod_cast hs.ne'
  have hr' : (e.radius : ℂ) ≠ 0 := by exact_mod_cast hr.ne'
  have hd : (1 + u ^ n : ℂ) ≠ 0 := by
    intro h; exact hun (by linear_combination h)
  have ez : ∀ i, ellZ e s n i = s * (e.center + e.radius * zeta n i) := by
    intro i
    rw [ellZ, contourEllipse, zeta_trig]
    congr 1
    apply Complex.ext <;> simp [hv]
  have ew : ∀ i, ellW e s n i = zeta n i * (e.radius * s / n) := by
    intro i; rw [ellW_zeta, hv]; norm_num
  have hne : ∀ i, zeta n i - u ≠ 0 := by
    intro i h
    exact hun (by rw [← sub_eq_zero.1 h]; exact zeta_pow_n n i hn.ne')
  have e1 : ∀ i ∈ range n, ellW e s n i / (ellZ e s n i - lam) =
      (1 / (n * (1 + u ^ n))) * (-∑ j ∈ range n, u ^ j * zeta n i ^ (n - j)) := by
    intro i _
    rw [ez, ew, hu]
    have e2 : (s : ℂ) * (e.center + e.radius * zeta n i) - s * (e.center + e.radius * u) =
        s * e.radius * (zeta n i - u) := by ring
    rw [e2]
    have e3 : (∑ j ∈ range n, u ^ j * zeta n i ^ (n - j)) * (u - zeta n i) =
        zeta n i * (u ^ n + 1) := by
      have h := Commute.geom_sum₂_mul (Commute.all u (zeta n i)) n
      have h2 : ∑ j ∈ range n, u ^ j * zeta n i ^ (n - j) =
          zeta n i * ∑ j ∈ range n, u ^ j * zeta n i ^ (n - 1 - j) := by
        rw [Finset.mul_sum]
        refine Finset.sum_congr rfl fun j hj => ?_
        have hj' := mem_range.1 hj
        have : n - j = (n - 1 - j) + 1 := by omega
        rw [this, pow_succ]; ring
      rw [h2, mul_assoc, h, zeta_pow_n n i hn.ne']; ring
    have h3 := hne i
    field_simp
    linear_combination (-1 : ℂ) * e3
  rw [Finset.sum_congr rfl e1, ← Finset.mul_sum, Finset.sum_neg_distrib, Finset.sum_comm]
  have e4 : ∑ j ∈ range n, ∑ i ∈ range n, u ^ j * zeta n i ^ (n - j) = -n := by
    rw [Finset.sum_eq_single 0]
    · simp only [pow_zero, one_mul, Nat.sub_zero]
      rw [Finset.sum_congr rfl fun i _ => zeta_pow_n n i hn.ne']
      simp
    · intro j hj h
      have hj' := mem_range.1 hj
      rw [← Finset.mul_sum, zeta_pow_sum n (n - j) (by omega) (by omega), mul_zero]
    · intro h; exact absurd (mem_range.2 hn) h
  rw [e4]
  field_simp

/-! ### C53 -/

/-- C53, ellipse: the rescaling maps each normalized point to the quadrature point, in the complex
and in the real build. -/
theorem C53_ellipse (e : Ellipse) (s : ℝ) (n i : ℕ) :
    rescaleEllipse e s (ellZn e n i) = ellZ e s n i ∧
    (e.center.im = 0 → rescaleEllipse e s (chebZn n i : ℝ) = (ellZReal e s n i : ℝ)) := by
  constructor
  · rw [rescaleEllipse, ellZ, contourEllipse, ellZn]
    congr 1
    apply Complex.ext <;> simp
  · intro h
    rw [rescaleEllipse, ellZReal]
    apply Complex.ext <;> simp [h]

/-- C53, interval with the Chebyshev rule. -/
theorem C53_interval_chebyshev (rb : Bool) (a b c d s : ℝ) (r : Interval)
    (hr : setEndpoints rb a b c d = some r) (n i : ℕ) (z : ℂ) (hz : ivChebZ r s n i = some z) :
    rescaleInterval true r s (chebZn n i : ℝ) = z := by
  have hne : ¬ (r.c = r.d ∧ r.a = r.b) := by
    unfold setEndpoints at hr
    split_ifs at hr with h1 h2 h3 h4 h5
    all_goals (cases Option.some.inj hr; rintro ⟨h, h'⟩; simp only at h h'; subst h h'; simp_all)
  unfold ivChebZ at hz
  split_ifs at hz with h1 h2
  · have hab : r.a ≠ r.b := fun h => hne ⟨h2, h⟩
    cases Option.some.inj hz
    rw [rescaleInterval]
    simp only [if_true, if_pos h2, if_neg hab, Complex.ofReal_re]
    push_cast; ring
  · have hab : r.a = r.b := by
      rcases h1 with h | h
      · exact absurd h.1 h2
      · exact h.1
    cases Option.some.inj hz
    rw [rescaleInterval]
    simp only [if_true, if_neg h2, if_pos hab]
    push_cast; ring

/-- C53, interval with the trapezoidal rule (partial: region not scaled and centred on the real
axis, not degenerate to a horizontal segment; otherwise see `C53_interval_false`). -/
theorem C53_interval_trapezoidal_partial (r : Interval) (z : ℂ) (hcd : r.c ≠ r.d)
    (hsym : r.d + r.c = 0) : rescaleInterval false r 1 (ivTrapZn r 1 z) = z := by
  have hpos : 0 < ((r.b - r.a) / 2) ^ 2 + ((r.d - r.c) / 2) ^ 2 := by
    have : r.d - r.c ≠ 0 := fun h => hcd (by linarith)
    have : 0 < ((r.d - r.c) / 2) ^ 2 := by positivity
    positivity
  have hR : (Real.sqrt (((r.b - r.a) / 2) ^ 2 + ((r.d - r.c) / 2) ^ 2) : ℂ) ≠ 0 := by
    exact_mod_cast (Real.sqrt_pos.2 hpos).ne'
  rw [rescaleInterval, ivTrapZn]
  simp only [Bool.false_eq_true, if_false, if_neg hcd, hsym, one_mul]
  rw [mul_div_cancel₀ _ hR]
  apply Complex.ext <;> simp

/-- C53 fails for the trapezoidal rule on an interval: a rectangle not centred on the real axis
(`PETSC_PI` in place of the imaginary unit), and a scaled rectangle (scale factor not applied). -/
theorem C53_interval_false :
    (∃ (r : Interval) (z : ℂ), setEndpoints false (-1) 1 0 2 = some r ∧
      rescaleInterval false r 1 (ivTrapZn r 1 z) ≠ z) ∧
    (∃ (r : Interval) (z : ℂ), setEndpoints false (-1) 1 (-1) 1 = some r ∧
      rescaleInterval false r 2 (ivTrapZn r 2 z) ≠ z) := by
  constructor
  · refine ⟨⟨-1, 1, 0, 2⟩, Complex.I, by norm_num [setEndpoints], ?_⟩
    rw [rescaleInterval, ivTrapZn]
    have : (Complex.I - (⟨1 + -1, 2 + 0⟩ : ℂ) * ((1 : ℝ) : ℂ) / 2) = 0 := by
      apply Complex.ext <;> simp
    simp only [this, zero_div]
    norm_num
    intro h
    have := congrArg Complex.re h
    simp at this
  · refine ⟨⟨-1, 1, -1, 1⟩, 2, by norm_num [setEndpoints], ?_⟩
    rw [rescaleInterval, ivTrapZn]
    have h1 : ((2 : ℂ) - (⟨1 + -1, 1 + -1⟩ : ℂ) * ((2 : ℝ) : ℂ) / 2) = 2 := by
      apply Complex.ext <;> simp
    have h2 : Real.sqrt ((2 * (1 - -1) / 2) ^ 2 + (2 * (1 - -1) / 2) ^ 2) = 2 * Real.sqrt 2 := by
      have : ((2 * (1 - -1) / 2 : ℝ) ^ 2 + (2 * (1 - -1) / 2) ^ 2) = 2 ^ 2 * 2 := by norm_num
      rw [this, Real.sqrt_mul (by norm_num), Real.sqrt_sq (by norm_num)]
    have h3 : Real.sqrt (((1 - -1) / 2) ^ 2 + ((1 - -1) / 2) ^ 2) = Real.sqrt 2 := by norm_num
    simp only [h1, h2, h3]
    have h4 : (Real.sqrt 2 : ℂ) ≠ 0 := by
      exact_mod_cast (Real.sqrt_pos.2 (by norm_num : (0 : ℝ) < 2)).ne'
    norm_num
    intro h
    have h5 : (Real.sqrt 2 : ℂ) * (2 / (2 * Real.sqrt 2)) = 1 := by field_simp
    rw [h5] at h
    norm_num at h

/-- C53, ring: both rules. -/
theorem C53_ring (g : Ring) (s : ℝ) (hs : 0 < s) (hr : 0 < g.radius) (n i : ℕ) (z : ℂ) :
    rescaleRing true g s (chebZn n i : ℝ) = ringChebZ g s n i ∧
    rescaleRing false g s (ringTrapZn g s z) = z := by
  constructor
  · rw [rescaleRing, ringChebZ]
    simp only [if_true, Complex.ofReal_re, Complex.ofReal_im, add_zero]
    push_cast; ring
  · have h1 : (s : ℂ) ≠ 0 := by exact_mod_cast hs.ne'
    have h2 : (g.radius : ℂ) ≠ 0 := by exact_mod_cast hr.ne'
    rw [rescaleRing, ringTrapZn]
    simp only [Bool.false_eq_true, if_false]
    field_simp
    ring

example : ∑ i ∈ range 4, ellW ⟨1, 2, 0.5⟩ 3 4 i * ellZn ⟨1, 2, 0.5⟩ 4 i ^ 2 = 0 :=
  C52_ellipse _ _ 4 2 (by norm_num)

/-- Four distinct points, as required by `C52_trapezoidal`. -/
example : ∑ i ∈ range 4, trapW (fun i => (i : ℂ) + 1) 4 i * ((i : ℂ) + 1) ^ 2 = 0 :=
  C52_trapezoidal (fun i => (i : ℂ) + 1) 4 2 (by norm_num) fun a _ b _ h => by
    simpa using h

/-- A point inside and the filter value there. -/
example : ∑ i ∈ range 8, ellW ⟨0, 2, 1⟩ 1 8 i / (ellZ ⟨0, 2, 1⟩ 1 8 i - 1) = 1 / (1 + (1 / 2) ^ 8) :=
  C52_filter ⟨0, 2, 1⟩ rfl 1 one_pos (by norm_num) 8 (by norm_num) 1 (1 / 2) (by norm_num)
    (by norm_num)

end Verif.Contour
