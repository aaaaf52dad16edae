import Verif.Iter.PowerThm
import Verif.Iter.RqiModel

/-!
# C150: Rayleigh quotient iteration
-/

set_option linter.all false

namespace Verif.Iter

open Finset

variable {E : Type*} [NormedAddCommGroup E] [InnerProductSpace ℂ E] {A : E →ₗ[ℂ] E} {sgn : E → ℂ}

theorem inner_ry {st : RSt E} (ho : Orth st.V st.k) (y0 : E) {i : ℕ} (hi : i < st.k) : inner ℂ (st.V i) (st.y y0) = 0 := by
  unfold RSt.y
  rw [inner_sub_right, inner_sum, Finset.sum_eq_single i]
  · rw [inner_smul_right, ho i hi i hi, if_pos rfl, mul_one]; exact sub_self _
  · intro j hj hne
    rw [inner_smul_right, ho i hi j (mem_range.mp hj), if_neg (Ne.symm hne), mul_zero]
  · intro h; exact absurd (mem_range.mpr hi) h

/-- the equation of `y` when the locked columns span an invariant subspace -/
theorem ry_eq {st : RSt E} {y0 : E} (hy : A y0 - st.rho • y0 = st.V st.k) {C : ℕ → ℕ → ℂ} (hC : ∀ j < st.k, A (st.V j) = ∑ i ∈ range st.k, C i j • st.V i) :
    ∃ g : ℕ → ℂ, A (st.y y0) - st.rho • st.y y0 = st.V st.k - ∑ i ∈ range st.k, g i • st.V i := by
  refine ⟨fun i => ∑ j ∈ range st.k, inner ℂ (st.V j) y0 * C i j - st.rho * inner ℂ (st.V i) y0, ?_⟩
  have e1 : A (∑ j ∈ range st.k, inner ℂ (st.V j) y0 • st.V j) = ∑ i ∈ range st.k, (∑ j ∈ range st.k, inner ℂ (st.V j) y0 * C i j) • st.V i := by
    rw [map_sum]
    calc ∑ j ∈ range st.k, A (inner ℂ (st.V j) y0 • st.V j) = ∑ j ∈ range st.k, ∑ i ∈ range st.k, (inner ℂ (st.V j) y0 * C i j) • st.V i := by
          refine sum_congr rfl fun j hj => ?_
          rw [map_smul, hC j (mem_range.mp hj), smul_sum]
          exact sum_congr rfl fun i _ => smul_smul _ _ _
      _ = _ := by rw [sum_comm]; exact sum_congr rfl fun i _ => (sum_smul).symm
  have e2 : ∑ i ∈ range st.k, (∑ j ∈ range st.k, inner ℂ (st.V j) y0 * C i j - st.rho * inner ℂ (st.V i) y0) • st.V i =
      A (∑ j ∈ range st.k, inner ℂ (st.V j) y0 • st.V j) - st.rho • ∑ j ∈ range st.k, inner ℂ (st.V j) y0 • st.V j := by
    rw [e1, smul_sum, ← sum_sub_distrib]
    exact sum_congr rfl fun i _ => by rw [sub_smul, smul_smul]
  show A (st.y y0) - st.rho • st.y y0 = st.V st.k - ∑ i ∈ range st.k, (∑ j ∈ range st.k, inner ℂ (st.V j) y0 * C i j - st.rho * inner ℂ (st.V i) y0) • st.V i
  rw [e2, ← hy]
  unfold RSt.y
  rw [map_sub]
  generalize ∑ j ∈ range st.k, inner ℂ (st.V j) y0 • st.V j = S
  module

theorem scal_sq {s : ℂ} (hs : ‖s‖ = 1) (n : ℝ) : star (1 / (s * (n : ℂ))) * (1 / (s * (n : ℂ))) = 1 / ((n : ℂ) * (n : ℂ)) := by
  have h1 : star s * s = 1 := by
    have := RCLike.conj_mul s
    rw [hs] at this
    simpa using this
  have h3 : (star (n : ℂ)) = (n : ℂ) := Complex.conj_ofReal n
  rw [star_div₀, star_one, star_mul', h3, div_mul_div_comm, one_mul]
  congr 1
  calc star s * (n : ℂ) * (s * (n : ℂ)) = (star s * s) * ((n : ℂ) * (n : ℂ)) := by ring
    _ = _ := by rw [h1, one_mul]

/-- **C150** (Rayleigh quotient).  If the locked columns span an invariant subspace, the new vector has norm one, is orthogonal to them, and the new shift is its Rayleigh quotient. -/
theorem C150_quotient (hs : ∀ x, ‖sgn x‖ = 1) {st : RSt E} (ho : Orth st.V (st.k + 1)) {y0 : E} (hy : A y0 - st.rho • y0 = st.V st.k)
    {C : ℕ → ℕ → ℂ} (hC : ∀ j < st.k, A (st.V j) = ∑ i ∈ range st.k, C i j • st.V i) (hn : ‖st.y y0‖ ≠ 0) :
    ‖st.newV sgn y0‖ = 1 ∧ (∀ j < st.k, inner ℂ (st.V j) (st.newV sgn y0) = 0) ∧ inner ℂ (st.newV sgn y0) (A (st.newV sgn y0)) = st.quot y0 := by
  have hoL : Orth st.V st.k := ho.mono (by omega)
  refine ⟨?_, ?_, ?_⟩
  · unfold RSt.newV
    rw [norm_smul, norm_div, norm_mul, hs, norm_one, one_mul, Complex.norm_real, norm_norm]
    field_simp
  · intro j hj; unfold RSt.newV; rw [inner_smul_right, inner_ry hoL y0 hj, mul_zero]
  · obtain ⟨g, hg⟩ := ry_eq hy hC
    have hA : A (st.y y0) = st.rho • st.y y0 + (st.V st.k - ∑ i ∈ range st.k, g i • st.V i) := by rw [← hg]; abel
    have hin : inner ℂ (st.y y0) (∑ i ∈ range st.k, g i • st.V i) = 0 := by
      rw [inner_sum]
      refine sum_eq_zero fun i hi => ?_
      rw [inner_smul_right, ← inner_conj_symm, inner_ry hoL y0 (mem_range.mp hi), map_zero, mul_zero]
    have hth : inner ℂ (st.y y0) (st.V st.k) = star (st.theta y0) := by
      unfold RSt.theta; exact (inner_conj_symm _ _).symm
    have hyy : inner ℂ (st.y y0) (st.y y0) = (‖st.y y0‖ : ℂ) * (‖st.y y0‖ : ℂ) := by
      rw [inner_self_eq_norm_sq_to_K]; simp [sq]
    have hnc : (‖st.y y0‖ : ℂ) ≠ 0 := by exact_mod_cast hn
    unfold RSt.newV RSt.quot
    rw [map_smul, inner_smul_left, inner_smul_right, hA, inner_add_right, inner_smul_right, inner_sub_right, hin, sub_zero, hth, hyy, ← mul_assoc]
    have := scal_sq (hs (st.y y0)) ‖st.y y0‖
    rw [show (starRingEnd ℂ) (1 / (sgn (st.y y0) * (‖st.y y0‖ : ℂ))) = star (1 / (sgn (st.y y0) * (‖st.y y0‖ : ℂ))) from rfl, this]
    field_simp

/-- **C150** (estimate).  Without locked columns, or when they span an invariant subspace, the residual of the pair (shift, new vector) is the old vector divided by the norm, up to components in
    the locked columns: its part orthogonal to them has norm (estimate)*|shift|. -/
theorem C150_estimate (hs : ∀ x, ‖sgn x‖ = 1) {st : RSt E} (ho : Orth st.V (st.k + 1)) {y0 : E} (hy : A y0 - st.rho • y0 = st.V st.k)
    {C : ℕ → ℕ → ℂ} (hC : ∀ j < st.k, A (st.V j) = ∑ i ∈ range st.k, C i j • st.V i) {r : ℝ} (hr : st.relerr y0 = some r) :
    ∃ (e : E) (g : ℕ → ℂ), A (st.newV sgn y0) - st.rho • st.newV sgn y0 = e + ∑ i ∈ range st.k, g i • st.V i ∧ (∀ j < st.k, inner ℂ (st.V j) e = 0) ∧ ‖e‖ = r * ‖st.rho‖ := by
  obtain ⟨g, hg⟩ := ry_eq hy hC
  unfold RSt.relerr at hr
  by_cases hc : st.rho = 0 ∨ ‖st.y y0‖ = 0
  · rw [if_pos hc] at hr; cases hr
  rw [if_neg hc] at hr
  push Not at hc
  have hr := Option.some.inj hr
  set c := 1 / (sgn (st.y y0) * (‖st.y y0‖ : ℂ)) with hcdef
  refine ⟨c • st.V st.k, fun i => -(c * g i), ?_, ?_, ?_⟩
  · have : ∑ i ∈ range st.k, (-(c * g i)) • st.V i = -(c • ∑ i ∈ range st.k, g i • st.V i) := by
      rw [smul_sum, ← sum_neg_distrib]
      exact sum_congr rfl fun i _ => by rw [neg_smul, smul_smul]
    show _ = _ + ∑ i ∈ range st.k, (-(c * g i)) • st.V i
    rw [this]
    unfold RSt.newV
    rw [← hcdef, map_smul, smul_comm, ← smul_sub, hg, smul_sub, sub_eq_add_neg]
  · intro j hj
    have := ho j (by omega) st.k (by omega)
    rw [if_neg (by omega)] at this
    rw [inner_smul_right, this, mul_zero]
  · have hvk : ‖st.V st.k‖ = 1 := norm_of_inner_one (by have := ho st.k (by omega) st.k (by omega); rwa [if_pos rfl] at this)
    have hρ : ‖st.rho‖ ≠ 0 := norm_ne_zero_iff.mpr hc.1
    rw [norm_smul, hvk, mul_one, hcdef, norm_div, norm_mul, hs, norm_one, one_mul, Complex.norm_real, norm_norm, ← hr]
    have := hc.2
    field_simp

/-- locked eigenvectors of a Hermitian problem: nothing is purged -/
theorem herm_eq {st : RSt E} (hsym : A.IsSymmetric) (ho : Orth st.V (st.k + 1)) {y0 : E} (hy : A y0 - st.rho • y0 = st.V st.k)
    {l : ℕ → ℂ} (hl : ∀ j < st.k, A (st.V j) = l j • st.V j) : A (st.y y0) - st.rho • st.y y0 = st.V st.k := by
  have hg : ∀ j < st.k, inner ℂ (st.V j) y0 • (A (st.V j) - st.rho • st.V j) = 0 := by
    intro j hj
    have hjj := ho j (by omega) j (by omega)
    rw [if_pos rfl] at hjj
    have hreal : star (l j) = l j := by
      have h1 := hsym (st.V j) (st.V j)
      rw [hl j hj, inner_smul_left, inner_smul_right, hjj, mul_one, mul_one] at h1
      exact h1
    have h0 := ho j (by omega) st.k (by omega)
    rw [if_neg (by omega), ← hy, inner_sub_right, inner_smul_right, ← hsym, hl j hj, inner_smul_left] at h0
    rw [hl j hj, ← sub_smul, smul_smul]
    have : inner ℂ (st.V j) y0 * (l j - st.rho) = 0 := by
      rw [← hreal]
      have e : (starRingEnd ℂ) (l j) = star (l j) := rfl
      rw [e] at h0
      linear_combination h0
    rw [this, zero_smul]
  unfold RSt.y
  rw [map_sub, map_sum, smul_sub, smul_sum]
  have : ∑ j ∈ range st.k, A (inner ℂ (st.V j) y0 • st.V j) - ∑ j ∈ range st.k, st.rho • inner ℂ (st.V j) y0 • st.V j = 0 := by
    rw [← sum_sub_distrib]
    refine sum_eq_zero fun j hj => ?_
    rw [map_smul, smul_comm st.rho, ← smul_sub]
    exact hg j (mem_range.mp hj)
  rw [← hy]
  rw [sub_eq_zero] at this
  rw [this]
  abel

/-- **C150** (estimate of Hermitian problems).  When the locked pairs are eigenpairs, the estimate is the relative residual of the pair (shift, new vector), for any number of locked pairs. -/
theorem C150_estimate_hermitian (hs : ∀ x, ‖sgn x‖ = 1) {st : RSt E} (hsym : A.IsSymmetric) (ho : Orth st.V (st.k + 1)) {y0 : E} (hy : A y0 - st.rho • y0 = st.V st.k)
    {l : ℕ → ℂ} (hl : ∀ j < st.k, A (st.V j) = l j • st.V j) {r : ℝ} (hr : st.relerr y0 = some r) :
    ‖A (st.newV sgn y0) - st.rho • st.newV sgn y0‖ = r * ‖st.rho‖ := by
  have hg := herm_eq hsym ho hy hl
  unfold RSt.relerr at hr
  by_cases hc : st.rho = 0 ∨ ‖st.y y0‖ = 0
  · rw [if_pos hc] at hr; cases hr
  rw [if_neg hc] at hr
  push Not at hc
  have hr := Option.some.inj hr
  have hvk : ‖st.V st.k‖ = 1 := norm_of_inner_one (by have := ho st.k (by omega) st.k (by omega); rwa [if_pos rfl] at this)
  have hρ : ‖st.rho‖ ≠ 0 := norm_ne_zero_iff.mpr hc.1
  unfold RSt.newV
  rw [map_smul, smul_comm, ← smul_sub, hg, norm_smul, hvk, mul_one, norm_div, norm_mul, hs, norm_one, one_mul, Complex.norm_real, norm_norm, ← hr]
  have := hc.2
  field_simp

/-- the normalized new vector without the sign -/
noncomputable def RSt.w (st : RSt E) (y0 : E) : E := (1 / (‖st.y y0‖ : ℂ)) • st.y y0

theorem w_eq {st : RSt E} (y0 : E) : st.w y0 = st.newV (fun _ => 1) y0 := by
  unfold RSt.w RSt.newV; rw [one_mul]

/-- `z` is a Ritz vector for `mu` of the plane spanned by `a` and `b` -/
def Ritz (A : E →ₗ[ℂ] E) (a b : E) (mu : ℂ) (z : E) : Prop :=
  z ≠ 0 ∧ (∃ s t : ℂ, z = s • a + t • b) ∧ inner ℂ a (A z - mu • z) = (0 : ℂ) ∧ inner ℂ b (A z - mu • z) = (0 : ℂ)

/-- **C150** (Wilkinson shift).  For a Hermitian matrix with locked eigenvectors, the vector that takes the place of the old column is the residual of the new vector with its Rayleigh quotient; the new
    shift is a Ritz value of the plane of new vector and residual, and no Ritz value of that plane is nearer to the Rayleigh quotient.  `rt1`, `rt2` are the eigenvalues found by LAPACK. -/
theorem C150_wilkinson {st : RSt E} (hsym : A.IsSymmetric) (ho : Orth st.V (st.k + 1)) {y0 : E} (hy : A y0 - st.rho • y0 = st.V st.k)
    {l : ℕ → ℂ} (hl : ∀ j < st.k, A (st.V j) = l j • st.V j) (hn : ‖st.y y0‖ ≠ 0) {a2 : ℂ} (ha : st.alpha2 A y0 = some a2) {rt1 rt2 : ℂ}
    (hsum : rt1 + rt2 = st.quot y0 + a2) (hprod : rt1 * rt2 = st.quot y0 * a2 - (‖st.wres y0‖ : ℂ) * (‖st.wres y0‖ : ℂ)) :
    st.wres y0 = A (st.w y0) - inner ℂ (st.w y0) (A (st.w y0)) • st.w y0 ∧
      (∃ z, Ritz A (st.w y0) (st.wres y0) (pick (st.quot y0) rt1 rt2) z) ∧
      ∀ nu z, Ritz A (st.w y0) (st.wres y0) nu z → ‖pick (st.quot y0) rt1 rt2 - st.quot y0‖ ≤ ‖nu - st.quot y0‖ := by
  have hg := herm_eq hsym ho hy hl
  have hC : ∀ j < st.k, A (st.V j) = ∑ i ∈ range st.k, (if i = j then l j else 0) • st.V i := by
    intro j hj
    rw [hl j hj, Finset.sum_eq_single j]
    · rw [if_pos rfl]
    · intro i _ hne; rw [if_neg hne, zero_smul]
    · intro h; exact absurd (mem_range.mpr hj) h
  obtain ⟨hwn, _, hwq⟩ := C150_quotient (sgn := fun _ => 1) (fun _ => norm_one) ho hy hC hn
  rw [← w_eq] at hwn hwq
  set R := st.quot y0 with hR
  set w := st.w y0 with hw
  set r := st.wres y0 with hrdef
  have hnc : (‖st.y y0‖ : ℂ) ≠ 0 := by exact_mod_cast hn
  have hres : r = A w - R • w := by
    have hAy : A (st.y y0) = st.rho • st.y y0 + st.V st.k := by rw [← hg]; abel
    rw [hrdef, hw, hR]
    unfold RSt.wres RSt.w RSt.quot
    rw [map_smul, hAy]
    module
  have hbne : ‖r‖ ≠ 0 := by
    intro h; unfold RSt.alpha2 at ha; rw [if_pos h] at ha; cases ha
  have ha2 : inner ℂ r (A r) = a2 * ((‖r‖ : ℂ) * (‖r‖ : ℂ)) := by
    unfold RSt.alpha2 at ha
    rw [if_neg hbne] at ha
    have hbc : (‖r‖ : ℂ) ≠ 0 := by exact_mod_cast hbne
    rw [← Option.some.inj ha, ← hrdef]
    field_simp
  have hww : inner ℂ w w = (1 : ℂ) := inner_one_of_norm hwn
  have hwr : inner ℂ w r = (0 : ℂ) := by rw [hres, inner_sub_right, inner_smul_right, hwq, hww, mul_one, sub_self]
  have hrw : inner ℂ r w = (0 : ℂ) := by rw [← inner_conj_symm, hwr, map_zero]
  have hrr : inner ℂ r r = (‖r‖ : ℂ) * (‖r‖ : ℂ) := by rw [inner_self_eq_norm_sq_to_K]; simp [sq]
  have hAw : A w = r + R • w := by rw [hres]; abel
  have hrAw : inner ℂ r (A w) = (‖r‖ : ℂ) * (‖r‖ : ℂ) := by rw [hAw, inner_add_right, inner_smul_right, hrw, mul_zero, add_zero, hrr]
  have hwAr : inner ℂ w (A r) = (‖r‖ : ℂ) * (‖r‖ : ℂ) := by
    have e : inner ℂ w (A r) = (inner ℂ (A w) r : ℂ) := (hsym _ _).symm
    have hRr : star R = R := by
      have e2 : star (inner ℂ w (A w) : ℂ) = inner ℂ w (A w) := by
        rw [show star (inner ℂ w (A w) : ℂ) = (starRingEnd ℂ) (inner ℂ w (A w)) from rfl, inner_conj_symm]; exact hsym _ _
      rw [hwq] at e2; exact e2
    rw [e, hAw, inner_add_left, inner_smul_left, hwr, mul_zero, add_zero, hrr]
  obtain ⟨b, hb⟩ : ∃ b : ℂ, b = (‖r‖ : ℂ) * (‖r‖ : ℂ) := ⟨_, rfl⟩
  have hb0 : b ≠ 0 := by rw [hb]; have : (‖r‖ : ℂ) ≠ 0 := by exact_mod_cast hbne
                         exact mul_ne_zero this this
  rw [← hb] at hrr hrAw hwAr ha2 hprod
  -- the equations of a Ritz pair in coordinates
  have coord : ∀ (s t mu : ℂ), inner ℂ w (A (s • w + t • r) - mu • (s • w + t • r)) = s * R + t * b - mu * s ∧
      inner ℂ r (A (s • w + t • r) - mu • (s • w + t • r)) = s * b + t * (a2 * b) - mu * (t * b) := by
    intro s t mu
    constructor
    · rw [map_add, map_smul, map_smul, inner_sub_right, inner_add_right, inner_smul_right, inner_smul_right, inner_smul_right, inner_add_right, inner_smul_right, inner_smul_right,
        hwq, hwAr, hww, hwr]; ring
    · rw [map_add, map_smul, map_smul, inner_sub_right, inner_add_right, inner_smul_right, inner_smul_right, inner_smul_right, inner_add_right, inner_smul_right, inner_smul_right,
        hrAw, ha2, hrw, hrr]; ring
  have hroot : ∀ mu, (mu = rt1 ∨ mu = rt2) → mu * mu - (R + a2) * mu + (R * a2 - b) = 0 := by
    intro mu h
    rw [← hsum, ← hprod]
    rcases h with rfl | rfl <;> ring
  have hpick : pick R rt1 rt2 = rt1 ∨ pick R rt1 rt2 = rt2 := by
    unfold pick; by_cases h : ‖rt1 - R‖ < ‖rt2 - R‖
    · rw [if_pos h]; exact Or.inl rfl
    · rw [if_neg h]; exact Or.inr rfl
  refine ⟨by rw [hwq]; exact hres, ?_, ?_⟩
  · generalize pick R rt1 rt2 = mu at hpick
    have h := hroot mu hpick
    refine ⟨b • w + (mu - R) • r, ?_, ⟨_, _, rfl⟩, ?_, ?_⟩
    · intro h0
      have : inner ℂ w (b • w + (mu - R) • r) = b := by rw [inner_add_right, inner_smul_right, inner_smul_right, hww, hwr]; ring
      rw [h0, inner_zero_right] at this
      exact hb0 this.symm
    · rw [(coord b (mu - R) mu).1]; ring
    · rw [(coord b (mu - R) mu).2]; linear_combination (-b) * h
  · rintro nu z ⟨hz0, ⟨s, t, rfl⟩, h1, h2⟩
    rw [(coord s t nu).1] at h1
    rw [(coord s t nu).2] at h2
    have hdet : nu * nu - (R + a2) * nu + (R * a2 - b) = 0 := by
      have h2' : s + t * (a2 - nu) = 0 := by
        have : b * (s + t * (a2 - nu)) = 0 := by linear_combination h2
        exact (mul_eq_zero.mp this).resolve_left hb0
      have ht : t ≠ 0 := by
        intro ht; rw [ht, zero_mul, add_zero] at h2'
        apply hz0; rw [ht, h2']; simp
      have : t * (nu * nu - (R + a2) * nu + (R * a2 - b)) = 0 := by linear_combination (R - nu) * h2' - h1
      exact (mul_eq_zero.mp this).resolve_left ht
    have hfac : (nu - rt1) * (nu - rt2) = 0 := by
      have : (nu - rt1) * (nu - rt2) = nu * nu - (rt1 + rt2) * nu + rt1 * rt2 := by ring
      rw [this, hsum, hprod]; exact hdet
    unfold pick
    by_cases h : ‖rt1 - R‖ < ‖rt2 - R‖
    · rw [if_pos h]
      rcases mul_eq_zero.mp hfac with e | e
      · rw [sub_eq_zero.mp e]
      · rw [sub_eq_zero.mp e]; exact h.le
    · rw [if_neg h]
      push Not at h
      rcases mul_eq_zero.mp hfac with e | e
      · rw [sub_eq_zero.mp e]; exact h
      · rw [sub_eq_zero.mp e]

/-- **C150** (negation for Wilkinson shifts).  If the current vector is an eigenvector, the residual is zero and `alpha2` is 0/0, although the estimate need not be below the tolerance. -/
theorem C150_wilkinson_false {st : RSt E} (hk : st.k = 0) (hv : ‖st.V 0‖ = 1) {l : ℂ} (hl : l ≠ st.rho) (hA : A (st.V 0) = l • st.V 0) :
    A ((1 / (l - st.rho)) • st.V 0) - st.rho • ((1 / (l - st.rho)) • st.V 0) = st.V st.k ∧ st.alpha2 A ((1 / (l - st.rho)) • st.V 0) = none ∧
      (st.rho ≠ 0 → st.relerr ((1 / (l - st.rho)) • st.V 0) = some (‖l - st.rho‖ / ‖st.rho‖)) := by
  have hd : l - st.rho ≠ 0 := sub_ne_zero.mpr hl
  have hdn : ‖l - st.rho‖ ≠ 0 := norm_ne_zero_iff.mpr hd
  have hy : ∀ y0, st.y y0 = y0 := by intro y0; unfold RSt.y; rw [hk]; simp
  have hny : ‖st.y ((1 / (l - st.rho)) • st.V 0)‖ = 1 / ‖l - st.rho‖ := by rw [hy, norm_smul, hv, mul_one, norm_div, norm_one]
  refine ⟨?_, ?_, ?_⟩
  · rw [hk, map_smul, hA, smul_smul, smul_smul, ← sub_smul]
    have : 1 / (l - st.rho) * l - st.rho * (1 / (l - st.rho)) = 1 := by field_simp
    rw [this, one_smul]
  · have hth : st.theta ((1 / (l - st.rho)) • st.V 0) = 1 / (l - st.rho) := by
      unfold RSt.theta; rw [hy, hk, inner_smul_right, inner_one_of_norm hv, mul_one]
    have hw : st.wres ((1 / (l - st.rho)) • st.V 0) = 0 := by
      unfold RSt.wres
      rw [hny, hth, hy, hk, smul_smul]
      have h1 : star (1 / (l - st.rho)) / (((1 / ‖l - st.rho‖ : ℝ) : ℂ) * ((1 / ‖l - st.rho‖ : ℝ) : ℂ)) * (1 / (l - st.rho)) = 1 := by
        have h2 : star (l - st.rho) * (l - st.rho) = (‖l - st.rho‖ : ℂ) * (‖l - st.rho‖ : ℂ) := by
          have := RCLike.conj_mul (l - st.rho); simpa [sq] using this
        have h3 : (‖l - st.rho‖ : ℂ) ≠ 0 := by exact_mod_cast hdn
        have h4 : star (l - st.rho) ≠ 0 := star_ne_zero.mpr hd
        rw [star_div₀, star_one]
        push_cast
        generalize star (l - st.rho) = zs at h2 h4 ⊢
        field_simp
        linear_combination -h2
      rw [h1, one_smul, sub_self, smul_zero]
    unfold RSt.alpha2
    rw [hw, if_pos norm_zero]
  · intro hρ
    unfold RSt.relerr
    rw [hny, if_neg (by push Not; exact ⟨hρ, by positivity⟩)]
    congr 1
    have : ‖st.rho‖ ≠ 0 := norm_ne_zero_iff.mpr hρ
    field_simp

end Verif.Iter
