import Verif.Ts.RitzModel
import Verif.Ts.Thm
import Verif.Iter.PowerThm
import Mathlib.LinearAlgebra.Matrix.ToLinearEquiv

/-!
# C169, C170: Ritz values and error estimates of two-sided Krylov-Schur
-/
set_option linter.all false

namespace Verif.Ts

open Finset Verif.Iter

variable {E : Type} [NormedAddCommGroup E] [InnerProductSpace ℂ E] {A At : E →ₗ[ℂ] E}

/-- the adjoint relation of the operator and OpHT -/
def Adj (A At : E →ₗ[ℂ] E) : Prop := ∀ x y, inner ℂ (At x) y = inner ℂ x (A y)

/-- **C169** the corrected residual vectors are orthogonal to the other basis, for any lengths. -/
theorem C169_orth {st : TSt E} (hr : Reach A At st) {nv : ℕ} (hp : st.p < nv) {w y : ℕ → ℂ} (hs : Solves A At nv w y st) {i : ℕ} (hi : i < (mid A At nv w y st).nv) :
    inner ℂ ((mid A At nv w y st).L.V i) ((mid A At nv w y st).R.V (mid A At nv w y st).nv) = (0 : ℂ) ∧
    inner ℂ ((mid A At nv w y st).R.V i) ((mid A At nv w y st).L.V (mid A At nv w y st).nv) = (0 : ℂ) := by
  obtain ⟨a1, a2, hg, hlen⟩ := mid_spec (reach_inv hr) hp
  have hi : i < lenOut A At nv st := hi
  have q1 : ∀ j < lenOut A At nv st, (mid A At nv w y st).R.V j = (rightOut A nv st).s.V j := fun j hj => Function.update_of_ne (by omega) _ _
  have q2 : ∀ j < lenOut A At nv st, (mid A At nv w y st).L.V j = (leftOut A At nv st).s.V j := fun j hj => Function.update_of_ne (by omega) _ _
  have u1 : (mid A At nv w y st).R.V (mid A At nv w y st).nv = (rightOut A nv st).s.V (lenOut A At nv st) - ∑ j ∈ range (lenOut A At nv st), w j • (rightOut A nv st).s.V j := Function.update_self _ _ _
  have u2 : (mid A At nv w y st).L.V (mid A At nv w y st).nv = (leftOut A At nv st).s.V (lenOut A At nv st) - ∑ j ∈ range (lenOut A At nv st), y j • (leftOut A At nv st).s.V j := Function.update_self _ _ _
  constructor
  · have h1 := hs.1 i hi
    beta_reduce at h1
    rw [q2 i hi, u1, inner_sub_right, inner_sum, ← h1, sub_eq_zero]
    refine sum_congr rfl fun j hj => ?_
    rw [inner_smul_right, hg i hi j (mem_range.mp hj), mul_comm]
  · have h2 := hs.2 i hi
    beta_reduce at h2
    rw [q1 i hi, u2, inner_sub_right, inner_sum, ← h2, sub_eq_zero]
    refine sum_congr rfl fun j hj => ?_
    rw [inner_smul_right, hg j (mem_range.mp hj) i hi, mul_comm]
    congr 1
    exact inner_conj_symm _ _

/-- both corrected factorizations when the lengths are equal -/
theorem mid_fixed {st : TSt E} (hr : Reach A At st) {nv : ℕ} (hp : st.p < nv) {w y : ℕ → ℂ} (he : (rightOut A nv st).m = (leftOut A At nv st).m) :
    Fixed A st.nc (mid A At nv w y st).nv (mid A At nv w y st).beta (mid A At nv w y st).R ∧ Fixed At st.nc (mid A At nv w y st).nv (mid A At nv w y st).betat (mid A At nv w y st).L := by
  obtain ⟨a1, a2, hg, hlen⟩ := mid_spec (reach_inv hr) hp
  constructor
  · have := fix_spec a1 w; rw [he, ← hlen] at this; exact this
  · have := fix_spec a2 y; rw [← hlen] at this; exact this

/-- **C169** the residuals of the active columns are orthogonal to the other basis: the corrected matrices are the oblique projections. -/
theorem C169_residual {st : TSt E} (hr : Reach A At st) {nv : ℕ} (hp : st.p < nv) {w y : ℕ → ℂ} (hs : Solves A At nv w y st) (he : (rightOut A nv st).m = (leftOut A At nv st).m)
    {m : Mid E} (hm : m = mid A At nv w y st) {i c : ℕ} (hi : i < m.nv) (hc : st.nc ≤ c) (hcn : c < m.nv) :
    inner ℂ (m.L.V i) (A (m.R.V c) - ∑ p ∈ range m.nv, m.R.H p c • m.R.V p) = (0 : ℂ) ∧
    inner ℂ (m.R.V i) (At (m.L.V c) - ∑ p ∈ range m.nv, m.L.H p c • m.L.V p) = (0 : ℂ) := by
  subst hm
  obtain ⟨f1, f2⟩ := mid_fixed hr hp (w := w) (y := y) he
  obtain ⟨o1, o2⟩ := C169_orth hr hp hs hi
  constructor
  · rw [f1.rel c hc hcn, add_sub_cancel_left, inner_smul_right, o1, mul_zero]
  · rw [f2.rel c hc hcn, add_sub_cancel_left, inner_smul_right, o2, mul_zero]

/-- leading block as a matrix -/
def blk (nv : ℕ) (H : ℕ → ℕ → ℂ) : Matrix (Fin nv) (Fin nv) ℂ := Matrix.of fun i j => H i j

/-- **C169** the two projected matrices are related by `M S = T^H M`. -/
theorem C169_similar {st : TSt E} (hr : Reach A At st) (hnc : st.nc = 0) (ha : Adj A At) {nv : ℕ} (hp : st.p < nv) {w y : ℕ → ℂ} (hs : Solves A At nv w y st) (he : (rightOut A nv st).m = (leftOut A At nv st).m)
    {m : Mid E} (hm : m = mid A At nv w y st) : blk m.nv m.M * blk m.nv m.R.H = (blk m.nv m.L.H).conjTranspose * blk m.nv m.M := by
  have hG : GramOk m.nv m.R.V m.L.V m.M := by
    obtain ⟨a1, a2, hg, hlen⟩ := mid_spec (reach_inv hr) hp
    subst hm
    intro i hi j hj
    have hi : i < lenOut A At nv st := hi
    have hj : j < lenOut A At nv st := hj
    have q1 : (mid A At nv w y st).R.V j = (rightOut A nv st).s.V j := Function.update_of_ne (by omega) _ _
    have q2 : (mid A At nv w y st).L.V i = (leftOut A At nv st).s.V i := Function.update_of_ne (by omega) _ _
    rw [q1, q2]; exact hg i hi j hj
  ext i j
  obtain ⟨o1, _⟩ := C169_residual hr hp hs he hm i.2 (by omega : st.nc ≤ j.1) j.2
  obtain ⟨_, o2⟩ := C169_residual hr hp hs he hm j.2 (by omega : st.nc ≤ i.1) i.2
  rw [inner_sub_right, sub_eq_zero, inner_sum] at o1 o2
  rw [Matrix.mul_apply, Matrix.mul_apply]
  have l1 : ∑ p : Fin m.nv, blk m.nv m.M i p * blk m.nv m.R.H p j = inner ℂ (m.L.V i) (A (m.R.V j)) := by
    rw [o1, ← Fin.sum_univ_eq_sum_range (fun p => inner ℂ (m.L.V i) (m.R.H p j • m.R.V p))]
    refine sum_congr rfl fun p _ => ?_
    rw [inner_smul_right, ← hG i i.2 p p.2, mul_comm]; rfl
  have l2 : ∑ p : Fin m.nv, (blk m.nv m.L.H).conjTranspose i p * blk m.nv m.M p j = inner ℂ (At (m.L.V i)) (m.R.V j) := by
    rw [← inner_conj_symm, o2, ← Fin.sum_univ_eq_sum_range (fun p => inner ℂ (m.R.V j) (m.L.H p i • m.L.V p)), map_sum]
    refine sum_congr rfl fun p _ => ?_
    rw [inner_smul_right, map_mul, inner_conj_symm, ← hG p p.2 j j.2]; rfl
  rw [l1, l2, ha]

/-- **C169** (partial: exact arithmetic, no locked columns). A number is an eigenvalue of the right projected matrix exactly when its conjugate is one of the left matrix. -/
theorem C169_eigen_partial {st : TSt E} (hr : Reach A At st) (hnc : st.nc = 0) (ha : Adj A At) {nv : ℕ} (hp : st.p < nv) {w y : ℕ → ℂ} (hs : Solves A At nv w y st) (he : (rightOut A nv st).m = (leftOut A At nv st).m)
    {m : Mid E} (hm : m = mid A At nv w y st) (hM : (blk m.nv m.M).det ≠ 0) (theta : ℂ) :
    (∃ x, x ≠ 0 ∧ (blk m.nv m.R.H).mulVec x = theta • x) ↔ ∃ y, y ≠ 0 ∧ (blk m.nv m.L.H).mulVec y = star theta • y := by
  have key : ∀ (B : Matrix (Fin m.nv) (Fin m.nv) ℂ) (t : ℂ), (∃ x, x ≠ 0 ∧ B.mulVec x = t • x) ↔ (B - t • (1 : Matrix (Fin m.nv) (Fin m.nv) ℂ)).det = 0 := by
    intro B t
    rw [← Matrix.exists_mulVec_eq_zero_iff]
    refine exists_congr fun x => and_congr_right fun _ => ?_
    rw [Matrix.sub_mulVec, Matrix.smul_mulVec, Matrix.one_mulVec, sub_eq_zero]
  rw [key, key]
  have hsim := C169_similar hr hnc ha hp hs he hm
  have h1 : blk m.nv m.M * (blk m.nv m.R.H - theta • 1) = ((blk m.nv m.L.H).conjTranspose - theta • 1) * blk m.nv m.M := by
    rw [mul_sub, sub_mul, hsim]; simp
  have h2 := congrArg Matrix.det h1
  rw [Matrix.det_mul, Matrix.det_mul, mul_comm] at h2
  have h3 := mul_right_cancel₀ hM h2
  have h4 : (blk m.nv m.L.H).conjTranspose - theta • (1 : Matrix (Fin m.nv) (Fin m.nv) ℂ) = (blk m.nv m.L.H - star theta • (1 : Matrix (Fin m.nv) (Fin m.nv) ℂ)).conjTranspose := by
    rw [Matrix.conjTranspose_sub, Matrix.conjTranspose_smul, star_star, Matrix.conjTranspose_one]
  rw [h3, h4, Matrix.det_conjTranspose, star_eq_zero]

/-- residual of a Ritz pair of one factorization -/
theorem fixed_residual {nv : ℕ} (h0 : 0 < nv) {beta : ℝ} {s : Half E} (hf : Fixed A 0 nv beta s) {theta : ℂ} {x : ℕ → ℂ} (hx : EigVec nv s.H theta x) :
    A (ritzVec nv s.V x) - theta • ritzVec nv s.V x = (x (nv - 1) * beta) • s.V nv := by
  unfold ritzVec
  have e1 : A (∑ j ∈ range nv, x j • s.V j) = ∑ i ∈ range nv, (∑ j ∈ range nv, s.H i j * x j) • s.V i + (∑ j ∈ range nv, s.H nv j * x j) • s.V nv := by
    rw [map_sum]
    have : ∀ j ∈ range nv, A (x j • s.V j) = ∑ i ∈ range nv, (s.H i j * x j) • s.V i + (s.H nv j * x j) • s.V nv := by
      intro j hj
      rw [map_smul, hf.rel j (by omega) (mem_range.mp hj), smul_add, smul_sum, smul_smul, mul_comm (x j)]
      congr 1
      exact sum_congr rfl fun i _ => by rw [smul_smul, mul_comm]
    rw [sum_congr rfl this, sum_add_distrib, sum_comm, sum_smul]
    congr 1
    exact sum_congr rfl fun i _ => by rw [sum_smul]
  have e2 : ∑ j ∈ range nv, s.H nv j * x j = x (nv - 1) * beta := by
    rw [sum_eq_single (nv - 1), hf.last, mul_comm]
    · intro j hj hne
      rw [hf.row j (by omega) (by have := mem_range.mp hj; omega), zero_mul]
    · intro h; exact absurd (mem_range.mpr (by omega)) h
  rw [e1, e2, smul_sum, sum_congr rfl (fun i hi => by rw [hx.1 i (mem_range.mp hi), mul_smul]), add_sub_cancel_left]

theorem ritz_unit {nv : ℕ} {V : ℕ → E} (ho : OrthoN V nv) {x : ℕ → ℂ} (hx : ∑ i ∈ range nv, ‖x i‖ ^ 2 = 1) : ‖ritzVec nv V x‖ = 1 := by
  have h : inner ℂ (ritzVec nv V x) (ritzVec nv V x) = (1 : ℂ) := by
    unfold ritzVec
    rw [sum_inner]
    have : ∀ i ∈ range nv, inner ℂ (x i • V i) (∑ j ∈ range nv, x j • V j) = ((‖x i‖ ^ 2 : ℝ) : ℂ) := by
      intro i hi
      rw [inner_smul_left, inner_sum, sum_eq_single i]
      · rw [inner_smul_right, ho i (mem_range.mp hi) i (mem_range.mp hi), if_pos rfl, mul_one, mul_comm, Complex.mul_conj, Complex.normSq_eq_norm_sq]
      · intro j hj hne
        rw [inner_smul_right, ho i (mem_range.mp hi) j (mem_range.mp hj), if_neg (Ne.symm hne), mul_zero]
      · intro h; exact absurd hi h
    rw [sum_congr rfl this, ← Complex.ofReal_sum, hx, Complex.ofReal_one]
  exact norm_of_inner_one h

/-- **C170** (partial: exact arithmetic, factorizations of equal length, no locked columns, absolute test). The error estimate of a pair is the larger of the residual norms of the right and left Ritz vectors, which have unit norm. -/
theorem C170_partial {st : TSt E} (hr : Reach A At st) (hnc : st.nc = 0) {nv : ℕ} (hp : st.p < nv) {w y : ℕ → ℂ} (he : (rightOut A nv st).m = (leftOut A At nv st).m)
    {m : Mid E} (hm : m = mid A At nv w y st) {t1 t2 : ℂ} {x z : ℕ → ℂ} (hx : EigVec m.nv m.R.H t1 x) (hz : EigVec m.nv m.L.H t2 z) :
    ‖ritzVec m.nv m.R.V x‖ = 1 ∧ ‖ritzVec m.nv m.L.V z‖ = 1 ∧
    errEst m x z = max ‖A (ritzVec m.nv m.R.V x) - t1 • ritzVec m.nv m.R.V x‖ ‖At (ritzVec m.nv m.L.V z) - t2 • ritzVec m.nv m.L.V z‖ := by
  obtain ⟨a1, a2, _, hlen⟩ := mid_spec (reach_inv hr) hp
  obtain ⟨f1, f2⟩ := mid_fixed hr hp (w := w) (y := y) he
  rw [← hm, hnc] at f1 f2
  have hpos : 0 < m.nv := by
    have : st.p < (leftOut A At nv st).m := a2.lo
    subst hm
    show 0 < lenOut A At nv st
    omega
  have b1 : 0 ≤ m.beta := by subst hm; exact a1.nonneg
  have b2 : 0 ≤ m.betat := by subst hm; exact a2.nonneg
  refine ⟨ritz_unit f1.ortho hx.2, ritz_unit f2.ortho hz.2, ?_⟩
  rw [fixed_residual hpos f1 hx, fixed_residual hpos f2 hz, norm_smul, norm_smul, norm_mul, norm_mul, Complex.norm_real, Complex.norm_real, Real.norm_of_nonneg b1, Real.norm_of_nonneg b2]
  unfold errEst rightEst leftEst
  rw [mul_assoc, mul_assoc]

end Verif.Ts
