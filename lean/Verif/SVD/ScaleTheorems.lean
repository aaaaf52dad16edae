import Verif.SVD.ScaleModel
import Verif.SVD.ErrorTheorems

/-!
# C75: scaling and swapping of the two matrices is undone
-/
set_option linter.all false

namespace Verif.SVD

open Matrix
open Verif.EPS (norm2)

variable {𝕜 : Type*} [RCLike 𝕜]

theorem star_mulVec_dot {m n : Type*} [Fintype m] [Fintype n] (C : Matrix m n 𝕜) (x : n → 𝕜) (y : m → 𝕜) :
    star (C.mulVec x) ⬝ᵥ y = star x ⬝ᵥ Cᴴ.mulVec y := by
  rw [Matrix.star_mulVec, ← Matrix.dotProduct_mulVec]

/-- The transposed operator is the adjoint of the operator, for every scale factor. -/
theorem C75_adjoint {m n p : Type*} [Fintype m] [Fintype n] [Fintype p] (A1 : Matrix m n 𝕜) (B1 : Matrix p n 𝕜) (f : ℝ)
    (x : n → 𝕜) (y1 : m → 𝕜) (y2 : p → 𝕜) :
    star (multZ A1 B1 f x).1 ⬝ᵥ y1 + star (multZ A1 B1 f x).2 ⬝ᵥ y2 = star x ⬝ᵥ multZT A1 B1 f (y1, y2) := by
  show star (A1.mulVec x) ⬝ᵥ y1 + star ((f : 𝕜) • B1.mulVec x) ⬝ᵥ y2 =
    star x ⬝ᵥ (A1ᴴ.mulVec y1 + (f : 𝕜) • B1ᴴ.mulVec y2)
  rw [dotProduct_add, dotProduct_smul, star_smul, smul_dotProduct, star_mulVec_dot, star_mulVec_dot]
  simp

/-- Rescaling: a quadruple of `(A, z B)`, with any scale factor, is turned into a quadruple of `(A,B)`. -/
theorem rescale {m n p : Type*} [Fintype m] [Fintype n] [Fintype p] (A : Matrix m n 𝕜) (B : Matrix p n 𝕜) (z c s : ℝ)
    (hz : 0 < z) (u : m → 𝕜) (v : p → 𝕜) (x : n → 𝕜) (h : IsGsvd A ((z : 𝕜) • B) c s u v x) :
    let f := 1 / Real.sqrt (c * c + s / z * (s / z))
    IsGsvd A B (f * c) (f * (s / z)) u v ((f : 𝕜) • x) := by
  obtain ⟨hc, hs, hcs, hA, hB, w, hu, hv⟩ := h
  intro f
  have hq : 0 < c * c + s / z * (s / z) := by
    have : 0 < s / z := div_pos hs hz
    nlinarith [mul_self_nonneg c, mul_pos this this]
  have hf : 0 < f := by positivity
  have hf2 : f ^ 2 * (c * c + s / z * (s / z)) = 1 := by
    show (1 / Real.sqrt _) ^ 2 * _ = 1
    rw [div_pow, one_pow, Real.sq_sqrt hq.le]
    field_simp
  have hzk : (z : 𝕜) ≠ 0 := by exact_mod_cast hz.ne'
  have hfk : (f : 𝕜) ≠ 0 := by exact_mod_cast hf.ne'
  have hB' : B.mulVec x = ((s / z : ℝ) : 𝕜) • v := by
    rw [Matrix.smul_mulVec] at hB
    have := congrArg (fun t => ((z : 𝕜)⁻¹) • t) hB
    simp only [smul_smul, inv_mul_cancel₀ hzk, one_smul] at this
    rw [this]
    push_cast
    rw [div_eq_inv_mul]
  have hv' : Bᴴ.mulVec v = ((s / z : ℝ) : 𝕜) • w := by
    rw [Matrix.conjTranspose_smul, Matrix.smul_mulVec] at hv
    have e : star (z : 𝕜) = (z : 𝕜) := RCLike.conj_ofReal z
    rw [e] at hv
    have := congrArg (fun t => ((z : 𝕜)⁻¹) • t) hv
    simp only [smul_smul, inv_mul_cancel₀ hzk, one_smul] at this
    rw [this]
    push_cast
    rw [div_eq_inv_mul]
  refine ⟨by positivity, by positivity, ?_, ?_, ?_, ((f : 𝕜)⁻¹) • w, ?_, ?_⟩
  · rw [← hf2]; ring
  · rw [Matrix.mulVec_smul, hA, smul_smul]; push_cast; rfl
  · rw [Matrix.mulVec_smul, hB', smul_smul]; push_cast; rfl
  · rw [hu, smul_smul]; congr 1; push_cast; field_simp
  · rw [hv', smul_smul]; congr 1; push_cast; field_simp

theorem factor_eq {n : Type*} (z c s : ℝ) (hs : 0 < s) (hcs : c ^ 2 + s ^ 2 = 1) (x : n → 𝕜) :
    (if z ≠ 1 then
      let s' := 1 / Real.sqrt (1 + c / s * (c / s))
      let c' := c / s * s'
      let r := s' / z
      let f := 1 / Real.sqrt (c' * c' + r * r)
      (f : 𝕜) • x
    else x) = ((1 / Real.sqrt (c * c + s / z * (s / z)) : ℝ) : 𝕜) • x := by
  obtain ⟨g1, g2⟩ := gs_eq c s hs hcs
  unfold gc at g2
  rw [g1] at g2
  unfold gs at g1
  split_ifs with h
  · dsimp only
    rw [g1, g2]
  · push Not at h
    rw [h, div_one, show c * c + s * s = 1 by nlinarith, Real.sqrt_one]
    simp

/-- Not swapped: if the solver finds a quadruple of the scaled pair `(A, scalef B)`, the value and vectors returned are a
quadruple of the user's pair. -/
theorem C75_scaled {M N P : ℕ} (A : Matrix (Fin M) (Fin N) 𝕜) (B : Matrix (Fin P) (Fin N) 𝕜) (scalef c s : ℝ)
    (hz : 0 < scalef) (U1 U2 : ℕ → 𝕜) (x : Fin N → 𝕜)
    (h : IsGsvd A ((zscale false scalef : 𝕜) • B) c s (fun i => U1 i) (fun i => U2 i) x) :
    ∃ c' s' : ℝ, (backTransform false scalef (c / s) x).1 = c' / s' ∧
      IsGsvd A B c' s' (fun i => leftStack false M P U1 U2 i) (fun i => leftStack false M P U1 U2 (M + i))
        (backTransform false scalef (c / s) x).2 := by
  have hs := h.2.1
  have hcs := h.2.2.1
  have hr := rescale A B scalef c s hz _ _ x h
  refine ⟨1 / Real.sqrt (c * c + s / scalef * (s / scalef)) * c, 1 / Real.sqrt (c * c + s / scalef * (s / scalef)) * (s / scalef), ?_, ?_⟩
  rotate_left
  · have e1 : (fun i : Fin M => leftStack false M P U1 U2 i) = fun i : Fin M => U1 i := by
      funext i; simp [leftStack]
    have e2 : (fun i : Fin P => leftStack false M P U1 U2 (M + i)) = fun i : Fin P => U2 i := by
      funext i; simp [leftStack]
    rw [e1, e2]
    have e3 : (backTransform false scalef (c / s) x).2 = ((1 / Real.sqrt (c * c + s / scalef * (s / scalef)) : ℝ) : 𝕜) • x :=
      factor_eq scalef c s hs hcs x
    rw [e3]
    exact hr
  · have hf : 0 < 1 / Real.sqrt (c * c + s / scalef * (s / scalef)) := by
      have : 0 < s / scalef := div_pos hs hz
      have : 0 < c * c + s / scalef * (s / scalef) := by nlinarith [mul_self_nonneg c, mul_pos this this]
      positivity
    show c / s * scalef = _
    field_simp

/-- Swapped: the solver works with `(B, A/scalef)`; the value and vectors returned are a quadruple of `(A,B)`. -/
theorem C75_swapped {M N P : ℕ} (A : Matrix (Fin M) (Fin N) 𝕜) (B : Matrix (Fin P) (Fin N) 𝕜) (scalef c s : ℝ)
    (hz : 0 < scalef) (hc : 0 < c) (U1 U2 : ℕ → 𝕜) (x : Fin N → 𝕜)
    (h : IsGsvd B ((zscale true scalef : 𝕜) • A) c s (fun i => U1 i) (fun i => U2 i) x) :
    ∃ c' s' : ℝ, (backTransform true scalef (c / s) x).1 = c' / s' ∧
      IsGsvd A B c' s' (fun i => leftStack true P M U1 U2 i) (fun i => leftStack true P M U1 U2 (M + i))
        (backTransform true scalef (c / s) x).2 := by
  have hs := h.2.1
  have hcs := h.2.2.1
  have hz' : 0 < 1 / scalef := by positivity
  have hr := rescale B A (1 / scalef) c s hz' _ _ x h
  have hf : 0 < 1 / Real.sqrt (c * c + s / (1 / scalef) * (s / (1 / scalef))) := by
    have : 0 < s / (1 / scalef) := div_pos hs hz'
    have : 0 < c * c + s / (1 / scalef) * (s / (1 / scalef)) := by nlinarith [mul_self_nonneg c, mul_pos this this]
    positivity
  obtain ⟨k1, k2, k3, k4, k5, w, k6, k7⟩ := hr
  refine ⟨1 / Real.sqrt (c * c + s / (1 / scalef) * (s / (1 / scalef))) * (s / (1 / scalef)), 1 / Real.sqrt (c * c + s / (1 / scalef) * (s / (1 / scalef))) * c, ?_, ?_⟩
  rotate_left
  · have e1 : (fun i : Fin M => leftStack true P M U1 U2 i) = fun i : Fin M => U2 i := by
      funext i; simp [leftStack]
    have e2 : (fun i : Fin P => leftStack true P M U1 U2 (M + i)) = fun i : Fin P => U1 i := by
      funext i; simp [leftStack]
    rw [e1, e2]
    have e3 : (backTransform true scalef (c / s) x).2 =
        ((1 / Real.sqrt (c * c + s / (1 / scalef) * (s / (1 / scalef))) : ℝ) : 𝕜) • x :=
      factor_eq (1 / scalef) c s hs hcs x
    rw [e3]
    exact ⟨k2.le, mul_pos hf hc, (add_comm _ _).trans k3, k5, k4, w, k7, k6⟩
  · show 1 / (c / s * (1 / scalef)) = _
    field_simp

/-- The value shown to the monitor and the stopping test is the one finally returned. -/
theorem C75_monitor {n : Type*} (swapped : Bool) (scalef sigma : ℝ) (x : n → 𝕜) :
    backTransformOut swapped scalef sigma = (backTransform swapped scalef sigma x).1 := rfl

/-- A quadruple of a pair scaled by 2: `A=[3]`, `B=[2]`, `c=3/5`, `s=4/5`; the result has value 3/2. -/
example : IsGsvd (Matrix.of fun (_ _ : Fin 1) => (3:ℝ)) (((zscale false 2 : ℝ) : ℝ) • Matrix.of fun (_ _ : Fin 1) => (2:ℝ)) (3/5) (4/5)
    (fun _ => 1) (fun _ => 1) (fun _ => 1/5) ∧ (backTransform false 2 ((3/5 : ℝ) / (4/5)) (fun _ : Fin 1 => (1/5 : ℝ))).1 = 3 / 2 := by
  refine ⟨⟨by norm_num, by norm_num, by norm_num, ?_, ?_, fun _ => 5, ?_, ?_⟩, ?_⟩
  · ext i; simp [Matrix.mulVec, dotProduct] <;> norm_num
  · ext i; simp [Matrix.mulVec, dotProduct, zscale]; norm_num
  · ext i; simp [Matrix.mulVec, dotProduct] <;> norm_num
  · ext i; simp [Matrix.mulVec, dotProduct, zscale]; norm_num
  · simp [backTransform, zscale]; norm_num

/-- The swapped case: the solver works with `([2], [3]/1)`. -/
example : IsGsvd (Matrix.of fun (_ _ : Fin 1) => (4:ℝ)) (((zscale true 1 : ℝ) : ℝ) • Matrix.of fun (_ _ : Fin 1) => (3:ℝ)) (4/5) (3/5)
    (fun _ => 1) (fun _ => 1) (fun _ => 1/5) := by
  refine ⟨by norm_num, by norm_num, by norm_num, ?_, ?_, fun _ => 5, ?_, ?_⟩
  · ext i; simp [Matrix.mulVec, dotProduct] <;> norm_num
  · ext i; simp [Matrix.mulVec, dotProduct, zscale] <;> norm_num
  · ext i; simp [Matrix.mulVec, dotProduct] <;> norm_num
  · ext i; simp [Matrix.mulVec, dotProduct, zscale] <;> norm_num

end Verif.SVD
