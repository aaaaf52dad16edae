import Mathlib.Analysis.InnerProductSpace.Spectrum
import Mathlib.Analysis.InnerProductSpace.Adjoint
import Mathlib.Analysis.InnerProductSpace.SingularValues
import Verif.SVD.ErrorModel
import Verif.SVD.ErrorSpec

set_option linter.all false

namespace Verif.SVD

open Module

variable {𝕜 E F : Type*} [RCLike 𝕜] [NormedAddCommGroup E] [InnerProductSpace 𝕜 E] [FiniteDimensional 𝕜 E]
  [NormedAddCommGroup F] [InnerProductSpace 𝕜 F] [FiniteDimensional 𝕜 F]

local notation "⟪" x ", " y "⟫" => inner 𝕜 x y

/-- Scalar estimate behind the bound. -/
theorem scalar_bound {s sg a p q : ℝ} (hs : 0 ≤ s) (hg : 0 ≤ sg)
    (h : |s ^ 2 - sg ^ 2| * |a| ≤ s * |p| + sg * |q|) (hp : s = 0 → p = 0) :
    (s - sg) ^ 2 * |a| ^ 2 ≤ |p| ^ 2 + |q| ^ 2 ∨ (s = 0 ∧ sg = 0) := by
  by_cases h0 : s + sg = 0
  · right; constructor <;> linarith
  · left
    have hpos : 0 < s + sg := lt_of_le_of_ne (by linarith) (Ne.symm h0)
    have e : |s ^ 2 - sg ^ 2| = |s - sg| * (s + sg) := by
      rw [show s ^ 2 - sg ^ 2 = (s - sg) * (s + sg) by ring, abs_mul, abs_of_pos hpos]
    rw [e] at h
    have h1 : (|s - sg| * |a| * (s + sg)) ^ 2 ≤ (s * |p| + sg * |q|) ^ 2 := by
      apply pow_le_pow_left₀ (by positivity)
      nlinarith
    have h2 : (s * |p| + sg * |q|) ^ 2 ≤ (s + sg) ^ 2 * (|p| ^ 2 + |q| ^ 2) := by
      have : 0 ≤ s * sg := mul_nonneg hs hg
      nlinarith [sq_nonneg (s * |q| - sg * |p|), sq_nonneg (|p|), sq_nonneg (|q|), abs_nonneg p, abs_nonneg q,
        mul_nonneg this (add_nonneg (sq_nonneg (|p|)) (sq_nonneg (|q|)))]
    have h3 : (s + sg) ^ 2 * ((s - sg) ^ 2 * |a| ^ 2) ≤ (s + sg) ^ 2 * (|p| ^ 2 + |q| ^ 2) := by
      calc _ = (|s - sg| * |a| * (s + sg)) ^ 2 := by rw [mul_pow, mul_pow, sq_abs (s - sg)]; ring
        _ ≤ _ := le_trans h1 h2
    exact le_of_mul_le_mul_left h3 (by positivity)

theorem sv_close (T : E →ₗ[𝕜] F) (v : E) (u : F) (sg : ℝ) (hg : 0 ≤ sg) (hv : ‖v‖ = 1) :
    ∃ (s : ℝ) (b : E), 0 ≤ s ∧ ‖b‖ = 1 ∧ T.adjoint (T b) = ((s ^ 2 : ℝ) : 𝕜) • b ∧
      (s - sg) ^ 2 ≤ ‖T v - (sg : 𝕜) • u‖ ^ 2 + ‖T.adjoint u - (sg : 𝕜) • v‖ ^ 2 := by
  set r1 := T v - (sg : 𝕜) • u with hr1
  set r2 := T.adjoint u - (sg : 𝕜) • v with hr2
  have hsym := T.isSymmetric_adjoint_comp_self
  set b := hsym.eigenvectorBasis (rfl : finrank 𝕜 E = _) with hb
  set mu := hsym.eigenvalues (rfl : finrank 𝕜 E = _) with hmu
  have hmu0 : ∀ i, 0 ≤ mu i := fun i => T.isPositive_adjoint_comp_self.nonneg_eigenvalues rfl i
  have heig : ∀ i, T.adjoint (T (b i)) = (mu i : 𝕜) • b i := fun i => hsym.apply_eigenvectorBasis rfl i
  let s : Fin (finrank 𝕜 E) → ℝ := fun i => Real.sqrt (mu i)
  have hs2 : ∀ i, s i ^ 2 = mu i := fun i => Real.sq_sqrt (hmu0 i)
  have hs0 : ∀ i, 0 ≤ s i := fun i => Real.sqrt_nonneg _
  -- orthonormal family of left vectors
  let J := {i : Fin (finrank 𝕜 E) // s i ≠ 0}
  let e : J → F := fun i => ((1 / s i.1 : ℝ) : 𝕜) • T (b i.1)
  have inn : ∀ i j, ⟪T (b i), T (b j)⟫ = if i = j then (mu j : 𝕜) else 0 := by
    intro i j
    rw [← LinearMap.adjoint_inner_right, heig j, inner_smul_right, orthonormal_iff_ite.mp b.orthonormal i j]
    split_ifs <;> simp
  have he : Orthonormal 𝕜 e := by
    rw [orthonormal_iff_ite]
    intro i j
    show ⟪((1 / s i.1 : ℝ) : 𝕜) • T (b i.1), ((1 / s j.1 : ℝ) : 𝕜) • T (b j.1)⟫ = _
    rw [inner_smul_left, inner_smul_right, inn, RCLike.conj_ofReal]
    by_cases hij : i = j
    · subst hij
      rw [if_pos rfl, if_pos rfl, ← hs2 i.1]
      have := i.2
      norm_cast
      field_simp
    · rw [if_neg hij, if_neg (fun h => hij (Subtype.ext h))]; simp
  have hB1 : ∑ i : J, ‖⟪e i, r1⟫‖ ^ 2 ≤ ‖r1‖ ^ 2 := he.sum_inner_products_le r1
  have hB2 : ∑ i, ‖⟪b i, r2⟫‖ ^ 2 = ‖r2‖ ^ 2 := b.sum_sq_norm_inner_right r2
  have hB3 : ∑ i, ‖⟪b i, v⟫‖ ^ 2 = 1 := by rw [b.sum_sq_norm_inner_right v, hv]; norm_num
  -- key relation
  let pp : Fin (finrank 𝕜 E) → ℝ := fun i => if h : s i ≠ 0 then ‖⟪e ⟨i, h⟩, r1⟫‖ else 0
  have hpp : ∑ i, pp i ^ 2 = ∑ i : J, ‖⟪e i, r1⟫‖ ^ 2 := by
    have h1 : ∑ i, pp i ^ 2 = ∑ i ∈ Finset.univ.filter (fun i => s i ≠ 0), pp i ^ 2 := by
      symm
      apply Finset.sum_subset (Finset.filter_subset _ _)
      intro i _ hi
      have h0 : ¬ (s i ≠ 0) := by simpa using hi
      show pp i ^ 2 = 0
      have : pp i = 0 := dif_neg h0
      rw [this]; norm_num
    rw [h1, Finset.sum_subtype (Finset.univ.filter (fun i => s i ≠ 0)) (p := fun i => s i ≠ 0) (by simp)]
    apply Finset.sum_congr rfl
    intro i _
    have : pp i.1 = ‖⟪e i, r1⟫‖ := dif_pos i.2
    rw [this]
  have hrel : ∀ i, ((mu i - sg ^ 2 : ℝ) : 𝕜) * ⟪b i, v⟫ = ⟪T (b i), r1⟫ + (sg : 𝕜) * ⟪b i, r2⟫ := by
    intro i
    have e1 : ⟪T (b i), T v⟫ = (mu i : 𝕜) * ⟪b i, v⟫ := by
      rw [← LinearMap.adjoint_inner_left, heig i, inner_smul_left, RCLike.conj_ofReal]
    have e2 : ⟪T (b i), u⟫ = ⟪b i, T.adjoint u⟫ := (LinearMap.adjoint_inner_right T (b i) u).symm
    rw [hr1, hr2, inner_sub_right, inner_sub_right, inner_smul_right, inner_smul_right, e1, e2]
    push_cast
    ring
  have hTb : ∀ i, ‖⟪T (b i), r1⟫‖ = s i * pp i := by
    intro i
    by_cases h : s i ≠ 0
    · have e1 : pp i = ‖⟪e ⟨i, h⟩, r1⟫‖ := dif_pos h
      have e2 : T (b i) = (s i : 𝕜) • e ⟨i, h⟩ := by
        show T (b i) = (s i : 𝕜) • (((1 / s i : ℝ) : 𝕜) • T (b i))
        rw [smul_smul, ← RCLike.ofReal_mul, mul_one_div_cancel h]; simp
      rw [e1, e2, inner_smul_left, RCLike.conj_ofReal, norm_mul, RCLike.norm_ofReal, abs_of_nonneg (hs0 i)]
    · have h0 : s i = 0 := by simpa using h
      have hm : mu i = 0 := by rw [← hs2 i, h0]; norm_num
      have : T (b i) = 0 := by
        have := inn i i
        rw [if_pos rfl, hm] at this
        exact inner_self_eq_zero.mp (this.trans (by simp))
      rw [this, h0]; simp
  have hpp0 : ∀ i, 0 ≤ pp i := by
    intro i
    show 0 ≤ dite _ _ _
    split_ifs <;> simp
  have hbd : ∀ i, |s i ^ 2 - sg ^ 2| * ‖⟪b i, v⟫‖ ≤ s i * pp i + sg * ‖⟪b i, r2⟫‖ := by
    intro i
    have := congrArg norm (hrel i)
    rw [norm_mul, RCLike.norm_ofReal, ← hs2 i] at this
    rw [this, ← hTb i]
    refine le_trans (norm_add_le _ _) ?_
    rw [norm_mul, RCLike.norm_ofReal, abs_of_nonneg hg]
  by_contra hcon
  push Not at hcon
  have hall : ∀ i, ‖r1‖ ^ 2 + ‖r2‖ ^ 2 < (s i - sg) ^ 2 := by
    intro i
    exact hcon (s i) (b i) (hs0 i) (b.orthonormal.1 i) (by rw [hs2 i]; exact heig i)
  have hle : ∀ i, (s i - sg) ^ 2 * ‖⟪b i, v⟫‖ ^ 2 ≤ pp i ^ 2 + ‖⟪b i, r2⟫‖ ^ 2 := by
    intro i
    have hb' : |s i ^ 2 - sg ^ 2| * |‖⟪b i, v⟫‖| ≤ s i * |pp i| + sg * |‖⟪b i, r2⟫‖| := by
      rw [abs_of_nonneg (hpp0 i), abs_of_nonneg (norm_nonneg _), abs_of_nonneg (norm_nonneg _)]
      exact hbd i
    rcases scalar_bound (hs0 i) hg hb' (fun h => by
      show dite _ _ _ = _
      rw [dif_neg (by simpa using h)]) with h | ⟨h1, h2⟩
    · rwa [abs_of_nonneg (hpp0 i), abs_of_nonneg (norm_nonneg _), abs_of_nonneg (norm_nonneg _)] at h
    · rw [h1, h2]; simp; positivity
  have hsum : ∑ i, (s i - sg) ^ 2 * ‖⟪b i, v⟫‖ ^ 2 ≤ ‖r1‖ ^ 2 + ‖r2‖ ^ 2 := by
    calc _ ≤ ∑ i, (pp i ^ 2 + ‖⟪b i, r2⟫‖ ^ 2) := Finset.sum_le_sum fun i _ => hle i
      _ = (∑ i, pp i ^ 2) + ∑ i, ‖⟪b i, r2⟫‖ ^ 2 := Finset.sum_add_distrib
      _ ≤ _ := by rw [hpp, hB2]; linarith
  obtain ⟨i0, hi0⟩ : ∃ i, 0 < ‖⟪b i, v⟫‖ ^ 2 := by
    by_contra h
    push Not at h
    have : ∑ i, ‖⟪b i, v⟫‖ ^ 2 ≤ 0 := Finset.sum_nonpos fun i _ => h i
    linarith
  have hlt : ∑ i, (‖r1‖ ^ 2 + ‖r2‖ ^ 2) * ‖⟪b i, v⟫‖ ^ 2 < ∑ i, (s i - sg) ^ 2 * ‖⟪b i, v⟫‖ ^ 2 := by
    apply Finset.sum_lt_sum
    · intro i _
      exact mul_le_mul_of_nonneg_right (hall i).le (sq_nonneg _)
    · exact ⟨i0, Finset.mem_univ _, mul_lt_mul_of_pos_right (hall i0) hi0⟩
  rw [← Finset.mul_sum, hB3, mul_one] at hlt
  linarith

/-- A singular value with unit vectors on both sides. -/
theorem sv_exists (T : E →ₗ[𝕜] F) (hd : finrank 𝕜 E ≤ finrank 𝕜 F) (s : ℝ) (hs : 0 ≤ s) (b : E) (hb : ‖b‖ = 1)
    (h : T.adjoint (T b) = ((s ^ 2 : ℝ) : 𝕜) • b) :
    ∃ w : F, ‖w‖ = 1 ∧ T b = (s : 𝕜) • w ∧ T.adjoint w = (s : 𝕜) • b := by
  have hn : ‖T b‖ ^ 2 = s ^ 2 := by
    have h1 : ⟪T b, T b⟫ = ((s ^ 2 : ℝ) : 𝕜) := by
      rw [← LinearMap.adjoint_inner_right, h, inner_smul_right, inner_self_eq_norm_sq_to_K, hb]; simp
    rw [inner_self_eq_norm_sq_to_K] at h1
    exact_mod_cast h1
  have hn' : ‖T b‖ = s := by
    have := abs_eq_abs.mpr (sq_eq_sq_iff_eq_or_eq_neg.mp hn)
    rwa [abs_of_nonneg (norm_nonneg _), abs_of_nonneg hs] at this
  by_cases h0 : s = 0
  · have hTb : T b = 0 := by rw [h0] at hn'; exact norm_eq_zero.mp hn'
    have hbne : b ≠ 0 := by intro h; rw [h] at hb; simp at hb
    have hker : 0 < finrank 𝕜 (LinearMap.ker T) := by
      rw [finrank_pos_iff_exists_ne_zero]
      exact ⟨⟨b, by simpa using hTb⟩, by simpa using hbne⟩
    have hr : finrank 𝕜 (LinearMap.range T) < finrank 𝕜 F := by
      have := LinearMap.finrank_range_add_finrank_ker T
      omega
    have hperp : (LinearMap.range T)ᗮ ≠ ⊥ := by
      intro hh
      have := Submodule.finrank_add_finrank_orthogonal (LinearMap.range T)
      rw [hh, finrank_bot] at this
      omega
    obtain ⟨w, hw, hwne⟩ := Submodule.exists_mem_ne_zero_of_ne_bot hperp
    refine ⟨((1 / ‖w‖ : ℝ) : 𝕜) • w, ?_, ?_, ?_⟩
    · rw [norm_smul, RCLike.norm_ofReal, abs_of_nonneg (by positivity)]
      have : ‖w‖ ≠ 0 := norm_ne_zero_iff.mpr hwne
      field_simp
    · rw [h0, hTb]; simp
    · have : T.adjoint w = 0 := by
        apply ext_inner_right 𝕜
        intro y
        rw [LinearMap.adjoint_inner_left, inner_zero_left]
        exact Submodule.inner_left_of_mem_orthogonal (LinearMap.mem_range_self T y) hw
      rw [map_smul, this, h0]; simp
  · refine ⟨((1 / s : ℝ) : 𝕜) • T b, ?_, ?_, ?_⟩
    · rw [norm_smul, RCLike.norm_ofReal, hn', abs_of_nonneg (by positivity)]; field_simp
    · rw [smul_smul, ← RCLike.ofReal_mul, mul_one_div_cancel h0]; simp
    · rw [map_smul, h, smul_smul, ← RCLike.ofReal_mul]
      congr 2
      field_simp

end Verif.SVD
