import Verif.GKL.Model
/-! Lemmas about one step of the bidiagonalization. -/
set_option linter.all false
namespace Verif.GKL
open Verif.BV Verif.BVB Finset
variable {𝕜 E F : Type} [RCLike 𝕜] [NormedAddCommGroup E] [InnerProductSpace 𝕜 E] [NormedAddCommGroup F] [InnerProductSpace 𝕜 F]

/-- A vector orthogonal to columns is orthogonal to their span. -/
theorem inner_span {col : ℕ → E} {n : ℕ} {x u : E} (hx : ∀ m < n, inner 𝕜 (col m) x = 0) (hu : u ∈ Biorth.spanOf 𝕜 col n) : inner 𝕜 u x = 0 := by
  unfold Biorth.spanOf at hu
  refine Submodule.span_induction (p := fun y _ => inner 𝕜 y x = 0) ?_ ?_ ?_ ?_ hu
  · rintro y ⟨m, hm, rfl⟩; exact hx m hm
  · exact inner_zero_left _
  · intro y z _ _ hy hz; rw [inner_add_left, hy, hz, add_zero]
  · intro a y _ hy; rw [inner_smul_left, hy, mul_zero]

theorem inner_span' {col : ℕ → E} {n : ℕ} {x u : E} (hx : ∀ m < n, inner 𝕜 (col m) x = 0) (hu : u ∈ Biorth.spanOf 𝕜 col n) : inner 𝕜 x u = 0 := by
  rw [← inner_conj_symm, inner_span hx hu, map_zero]

theorem sum_mem_span {col : ℕ → E} {n : ℕ} (t : Finset ℕ) (ht : ∀ m ∈ t, m < n) (f : ℕ → 𝕜) : ∑ m ∈ t, f m • col m ∈ Biorth.spanOf 𝕜 col n :=
  Submodule.sum_mem _ fun m hm => Submodule.smul_mem _ _ (Biorth.mem_spanOf (ht m hm))

/-- Inner product with a combination of orthonormal vectors. -/
theorem inner_comb {col : ℕ → E} {n : ℕ} (h : Insert.ON 𝕜 col n) (t : Finset ℕ) (ht : ∀ m ∈ t, m < n) (f : ℕ → 𝕜) {i : ℕ} (hi : i < n) :
    inner 𝕜 (col i) (∑ m ∈ t, f m • col m) = if i ∈ t then f i else 0 := by
  rw [inner_sum]
  have e : ∀ m ∈ t, inner 𝕜 (col i) (f m • col m) = if i = m then f m else 0 := by
    intro m hm
    rw [inner_smul_right, h i hi m (ht m hm)]
    by_cases e : i = m
    · rw [if_pos e, if_pos e, mul_one]
    · rw [if_neg e, if_neg e, mul_zero]
  rw [Finset.sum_congr rfl e, Finset.sum_ite_eq]

/-- The part in the span is given by the inner products. -/
theorem expand {col : ℕ → E} {n : ℕ} (h : Insert.ON 𝕜 col n) {w u r : E} (hu : u ∈ Biorth.spanOf 𝕜 col n) (hw : w = u + r) (hr : ∀ m < n, inner 𝕜 (col m) r = 0) :
    u = ∑ m ∈ range n, inner 𝕜 (col m) w • col m := by
  obtain ⟨d, hd⟩ : ∃ d, d = u - ∑ m ∈ range n, inner 𝕜 (col m) w • col m := ⟨_, rfl⟩
  have hdm : d ∈ Biorth.spanOf 𝕜 col n := by
    rw [hd]; exact Submodule.sub_mem _ hu (sum_mem_span _ (fun m hm => mem_range.mp hm) _)
  have ho : ∀ m < n, inner 𝕜 (col m) d = 0 := by
    intro m hm
    rw [hd, inner_sub_right, inner_comb h _ (fun m hm => mem_range.mp hm) _ hm, if_pos (mem_range.mpr hm), hw, inner_add_right, hr m hm, add_zero, sub_self]
  have : inner 𝕜 d d = 0 := inner_span ho hdm
  rw [inner_self_eq_zero] at this
  rw [this] at hd
  exact (sub_eq_zero.mp hd.symm)

theorem gs_col (o : Opts) (he : o.eta ≤ 1) (col : ℕ → E) (j : ℕ) (h : Insert.ON 𝕜 col j) (w : E) :
    let r := gs (ipForm 𝕜 E) false o.mgs o.eta o.ref (Insert.slots 𝕜 ⟨0, j, col⟩ j) w
    (∀ p < j, inner 𝕜 (col p) r.w = 0) ∧ w = ∑ m ∈ range j, inner 𝕜 (col m) w • col m + r.w ∧ r.nrm = ‖r.w‖ ∧
    (r.lindep = true ↔ w ∈ Biorth.spanOf 𝕜 col j) := by
  have hz : (0 : ℕ) + j = j := Nat.zero_add j
  obtain ⟨h1, ⟨u, hu, h2⟩, h3, h4⟩ := Insert.gs_facts o he ⟨0, j, col⟩ j (by dsimp only; rw [hz]; exact h) w
  dsimp only at h1 h2 h3 h4 hu
  rw [hz] at h1 h4 hu
  refine ⟨h1, ?_, h3, h4⟩
  have := expand h hu h2 h1
  rw [← this]; exact h2

/-- BVOrthogonalizeColumn. -/
theorem orthog_facts (o : Opts) (he : o.eta ≤ 1) (col : ℕ → E) (j : ℕ) (h : Insert.ON 𝕜 col j) (w : E) :
    (∀ m, m ≠ j → (orthog 𝕜 o col j w).1 m = col m) ∧ (∀ m < j, inner 𝕜 (col m) ((orthog 𝕜 o col j w).1 j) = 0) ∧
    w = ∑ m ∈ range j, inner 𝕜 (col m) w • col m + (orthog 𝕜 o col j w).1 j ∧ (orthog 𝕜 o col j w).2.1 = ‖(orthog 𝕜 o col j w).1 j‖ ∧
    ((orthog 𝕜 o col j w).2.2 = true ↔ w ∈ Biorth.spanOf 𝕜 col j) ∧ ((orthog 𝕜 o col j w).2.2 = true ↔ (orthog 𝕜 o col j w).1 j = 0) := by
  obtain ⟨h1, h2, h3, h4⟩ := gs_col o he col j h w
  have e : (orthog 𝕜 o col j w).1 j = (gs (ipForm 𝕜 E) false o.mgs o.eta o.ref (Insert.slots 𝕜 ⟨0, j, col⟩ j) w).w := Biorth.wr_same _ _ _
  rw [e]
  refine ⟨fun m hm => Biorth.wr_other _ _ _ hm, h1, h2, h3, h4, h4.trans ⟨fun hw => ?_, fun h0 => ?_⟩⟩
  · have hm : (gs (ipForm 𝕜 E) false o.mgs o.eta o.ref (Insert.slots 𝕜 ⟨0, j, col⟩ j) w).w ∈ Biorth.spanOf 𝕜 col j := by
      have : (gs (ipForm 𝕜 E) false o.mgs o.eta o.ref (Insert.slots 𝕜 ⟨0, j, col⟩ j) w).w = w - ∑ m ∈ range j, inner 𝕜 (col m) w • col m :=
        eq_sub_of_add_eq' h2.symm
      rw [this]
      exact Submodule.sub_mem _ hw (sum_mem_span _ (fun m hm => mem_range.mp hm) _)
    exact inner_self_eq_zero.mp (inner_span h1 hm)
  · rw [h0, add_zero] at h2
    rw [h2]
    exact sum_mem_span _ (fun m hm => mem_range.mp hm) _

/-- BVOrthonormalizeColumn. -/
theorem orthon_facts (o : Opts) (he : o.eta ≤ 1) (col : ℕ → E) (j : ℕ) (h : Insert.ON 𝕜 col j) (w : E) :
    (∀ m, m ≠ j → (orthon 𝕜 o col j w).1 m = col m) ∧ 0 ≤ (orthon 𝕜 o col j w).2.1 ∧
    w = ∑ m ∈ range j, inner 𝕜 (col m) w • col m + ((orthon 𝕜 o col j w).2.1 : 𝕜) • (orthon 𝕜 o col j w).1 j ∧
    ((orthon 𝕜 o col j w).2.2 = true ↔ w ∈ Biorth.spanOf 𝕜 col j) ∧ ((orthon 𝕜 o col j w).2.2 = true ↔ (orthon 𝕜 o col j w).2.1 = 0) ∧
    ((orthon 𝕜 o col j w).2.2 = false → Insert.ON 𝕜 (orthon 𝕜 o col j w).1 (j + 1)) := by
  obtain ⟨h1, h2, h3, h4, h5, h6⟩ := orthog_facts o he col j h w
  obtain ⟨g, hg⟩ : ∃ g, g = gs (ipForm 𝕜 E) false o.mgs o.eta o.ref (Insert.slots 𝕜 ⟨0, j, col⟩ j) w := ⟨_, rfl⟩
  have eg : orthog 𝕜 o col j w = (wr col j g.w, g.nrm, g.lindep) := by unfold orthog; rw [← hg]
  have en : orthon 𝕜 o col j w = (wr col j (if g.nrm ≠ 1 ∧ g.nrm ≠ 0 then ((1 / g.nrm : ℝ) : 𝕜) • g.w else g.w), g.nrm, g.lindep) := by
    unfold orthon orthonormalize; rw [← hg]
  rw [eg] at h1 h2 h3 h4 h5 h6
  dsimp only at h1 h2 h3 h4 h5 h6
  rw [Biorth.wr_same] at h2 h3 h4 h6
  rw [en]
  dsimp only
  rw [Biorth.wr_same]
  have hx : ((g.nrm : ℝ) : 𝕜) • (if g.nrm ≠ 1 ∧ g.nrm ≠ 0 then ((1 / g.nrm : ℝ) : 𝕜) • g.w else g.w) = g.w := by
    by_cases hc : g.nrm ≠ 1 ∧ g.nrm ≠ 0
    · rw [if_pos hc, smul_smul, ← RCLike.ofReal_mul, mul_one_div_cancel hc.2, RCLike.ofReal_one, one_smul]
    · rw [if_neg hc]
      by_cases h0 : g.nrm = 0
      · have : g.w = 0 := by rw [← norm_eq_zero, ← h4, h0]
        rw [this, smul_zero]
      · have : g.nrm = 1 := by
          by_contra h'
          exact hc ⟨h', h0⟩
        rw [this, RCLike.ofReal_one, one_smul]
  have h0 : g.lindep = true ↔ g.nrm = 0 := by rw [h6, h4, norm_eq_zero]
  refine ⟨fun m hm => Biorth.wr_other _ _ _ hm, by rw [h4]; exact norm_nonneg _, by rw [hx]; exact h3, h5, h0, ?_⟩
  intro hl
  have hne : g.nrm ≠ 0 := fun e => by rw [h0.mpr e] at hl; cases hl
  obtain ⟨x, hxd⟩ : ∃ x, x = (if g.nrm ≠ 1 ∧ g.nrm ≠ 0 then ((1 / g.nrm : ℝ) : 𝕜) • g.w else g.w) := ⟨_, rfl⟩
  rw [← hxd] at hx ⊢
  refine Insert.on_step h ?_ ?_
  · intro m hm
    have := h2 m hm
    rw [← hx, inner_smul_right] at this
    rcases mul_eq_zero.mp this with e | e
    · exact absurd (RCLike.ofReal_eq_zero.mp e) hne
    · exact e
  · have h7 : ‖((g.nrm : ℝ) : 𝕜) • x‖ = g.nrm := by rw [hx, ← h4]
    rw [norm_smul, RCLike.norm_ofReal, abs_of_nonneg (by rw [h4]; exact norm_nonneg _)] at h7
    exact mul_left_cancel₀ hne (by rw [h7, mul_one])

end Verif.GKL
