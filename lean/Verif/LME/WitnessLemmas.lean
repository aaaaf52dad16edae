import Verif.LME.KrylovTheorems
import Mathlib.Analysis.InnerProductSpace.PiL2
/-!
Arnoldi factorizations of one or two steps, explicitly; used for the examples.
-/
set_option linter.all false
namespace Verif.LME
noncomputable section
open Verif.BV Verif.MFN Matrix
variable {𝕜 : Type} [RCLike 𝕜] {E : Type} [NormedAddCommGroup E] [InnerProductSpace 𝕜 E]

theorem arn_sub [FiniteDimensional 𝕜 E] (o : OrthOpts) (he : o.eta ≤ 1) (A : E →ₗ[𝕜] E) (m ldh : Nat)
    (v0 : E) (hv : ‖v0‖ = 1) (buf h0 : Nat → Nat → 𝕜) :
    let r := matArnoldi (ipForm 𝕜 E) o A (Module.finrank 𝕜 E) 0 0 m ldh [mkSlot v0 1] buf h0
    ∀ j, j + 1 < r.m → ∃ x : ℝ, 0 < x ∧ r.H (j + 1) j = (x : 𝕜) := by
  have ho : ONList 𝕜 ([] ++ cols (fun _ => v0) (0 + 1)) := by
    refine ⟨?_, ?_⟩ <;> simp [cols, hv]
  have hh : Holds [mkSlot (𝕜 := 𝕜) v0 1] ([] ++ cols (fun _ => v0) (0 + 1)) := by
    refine ⟨?_, ?_, ?_⟩ <;> simp [cols, mkSlot]
  intro r j hj
  exact C80_unreduced o he A [] 0 m ldh _ (fun _ => v0) hh ho buf h0 j (by omega) hj

theorem onl_inner {W : Nat → E} {n i j : Nat} (h : ONList 𝕜 (cols W n)) (hi : i < n) (hj : j < n) :
    inner 𝕜 (W i) (W j) = if i = j then (1 : 𝕜) else 0 := by
  have hp := List.pairwise_iff_getElem.1 h.orth
  by_cases hij : i = j
  · subst hij
    rw [if_pos rfl, inner_self_eq_norm_sq_to_K, h.unit (W i) (List.mem_map.2 ⟨i, List.mem_range.2 hi, rfl⟩)]
    simp
  · rw [if_neg hij]
    rcases lt_or_gt_of_ne hij with hlt | hgt
    · simpa [cols] using hp i j (by simpa [cols] using hi) (by simpa [cols] using hj) hlt
    · have := hp j i (by simpa [cols] using hj) (by simpa [cols] using hi) hgt
      simp only [cols, List.getElem_map, List.getElem_range] at this
      exact inner_eq_zero_symm.1 this

/-- Two decompositions into a multiple of a unit vector `v` and a positive multiple of a unit vector orthogonal to `v`. -/
theorem unique_split (v u u' : E) (hv : ‖v‖ = 1) (hu : ‖u‖ = 1) (hu' : ‖u'‖ = 1) (h1 : inner 𝕜 v u = 0) (h2 : inner 𝕜 v u' = 0)
    (h h' : 𝕜) (x x' : ℝ) (hx : 0 < x) (hx' : 0 < x') (e : h • v + (x : 𝕜) • u = h' • v + (x' : 𝕜) • u') :
    h' = h ∧ x' = x ∧ u' = u := by
  have hvv : inner 𝕜 v v = (1 : 𝕜) := by rw [inner_self_eq_norm_sq_to_K, hv]; simp
  have e1 := congrArg (inner 𝕜 v) e
  simp only [inner_add_right, inner_smul_right, h1, h2, hvv, mul_one, mul_zero, add_zero] at e1
  subst e1
  have e2 := add_left_cancel e
  have e3 := congrArg norm e2
  rw [norm_smul, norm_smul, hu, hu', RCLike.norm_ofReal, RCLike.norm_ofReal, abs_of_pos hx, abs_of_pos hx', mul_one, mul_one] at e3
  subst e3
  have hne : (x : 𝕜) ≠ 0 := by exact_mod_cast hx.ne'
  exact ⟨rfl, rfl, (smul_right_injective E hne e2).symm⟩

/-- One step. -/
theorem one_step [FiniteDimensional 𝕜 E] (o : OrthOpts) (he : o.eta ≤ 1) (A : E →ₗ[𝕜] E) (ldh : Nat)
    (v u : E) (hv : ‖v‖ = 1) (hu : ‖u‖ = 1) (huv : inner 𝕜 v u = 0) (h : 𝕜) (x : ℝ) (hx : 0 < x)
    (hA : A v = h • v + (x : 𝕜) • u) (buf h0 : Nat → Nat → 𝕜) (hz : ∀ i j, j + 1 < i → h0 i j = 0) :
    let r := matArnoldi (ipForm 𝕜 E) o A (Module.finrank 𝕜 E) 0 0 1 ldh [mkSlot v 1] buf h0
    r.m = 1 ∧ (r.ss.map Slot.v).getD 0 0 = v ∧ (r.ss.map Slot.v).getD 1 0 = u ∧ r.H 0 0 = h ∧ r.beta = x ∧ (∀ i j, j + 1 < i → r.H i j = 0) := by
  obtain ⟨a1, a2, a3, a4, a5, a6, a7, a8, a9, a10⟩ := arn_unit o he A 1 ldh one_pos v hv buf h0 hz
  intro r
  rw [show matArnoldi (ipForm 𝕜 E) o A (Module.finrank 𝕜 E) 0 0 1 ldh [mkSlot v 1] buf h0 = r from rfl] at *
  have hm : r.m = 1 := by omega
  rw [hm] at a6 a8 a9
  have e := a6 0 one_pos
  rw [a3, Finset.sum_range_one, a3, if_pos rfl] at e
  have hb : r.breakdown = false := by
    by_contra hc
    obtain ⟨b1, b2⟩ := a9 (by simpa using hc)
    rw [b2, smul_zero, add_zero, hA] at e
    have e1 := congrArg (inner 𝕜 u) e
    simp only [inner_add_right, inner_smul_right, inner_eq_zero_symm.1 huv, mul_zero, zero_add, inner_self_eq_norm_sq_to_K, hu] at e1
    simp [hx.ne'] at e1
  obtain ⟨b1, b2, b3⟩ := a10 hb
  have i1 := onl_inner (i := 0) (j := 1) b3 (by omega) (by omega)
  rw [a3] at i1
  obtain ⟨c1, c2, c3⟩ := unique_split v u (colv o A 1 v 1) hv hu
    (b3.unit _ (List.mem_map.2 ⟨1, List.mem_range.2 (by omega), rfl⟩)) huv (by simpa using i1) h (r.H 0 0) x r.beta hx b2 (hA ▸ e)
  exact ⟨hm, by rw [a2, a3], by rw [a2, c3], c1, c2, a7⟩

/-- The start vector is an eigenvector. -/
theorem dep_step [FiniteDimensional 𝕜 E] (o : OrthOpts) (he : o.eta ≤ 1) (A : E →ₗ[𝕜] E) (m ldh : Nat) (hm : 0 < m)
    (v : E) (hv : ‖v‖ = 1) (h : 𝕜) (hA : A v = h • v) (buf h0 : Nat → Nat → 𝕜) (hz : ∀ i j, j + 1 < i → h0 i j = 0) :
    let r := matArnoldi (ipForm 𝕜 E) o A (Module.finrank 𝕜 E) 0 0 m ldh [mkSlot v 1] buf h0
    r.m = 1 ∧ (r.ss.map Slot.v).getD 0 0 = v ∧ r.H 0 0 = h ∧ r.beta = 0 ∧ (∀ i j, j + 1 < i → r.H i j = 0) := by
  obtain ⟨a1, a2, a3, a4, a5, a6, a7, a8, a9, a10⟩ := arn_unit o he A m ldh hm v hv buf h0 hz
  have hsub := arn_sub o he A m ldh v hv buf h0
  intro r
  rw [show matArnoldi (ipForm 𝕜 E) o A (Module.finrank 𝕜 E) 0 0 m ldh [mkSlot v 1] buf h0 = r from rfl] at *
  have hvv : inner 𝕜 v v = (1 : 𝕜) := by rw [inner_self_eq_norm_sq_to_K, hv]; simp
  have hm1 : r.m = 1 := by
    by_contra hc
    have h2 : 1 < r.m := by omega
    obtain ⟨x, hx, ex⟩ := hsub 0 (by omega)
    have e := congrArg (inner 𝕜 (colv o A m v 1)) (a6 0 (by omega))
    rw [if_neg (by omega), add_zero, inner_sum, a3, hA, inner_smul_right] at e
    have i1 := onl_inner (i := 1) (j := 0) a8 h2 (by omega)
    rw [a3, if_neg (by omega)] at i1
    rw [i1, mul_zero, Finset.sum_eq_single 1] at e
    · rw [inner_smul_right, onl_inner (i := 1) (j := 1) a8 h2 h2, if_pos rfl, ex, mul_one] at e
      exact hx.ne' (by exact_mod_cast e.symm)
    · intro i hi hne
      rw [inner_smul_right, onl_inner a8 h2 (Finset.mem_range.1 hi), if_neg (Ne.symm hne), mul_zero]
    · intro hc; exact absurd (Finset.mem_range.2 h2) hc
  rw [hm1] at a6 a8 a9
  have e := a6 0 one_pos
  rw [a3, Finset.sum_range_one, a3, if_pos rfl, hA] at e
  have hb : r.breakdown = true := by
    by_contra hc
    obtain ⟨b1, b2, b3⟩ := a10 (by simpa using hc)
    have i1 := onl_inner (i := 1) (j := 0) b3 (by omega) (by omega)
    have i2 := onl_inner (i := 1) (j := 1) b3 (by omega) (by omega)
    rw [a3, if_neg (by omega)] at i1
    have e1 := congrArg (inner 𝕜 (colv o A m v 1)) e
    simp only [inner_add_right, inner_smul_right, i1, i2, mul_zero, zero_add] at e1
    simp only [if_true, mul_one] at e1
    exact b2.ne' (by exact_mod_cast e1.symm)
  obtain ⟨b1, b2⟩ := a9 hb
  rw [b2, smul_zero, add_zero] at e
  refine ⟨hm1, by rw [a2, a3], ?_, b1, a7⟩
  have e1 := congrArg (inner 𝕜 v) e
  simp only [inner_smul_right, hvv, mul_one] at e1
  exact e1.symm

/-- Two steps; the second one may be a breakdown. -/
theorem two_step [FiniteDimensional 𝕜 E] (o : OrthOpts) (he : o.eta ≤ 1) (A : E →ₗ[𝕜] E) (ldh : Nat)
    (v u w : E) (hv : ‖v‖ = 1) (hu : ‖u‖ = 1) (huv : inner 𝕜 v u = 0) (h p q : 𝕜) (x y : ℝ) (hx : 0 < x) (hy : 0 ≤ y)
    (hw : 0 < y → ‖w‖ = 1 ∧ inner 𝕜 v w = 0 ∧ inner 𝕜 u w = 0)
    (hA : A v = h • v + (x : 𝕜) • u) (hA2 : A u = p • v + q • u + (y : 𝕜) • w) (buf h0 : Nat → Nat → 𝕜) (hz : ∀ i j, j + 1 < i → h0 i j = 0) :
    let r := matArnoldi (ipForm 𝕜 E) o A (Module.finrank 𝕜 E) 0 0 2 ldh [mkSlot v 1] buf h0
    r.m = 2 ∧ (r.ss.map Slot.v).getD 0 0 = v ∧ (r.ss.map Slot.v).getD 1 0 = u ∧ (0 < y → (r.ss.map Slot.v).getD 2 0 = w) ∧
      r.H 0 0 = h ∧ r.H 1 0 = (x : 𝕜) ∧ r.H 0 1 = p ∧ r.H 1 1 = q ∧ r.beta = y ∧ (∀ i j, j + 1 < i → r.H i j = 0) := by
  obtain ⟨a1, a2, a3, a4, a5, a6, a7, a8, a9, a10⟩ := arn_unit o he A 2 ldh two_pos v hv buf h0 hz
  have hsub := arn_sub o he A 2 ldh v hv buf h0
  intro r
  rw [show matArnoldi (ipForm 𝕜 E) o A (Module.finrank 𝕜 E) 0 0 2 ldh [mkSlot v 1] buf h0 = r from rfl] at *
  have hvv : inner 𝕜 v v = (1 : 𝕜) := by rw [inner_self_eq_norm_sq_to_K, hv]; simp
  have huu : inner 𝕜 u u = (1 : 𝕜) := by rw [inner_self_eq_norm_sq_to_K, hu]; simp
  have hm : r.m = 2 := by
    by_contra hc
    have hm1 : r.m = 1 := by omega
    have hb : r.breakdown = true := by
      by_contra hc2
      exact hc (a10 (by simpa using hc2)).1
    rw [hm1] at a6 a9
    have e := a6 0 one_pos
    rw [a3, Finset.sum_range_one, a3, if_pos rfl, (a9 hb).2, smul_zero, add_zero, hA] at e
    have e1 := congrArg (inner 𝕜 u) e
    simp only [inner_add_right, inner_smul_right, inner_eq_zero_symm.1 huv, mul_zero, zero_add, huu] at e1
    simp [hx.ne'] at e1
  obtain ⟨x', hx', ex⟩ := hsub 0 (by omega)
  rw [hm] at a6 a8 a9
  have e := a6 0 two_pos
  rw [a3, Finset.sum_range_succ, Finset.sum_range_one, a3, if_neg (by omega), add_zero, ex] at e
  have i1 := onl_inner (i := 0) (j := 1) a8 (by omega) (by omega)
  rw [a3, if_neg (by omega)] at i1
  obtain ⟨c1, c2, c3⟩ := unique_split v u (colv o A 2 v 1) hv hu
    (a8.unit _ (List.mem_map.2 ⟨1, List.mem_range.2 (by omega), rfl⟩)) huv i1 h (r.H 0 0) x x' hx hx' (hA ▸ e)
  have f := a6 1 (by omega)
  rw [c3, Finset.sum_range_succ, Finset.sum_range_one, a3, if_pos rfl, c3, hA2] at f
  have hwv : inner 𝕜 v ((y : 𝕜) • w) = 0 := by
    rcases hy.eq_or_lt with h0 | hp
    · rw [← h0]; simp
    · rw [inner_smul_right, (hw hp).2.1, mul_zero]
  have hwu : inner 𝕜 u ((y : 𝕜) • w) = 0 := by
    rcases hy.eq_or_lt with h0 | hp
    · rw [← h0]; simp
    · rw [inner_smul_right, (hw hp).2.2, mul_zero]
  have hV2 : inner 𝕜 v ((r.beta : 𝕜) • colv o A 2 v 2) = 0 ∧ inner 𝕜 u ((r.beta : 𝕜) • colv o A 2 v 2) = 0 := by
    by_cases hb : r.breakdown = true
    · rw [(a9 hb).2]; simp
    · obtain ⟨b1, b2, b3⟩ := a10 (by simpa using hb)
      have j1 := onl_inner (i := 0) (j := 2) b3 (by omega) (by omega)
      have j2 := onl_inner (i := 1) (j := 2) b3 (by omega) (by omega)
      rw [a3, if_neg (by omega)] at j1
      rw [c3, if_neg (by omega)] at j2
      rw [inner_smul_right, inner_smul_right, j1, j2]; simp
  have f1 := congrArg (inner 𝕜 v) f
  have f2 := congrArg (inner 𝕜 u) f
  simp only [inner_add_right, hwv, hV2.1] at f1
  simp only [inner_smul_right, hvv, huv, mul_one, mul_zero, add_zero] at f1
  simp only [inner_add_right, hwu, hV2.2] at f2
  simp only [inner_smul_right, huu, inner_eq_zero_symm.1 huv, mul_one, mul_zero, add_zero, zero_add] at f2
  rw [f1, f2] at f
  have f3 := add_left_cancel f
  have hbn : 0 ≤ r.beta := by
    by_cases hb : r.breakdown = true
    · rw [(a9 hb).1]
    · exact (a10 (by simpa using hb)).2.1.le
  have hbeta : r.beta = y := by
    have f4 := congrArg norm f3
    rw [norm_smul, norm_smul, RCLike.norm_ofReal, RCLike.norm_ofReal, abs_of_nonneg hy, abs_of_nonneg hbn] at f4
    by_cases hb : r.breakdown = true
    · obtain ⟨b1, b2⟩ := a9 hb
      rw [b1, b2, norm_zero, mul_zero] at f4
      rcases hy.eq_or_lt with h0 | hp
      · rw [b1, ← h0]
      · rw [(hw hp).1, mul_one] at f4; linarith
    · obtain ⟨b1, b2, b3⟩ := a10 (by simpa using hb)
      have hn2 : ‖colv o A 2 v 2‖ = 1 := b3.unit _ (List.mem_map.2 ⟨2, List.mem_range.2 (by omega), rfl⟩)
      rw [hn2, mul_one] at f4
      rcases hy.eq_or_lt with h0 | hp
      · rw [← h0, zero_mul] at f4; rw [← h0]; exact f4.symm
      · rw [(hw hp).1, mul_one] at f4; exact f4.symm
  refine ⟨hm, by rw [a2, a3], by rw [a2, c3], ?_, c1, by rw [ex, c2], f1.symm, f2.symm, hbeta, a7⟩
  intro hp
  rw [a2]
  rw [hbeta] at f3
  have hne : (y : 𝕜) ≠ 0 := by exact_mod_cast hp.ne'
  exact (smul_right_injective E hne f3).symm

end
end Verif.LME
