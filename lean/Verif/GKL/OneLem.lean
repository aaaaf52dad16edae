import Verif.GKL.OneModel
import Verif.GKL.TwoThm
/-! Closed forms of the Gram-Schmidt steps in exact arithmetic, and the projections in the recurrence of the left vectors. -/
set_option linter.all false
namespace Verif.GKL
open Verif.BV Verif.BVB Finset
variable {𝕜 E F : Type} [RCLike 𝕜] [NormedAddCommGroup E] [InnerProductSpace 𝕜 E] [NormedAddCommGroup F] [InnerProductSpace 𝕜 F]

theorem pass_zero (V : ℕ → E) (i : ℕ) (w : E) : cgsPass 𝕜 0 V i w = w - ∑ m ∈ range i, (inner 𝕜 (V m) w : 𝕜) • V m := by
  unfold cgsPass; rw [← range_eq_Ico]

/-- BVOrthogonalizeColumn in closed form. -/
theorem orthog_eq (o : Opts) (he : o.eta ≤ 1) (col : ℕ → E) (j : ℕ) (h : Insert.ON 𝕜 col j) (w : E) :
    (orthog 𝕜 o col j w).1 = wr col j (cgsPass 𝕜 0 col j w) ∧ (orthog 𝕜 o col j w).2.1 = ‖cgsPass 𝕜 0 col j w‖ ∧
    ((orthog 𝕜 o col j w).2.2 = true ↔ cgsPass 𝕜 0 col j w = 0) := by
  obtain ⟨h1, h2, h3, h4, h5, h6⟩ := orthog_facts o he col j h w
  have e : (orthog 𝕜 o col j w).1 j = cgsPass 𝕜 0 col j w := by
    rw [pass_zero]; exact eq_sub_of_add_eq' h3.symm
  refine ⟨?_, by rw [h4, e], by rw [h6, e]⟩
  funext m
  by_cases hm : m = j
  · subst hm; rw [e, Biorth.wr_same]
  · rw [h1 m hm, Biorth.wr_other _ _ _ hm]

/-- BVOrthonormalizeColumn in closed form. -/
theorem orthon_eq (o : Opts) (he : o.eta ≤ 1) (col : ℕ → E) (j : ℕ) (h : Insert.ON 𝕜 col j) (w : E) :
    (orthon 𝕜 o col j w).1 = wr col j (((1 / ‖cgsPass 𝕜 0 col j w‖ : ℝ) : 𝕜) • cgsPass 𝕜 0 col j w) ∧ (orthon 𝕜 o col j w).2.1 = ‖cgsPass 𝕜 0 col j w‖ ∧
    ((orthon 𝕜 o col j w).2.2 = true ↔ cgsPass 𝕜 0 col j w = 0) := by
  obtain ⟨h1, h2, h3⟩ := orthog_eq o he col j h w
  obtain ⟨g, hg⟩ : ∃ g, g = gs (ipForm 𝕜 E) false o.mgs o.eta o.ref (Insert.slots 𝕜 ⟨0, j, col⟩ j) w := ⟨_, rfl⟩
  have eg : orthog 𝕜 o col j w = (wr col j g.w, g.nrm, g.lindep) := by unfold orthog; rw [← hg]
  have en : orthon 𝕜 o col j w = (wr col j (if g.nrm ≠ 1 ∧ g.nrm ≠ 0 then ((1 / g.nrm : ℝ) : 𝕜) • g.w else g.w), g.nrm, g.lindep) := by
    unfold orthon orthonormalize; rw [← hg]
  rw [eg] at h1 h2 h3
  dsimp only at h1 h2 h3
  have hw : g.w = cgsPass 𝕜 0 col j w := by
    have := congrFun h1 j
    rwa [Biorth.wr_same, Biorth.wr_same] at this
  rw [en]
  refine ⟨?_, h2, h3⟩
  dsimp only
  congr 1
  rw [h2, hw]
  by_cases hc : ‖cgsPass 𝕜 0 col j w‖ ≠ 1 ∧ ‖cgsPass 𝕜 0 col j w‖ ≠ 0
  · rw [if_pos hc]
  · rw [if_neg hc]
    by_cases h0 : ‖cgsPass 𝕜 0 col j w‖ = 0
    · rw [norm_eq_zero.mp h0, smul_zero]
    · have : ‖cgsPass 𝕜 0 col j w‖ = 1 := by
        by_contra h'
        exact hc ⟨h', h0⟩
      rw [this, one_div_one, RCLike.ofReal_one, one_smul]

theorem pass_orth {V : ℕ → E} {i : ℕ} (h : Insert.ON 𝕜 V i) (w : E) {m : ℕ} (hm : m < i) : inner 𝕜 (V m) (cgsPass 𝕜 0 V i w) = 0 := by
  rw [pass_zero, inner_sub_right, inner_comb h _ (fun m hm => mem_range.mp hm) _ hm, if_pos (mem_range.mpr hm), sub_self]

theorem pass_fix {V : ℕ → E} {l i : ℕ} {x : E} (h : ∀ m < i, inner 𝕜 (V m) x = 0) : cgsPass 𝕜 l V i x = x := by
  unfold cgsPass
  rw [sum_eq_zero, sub_zero]
  intro m hm
  rw [h m (mem_Ico.mp hm).2, zero_smul]

theorem pass_smul (l : ℕ) (V : ℕ → E) (i : ℕ) (t : 𝕜) (w : E) : cgsPass 𝕜 l V i (t • w) = t • cgsPass 𝕜 l V i w := by
  unfold cgsPass
  rw [smul_sub, smul_sum]
  congr 1
  refine sum_congr rfl fun m _ => ?_
  rw [inner_smul_right, smul_smul]

/-- Pythagoras for the pass. -/
theorem pass_norm {V : ℕ → E} {i : ℕ} (h : Insert.ON 𝕜 V i) (w : E) :
    ‖cgsPass 𝕜 0 V i w‖ ^ 2 = ‖w‖ ^ 2 - ∑ j ∈ range i, ‖(inner 𝕜 (V j) w : 𝕜)‖ ^ 2 := by
  obtain ⟨y, hy⟩ : ∃ y, y = cgsPass 𝕜 0 V i w := ⟨_, rfl⟩
  have ho : ∀ m < i, inner 𝕜 (V m) y = 0 := fun m hm => by rw [hy]; exact pass_orth h w hm
  have hw : w = y + ∑ m ∈ range i, (inner 𝕜 (V m) w : 𝕜) • V m := by rw [hy, pass_zero, sub_add_cancel]
  rw [← hy]
  have e1 : (inner 𝕜 y w : 𝕜) = inner 𝕜 y y := by
    conv_lhs => rw [hw]
    rw [inner_add_right, inner_span' ho (sum_mem_span _ (fun m hm => mem_range.mp hm) _), add_zero]
  have e2 : (inner 𝕜 w w : 𝕜) = inner 𝕜 y y + ∑ m ∈ range i, ((‖(inner 𝕜 (V m) w : 𝕜)‖ ^ 2 : ℝ) : 𝕜) := by
    have e0 : (inner 𝕜 w w : 𝕜) = inner 𝕜 (y + ∑ m ∈ range i, (inner 𝕜 (V m) w : 𝕜) • V m) w := by rw [← hw]
    rw [e0, inner_add_left, e1, sum_inner]
    congr 1
    refine sum_congr rfl fun m _ => ?_
    rw [inner_smul_left, RCLike.conj_mul]
    push_cast
    rfl
  have e3 : ((‖w‖ ^ 2 : ℝ) : 𝕜) = ((‖y‖ ^ 2 + ∑ m ∈ range i, ‖(inner 𝕜 (V m) w : 𝕜)‖ ^ 2 : ℝ) : 𝕜) := by
    rw [inner_self_eq_norm_sq_to_K, inner_self_eq_norm_sq_to_K] at e2
    push_cast
    push_cast at e2
    exact e2
  have := RCLike.ofReal_injective e3
  linarith

/-- SVDOrthogonalizeCGS, all refinement types: in exact arithmetic one pass is enough. -/
theorem cgsStep_eq (o : Opts) {V : ℕ → E} {i : ℕ} (h : Insert.ON 𝕜 V i) (v : E) {a : ℝ} (ha : 0 < a) :
    cgsStep 𝕜 o V i v a = (((1 / a : ℝ) : 𝕜) • cgsPass 𝕜 0 V i v, ‖((1 / a : ℝ) : 𝕜) • cgsPass 𝕜 0 V i v‖) := by
  have hx : ((1 / a : ℝ) : 𝕜) • v - ∑ m ∈ range i, ((inner 𝕜 (V m) v : 𝕜) / (a : 𝕜)) • V m = ((1 / a : ℝ) : 𝕜) • cgsPass 𝕜 0 V i v := by
    rw [pass_zero, smul_sub, smul_sum]
    congr 1
    refine sum_congr rfl fun m _ => ?_
    rw [smul_smul]
    congr 1
    push_cast
    rw [div_eq_inv_mul, one_div]
  have hfix : cgsPass 𝕜 0 V i (((1 / a : ℝ) : 𝕜) • cgsPass 𝕜 0 V i v) = ((1 / a : ℝ) : 𝕜) • cgsPass 𝕜 0 V i v :=
    pass_fix fun m hm => by rw [inner_smul_right, pass_orth h v hm, mul_zero]
  unfold cgsStep
  dsimp only
  rw [hx]
  unfold cgsNorm
  cases o.ref with
  | never => rfl
  | always => dsimp only; rw [hfix]
  | ifneeded =>
    dsimp only
    rw [hfix]
    have hn : RCLike.re (inner 𝕜 v v : 𝕜) / (a * a) - ∑ j ∈ range i, RCLike.re ((inner 𝕜 (V j) v : 𝕜) / (a : 𝕜) * (starRingEnd 𝕜) ((inner 𝕜 (V j) v : 𝕜) / (a : 𝕜))) =
        ‖((1 / a : ℝ) : 𝕜) • cgsPass 𝕜 0 V i v‖ ^ 2 := by
      rw [norm_smul, RCLike.norm_ofReal, abs_of_pos (by positivity), mul_pow, pass_norm h v, inner_self_eq_norm_sq, mul_sub, mul_sum]
      congr 1
      · field_simp
      · refine sum_congr rfl fun m _ => ?_
        rw [RCLike.mul_conj, ← RCLike.ofReal_pow, RCLike.ofReal_re, norm_div, RCLike.norm_ofReal, abs_of_pos ha, div_pow, div_pow, one_pow]
        ring
    rw [hn]
    have hz : (if ‖((1 / a : ℝ) : 𝕜) • cgsPass 𝕜 0 V i v‖ ^ 2 > 0 then √(‖((1 / a : ℝ) : 𝕜) • cgsPass 𝕜 0 V i v‖ ^ 2) else ‖((1 / a : ℝ) : 𝕜) • cgsPass 𝕜 0 V i v‖) =
        ‖((1 / a : ℝ) : 𝕜) • cgsPass 𝕜 0 V i v‖ := by
      rw [Real.sqrt_sq (norm_nonneg _)]; exact ite_self _
    rw [hz]
    exact ite_self _

/-- The locked triplets are exact also on the left side. -/
def Exact (AT : F →ₗ[𝕜] E) (c : ℕ) (s : Bid E F) : Prop := ∀ m < c, AT (s.U m) = (s.alpha m : 𝕜) • s.V m

theorem Exact.congr {AT : F →ₗ[𝕜] E} {c i : ℕ} {s s' : Bid E F} (h : Exact AT c s) (hc : c ≤ i) (hs : Same i s' s) : Exact AT c s' := by
  intro m hm
  rw [hs.1 m (by omega), hs.2.1 m (by omega), hs.2.2.1 m (by omega)]
  exact h m hm

/-- The projection of `A v_i` on the left basis. -/
theorem proj_u {A : E →ₗ[𝕜] F} {AT : F →ₗ[𝕜] E} (hadj : Adj A AT) {c p i : ℕ} {V : ℕ → E} {U : ℕ → F} {a b : ℕ → ℝ} (hcp : c ≤ p) (hpi : p ≤ i) (hV : Insert.ON 𝕜 V (i + 1))
    (low : ∀ m < c, AT (U m) = (a m : 𝕜) • V m)
    (left : ∀ m, c ≤ m → m < i → AT (U m) = (a m : 𝕜) • V m + (b m : 𝕜) • V (nxt p m)) :
    ∑ m ∈ range i, (inner 𝕜 (U m) (A (V i)) : 𝕜) • U m = ∑ m ∈ Ico c i, ((bent p a b m i : ℝ) : 𝕜) • U m := by
  rw [← Finset.sum_range_add_sum_Ico _ (show c ≤ i by omega)]
  have e1 : ∑ m ∈ range c, (inner 𝕜 (U m) (A (V i)) : 𝕜) • U m = 0 := by
    refine sum_eq_zero fun m hm => ?_
    have hm' := mem_range.mp hm
    rw [← inner_conj_symm, hadj, low m hm', inner_smul_right, hV i (by omega) m (by omega), if_neg (by omega), mul_zero, map_zero, zero_smul]
  rw [e1, zero_add]
  refine sum_congr rfl fun m hm => ?_
  obtain ⟨h1, h2⟩ := mem_Ico.mp hm
  congr 1
  rw [← inner_conj_symm, hadj, left m h1 h2, inner_add_right, inner_smul_right, inner_smul_right, hV i (by omega) m (by omega), if_neg (by omega), mul_zero, zero_add,
    hV i (by omega) _ (by have := nxt_le (p := p) hpi h2; omega)]
  by_cases hx : i = nxt p m
  · rw [if_pos hx, mul_one, RCLike.conj_ofReal]
    have := bent_nxt p a b m
    rw [← hx] at this
    rw [this]
  · rw [if_neg hx, mul_zero, map_zero, bent_other p a b (by omega) (fun e => hx e.symm), RCLike.ofReal_zero]

/-- One step of the loop of SVDTwoSideLanczos: the two recurrences. -/
theorem loop_step (o : Opts) (he : o.eta ≤ 1) {A : E →ₗ[𝕜] F} {AT : F →ₗ[𝕜] E} (hadj : Adj A AT) {c p i : ℕ} {s : Bid E F} (h : Run A AT c p i s) (hp : p < i)
    (hex : Exact AT c s) (x : E) (b : ℝ) (hx : cgsPass 𝕜 0 s.V i (AT (s.U (i - 1))) = (b : 𝕜) • x) (hn : ‖x‖ = 1) (hb : 0 < b) :
    cgsPass 𝕜 0 s.U i (A x) = A x - (b : 𝕜) • s.U (i - 1) := by
  have hle := h.le
  have hV : Insert.ON 𝕜 (wr s.V i x) (i + 1) := by
    refine Insert.on_step h.onV ?_ hn
    intro m hm
    have := pass_orth h.onV (AT (s.U (i - 1))) hm
    rw [hx, inner_smul_right] at this
    rcases mul_eq_zero.mp this with e | e
    · exact absurd (RCLike.ofReal_eq_zero.mp e) hb.ne'
    · exact e
  have hleft : ∀ m, c ≤ m → m < i → AT (s.U m) = (s.alpha m : 𝕜) • (wr s.V i x) m + ((wr s.beta (i - 1) b m : ℝ) : 𝕜) • (wr s.V i x) (nxt p m) := by
    intro m hc hm
    have ho : (wr s.V i x) m = s.V m := Biorth.wr_other _ _ _ (by omega)
    rw [ho]
    by_cases hmi : m + 1 < i
    · have h2 : nxt p m ≤ i - 1 := nxt_le (by omega) (by omega)
      rw [Biorth.wr_other _ _ _ (by omega), Biorth.wr_other _ _ _ (by omega)]
      exact h.left m hc hmi
    · have : m = i - 1 := by omega
      subst this
      have hnx : nxt p (i - 1) = i := by unfold nxt; rw [if_neg (by omega)]; omega
      rw [Biorth.wr_same, hnx, Biorth.wr_same, ← hx, pass_zero, h.vstep hadj hp, add_sub_cancel]
  have hlow : ∀ m < c, AT (s.U m) = (s.alpha m : 𝕜) • (wr s.V i x) m := by
    intro m hm
    rw [Biorth.wr_other _ _ _ (by omega)]
    exact hex m hm
  have hpr := proj_u (U := s.U) (a := s.alpha) (b := wr s.beta (i - 1) b) hadj hle (by omega) hV hlow hleft
  rw [Biorth.wr_same] at hpr
  rw [pass_zero, hpr]
  congr 1
  have hnx : nxt p (i - 1) = i := by unfold nxt; rw [if_neg (by omega)]; omega
  rw [Finset.sum_eq_single_of_mem (i - 1) (mem_Ico.mpr ⟨by omega, by omega⟩)]
  · have := bent_nxt p s.alpha (wr s.beta (i - 1) b) (i - 1)
    rw [hnx, Biorth.wr_same] at this
    rw [this]
  · intro m hm hne
    have := mem_Ico.mp hm
    have h2 : nxt p m ≤ i - 1 := nxt_le (by omega) (by omega)
    rw [bent_other _ _ _ (by omega) (by omega), RCLike.ofReal_zero, zero_smul]

/-- The first left vector. -/
theorem first_step {A : E →ₗ[𝕜] F} {AT : F →ₗ[𝕜] E} (hadj : Adj A AT) {c l : ℕ} {s : Bid E F} (h : Kept A AT c (c + l) s) (hex : Exact AT c s) :
    cgsPass 𝕜 0 s.U (c + l) (A (s.V (c + l))) = firstU A c l s := by
  obtain ⟨k1, k2, k3⟩ := h.start
  rw [pass_zero, proj_u hadj h.le le_rfl h.onV hex k3]
  have e : ∑ m ∈ Ico c (c + l), ((bent (c + l) s.alpha s.beta m (c + l) : ℝ) : 𝕜) • s.U m = ∑ i ∈ range l, (s.beta (i + c) : 𝕜) • s.U (c + i) := by
    rw [Finset.sum_Ico_eq_sum_range, Nat.add_sub_cancel_left]
    refine sum_congr rfl fun i hi => ?_
    have := mem_range.mp hi
    have hnx : nxt (c + l) (c + i) = c + l := by unfold nxt; rw [if_pos (by omega)]
    have hb := bent_nxt (c + l) s.alpha s.beta (c + i)
    rw [hnx] at hb
    rw [hb, add_comm i c]
  unfold firstU
  by_cases hl : 0 < l
  · rw [if_pos hl, e]
  · have : l = 0 := by omega
    subst this
    rw [if_neg hl, e, sum_range_zero, sub_zero]

end Verif.GKL
