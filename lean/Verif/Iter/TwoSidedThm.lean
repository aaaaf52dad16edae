import Verif.Iter.TwoSidedModel
import Verif.Iter.RqiThm
import Verif.Iter.Two

/-!
# C151: two-sided power method
-/

set_option linter.all false

namespace Verif.Iter

open Finset

variable {E : Type*} [NormedAddCommGroup E] [InnerProductSpace ℂ E] {OP OPs : E →ₗ[ℂ] E} {tol : ℝ} {nev : ℕ}

/-- the first `m` columns are biorthonormal -/
def Biorth (V W : ℕ → E) (m : ℕ) : Prop := ∀ i < m, ∀ j < m, inner ℂ (W i) (V j) = if i = j then (1 : ℂ) else 0

/-- `OPs` is the adjoint of `OP` -/
def Adj (OP OPs : E →ₗ[ℂ] E) : Prop := ∀ x y, inner ℂ x (OP y) = (inner ℂ (OPs x) y : ℂ)

theorem inner_ty {st : TSt E} (hb : Biorth st.V st.W st.k) (y0 : E) {i : ℕ} (hi : i < st.k) : inner ℂ (st.W i) (st.y y0) = 0 := by
  unfold TSt.y
  rw [inner_sub_right, inner_sum, Finset.sum_eq_single i]
  · rw [inner_smul_right, hb i hi i hi, if_pos rfl, mul_one]; exact sub_self _
  · intro j hj hne
    rw [inner_smul_right, hb i hi j (mem_range.mp hj), if_neg (Ne.symm hne), mul_zero]
  · intro h; exact absurd (mem_range.mpr hi) h

theorem inner_tz {st : TSt E} (hb : Biorth st.V st.W st.k) (z0 : E) {i : ℕ} (hi : i < st.k) : inner ℂ (st.V i) (st.z z0) = 0 := by
  have hb' : ∀ i < st.k, ∀ j < st.k, inner ℂ (st.V i) (st.W j) = if i = j then (1 : ℂ) else 0 := by
    intro i hi j hj
    rw [← inner_conj_symm, hb j hj i hi]
    by_cases h : i = j
    · subst h; simp
    · rw [if_neg h, if_neg (Ne.symm h), map_zero]
  unfold TSt.z
  rw [inner_sub_right, inner_sum, Finset.sum_eq_single i]
  · rw [inner_smul_right, hb' i hi i hi, if_pos rfl, mul_one]; exact sub_self _
  · intro j hj hne
    rw [inner_smul_right, hb' i hi j (mem_range.mp hj), if_neg (Ne.symm hne), mul_zero]
  · intro h; exact absurd (mem_range.mpr hi) h

theorem delta_sq (st : TSt E) (y0 z0 : E) : (st.delta y0 z0 : ℂ) * (st.delta y0 z0 : ℂ) = (‖st.alpha y0 z0‖ : ℂ) := by
  unfold TSt.delta
  rw [← Complex.ofReal_mul, Real.mul_self_sqrt (norm_nonneg _)]

theorem alpha_ne {st : TSt E} {y0 z0 : E} (h : st.delta y0 z0 ≠ 0) : st.alpha y0 z0 ≠ 0 := by
  intro h0; apply h; unfold TSt.delta; rw [h0, norm_zero, Real.sqrt_zero]

/-- normalization -/
theorem inner_new {st : TSt E} {y0 z0 : E} (h : st.delta y0 z0 ≠ 0) : inner ℂ (st.newW y0 z0) (st.newV y0 z0) = (1 : ℂ) := by
  have ha := alpha_ne h
  have hd : (st.delta y0 z0 : ℂ) ≠ 0 := by exact_mod_cast h
  have hs : (inner ℂ (st.z z0) (st.y y0) : ℂ) = star (st.alpha y0 z0) := by
    unfold TSt.alpha; exact (inner_conj_symm _ _).symm
  have hcd : star (st.delta y0 z0 : ℂ) = (st.delta y0 z0 : ℂ) := Complex.conj_ofReal _
  unfold TSt.newV TSt.newW
  rw [inner_smul_left, inner_smul_right, hs]
  rw [show (starRingEnd ℂ) (1 / (st.delta y0 z0 : ℂ)) = star (1 / (st.delta y0 z0 : ℂ)) from rfl, star_div₀, star_one, hcd, star_div₀, hcd]
  have : star (st.alpha y0 z0) ≠ 0 := star_ne_zero.mpr ha
  generalize star (st.alpha y0 z0) = a at *
  field_simp

theorem Biorth.snoc {V W : ℕ → E} {m : ℕ} (h : Biorth V W m) {x y : E} (hx : inner ℂ y x = (1 : ℂ)) (h1 : ∀ j < m, inner ℂ (W j) x = (0 : ℂ)) (h2 : ∀ j < m, inner ℂ (V j) y = (0 : ℂ)) :
    Biorth (Function.update V m x) (Function.update W m y) (m + 1) := by
  intro i hi j hj
  by_cases e1 : i = m <;> by_cases e2 : j = m
  · subst e1; subst e2; simpa using hx
  · subst e1
    rw [Function.update_self, Function.update_of_ne e2, if_neg (Ne.symm e2), ← inner_conj_symm, h2 j (by omega), map_zero]
  · subst e2
    rw [Function.update_self, Function.update_of_ne e1, if_neg e1]
    exact h1 i (by omega)
  · rw [Function.update_of_ne e1, Function.update_of_ne e2]
    exact h i (by omega) j (by omega)

theorem Biorth.congr {V W V' W' : ℕ → E} {m : ℕ} (h : Biorth V W m) (e : ∀ j < m, V' j = V j) (e' : ∀ j < m, W' j = W j) : Biorth V' W' m := by
  intro i hi j hj; rw [e' i hi, e j hj]; exact h i hi j hj

/-- the fields after a step -/
theorem ts_fields {st st' : TSt E} {sv sw : E} (h : tsStep OP OPs tol nev sv sw st = some st') :
    st.delta (OP st.v) (OPs st.w) ≠ 0 ∧ (∀ j < st.k, st'.V j = st.V j ∧ st'.W j = st.W j ∧ st'.eig j = st.eig j ∧ st'.err j = st.err j) ∧
      st'.V st.k = st.newV (OP st.v) (OPs st.w) ∧ st'.W st.k = st.newW (OP st.v) (OPs st.w) ∧ st'.v = st.newV (OP st.v) (OPs st.w) ∧ st'.w = st.newW (OP st.v) (OPs st.w) ∧
      st'.eig st.k = st.theta (OP st.v) ∧ st'.err st.k = st.relerr (OP st.v) (OPs st.w) ∧
      ((st'.k = st.k ∧ ¬below (st.relerr (OP st.v) (OPs st.w)) tol) ∨ (st'.k = st.k + 1 ∧ below (st.relerr (OP st.v) (OPs st.w)) tol)) := by
  unfold tsStep at h
  by_cases hd : st.delta (OP st.v) (OPs st.w) = 0
  · simp only [hd, if_true] at h; cases h
  simp only [hd, if_false] at h
  have h := Option.some.inj h
  refine ⟨hd, ?_⟩
  by_cases hc : below (st.relerr (OP st.v) (OPs st.w)) tol
  · rw [if_pos hc] at h
    refine ⟨fun j hj => ⟨?_, ?_, ?_, ?_⟩, ?_, ?_, by rw [← h], by rw [← h], ?_, ?_, Or.inr ⟨by rw [← h], hc⟩⟩
    · rw [← h]
      by_cases h2 : st.k + 1 < nev
      · simp only [h2, if_true]; rw [Function.update_of_ne (by omega), Function.update_of_ne (by omega)]
      · simp only [h2, if_false]; rw [Function.update_of_ne (by omega)]
    · rw [← h]
      by_cases h2 : st.k + 1 < nev
      · simp only [h2, if_true]; rw [Function.update_of_ne (by omega), Function.update_of_ne (by omega)]
      · simp only [h2, if_false]; rw [Function.update_of_ne (by omega)]
    · rw [← h]; exact Function.update_of_ne (by omega) _ _
    · rw [← h]; exact Function.update_of_ne (by omega) _ _
    · rw [← h]
      by_cases h2 : st.k + 1 < nev
      · simp only [h2, if_true]; rw [Function.update_of_ne (by omega), Function.update_self]
      · simp only [h2, if_false]; rw [Function.update_self]
    · rw [← h]
      by_cases h2 : st.k + 1 < nev
      · simp only [h2, if_true]; rw [Function.update_of_ne (by omega), Function.update_self]
      · simp only [h2, if_false]; rw [Function.update_self]
    · rw [← h]; show Function.update st.eig st.k (st.theta (OP st.v)) st.k = _; rw [Function.update_self]
    · rw [← h]; show Function.update st.err st.k (st.relerr (OP st.v) (OPs st.w)) st.k = _; rw [Function.update_self]
  · rw [if_neg hc] at h
    refine ⟨fun j hj => ⟨?_, ?_, ?_, ?_⟩, ?_, ?_, by rw [← h], by rw [← h], ?_, ?_, Or.inl ⟨by rw [← h], hc⟩⟩
    · rw [← h]; exact Function.update_of_ne (by omega) _ _
    · rw [← h]; exact Function.update_of_ne (by omega) _ _
    · rw [← h]; exact Function.update_of_ne (by omega) _ _
    · rw [← h]; exact Function.update_of_ne (by omega) _ _
    · rw [← h]; show Function.update st.V st.k (st.newV (OP st.v) (OPs st.w)) st.k = _; rw [Function.update_self]
    · rw [← h]; show Function.update st.W st.k (st.newW (OP st.v) (OPs st.w)) st.k = _; rw [Function.update_self]
    · rw [← h]; show Function.update st.eig st.k (st.theta (OP st.v)) st.k = _; rw [Function.update_self]
    · rw [← h]; show Function.update st.err st.k (st.relerr (OP st.v) (OPs st.w)) st.k = _; rw [Function.update_self]

theorem biorth_new {st : TSt E} (hb : Biorth st.V st.W st.k) {y0 z0 : E} (h : st.delta y0 z0 ≠ 0) :
    Biorth (Function.update st.V st.k (st.newV y0 z0)) (Function.update st.W st.k (st.newW y0 z0)) (st.k + 1) := by
  refine hb.snoc (inner_new h) ?_ ?_
  · intro j hj; unfold TSt.newV; rw [inner_smul_right, inner_ty hb _ hj, mul_zero]
  · intro j hj; unfold TSt.newW; rw [inner_smul_right, inner_tz hb _ hj, mul_zero]

/-- **C151** (biorthonormality).  In every state of every execution the right and left vectors of the accepted pairs are biorthonormal, the work vectors satisfy `w* v = 1`, and every accepted pair has an
    estimate below the tolerance. -/
theorem C151_biorth {st : TSt E} (hr : ReachT OP OPs tol nev st) :
    Biorth st.V st.W st.k ∧ inner ℂ st.w st.v = (1 : ℂ) ∧ ∀ j < st.k, below (st.err j) tol := by
  induction hr with
  | init st hk hv hw h =>
    refine ⟨fun i hi => by omega, by rw [hv, hw]; exact h, fun j hj => by omega⟩
  | step st st' sv sw hr hk hst ih =>
    obtain ⟨hd, hl, hV, hW, hv, hw, _, he, hc⟩ := ts_fields hst
    have hb := biorth_new ih.1 hd
    have hb' : Biorth st'.V st'.W (st.k + 1) := by
      refine hb.congr ?_ ?_
      · intro j hj
        by_cases h2 : j = st.k
        · subst h2; rw [Function.update_self, hV]
        · rw [Function.update_of_ne h2]; exact (hl j (by omega)).1
      · intro j hj
        by_cases h2 : j = st.k
        · subst h2; rw [Function.update_self, hW]
        · rw [Function.update_of_ne h2]; exact (hl j (by omega)).2.1
    refine ⟨?_, by rw [hv, hw]; exact inner_new hd, ?_⟩
    · rcases hc with ⟨e, _⟩ | ⟨e, _⟩
      · rw [e]; exact fun i hi j hj => hb' i (by omega) j (by omega)
      · rw [e]; exact hb'
    · intro j hj
      rcases hc with ⟨e, hnb⟩ | ⟨e, hbl⟩
      · rw [e] at hj; rw [(hl j hj).2.2.2]; exact ih.2.2 j hj
      · rw [e] at hj
        by_cases h2 : j = st.k
        · subst h2; rw [he]; exact hbl
        · rw [(hl j (by omega)).2.2.2]; exact ih.2.2 j (by omega)

/-- **C151** (accepted pairs; partial).  When a pair is accepted, the new right and left vectors satisfy the equations of eigenvectors, up to components in the accepted vectors, with residuals at most
    the tolerance times the norm of the operator times |theta|/delta.  Partial: the estimate is that of the vectors before the last application of the operator. -/
theorem C151_residual_partial {M : ℝ} (hM : Bound OP M) (hMs : Bound OPs M) {st st' : TSt E} {sv sw : E} (hst : tsStep OP OPs tol nev sv sw st = some st') (hacc : st'.k = st.k + 1) :
    (∃ g : ℕ → ℂ, ‖OP (st'.V st.k) - st'.eig st.k • st'.V st.k - ∑ j ∈ range st.k, g j • st.V j‖ ≤ M * (tol * (‖st'.eig st.k‖ / st.delta (OP st.v) (OPs st.w)))) ∧
    ∃ g : ℕ → ℂ, ‖OPs (st'.W st.k) - star (st'.eig st.k) • st'.W st.k - ∑ j ∈ range st.k, g j • st.W j‖ ≤ M * (tol * (‖st'.eig st.k‖ / st.delta (OP st.v) (OPs st.w))) := by
  obtain ⟨hd, _, hV, hW, _, _, hE, he, hc⟩ := ts_fields hst
  rcases hc with ⟨e, _⟩ | ⟨_, hb⟩
  · omega
  obtain ⟨r, hr, hlt⟩ := hb
  set y0 := OP st.v
  set z0 := OPs st.w
  set θ := st.theta y0 with hθd
  unfold TSt.relerr at hr
  by_cases hθ : θ = 0
  · rw [if_pos hθ] at hr; cases hr
  rw [if_neg hθ] at hr
  have hr := Option.some.inj hr
  have hθn : 0 < ‖θ‖ := norm_pos_iff.mpr hθ
  rw [← hr, div_lt_iff₀ hθn, max_lt_iff] at hlt
  have hdp : 0 < st.delta y0 z0 := lt_of_le_of_ne (Real.sqrt_nonneg _) (Ne.symm hd)
  have ha := alpha_ne hd
  have hnγ : ‖1 / star (st.alpha y0 z0 / (st.delta y0 z0 : ℂ))‖ = 1 / st.delta y0 z0 := by
    rw [norm_div, norm_one, norm_star, norm_div, Complex.norm_real, Real.norm_of_nonneg hdp.le]
    have : ‖st.alpha y0 z0‖ = st.delta y0 z0 * st.delta y0 z0 := by unfold TSt.delta; rw [Real.mul_self_sqrt (norm_nonneg _)]
    rw [this]; field_simp
  have hnd : ‖1 / (st.delta y0 z0 : ℂ)‖ = 1 / st.delta y0 z0 := by
    rw [norm_div, norm_one, Complex.norm_real, Real.norm_of_nonneg hdp.le]
  rw [hE, hV, hW]
  constructor
  · refine ⟨fun j => 1 / star (st.alpha y0 z0 / (st.delta y0 z0 : ℂ)) * (θ * inner ℂ (st.W j) y0), ?_⟩
    have e1 : OP (st.newV y0 z0) - θ • st.newV y0 z0 - ∑ j ∈ range st.k, (1 / star (st.alpha y0 z0 / (st.delta y0 z0 : ℂ)) * (θ * inner ℂ (st.W j) y0)) • st.V j =
        (1 / star (st.alpha y0 z0 / (st.delta y0 z0 : ℂ))) • OP (st.y y0 - θ • st.v) := by
      unfold TSt.newV
      generalize (1 / star (st.alpha y0 z0 / (st.delta y0 z0 : ℂ))) = c
      have e2 : ∑ j ∈ range st.k, (c * (θ * inner ℂ (st.W j) y0)) • st.V j = (c * θ) • ∑ j ∈ range st.k, inner ℂ (st.W j) y0 • st.V j := by
        rw [smul_sum]; exact sum_congr rfl fun j _ => by rw [smul_smul, mul_assoc]
      have e3 : OP st.v = st.y y0 + ∑ j ∈ range st.k, inner ℂ (st.W j) y0 • st.V j := by unfold TSt.y; rw [sub_add_cancel]
      rw [e2, map_smul, map_sub, map_smul, e3]
      generalize ∑ j ∈ range st.k, inner ℂ (st.W j) y0 • st.V j = S
      module
    rw [e1, norm_smul, hnγ]
    calc 1 / st.delta y0 z0 * ‖OP (st.y y0 - θ • st.v)‖ ≤ 1 / st.delta y0 z0 * (M * (tol * ‖θ‖)) :=
          mul_le_mul_of_nonneg_left ((hM.2 _).trans (mul_le_mul_of_nonneg_left hlt.1.le hM.1)) (by positivity)
      _ = _ := by ring
  · refine ⟨fun j => 1 / (st.delta y0 z0 : ℂ) * (star θ * inner ℂ (st.V j) z0), ?_⟩
    have e1 : OPs (st.newW y0 z0) - star θ • st.newW y0 z0 - ∑ j ∈ range st.k, (1 / (st.delta y0 z0 : ℂ) * (star θ * inner ℂ (st.V j) z0)) • st.W j =
        (1 / (st.delta y0 z0 : ℂ)) • OPs (st.z z0 - star θ • st.w) := by
      unfold TSt.newW
      generalize (1 / (st.delta y0 z0 : ℂ)) = c
      generalize star θ = t
      have e2 : ∑ j ∈ range st.k, (c * (t * inner ℂ (st.V j) z0)) • st.W j = (c * t) • ∑ j ∈ range st.k, inner ℂ (st.V j) z0 • st.W j := by
        rw [smul_sum]; exact sum_congr rfl fun j _ => by rw [smul_smul, mul_assoc]
      have e3 : OPs st.w = st.z z0 + ∑ j ∈ range st.k, inner ℂ (st.V j) z0 • st.W j := by unfold TSt.z; rw [sub_add_cancel]
      rw [e2, map_smul, map_sub, map_smul, e3]
      generalize ∑ j ∈ range st.k, inner ℂ (st.V j) z0 • st.W j = S
      module
    rw [e1, norm_smul, hnd]
    calc 1 / st.delta y0 z0 * ‖OPs (st.z z0 - star θ • st.w)‖ ≤ 1 / st.delta y0 z0 * (M * (tol * ‖θ‖)) :=
          mul_le_mul_of_nonneg_left ((hMs.2 _).trans (mul_le_mul_of_nonneg_left hlt.2.le hMs.1)) (by positivity)
      _ = _ := by ring

/-- **C151** (negation for the start vectors).  After a pair has been accepted, the vectors to which the operators are applied next are the accepted ones, whatever the start vectors. -/
theorem C151_start_unused {st st' : TSt E} {sv sw : E} (hst : tsStep OP OPs tol nev sv sw st = some st') (hacc : st'.k = st.k + 1) :
    st'.v = st'.V st.k ∧ st'.w = st'.W st.k := by
  obtain ⟨_, _, hV, hW, hv, hw, _, _, _⟩ := ts_fields hst
  exact ⟨by rw [hv, hV], by rw [hw, hW]⟩

/-- **C151** (negation: more than one eigenvalue).  If a pair has converged exactly it is accepted, and the next iteration ends with an error, for all start vectors. -/
theorem C151_start_false {st : TSt E} (hb : Biorth st.V st.W st.k) {θ : ℂ} (hθ : θ ≠ 0) (hv : OP st.v = θ • st.v) (hw : OPs st.w = star θ • st.w) (h1 : inner ℂ st.w st.v = (1 : ℂ))
    (hv0 : ∀ j < st.k, inner ℂ (st.W j) st.v = (0 : ℂ)) (hw0 : ∀ j < st.k, inner ℂ (st.V j) st.w = (0 : ℂ)) (ht : 0 < tol) (sv sw : E) :
    ∃ st', tsStep OP OPs tol nev sv sw st = some st' ∧ st'.k = st.k + 1 ∧ ∀ sv' sw', tsStep OP OPs tol nev sv' sw' st' = none := by
  have hy : st.y (OP st.v) = θ • st.v := by
    unfold TSt.y
    rw [hv, sum_eq_zero, sub_zero]
    intro j hj
    rw [inner_smul_right, hv0 j (mem_range.mp hj), mul_zero, zero_smul]
  have hz : st.z (OPs st.w) = star θ • st.w := by
    unfold TSt.z
    rw [hw, sum_eq_zero, sub_zero]
    intro j hj
    rw [inner_smul_right, hw0 j (mem_range.mp hj), mul_zero, zero_smul]
  have hth : st.theta (OP st.v) = θ := by unfold TSt.theta; rw [hy, inner_smul_right, h1, mul_one]
  have hvw : inner ℂ st.v st.w = (1 : ℂ) := by rw [← inner_conj_symm, h1, map_one]
  have hal : st.alpha (OP st.v) (OPs st.w) = star θ * star θ := by
    unfold TSt.alpha; rw [hy, hz, inner_smul_left, inner_smul_right, hvw, mul_one]; rfl
  have hd : st.delta (OP st.v) (OPs st.w) ≠ 0 := by
    unfold TSt.delta
    rw [hal, Real.sqrt_ne_zero (norm_nonneg _), norm_ne_zero_iff]
    exact mul_ne_zero (star_ne_zero.mpr hθ) (star_ne_zero.mpr hθ)
  have hrel : st.relerr (OP st.v) (OPs st.w) = some 0 := by
    unfold TSt.relerr
    rw [hth, if_neg hθ, hy, hz, sub_self, sub_self, norm_zero, max_self, zero_div]
  have hbl : below (st.relerr (OP st.v) (OPs st.w)) tol := ⟨0, hrel, ht⟩
  obtain ⟨st', hst⟩ : ∃ st', tsStep OP OPs tol nev sv sw st = some st' := by
    unfold tsStep; simp only [hd, if_false]; exact ⟨_, rfl⟩
  obtain ⟨_, hl, hV, hW, hv', hw', _, _, hc⟩ := ts_fields hst
  have hk : st'.k = st.k + 1 := by
    rcases hc with ⟨_, h⟩ | ⟨h, _⟩
    · exact absurd hbl h
    · exact h
  refine ⟨st', hst, hk, ?_⟩
  intro sv' sw'
  have hOPv : OP st'.v = θ • st'.v := by
    rw [hv']; unfold TSt.newV; rw [hy, map_smul, map_smul, hv]; module
  have hy' : st'.y (OP st'.v) = 0 := by
    unfold TSt.y
    rw [hOPv, hk, sum_range_succ]
    have e1 : ∑ j ∈ range st.k, inner ℂ (st'.W j) (θ • st'.v) • st'.V j = 0 := by
      refine sum_eq_zero fun j hj => ?_
      have hj := mem_range.mp hj
      rw [(hl j hj).2.1, hv', inner_smul_right]
      unfold TSt.newV
      rw [inner_smul_right, inner_ty hb _ hj, mul_zero, mul_zero, zero_smul]
    have e2 : inner ℂ (st'.W st.k) (θ • st'.v) = θ := by
      rw [inner_smul_right, hW, hv', inner_new hd, mul_one]
    rw [e1, e2, zero_add, hV, hv', sub_self]
  have hd' : st'.delta (OP st'.v) (OPs st'.w) = 0 := by
    unfold TSt.delta TSt.alpha
    rw [hy', inner_zero_left, norm_zero, Real.sqrt_zero]
  unfold tsStep
  simp only [hd', if_true]

/-- **C151** (estimate of the two-sided Rayleigh quotient iteration).  Without accepted pairs, the residuals of the new vectors with the shift are (estimate)*|shift| times the norms of the previous
    vectors. -/
theorem C151_rqi_estimate {A As : E →ₗ[ℂ] E} {st : TSt E} (hk : st.k = 0) {y0 z0 : E} (hy : A y0 - st.rho • y0 = st.v) (hz : As z0 - star st.rho • z0 = st.w) {r : ℝ} (hr : st.relerrQ y0 z0 = some r) :
    ‖A (st.newV y0 z0) - st.rho • st.newV y0 z0‖ = r * ‖st.rho‖ * ‖st.v‖ ∧ ‖As (st.newW y0 z0) - star st.rho • st.newW y0 z0‖ = r * ‖st.rho‖ * ‖st.w‖ := by
  unfold TSt.relerrQ at hr
  by_cases hc : st.rho = 0 ∨ st.delta y0 z0 = 0
  · rw [if_pos hc] at hr; cases hr
  rw [if_neg hc] at hr
  push Not at hc
  have hr := Option.some.inj hr
  have hdp : 0 < st.delta y0 z0 := lt_of_le_of_ne (Real.sqrt_nonneg _) (Ne.symm hc.2)
  have hρ : ‖st.rho‖ ≠ 0 := norm_ne_zero_iff.mpr hc.1
  have hyy : st.y y0 = y0 := by unfold TSt.y; rw [hk]; simp
  have hzz : st.z z0 = z0 := by unfold TSt.z; rw [hk]; simp
  have hnγ : ‖1 / star (st.alpha y0 z0 / (st.delta y0 z0 : ℂ))‖ = 1 / st.delta y0 z0 := by
    rw [norm_div, norm_one, norm_star, norm_div, Complex.norm_real, Real.norm_of_nonneg hdp.le]
    have : ‖st.alpha y0 z0‖ = st.delta y0 z0 * st.delta y0 z0 := by unfold TSt.delta; rw [Real.mul_self_sqrt (norm_nonneg _)]
    rw [this]; field_simp
  have hrr : r * ‖st.rho‖ = 1 / st.delta y0 z0 := by
    rw [← hr, norm_mul, Complex.norm_real, Real.norm_of_nonneg hdp.le]; field_simp
  constructor
  · unfold TSt.newV
    rw [hyy, map_smul, smul_comm st.rho, ← smul_sub, hy, norm_smul, hnγ, hrr]
  · unfold TSt.newW
    rw [hzz, map_smul, smul_comm (star st.rho), ← smul_sub, hz, norm_smul, hrr, norm_div, norm_one, Complex.norm_real, Real.norm_of_nonneg hdp.le]

/-- **C151** (two-sided Rayleigh quotient; partial).  If the accepted right vectors span an invariant subspace, the new shift is the two-sided Rayleigh quotient of the new vectors provided `theta` is real and
    `alpha` is real and positive.  Partial: not otherwise (`C151_quotient_false`). -/
theorem C151_quotient_partial {A As : E →ₗ[ℂ] E} (hadj : Adj A As) {st : TSt E} (hb : Biorth st.V st.W st.k) (hv0 : ∀ j < st.k, inner ℂ (st.W j) st.v = (0 : ℂ)) (hw0 : ∀ j < st.k, inner ℂ (st.V j) st.w = (0 : ℂ))
    {y0 z0 : E} (hy : A y0 - st.rho • y0 = st.v) (hz : As z0 - star st.rho • z0 = st.w) {C : ℕ → ℕ → ℂ} (hC : ∀ j < st.k, A (st.V j) = ∑ i ∈ range st.k, C i j • st.V i)
    {t a : ℝ} (hθ : st.theta y0 = t) (ha : st.alpha y0 z0 = a) (hap : 0 < a) :
    inner ℂ (st.newW y0 z0) (A (st.newV y0 z0)) = st.quot y0 z0 := by
  have hd2 : (st.delta y0 z0 : ℂ) * (st.delta y0 z0 : ℂ) = (a : ℂ) := by
    rw [delta_sq, ha, Complex.norm_real, Real.norm_of_nonneg hap.le]
  have hane : (a : ℂ) ≠ 0 := by exact_mod_cast hap.ne'
  have hdne : (st.delta y0 z0 : ℂ) ≠ 0 := by intro h; rw [h, zero_mul] at hd2; exact hane hd2.symm
  -- A y - rho y = v up to accepted vectors
  obtain ⟨g, hg⟩ : ∃ g : ℕ → ℂ, A (st.y y0) - st.rho • st.y y0 = st.v - ∑ i ∈ range st.k, g i • st.V i := by
    refine ⟨fun i => ∑ j ∈ range st.k, inner ℂ (st.W j) y0 * C i j - st.rho * inner ℂ (st.W i) y0, ?_⟩
    have e1 : A (∑ j ∈ range st.k, inner ℂ (st.W j) y0 • st.V j) = ∑ i ∈ range st.k, (∑ j ∈ range st.k, inner ℂ (st.W j) y0 * C i j) • st.V i := by
      rw [map_sum]
      calc ∑ j ∈ range st.k, A (inner ℂ (st.W j) y0 • st.V j) = ∑ j ∈ range st.k, ∑ i ∈ range st.k, (inner ℂ (st.W j) y0 * C i j) • st.V i := by
            refine sum_congr rfl fun j hj => ?_
            rw [map_smul, hC j (mem_range.mp hj), smul_sum]
            exact sum_congr rfl fun i _ => smul_smul _ _ _
        _ = _ := by rw [sum_comm]; exact sum_congr rfl fun i _ => (sum_smul).symm
    have e2 : ∑ i ∈ range st.k, (∑ j ∈ range st.k, inner ℂ (st.W j) y0 * C i j - st.rho * inner ℂ (st.W i) y0) • st.V i =
        A (∑ j ∈ range st.k, inner ℂ (st.W j) y0 • st.V j) - st.rho • ∑ j ∈ range st.k, inner ℂ (st.W j) y0 • st.V j := by
      rw [e1, smul_sum, ← sum_sub_distrib]
      exact sum_congr rfl fun i _ => by rw [sub_smul, smul_smul]
    show A (st.y y0) - st.rho • st.y y0 = st.v - ∑ i ∈ range st.k, (∑ j ∈ range st.k, inner ℂ (st.W j) y0 * C i j - st.rho * inner ℂ (st.W i) y0) • st.V i
    rw [e2, ← hy]
    unfold TSt.y
    rw [map_sub]
    generalize ∑ j ∈ range st.k, inner ℂ (st.W j) y0 • st.V j = S
    module
  have hzV : inner ℂ (st.z z0) (∑ i ∈ range st.k, g i • st.V i) = 0 := by
    rw [inner_sum]
    refine sum_eq_zero fun i hi => ?_
    rw [inner_smul_right, ← inner_conj_symm, inner_tz hb z0 (mem_range.mp hi), map_zero, mul_zero]
  have hzv : inner ℂ (st.z z0) st.v = st.theta y0 := by
    have e1 : inner ℂ (st.z z0) st.v = (inner ℂ z0 st.v : ℂ) := by
      unfold TSt.z
      rw [inner_sub_left, sum_inner, sum_eq_zero, sub_zero]
      intro j hj
      rw [inner_smul_left, hv0 j (mem_range.mp hj), mul_zero]
    have e2 : inner ℂ z0 st.v = (inner ℂ st.w y0 : ℂ) := by
      rw [← hy, inner_sub_right, hadj, inner_smul_right, ← hz, inner_sub_left, inner_smul_left]
      simp
    have e3 : st.theta y0 = inner ℂ st.w y0 := by
      unfold TSt.theta TSt.y
      rw [inner_sub_right, inner_sum, sum_eq_zero, sub_zero]
      intro j hj
      rw [inner_smul_right, ← inner_conj_symm st.w, hw0 j (mem_range.mp hj), map_zero, mul_zero]
    rw [e1, e2, e3]
  have hAy : A (st.y y0) = st.rho • st.y y0 + (st.v - ∑ i ∈ range st.k, g i • st.V i) := by rw [← hg]; abel
  have hzy : inner ℂ (st.z z0) (st.y y0) = (a : ℂ) := by
    rw [← inner_conj_symm]; show (starRingEnd ℂ) (st.alpha y0 z0) = _; rw [ha, Complex.conj_ofReal]
  have hcd : star (st.delta y0 z0 : ℂ) = (st.delta y0 z0 : ℂ) := Complex.conj_ofReal _
  have hca : star (a : ℂ) = (a : ℂ) := Complex.conj_ofReal _
  have hct : star (t : ℂ) = (t : ℂ) := Complex.conj_ofReal _
  unfold TSt.newV TSt.newW TSt.quot
  rw [map_smul, inner_smul_left, inner_smul_right, hAy, inner_add_right, inner_smul_right, inner_sub_right, hzV, sub_zero, hzv, hzy, hθ, hct, hd2, ha]
  rw [show (starRingEnd ℂ) (1 / (st.delta y0 z0 : ℂ)) = star (1 / (st.delta y0 z0 : ℂ)) from rfl, star_div₀, star_one, hcd, star_div₀, hcd, hca]
  field_simp

/-- the state of the example: matrix `[[0,1],[-1,0]]`, shift zero, `v = e1`, `w = e1+e2` -/
noncomputable def tsq : TSt E2 := { V := fun _ => vec2 1 0, W := fun _ => vec2 1 1, k := 0, v := vec2 1 0, w := vec2 1 1, eig := fun _ => 0, err := fun _ => none, rho := 0 }

/-- **C151** (negation for the Rayleigh quotient).  With a real matrix and real vectors the new shift can have the wrong sign: for `[[0,1],[-1,0]]` it is 1 while the two-sided Rayleigh quotient of the new vectors is -1. -/
theorem C151_quotient_false :
    Adj (op2 0 1 (-1) 0) (op2 0 (-1) 1 0) ∧ inner ℂ tsq.w tsq.v = (1 : ℂ) ∧ op2 0 1 (-1) 0 (vec2 0 1) - tsq.rho • vec2 0 1 = tsq.v ∧
      op2 0 (-1) 1 0 (vec2 1 (-1)) - star tsq.rho • vec2 1 (-1) = tsq.w ∧ tsq.quot (vec2 0 1) (vec2 1 (-1)) = 1 ∧
      inner ℂ (tsq.newW (vec2 0 1) (vec2 1 (-1))) (op2 0 1 (-1) 0 (tsq.newV (vec2 0 1) (vec2 1 (-1)))) = (-1 : ℂ) := by
  have hy : tsq.y (vec2 0 1) = vec2 0 1 := by unfold TSt.y; show _ - ∑ j ∈ range 0, _ = _; simp
  have hz : tsq.z (vec2 1 (-1)) = vec2 1 (-1) := by unfold TSt.z; show _ - ∑ j ∈ range 0, _ = _; simp
  have hal : tsq.alpha (vec2 0 1) (vec2 1 (-1)) = -1 := by unfold TSt.alpha; rw [hy, hz, inner2]; simp
  have hd : tsq.delta (vec2 0 1) (vec2 1 (-1)) = 1 := by unfold TSt.delta; rw [hal]; simp
  have hth : tsq.theta (vec2 0 1) = 1 := by unfold TSt.theta; rw [hy]; show inner ℂ (vec2 1 1) (vec2 0 1) = 1; rw [inner2]; simp
  refine ⟨?_, ?_, ?_, ?_, ?_, ?_⟩
  · intro x y
    have hx : x = vec2 (x 0) (x 1) := by ext i; fin_cases i <;> simp [vec2]
    have hy : y = vec2 (y 0) (y 1) := by ext i; fin_cases i <;> simp [vec2]
    rw [hx, hy, op2_vec, op2_vec, inner2, inner2]
    simp
    ring
  · show inner ℂ (vec2 1 1) (vec2 1 0) = (1 : ℂ); rw [inner2]; simp
  · show op2 0 1 (-1) 0 (vec2 0 1) - (0 : ℂ) • vec2 0 1 = vec2 1 0; rw [op2_vec, smul2, sub2]; norm_num
  · show op2 0 (-1) 1 0 (vec2 1 (-1)) - star (0 : ℂ) • vec2 1 (-1) = vec2 1 1; rw [op2_vec, smul2, sub2]; norm_num
  · unfold TSt.quot; rw [hth, hd]; show (0 : ℂ) + _ = 1; simp
  · unfold TSt.newV TSt.newW
    rw [hal, hd, hy, hz, smul2, smul2, op2_vec, inner2]
    simp

/-- a case of the theorems: `diag(2,1)` with `v = w = e1` converges exactly -/
example : ∃ st : TSt E2, ReachT (op2 2 0 0 1) (op2 2 0 0 1) (1 / 10) 2 st ∧ st.k = 1 := by
  have h := C151_start_false (OP := op2 2 0 0 1) (OPs := op2 2 0 0 1) (tol := 1 / 10) (nev := 2)
    (st := { V := fun _ => vec2 1 0, W := fun _ => vec2 1 0, k := 0, v := vec2 1 0, w := vec2 1 0, eig := fun _ => 0, err := fun _ => none, rho := 0 })
    (fun i hi => absurd hi (Nat.not_lt_zero i)) (θ := 2) two_ne_zero (by show op2 2 0 0 1 (vec2 1 0) = (2 : ℂ) • vec2 1 0; rw [op2_vec, smul2]; norm_num)
    (by show op2 2 0 0 1 (vec2 1 0) = star (2 : ℂ) • vec2 1 0; rw [op2_vec, smul2]; norm_num) (by show inner ℂ (vec2 1 0) (vec2 1 0) = (1 : ℂ); rw [inner2]; simp)
    (fun j hj => absurd hj (Nat.not_lt_zero j)) (fun j hj => absurd hj (Nat.not_lt_zero j)) (by norm_num) (vec2 0 1) (vec2 0 1)
  obtain ⟨st', hst, hk, _⟩ := h
  exact ⟨st', ReachT.step _ _ _ _ (ReachT.init _ rfl rfl rfl (by show inner ℂ (vec2 1 0) (vec2 1 0) = (1 : ℂ); rw [inner2]; simp)) (by show 0 < 2; norm_num) hst, hk⟩

end Verif.Iter
