import Verif.Iter.Two
import Verif.Iter.PowerThm

/-!
# C149: cases in which the returned vectors or estimates are wrong, and examples
-/

set_option linter.all false

namespace Verif.Iter

open Finset

section
variable {E : Type*} [NormedAddCommGroup E] [InnerProductSpace ℂ E] {OP : E →ₗ[ℂ] E} {sgn : E → ℂ} {tol : ℝ} {nev : ℕ}

/-- an iteration whose vector has converged exactly -/
theorem exact_step {st : PSt E} {θ : ℂ} (hθ : θ ≠ 0) (hv : ‖st.V st.k‖ = 1) (he : st.y OP = θ • st.V st.k) (ht : 0 < tol) (start : E) :
    ∃ st', iter OP sgn tol nev start st = some st' ∧ st'.k = st.k + 1 ∧ st'.V st.k = (θ / (sgn (st.y OP) * (‖θ‖ : ℂ))) • st.V st.k ∧ (∀ j < st.k, st'.V j = st.V j) ∧
      (st.k + 1 < nev → st'.V (st.k + 1) = start) ∧
      (∀ i j, st'.T i j = if j = st.k then (if i < st.k then st.h OP i else if i = st.k then θ else st.T i j) else st.T i j) ∧ st'.err st.k = some 0 ∧ st'.eig st.k = θ ∧
      (∀ j < st.k, st'.eig j = st.eig j ∧ st'.err j = st.err j) := by
  have hth : st.theta OP = θ := by
    unfold PSt.theta; rw [he, inner_smul_right, inner_one_of_norm hv, mul_one]
  have hn : ‖st.y OP‖ = ‖θ‖ := by rw [he, norm_smul, hv, mul_one]
  have hne : ¬‖st.y OP‖ = 0 := by rw [hn]; exact norm_ne_zero_iff.mpr hθ
  have hre : st.relerr OP = some 0 := by
    unfold PSt.relerr
    rw [hth, if_neg hθ, he, sub_self, norm_zero, zero_div]
  have hb : below (st.relerr OP) tol := ⟨0, hre, ht⟩
  obtain ⟨st', hst'⟩ : ∃ st', iter OP sgn tol nev start st = some st' := by
    unfold iter; rw [if_neg hne]; exact ⟨_, rfl⟩
  have hst := hst'
  unfold iter at hst
  rw [if_neg hne] at hst
  have hst := Option.some.inj hst
  rw [if_pos hb] at hst
  refine ⟨st', hst', by rw [← hst], ?_, ?_, ?_, ?_, ?_, ?_, ?_⟩
  · have : st.newV OP sgn = (θ / (sgn (st.y OP) * (‖θ‖ : ℂ))) • st.V st.k := by
      unfold PSt.newV
      rw [hn]
      generalize sgn (st.y OP) = z
      rw [he, smul_smul]
      congr 1; ring
    rw [← hst]
    by_cases h2 : st.k + 1 < nev
    · simp only [h2, if_true]; rw [Function.update_of_ne (by omega), Function.update_self, this]
    · simp only [h2, if_false]; rw [Function.update_self, this]
  · intro j hj
    rw [← hst]
    by_cases h2 : st.k + 1 < nev
    · simp only [h2, if_true]; rw [Function.update_of_ne (by omega), Function.update_of_ne (by omega)]
    · simp only [h2, if_false]; rw [Function.update_of_ne (by omega)]
  · intro h2; rw [← hst]; simp only [h2, if_true]; exact Function.update_self ..
  · intro i j; rw [← hth, ← hst]
  · rw [← hst]; show Function.update st.err st.k (st.relerr OP) st.k = _; rw [Function.update_self, hre]
  · rw [← hst]; show Function.update st.eig st.k (st.theta OP) st.k = _; rw [Function.update_self, hth]
  · intro j hj; rw [← hst]; exact ⟨Function.update_of_ne (by omega) _ _, Function.update_of_ne (by omega) _ _⟩

end

/-- the state before the first iteration -/
noncomputable def pinit (v : E2) : PSt E2 := { V := fun _ => v, T := fun _ _ => 0, k := 0, eig := fun _ => 0, err := fun _ => none, ph := fun _ => 0 }

theorem y_zero {st : PSt E2} {OP : E2 →ₗ[ℂ] E2} (h : st.k = 0) : st.y OP = OP (st.V 0) := by
  unfold PSt.y; rw [h]; simp

theorem y_one {st : PSt E2} {OP : E2 →ₗ[ℂ] E2} (h : st.k = 1) : st.y OP = OP (st.V 1) - inner ℂ (st.V 0) (OP (st.V 1)) • st.V 0 := by
  unfold PSt.y PSt.h; rw [h]; simp

/-- two pairs of `[[2,1],[0,-1]]`, with normalization of the sign of the first entry -/
theorem run_upper {tol : ℝ} (ht : 0 < tol) {e : ℝ} (h0 : 0 ≤ e) (h1 : e < 1) :
    ∃ st, Reach (op2 2 1 0 (-1)) (signOf true e fst2) tol 2 st ∧ st.k = 2 ∧ st.V 0 = vec2 1 0 ∧ st.V 1 = vec2 0 (-1) ∧ st.T 0 0 = 2 ∧ st.T 0 1 = 1 ∧ st.T 1 0 = 0 ∧ st.T 1 1 = -1 ∧
      st.err 0 = some 0 ∧ st.err 1 = some 0 := by
  set OP := op2 2 1 0 (-1)
  set sgn := signOf true e fst2
  have hn1 : ‖vec2 1 0‖ = 1 := norm2_of zero_le_one (by norm_num)
  have hn2 : ‖vec2 0 1‖ = 1 := norm2_of zero_le_one (by norm_num)
  have hy0 : (pinit (vec2 1 0)).y OP = (2 : ℂ) • (pinit (vec2 1 0)).V (pinit (vec2 1 0)).k := by
    rw [y_zero rfl]; show op2 2 1 0 (-1) (vec2 1 0) = (2 : ℂ) • vec2 1 0
    rw [op2_vec, smul2]; norm_num
  have hs0 : sgn ((pinit (vec2 1 0)).y OP) = 1 := by
    rw [hy0]; show signOf true e fst2 ((2 : ℂ) • vec2 1 0) = 1
    unfold signOf
    rw [smul2, fst2_vec, if_pos ⟨rfl, by norm_num; linarith⟩]; norm_num
  obtain ⟨s1, hi1, k1, v1, _, w1, T1, er1, eg1, _⟩ :=
    exact_step (st := pinit (vec2 1 0)) (OP := OP) (sgn := sgn) (tol := tol) (nev := 2) (θ := 2) two_ne_zero hn1 hy0 ht (vec2 0 1)
  have v1' : s1.V 0 = vec2 1 0 := by
    have : s1.V 0 = ((2 : ℂ) / (sgn ((pinit (vec2 1 0)).y OP) * (‖(2 : ℂ)‖ : ℂ))) • vec2 1 0 := v1
    rw [this, hs0, smul2]; norm_num
  have k1' : s1.k = 1 := k1
  have w1' : s1.V 1 = vec2 0 1 := w1 (by show 0 + 1 < 2; norm_num)
  have r1 : Reach OP sgn tol 2 s1 := by
    refine Reach.step _ _ _ (Reach.init (pinit (vec2 1 0)) rfl hn1 fun _ _ => rfl) (by show 0 < 2; norm_num) (fun _ _ => ⟨hn2, ?_, ?_⟩) hi1
    · unfold PSt.newV; rw [hy0]
      show inner ℂ (_ • ((2 : ℂ) • vec2 1 0)) (vec2 0 1) = 0
      rw [smul2, smul2, inner2]; simp
    · intro j hj; exact absurd hj (by show ¬j < 0; omega)
  have hh : s1.h OP 0 = 1 := by
    unfold PSt.h; rw [k1', v1', w1']; show inner ℂ (vec2 1 0) (op2 2 1 0 (-1) (vec2 0 1)) = 1
    rw [op2_vec, inner2]; simp
  have hy1 : s1.y OP = (-1 : ℂ) • s1.V s1.k := by
    rw [y_one k1', k1', v1', w1']; show op2 2 1 0 (-1) (vec2 0 1) - inner ℂ (vec2 1 0) (op2 2 1 0 (-1) (vec2 0 1)) • vec2 1 0 = _
    rw [op2_vec, inner2, smul2, smul2, sub2]; simp
  have hs1 : sgn (s1.y OP) = 1 := by
    rw [hy1, k1', w1']; show signOf true e fst2 ((-1 : ℂ) • vec2 0 1) = 1
    unfold signOf
    rw [smul2, fst2_vec, if_neg (by rintro ⟨_, h⟩; simp at h; linarith)]
  have hv1 : ‖s1.V s1.k‖ = 1 := by rw [k1', w1']; exact hn2
  obtain ⟨s2, hi2, k2, v2, u2, _, T2, er2, eg2, o2⟩ := exact_step (st := s1) (OP := OP) (sgn := sgn) (tol := tol) (nev := 2) (θ := -1) (neg_ne_zero.mpr one_ne_zero) hv1 hy1 ht (vec2 0 1)
  rw [k1'] at k2 v2 u2 T2 er2 eg2 o2
  have v2' : s2.V 1 = vec2 0 (-1) := by
    rw [v2, hs1, w1', smul2]; norm_num
  have hT1 : ∀ i, s1.T i 0 = if i = 0 then 2 else 0 := by
    intro i
    have := T1 i 0
    rw [this, if_pos (show (0 : ℕ) = (pinit (vec2 1 0)).k from rfl), if_neg (by show ¬i < 0; omega)]
    rfl
  refine ⟨s2, Reach.step _ _ _ r1 (by omega) (fun _ h => by omega) hi2, k2, by rw [u2 0 (by norm_num), v1'], v2', ?_, ?_, ?_, ?_, ?_, er2⟩
  · rw [T2, if_neg (by norm_num), hT1]; rfl
  · rw [T2, if_pos rfl, if_pos (by norm_num), hh]
  · rw [T2, if_neg (by norm_num), hT1]; rfl
  · rw [T2, if_pos rfl, if_neg (by norm_num), if_pos rfl]
  · rw [(o2 0 (by norm_num)).2]; exact er1

/-- **C149** (negation for eigenvectors).  For `[[2,1],[0,-1]]` and any tolerance both pairs are accepted with error estimate zero, but for each eigenvector of the matrix `T` of the DS for the second
    eigenvalue the vector returned is not an eigenvector. -/
theorem C149_vectors_false {tol : ℝ} (ht : 0 < tol) {e : ℝ} (h0 : 0 ≤ e) (h1 : e < 1) :
    ∃ st, Reach (op2 2 1 0 (-1)) (signOf true e fst2) tol 2 st ∧ st.k = 2 ∧ st.err 0 = some 0 ∧ st.err 1 = some 0 ∧
      ∀ x : ℕ → ℂ, (∀ i < 2, ∑ j ∈ range 2, st.T i j * x j = (-1) * x i) → (∃ i < 2, x i ≠ 0) → op2 2 1 0 (-1) (st.vec x) ≠ (-1 : ℂ) • st.vec x := by
  obtain ⟨st, hr, hk, v0, v1, t00, t01, t10, t11, e0, e1⟩ := run_upper ht h0 h1
  refine ⟨st, hr, hk, e0, e1, ?_⟩
  intro x hx hne heq
  have hx0 := hx 0 (by norm_num)
  rw [sum_range_succ, sum_range_one, t00, t01] at hx0
  have hx1 : x 1 = -3 * x 0 := by linear_combination hx0
  have hx00 : x 0 ≠ 0 := by
    intro h
    obtain ⟨i, hi, hh⟩ := hne
    interval_cases i
    · exact hh h
    · rw [hx1, h] at hh; simp at hh
  have hvec : st.vec x = vec2 (x 0) (3 * x 0) := by
    unfold PSt.vec
    rw [hk, sum_range_succ, sum_range_one, v0, v1, smul2, smul2, add2, hx1]
    congr 1 <;> ring
  rw [hvec, op2_vec, smul2] at heq
  have := (vec2_inj heq).1
  apply hx00
  linear_combination this / 6

/-- **C149** (negation for the error estimate).  For each tolerance there is an operator for which a pair is accepted, with its error estimate below the tolerance, although the relative residual of the
    pair is at least one half: the estimate is that of the vector before the last application of the operator. -/
theorem C149_estimate_false {tol : ℝ} (ht : 0 < tol) (ht1 : tol ≤ 1) {e : ℝ} (h0 : 0 ≤ e) :
    ∃ (OP : E2 →ₗ[ℂ] E2) (st : PSt E2), Reach OP (signOf true e fst2) tol 1 st ∧ st.k = 1 ∧ below (st.err 0) tol ∧ ‖st.V 0‖ = 1 ∧
      ‖OP (st.V 0) - st.eig 0 • st.V 0‖ ≥ 1 / 2 * ‖st.eig 0‖ := by
  obtain ⟨t, rfl⟩ : ∃ t, tol = 4 * t := ⟨tol / 4, by ring⟩
  have tp : 0 < t := by linarith
  have t4 : t ≤ 1 / 4 := by linarith
  have td : 0 < 1 + t ^ 2 := by positivity
  have tsq : t ^ 2 ≤ 1 / 16 := by nlinarith
  obtain ⟨s, hs⟩ : ∃ s : ℝ, s = 2 * t / (1 + t ^ 2) := ⟨_, rfl⟩
  obtain ⟨c, hc⟩ : ∃ c : ℝ, c = (1 - t ^ 2) / (1 + t ^ 2) := ⟨_, rfl⟩
  have hcs : c ^ 2 + s ^ 2 = 1 := by rw [hc, hs]; field_simp; ring
  have sp : 0 < s := by rw [hs]; positivity
  have cl : 15 / 17 ≤ c := by rw [hc, div_le_div_iff₀ (by norm_num) td]; nlinarith
  have cp : 0 < c := by linarith
  have hsc : s < 4 * t * c := by
    rw [hs, hc, ← mul_div_assoc, div_lt_div_iff_of_pos_right td]
    nlinarith [mul_pos tp tp]
  obtain ⟨M, hM⟩ : ∃ M : ℝ, M = 3 / s := ⟨_, rfl⟩
  have hMs : M * s = 3 := by rw [hM]; field_simp
  set OP := op2 1 (M : ℂ) 0 0
  set st := pinit (vec2 (c : ℂ) (s : ℂ))
  have hv : ‖vec2 (c : ℂ) (s : ℂ)‖ = 1 := norm2_of zero_le_one (by
    rw [Complex.norm_real, Complex.norm_real, Real.norm_eq_abs, Real.norm_eq_abs, sq_abs, sq_abs, hcs]; norm_num)
  have hy : st.y OP = vec2 ((c + 3 : ℝ) : ℂ) 0 := by
    rw [y_zero rfl]; show op2 1 (M : ℂ) 0 0 (vec2 (c : ℂ) (s : ℂ)) = _
    rw [op2_vec]
    congr 1
    · rw [← hMs]; push_cast; ring
    · ring
  have hth : st.theta OP = ((c * (c + 3) : ℝ) : ℂ) := by
    unfold PSt.theta; rw [hy]; show inner ℂ (vec2 (c : ℂ) (s : ℂ)) _ = _
    rw [inner2]; simp
  have hθp : 0 < c * (c + 3) := by positivity
  have hθ : st.theta OP ≠ 0 := by rw [hth]; exact_mod_cast hθp.ne'
  have hnθ : ‖st.theta OP‖ = c * (c + 3) := by rw [hth, Complex.norm_real, Real.norm_of_nonneg hθp.le]
  have hny : ‖st.y OP‖ = c + 3 := by
    rw [hy]; refine norm2_of (by linarith) ?_
    rw [Complex.norm_real, Real.norm_of_nonneg (by linarith)]; simp
  have he : ‖st.y OP - st.theta OP • st.V st.k‖ = (c + 3) * s := by
    rw [hy, hth]; show ‖vec2 _ _ - _ • vec2 (c : ℂ) (s : ℂ)‖ = _
    rw [smul2, sub2]
    have e1 : ((c + 3 : ℝ) : ℂ) - ((c * (c + 3) : ℝ) : ℂ) * (c : ℂ) = (((c + 3) * s ^ 2 : ℝ) : ℂ) := by
      have : s ^ 2 = 1 - c ^ 2 := by linarith
      rw [this]; push_cast; ring
    have e2 : (0 : ℂ) - ((c * (c + 3) : ℝ) : ℂ) * (s : ℂ) = ((-(c * (c + 3) * s) : ℝ) : ℂ) := by push_cast; ring
    rw [e1, e2]
    refine norm2_of (by positivity) ?_
    rw [Complex.norm_real, Complex.norm_real, Real.norm_eq_abs, Real.norm_eq_abs, sq_abs, sq_abs]
    have : c ^ 2 = 1 - s ^ 2 := by linarith
    calc ((c + 3) * s ^ 2) ^ 2 + (-(c * (c + 3) * s)) ^ 2 = (c + 3) ^ 2 * s ^ 2 * (s ^ 2 + c ^ 2) := by ring
      _ = ((c + 3) * s) ^ 2 := by rw [this]; ring
  have hre : st.relerr OP = some (s / c) := by
    unfold PSt.relerr
    rw [if_neg hθ, he, hnθ]
    congr 1
    have : c + 3 ≠ 0 := by linarith
    field_simp
  have hb : below (st.relerr OP) (4 * t) := ⟨_, hre, by rw [div_lt_iff₀ cp]; exact hsc⟩
  have hsgn : signOf true e fst2 (st.y OP) = 1 := by
    unfold signOf
    rw [hy, fst2_vec]
    by_cases h : true = true ∧ e < ‖((c + 3 : ℝ) : ℂ)‖
    · rw [if_pos h, Complex.norm_real, Real.norm_of_nonneg (by linarith)]
      exact div_self (by exact_mod_cast (by linarith : c + 3 ≠ 0))
    · rw [if_neg h]
  have hnew : st.newV OP (signOf true e fst2) = vec2 1 0 := by
    unfold PSt.newV
    rw [hsgn, hny, hy, smul2]
    have : ((c + 3 : ℝ) : ℂ) ≠ 0 := by exact_mod_cast (by linarith : c + 3 ≠ 0)
    congr 1
    · field_simp
    · ring
  have hne : ¬‖st.y OP‖ = 0 := by rw [hny]; linarith
  obtain ⟨st', hst'⟩ : ∃ st', iter OP (signOf true e fst2) (4 * t) 1 0 st = some st' := by
    unfold iter; rw [if_neg hne]; exact ⟨_, rfl⟩
  have hr : Reach OP (signOf true e fst2) (4 * t) 1 st' :=
    Reach.step _ _ _ (Reach.init st rfl hv fun _ _ => rfl) (by show 0 < 1; norm_num) (fun _ h => absurd h (by show ¬0 + 1 < 1; norm_num)) hst'
  have hst := hst'
  unfold iter at hst
  rw [if_neg hne] at hst
  have hst := Option.some.inj hst
  rw [if_pos hb] at hst
  have hk : st'.k = 1 := by rw [← hst]; rfl
  have hV : st'.V 0 = vec2 1 0 := by
    rw [← hst, ← hnew]
    have : ¬st.k + 1 < 1 := by show ¬0 + 1 < 1; norm_num
    simp only [this, if_false]
    exact Function.update_self ..
  have hE : st'.eig 0 = ((c * (c + 3) : ℝ) : ℂ) := by
    rw [← hst, ← hth]; show Function.update st.eig st.k (st.theta OP) st.k = _; rw [Function.update_self]
  refine ⟨OP, st', hr, hk, ?_, ?_, ?_⟩
  · rw [← hst]; show below (Function.update st.err st.k (st.relerr OP) 0) _
    have : Function.update st.err st.k (st.relerr OP) 0 = st.relerr OP := Function.update_self ..
    rw [this]; exact hb
  · rw [hV]; exact norm2_of zero_le_one (by norm_num)
  · rw [hV, hE]
    have : OP (vec2 1 0) - ((c * (c + 3) : ℝ) : ℂ) • vec2 1 0 = vec2 ((1 - c * (c + 3) : ℝ) : ℂ) 0 := by
      show op2 1 (M : ℂ) 0 0 (vec2 1 0) - _ = _
      rw [op2_vec, smul2, sub2]; push_cast; congr 1 <;> ring
    rw [this, Complex.norm_real, Real.norm_of_nonneg hθp.le]
    have hneg : 1 - c * (c + 3) < 0 := by nlinarith
    have : ‖vec2 ((1 - c * (c + 3) : ℝ) : ℂ) 0‖ = c * (c + 3) - 1 := by
      refine norm2_of (by linarith) ?_
      rw [Complex.norm_real, Real.norm_eq_abs, sq_abs]; simp; ring
    rw [this]
    nlinarith

/-- the hypotheses of `C149_schur` hold in the run above, with two pairs and a non-normal operator -/
example : ∃ st, Reach (op2 2 1 0 (-1)) (signOf true (1 / 100) fst2) (1 / 1000) 2 st ∧ st.k = 2 ∧ ∀ x, ‖signOf true (1 / 100) (fst2 : E2 → ℂ) x‖ = 1 := by
  obtain ⟨st, hr, hk, _⟩ := run_upper (tol := 1 / 1000) (by norm_num) (e := 1 / 100) (by norm_num) (by norm_num)
  exact ⟨st, hr, hk, norm_signOf _ (by norm_num) _⟩

end Verif.Iter
