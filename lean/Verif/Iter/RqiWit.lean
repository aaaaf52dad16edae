import Verif.Iter.Two
import Verif.Iter.RqiThm

/-!
# C150: eigenvectors returned for several eigenvalues; examples
-/

set_option linter.all false

namespace Verif.Iter

open Finset

section
variable {E : Type*} [NormedAddCommGroup E] [InnerProductSpace ℂ E] {sgn : E → ℂ} {sigma : ℂ} {e10 tol : ℝ} {nev : ℕ}

/-- an iteration in which the pair is accepted -/
theorem rqi_acc {st : RSt E} {y0 : E} {n : ℝ} (hn : ‖st.y y0‖ = n) (h0 : 0 < n) (hρ : st.rho ≠ 0) (ht : 1 / (n * ‖st.rho‖) < tol) (fail : Bool) (start : E) :
    ∃ st', rqiStep sgn sigma e10 tol nev fail y0 start st = some st' ∧ st'.k = st.k + 1 ∧ st'.V st.k = (1 / (sgn (st.y y0) * (n : ℂ))) • st.y y0 ∧ (∀ j < st.k, st'.V j = st.V j) ∧
      (st.k + 1 < nev → st'.V (st.k + 1) = start) ∧
      (∀ i j, st'.T i j = if j = st.k then (if i < st.k then inner ℂ (st.V i) y0 else if i = st.k then st.theta y0 else st.T i j) else st.T i j) ∧ below (st'.err st.k) tol ∧
      (∀ j < st.k, st'.err j = st.err j) ∧ st'.rho = sigma ∧ st'.eig st.k = st.rho := by
  have hne : ¬‖st.y y0‖ = 0 := by rw [hn]; exact h0.ne'
  have hre : st.relerr y0 = some (1 / (n * ‖st.rho‖)) := by
    unfold RSt.relerr; rw [if_neg (by push Not; exact ⟨hρ, hne⟩), hn]
  have hb : below (st.relerr y0) tol := ⟨_, hre, ht⟩
  obtain ⟨st', hst'⟩ : ∃ st', rqiStep sgn sigma e10 tol nev fail y0 start st = some st' := by
    unfold rqiStep; rw [if_neg hne]; exact ⟨_, rfl⟩
  have hst := hst'
  unfold rqiStep at hst
  rw [if_neg hne] at hst
  have hst := Option.some.inj hst
  rw [if_pos hb] at hst
  refine ⟨st', hst', by rw [← hst], ?_, ?_, ?_, ?_, ?_, ?_, by rw [← hst], ?_⟩
  · have : st.newV sgn y0 = (1 / (sgn (st.y y0) * (n : ℂ))) • st.y y0 := by unfold RSt.newV; rw [hn]
    rw [← hst]
    by_cases h2 : st.k + 1 < nev
    · simp only [h2, if_true]; rw [Function.update_of_ne (by omega), Function.update_self, this]
    · simp only [h2, if_false]; rw [Function.update_self, this]
  · intro j hj
    rw [← hst]
    by_cases h2 : st.k + 1 < nev
    · simp only [h2, if_true]; rw [Function.update_of_ne (by omega), Function.update_of_ne (by omega)]
    · simp only [h2, if_false]; rw [Function.update_of_ne (by omega)]
  · intro h2; rw [← hst]; simp only [h2, if_true]; exact Function.update_self ..
  · intro i j; rw [← hst]
  · rw [← hst]; show below (Function.update st.err st.k (st.relerr y0) st.k) tol; rw [Function.update_self]; exact hb
  · intro j hj; rw [← hst]; exact Function.update_of_ne (by omega) _ _
  · rw [← hst]; show Function.update st.eig st.k st.rho st.k = _; rw [Function.update_self]

/-- an iteration in which the pair is not accepted -/
theorem rqi_rej {st : RSt E} {y0 : E} {n : ℝ} (hn : ‖st.y y0‖ = n) (h0 : 0 < n) (ht : tol ≤ 1 / (n * ‖st.rho‖)) (fail : Bool) (start : E) :
    ∃ st', rqiStep sgn sigma e10 tol nev fail y0 start st = some st' ∧ st'.k = st.k ∧ st'.V st.k = (1 / (sgn (st.y y0) * (n : ℂ))) • st.y y0 ∧ (∀ j < st.k, st'.V j = st.V j) ∧
      (∀ i j, j < st.k → st'.T i j = st.T i j) ∧ (∀ j < st.k, st'.err j = st.err j) ∧ st'.rho = (if fail then st.quot y0 * (1 + e10) else st.quot y0) ∧
      ¬below (st.relerr y0) tol := by
  have hne : ¬‖st.y y0‖ = 0 := by rw [hn]; exact h0.ne'
  have hb : ¬below (st.relerr y0) tol := by
    rintro ⟨x, hx, hlt⟩
    unfold RSt.relerr at hx
    by_cases hc : st.rho = 0 ∨ ‖st.y y0‖ = 0
    · rw [if_pos hc] at hx; cases hx
    · rw [if_neg hc, hn] at hx
      rw [← Option.some.inj hx] at hlt; linarith
  obtain ⟨st', hst'⟩ : ∃ st', rqiStep sgn sigma e10 tol nev fail y0 start st = some st' := by
    unfold rqiStep; rw [if_neg hne]; exact ⟨_, rfl⟩
  have hst := hst'
  unfold rqiStep at hst
  rw [if_neg hne] at hst
  have hst := Option.some.inj hst
  rw [if_neg hb] at hst
  refine ⟨st', hst', by rw [← hst], ?_, ?_, ?_, ?_, by rw [← hst], hb⟩
  · have : st.newV sgn y0 = (1 / (sgn (st.y y0) * (n : ℂ))) • st.y y0 := by unfold RSt.newV; rw [hn]
    rw [← hst]; show Function.update st.V st.k (st.newV sgn y0) st.k = _; rw [Function.update_self, this]
  · intro j hj; rw [← hst]; exact Function.update_of_ne (by omega) _ _
  · intro i j hj; rw [← hst]; exact if_neg (by omega)
  · intro j hj; rw [← hst]; exact Function.update_of_ne (by omega) _ _

end

/-- the state before the first iteration -/
noncomputable def rinit (v : E2) (sigma : ℂ) : RSt E2 := { V := fun _ => v, T := fun _ _ => 0, k := 0, eig := fun _ => 0, err := fun _ => none, rho := sigma }

theorem ry_zero {st : RSt E2} {y0 : E2} (h : st.k = 0) : st.y y0 = y0 := by
  unfold RSt.y; rw [h]; simp

theorem ry_one {st : RSt E2} {y0 : E2} (h : st.k = 1) : st.y y0 = y0 - inner ℂ (st.V 0) y0 • st.V 0 := by
  unfold RSt.y; rw [h]; simp

theorem sgn_zero {e : ℝ} (h0 : 0 ≤ e) (b : ℂ) : signOf true e fst2 (vec2 0 b) = 1 := by
  unfold signOf
  rw [fst2_vec, if_neg (by rintro ⟨_, h⟩; simp at h; linarith)]

theorem sgn_pos {e : ℝ} {a : ℝ} (ha : 0 < a) (b : ℂ) : signOf true e fst2 (vec2 (a : ℂ) b) = 1 := by
  unfold signOf
  rw [fst2_vec]
  by_cases h : true = true ∧ e < ‖(a : ℂ)‖
  · rw [if_pos h, Complex.norm_real, Real.norm_of_nonneg ha.le, div_self (by exact_mod_cast ha.ne')]
  · rw [if_neg h]

theorem nrm_snd {b : ℝ} (hb : 0 ≤ b) : ‖vec2 0 (b : ℂ)‖ = b ∧ ‖vec2 0 ((-b : ℝ) : ℂ)‖ = b ∧ ‖vec2 (b : ℂ) 0‖ = b := by
  refine ⟨norm2_of hb ?_, norm2_of hb ?_, norm2_of hb ?_⟩ <;> rw [Complex.norm_real, Real.norm_eq_abs, sq_abs] <;> simp

/-- two pairs of `[[1,1],[0,-3]]` by Rayleigh quotient iteration -/
theorem run_rqi {tol q : ℝ} (hq : 0 < q) (hqt : 4 * q < tol) (ht1 : tol ≤ 1) {e : ℝ} (h0 : 0 ≤ e) :
    ∃ st, ReachR (op2 1 1 0 (-3)) (signOf true e fst2) ((1 - 3 / 2 * q : ℝ) : ℂ) q tol 2 st ∧ st.k = 2 ∧ st.V 0 = vec2 1 0 ∧ st.V 1 = vec2 0 (-1) ∧
      st.T 0 0 = ((2 / (3 * q) : ℝ) : ℂ) ∧ st.T 0 1 = ((1 / (3 * q * (4 + 3 * q)) : ℝ) : ℂ) ∧ st.T 1 0 = 0 ∧ st.T 1 1 = ((1 / (3 * q) : ℝ) : ℂ) ∧
      below (st.err 0) tol ∧ below (st.err 1) tol ∧ st.eig 1 = ((-3 - 3 * q : ℝ) : ℂ) := by
  set A := op2 1 1 0 (-3)
  set sgn := signOf true e fst2
  obtain ⟨s, hs⟩ : ∃ s : ℝ, s = 1 - 3 / 2 * q := ⟨_, rfl⟩
  have hsp : 0 < s := by linarith
  have hsne : (s : ℂ) ≠ 0 := by exact_mod_cast hsp.ne'
  rw [← hs]
  have hqc : (q : ℂ) ≠ 0 := by exact_mod_cast hq.ne'
  have hn1 : ‖vec2 1 0‖ = 1 := norm2_of zero_le_one (by norm_num)
  have hn2 : ‖vec2 0 1‖ = 1 := norm2_of zero_le_one (by norm_num)
  -- first iteration
  set s0 := rinit (vec2 1 0) (s : ℂ)
  obtain ⟨a, ha⟩ : ∃ a : ℝ, a = 2 / (3 * q) := ⟨_, rfl⟩
  have hap : 0 < a := by rw [ha]; positivity
  have haq : a * (3 / 2 * q) = 1 := by rw [ha]; field_simp
  have y1e : s0.y (vec2 (a : ℂ) 0) = vec2 (a : ℂ) 0 := ry_zero rfl
  have hne1 : ‖s0.y (vec2 (a : ℂ) 0)‖ = a := by rw [y1e]; exact (nrm_snd hap.le).2.2
  have hrho0 : ‖s0.rho‖ = s := by show ‖(s : ℂ)‖ = s; rw [Complex.norm_real, Real.norm_of_nonneg hsp.le]
  have hlt1 : 1 / (a * ‖s0.rho‖) < tol := by
    rw [hrho0, div_lt_iff₀ (by positivity)]
    have : a * s = a - 1 := by rw [hs]; linear_combination -haq
    nlinarith
  have hre1 : s0.relerr (vec2 (a : ℂ) 0) = some (1 / (a * ‖s0.rho‖)) := by
    unfold RSt.relerr; rw [if_neg (by push Not; exact ⟨hsne, by rw [hne1]; exact hap.ne'⟩), hne1]
  obtain ⟨s1, hi1, k1, v1, _, w1, T1, er1, _, rh1, _⟩ := rqi_acc (sgn := sgn) (sigma := (s : ℂ)) (e10 := q) (nev := 2) hne1 hap hsne hlt1
    false (vec2 0 1)
  have k1' : s1.k = 1 := k1
  have v1' : s1.V 0 = vec2 1 0 := by
    have : s1.V 0 = (1 / (sgn (s0.y (vec2 (a : ℂ) 0)) * (a : ℂ))) • s0.y (vec2 (a : ℂ) 0) := v1
    rw [this, y1e, show sgn (vec2 (a : ℂ) 0) = 1 from sgn_pos hap 0, smul2]
    have : (a : ℂ) ≠ 0 := by exact_mod_cast hap.ne'
    congr 1
    · field_simp
    · ring
  have w1' : s1.V 1 = vec2 0 1 := w1 (by show 0 + 1 < 2; norm_num)
  have r1 : ReachR A sgn (s : ℂ) q tol 2 s1 := by
    refine ReachR.step _ _ _ _ _ (ReachR.init s0 rfl hn1 (fun _ _ => rfl) rfl) (by show 0 < 2; norm_num) ?_ (fun h => absurd ⟨_, hre1, hlt1⟩ h) (fun _ _ => ⟨hn2, ?_, ?_⟩) hi1
    · show op2 1 1 0 (-3) (vec2 (a : ℂ) 0) - (s : ℂ) • vec2 (a : ℂ) 0 = vec2 1 0
      rw [op2_vec, smul2, sub2]
      congr 1
      · have : (a : ℂ) * (3 / 2 * q) = 1 := by have := congrArg Complex.ofReal haq; push_cast at this; exact this
        rw [hs]; push_cast; linear_combination this
      · ring
    · unfold RSt.newV; rw [y1e, smul2, inner2]; simp
    · intro j hj; exact absurd hj (by show ¬j < 0; omega)
  have hT1 : ∀ i, s1.T i 0 = if i = 0 then (a : ℂ) else 0 := by
    intro i
    rw [T1 i 0, if_pos (show (0 : ℕ) = s0.k from rfl), if_neg (by show ¬i < 0; omega)]
    have : s0.theta (vec2 (a : ℂ) 0) = a := by unfold RSt.theta; rw [y1e]; show inner ℂ (vec2 1 0) _ = _; rw [inner2]; simp
    rw [this]; rfl
  -- second iteration
  obtain ⟨b, hb⟩ : ∃ b : ℝ, b = 1 / (3 + s) := ⟨_, rfl⟩
  have hbp : 0 < b := by rw [hb]; positivity
  have hbs : b * (3 + s) = 1 := by rw [hb]; field_simp
  set y2 := vec2 ((b * a : ℝ) : ℂ) ((-b : ℝ) : ℂ)
  have y2e : s1.y y2 = vec2 0 ((-b : ℝ) : ℂ) := by
    rw [ry_one k1', v1', inner2, smul2, sub2]; congr 1 <;> simp
  have hne2 : ‖s1.y y2‖ = b := by rw [y2e]; exact (nrm_snd hbp.le).2.1
  have hrho1 : ‖s1.rho‖ = s := by rw [rh1, Complex.norm_real, Real.norm_of_nonneg hsp.le]
  have hge2 : tol ≤ 1 / (b * ‖s1.rho‖) := by
    rw [hrho1, le_div_iff₀ (by positivity)]
    have : b * s ≤ 1 := by nlinarith
    have h3 : 0 ≤ b * s := by positivity
    nlinarith
  have hth2 : s1.theta y2 = ((-b : ℝ) : ℂ) := by
    unfold RSt.theta; rw [y2e, k1', w1', inner2]; simp
  have hquot : s1.quot y2 = -3 := by
    unfold RSt.quot
    rw [hth2, hne2, rh1]
    have hbc : (b : ℂ) ≠ 0 := by exact_mod_cast hbp.ne'
    have hbs' : (b : ℂ) * (3 + (s : ℂ)) = 1 := by exact_mod_cast hbs
    have hst : star (((-b : ℝ)) : ℂ) = -(b : ℂ) := by
      rw [show star (((-b : ℝ)) : ℂ) = (starRingEnd ℂ) ((-b : ℝ) : ℂ) from rfl, Complex.conj_ofReal]; push_cast; rfl
    rw [hst]
    field_simp
    linear_combination hbs'
  obtain ⟨s2, hi2, k2, v2, u2, T2, er2, rh2, nb2⟩ := rqi_rej (sgn := sgn) (sigma := (s : ℂ)) (e10 := q) (nev := 2) hne2 hbp hge2 true (vec2 0 1)
  rw [k1'] at k2 v2 u2 T2 er2
  have v20 : s2.V 0 = vec2 1 0 := by rw [u2 0 (by norm_num), v1']
  have v21 : s2.V 1 = vec2 0 (-1) := by
    rw [v2, y2e, show sgn (vec2 0 ((-b : ℝ) : ℂ)) = 1 from sgn_zero h0 _, smul2]
    have hbc : (b : ℂ) ≠ 0 := by exact_mod_cast hbp.ne'
    congr 1
    · ring
    · push_cast; field_simp
  have rh2' : s2.rho = ((-3 - 3 * q : ℝ) : ℂ) := by
    rw [rh2, if_pos rfl, hquot]; push_cast; ring
  have r2 : ReachR A sgn (s : ℂ) q tol 2 s2 := by
    refine ReachR.step _ _ true y2 _ r1 (by omega) ?_ ?_ (fun h _ => absurd h nb2) hi2
    · rw [rh1, k1', w1']
      show op2 1 1 0 (-3) (vec2 ((b * a : ℝ) : ℂ) ((-b : ℝ) : ℂ)) - (s : ℂ) • vec2 ((b * a : ℝ) : ℂ) ((-b : ℝ) : ℂ) = vec2 0 1
      rw [op2_vec, smul2, sub2]
      have haq' : (a : ℂ) * (3 / 2 * q) = 1 := by have := congrArg Complex.ofReal haq; push_cast at this; exact this
      have hbs' : (b : ℂ) * (3 + (s : ℂ)) = 1 := by exact_mod_cast hbs
      congr 1
      · rw [hs]; push_cast; linear_combination (b : ℂ) * haq'
      · push_cast; linear_combination hbs'
    · refine fun _ => ⟨fun _ => ⟨vec2 1 (-4), ?_, ?_⟩, fun _ => rfl⟩
      · intro h
        have : vec2 1 (-4) = vec2 0 0 := by rw [h]; ext i; fin_cases i <;> simp [vec2]
        exact one_ne_zero (vec2_inj this).1
      · rw [hquot]; show op2 1 1 0 (-3) (vec2 1 (-4)) = _
        rw [op2_vec, smul2]; norm_num
  -- third iteration
  obtain ⟨c, hc⟩ : ∃ c : ℝ, c = 1 / (3 * q) := ⟨_, rfl⟩
  have hcp : 0 < c := by rw [hc]; positivity
  have hcq : c * (3 * q) = 1 := by rw [hc]; field_simp
  obtain ⟨d, hd⟩ : ∃ d : ℝ, d = 1 / (3 * q * (4 + 3 * q)) := ⟨_, rfl⟩
  have hdq : d * (4 + 3 * q) = c := by rw [hd, hc]; field_simp
  set y3 := vec2 (d : ℂ) ((-c : ℝ) : ℂ)
  have k2' : s2.k = 1 := k2
  have y3e : s2.y y3 = vec2 0 ((-c : ℝ) : ℂ) := by
    rw [ry_one k2', v20, inner2, smul2, sub2]; congr 1 <;> simp
  have hne3 : ‖s2.y y3‖ = c := by rw [y3e]; exact (nrm_snd hcp.le).2.1
  have hrn : ‖s2.rho‖ = 3 + 3 * q := by
    rw [rh2', Complex.norm_real, Real.norm_eq_abs, abs_of_neg (by linarith)]; ring
  have hrne : s2.rho ≠ 0 := by rw [← norm_ne_zero_iff, hrn]; linarith
  have hlt3 : 1 / (c * ‖s2.rho‖) < tol := by
    rw [hrn, div_lt_iff₀ (by positivity)]
    have : c * (3 + 3 * q) = 3 * c + 1 := by linear_combination hcq
    rw [this]
    have h5 : 4 * q * c < tol * c := mul_lt_mul_of_pos_right hqt hcp
    nlinarith
  have hre3 : s2.relerr y3 = some (1 / (c * ‖s2.rho‖)) := by
    unfold RSt.relerr; rw [if_neg (by push Not; exact ⟨hrne, by rw [hne3]; exact hcp.ne'⟩), hne3]
  obtain ⟨s3, hi3, k3, v3, u3, _, T3, er3, er3', _, eg3⟩ := rqi_acc (sgn := sgn) (sigma := (s : ℂ)) (e10 := q) (nev := 2) hne3 hcp hrne hlt3
    false (vec2 0 1)
  rw [k2'] at k3 v3 u3 T3 er3 er3' eg3
  have hth3 : s2.theta y3 = (c : ℂ) := by
    unfold RSt.theta; rw [y3e, k2', v21, inner2]; simp
  refine ⟨s3, ?_, k3, by rw [u3 0 (by norm_num), v20], ?_, ?_, ?_, ?_, ?_, ?_, er3, by rw [eg3, rh2']⟩
  · refine ReachR.step _ _ _ y3 _ r2 (by omega) ?_ (fun h => absurd ⟨_, hre3, hlt3⟩ h) (fun _ h => by omega) hi3
    rw [rh2', k2', v21]
    show op2 1 1 0 (-3) (vec2 (d : ℂ) ((-c : ℝ) : ℂ)) - ((-3 - 3 * q : ℝ) : ℂ) • vec2 (d : ℂ) ((-c : ℝ) : ℂ) = vec2 0 (-1)
    rw [op2_vec, smul2, sub2]
    have hcq' : (c : ℂ) * (3 * q) = 1 := by exact_mod_cast hcq
    have hdq' : (d : ℂ) * (4 + 3 * q) = c := by exact_mod_cast hdq
    congr 1
    · push_cast; linear_combination hdq'
    · push_cast; linear_combination -hcq'
  · rw [v3, y3e, show sgn (vec2 0 ((-c : ℝ) : ℂ)) = 1 from sgn_zero h0 _, smul2]
    have hcc : (c : ℂ) ≠ 0 := by exact_mod_cast hcp.ne'
    congr 1
    · ring
    · push_cast; field_simp
  · rw [T3, if_neg (by norm_num), T2 0 0 (by norm_num), hT1, if_pos rfl, ha]
  · rw [T3, if_pos rfl, if_pos (by norm_num), v20]
    show inner ℂ (vec2 1 0) (vec2 (d : ℂ) ((-c : ℝ) : ℂ)) = _
    rw [inner2, ← hd]; simp
  · rw [T3, if_neg (by norm_num), T2 1 0 (by norm_num), hT1]; rfl
  · rw [T3, if_pos rfl, if_neg (by norm_num), if_pos rfl, hth3, hc]
  · rw [er3' 0 (by norm_num), er2 0 (by norm_num)]; exact er1

/-- **C150** (negation for eigenvectors).  For `[[1,1],[0,-3]]`, any tolerance and any (smaller) perturbation `q` of singular shifts there is an original shift with which two pairs are accepted, but the
    vector made from any eigenvector of the matrix `T` of the DS for the second eigenvalue has relative residual at least one third, with the eigenvalue -3 of the matrix: the columns of `T` belong to the inverses
    of different shifted matrices. -/
theorem C150_vectors_false {tol q : ℝ} (hq : 0 < q) (hqt : 4 * q < tol) (ht1 : tol ≤ 1) {e : ℝ} (h0 : 0 ≤ e) :
    ∃ sigma st, ReachR (op2 1 1 0 (-3)) (signOf true e fst2) sigma q tol 2 st ∧ st.k = 2 ∧ below (st.err 0) tol ∧ below (st.err 1) tol ∧
      ∀ x : ℕ → ℂ, (∀ i < 2, ∑ j ∈ range 2, st.T i j * x j = st.T 1 1 * x i) → (∃ i < 2, x i ≠ 0) →
        st.vec x ≠ 0 ∧ ‖op2 1 1 0 (-3) (st.vec x) - (-3 : ℂ) • st.vec x‖ ≥ 1 / 3 * (3 * ‖st.vec x‖) := by
  obtain ⟨st, hr, hk, v0, v1, t00, t01, t10, t11, e0, e1, _⟩ := run_rqi hq hqt ht1 h0
  refine ⟨_, st, hr, hk, e0, e1, ?_⟩
  intro x hx hne
  have hx0 := hx 0 (by norm_num)
  rw [sum_range_succ, sum_range_one, t00, t01, t11] at hx0
  have hqc : (q : ℂ) ≠ 0 := by exact_mod_cast hq.ne'
  have h4c : (4 : ℂ) + 3 * q ≠ 0 := by exact_mod_cast (by positivity : (4 : ℝ) + 3 * q ≠ 0)
  have hx1 : x 0 = -(1 / (4 + 3 * q)) * x 1 := by
    push_cast at hx0
    field_simp at hx0 ⊢
    linear_combination hx0
  obtain ⟨a, ha⟩ : ∃ a : ℝ, a = 1 / (4 + 3 * q) := ⟨_, rfl⟩
  have hap : 0 < a := by rw [ha]; positivity
  have hal : a ≤ 1 / 4 := by rw [ha]; exact one_div_le_one_div_of_le (by norm_num) (by linarith)
  have hx1' : x 0 = -((a : ℝ) : ℂ) * x 1 := by rw [hx1, ha]; push_cast; ring
  have hx10 : x 1 ≠ 0 := by
    intro h
    obtain ⟨i, hi, hh⟩ := hne
    interval_cases i
    · rw [hx1', h] at hh; simp at hh
    · exact hh h
  have hvec : st.vec x = (-x 1) • vec2 (a : ℂ) 1 := by
    unfold RSt.vec
    rw [hk, sum_range_succ, sum_range_one, v0, v1, smul2, smul2, add2, smul2, hx1']
    congr 1 <;> ring
  have hres : op2 1 1 0 (-3) (st.vec x) - (-3 : ℂ) • st.vec x = (-x 1) • vec2 ((4 * a + 1 : ℝ) : ℂ) 0 := by
    rw [hvec, map_smul, smul_comm, ← smul_sub, op2_vec, smul2, sub2]
    congr 1
    push_cast
    congr 1 <;> ring
  have hnx : 0 < ‖x 1‖ := norm_pos_iff.mpr hx10
  have hn1 : ‖vec2 ((4 * a + 1 : ℝ) : ℂ) 0‖ = 4 * a + 1 := (nrm_snd (by positivity)).2.2
  have hn2 : ‖vec2 (a : ℂ) 1‖ ≤ a + 1 := by
    have h := norm2_sq (a : ℂ) 1
    rw [Complex.norm_real, Real.norm_of_nonneg hap.le, norm_one] at h
    nlinarith [norm_nonneg (vec2 (a : ℂ) 1)]
  refine ⟨?_, ?_⟩
  · rw [hvec, smul2]
    intro h
    have : vec2 (-x 1 * (a : ℂ)) (-x 1 * 1) = vec2 0 0 := by rw [h]; ext i; fin_cases i <;> simp [vec2]
    have := (vec2_inj this).2
    apply hx10
    linear_combination -this
  · rw [hres, hvec, norm_smul, norm_smul, norm_neg, hn1]
    nlinarith [mul_le_mul_of_nonneg_left hn2 hnx.le]

/-- a case of the theorems on a step: matrix `diag(1,-3)`, first vector locked -/
example : ∃ (st : RSt E2) (y0 : E2), (op2 1 0 0 (-3)).IsSymmetric ∧ st.k = 1 ∧ Orth st.V (st.k + 1) ∧ op2 1 0 0 (-3) y0 - st.rho • y0 = st.V st.k ∧
    (∀ j < st.k, op2 1 0 0 (-3) (st.V j) = (1 : ℂ) • st.V j) ∧ st.relerr y0 = some (1 / 2) := by
  refine ⟨{ V := fun i => if i = 0 then vec2 1 0 else vec2 0 1, T := fun _ _ => 0, k := 1, eig := fun _ => 0, err := fun _ => none, rho := -2 }, vec2 0 (-1), ?_, rfl, ?_, ?_, ?_, ?_⟩
  · intro x y
    have hx : x = vec2 (x 0) (x 1) := by ext i; fin_cases i <;> simp [vec2]
    have hy : y = vec2 (y 0) (y 1) := by ext i; fin_cases i <;> simp [vec2]
    rw [hx, hy, op2_vec, op2_vec, inner2, inner2]
    simp
    ring
  · intro i hi j hj
    have hi' : i < 2 := hi
    have hj' : j < 2 := hj
    have n1 : ‖vec2 1 0‖ = 1 := norm2_of zero_le_one (by norm_num)
    have n2 : ‖vec2 0 1‖ = 1 := norm2_of zero_le_one (by norm_num)
    interval_cases i <;> interval_cases j <;> simp [inner2, n1, n2]
  · show op2 1 0 0 (-3) (vec2 0 (-1)) - (-2 : ℂ) • vec2 0 (-1) = vec2 0 1
    rw [op2_vec, smul2, sub2]; norm_num
  · intro j hj
    have : j = 0 := by have : j < 1 := hj; omega
    subst this
    show op2 1 0 0 (-3) (vec2 1 0) = (1 : ℂ) • vec2 1 0
    rw [op2_vec, smul2]; norm_num
  · have hy : RSt.y (E := E2) { V := fun i => if i = 0 then vec2 1 0 else vec2 0 1, T := fun _ _ => 0, k := 1, eig := fun _ => 0, err := fun _ => none, rho := -2 } (vec2 0 (-1)) = vec2 0 (-1) := by
      rw [ry_one rfl]; show vec2 0 (-1) - inner ℂ (vec2 1 0) (vec2 0 (-1)) • vec2 1 0 = _
      rw [inner2, smul2, sub2]; simp
    have hn : ‖vec2 0 (-1)‖ = 1 := norm2_of zero_le_one (by norm_num)
    unfold RSt.relerr
    rw [hy, hn, if_neg (by norm_num)]
    norm_num

end Verif.Iter
