import Verif.Bse.Thm

/-! C174 is false of the code, witness; examples for the hypotheses of C172, C174, C175, C177. -/
set_option linter.all false

namespace Verif.Bse

open Finset Matrix

/-- Diagonal problem scaled by `e`. -/
noncomputable def Be (e : ℝ) : Blk 2 := ⟨Matrix.diagonal ![((3 * e : ℝ) : ℂ), ((8 * e : ℝ) : ℂ)], 0⟩

/-- Start vector with both components 1. -/
noncomputable def s1 : Lz 2 := ⟨fun _ => ![1, 1], fun _ => 0, fun _ => 0, fun _ => 0⟩

theorem Be_bse (e : ℝ) : IsBse (Be e) where
  herm := by
    unfold Be Matrix.IsHermitian
    rw [Matrix.diagonal_conjTranspose]
    congr 1
    funext i; fin_cases i <;> simp [Complex.conj_ofReal]
  symm := by simp [Be]

theorem Be_pos (e : ℝ) (x y : ℂ) : applyShift (Be e) 1 ![x, y] = ![(3 * e : ℝ) * x, (8 * e : ℝ) * y] := by
  rw [shift_pos]
  unfold Be
  simp only [zero_mulVec, add_zero]
  funext i
  rw [Matrix.mulVec_diagonal]
  fin_cases i <;> simp

theorem Be_neg (e : ℝ) (x y : ℂ) : applyShift (Be e) (-1) ![x, y] = ![(3 * e : ℝ) * x, (8 * e : ℝ) * y] := by
  rw [shift_neg]
  unfold Be
  simp only [zero_mulVec, sub_zero]
  funext i
  rw [Matrix.mulVec_diagonal]
  fin_cases i <;> simp

theorem rdot2 (a b c d : ℝ) : rdot (![(a : ℂ), (b : ℂ)] : Vc 2) ![(c : ℂ), (d : ℂ)] = a * c + b * d := by
  rw [rdot_eq, Fin.sum_univ_two]; simp

theorem sq2 (a b : ℝ) : sq (![(a : ℂ), (b : ℂ)] : Vc 2) = a * a + b * b := by
  unfold sq; rw [Fin.sum_univ_two]; simp [Complex.normSq_apply]

theorem smul2r (r a b : ℝ) : r • (![(a : ℂ), (b : ℂ)] : Vc 2) = ![((r * a : ℝ) : ℂ), ((r * b : ℝ) : ℂ)] := by
  funext i; fin_cases i <;> simp

theorem sub2r (a b c d : ℝ) : (![(a : ℂ), (b : ℂ)] : Vc 2) - ![(c : ℂ), (d : ℂ)] = ![((a - c : ℝ) : ℂ), ((b - d : ℝ) : ℂ)] := by
  funext i; fin_cases i <;> simp

theorem Be_def (e : ℝ) (he : 0 < e) : Definite (Be e) := by
  intro x hx
  have h1 : (star x ⬝ᵥ ((Be e).R *ᵥ x + (Be e).C *ᵥ star x)).re = 3 * e * Complex.normSq (x 0) + 8 * e * Complex.normSq (x 1) := by
    rw [← shift_pos]
    have hxx : x = ![x 0, x 1] := by funext i; fin_cases i <;> rfl
    have h2 := Be_pos e (x 0) (x 1)
    rw [← hxx] at h2
    rw [h2]
    show rdot x _ = _
    rw [rdot_eq, Fin.sum_univ_two]
    simp [Complex.normSq_apply]; ring
  rw [h1]
  obtain ⟨i, hi⟩ := Function.ne_iff.1 hx
  have hp := Complex.normSq_pos.2 hi
  have a0 := Complex.normSq_nonneg (x 0)
  have a1 := Complex.normSq_nonneg (x 1)
  fin_cases i
  · have : 0 < Complex.normSq (x 0) := hp
    positivity
  · have : 0 < Complex.normSq (x 1) := hp
    positivity

/-- The first factorization with one column. -/
theorem Be_run (e : ℝ) (he : 0 < e) : ∃ s g, 0 < g ∧ g * g = 11 * e ∧ shao0 (applyShift (Be e)) 1 s1 = some ⟨s, 1, false⟩ ∧
    s.U 0 = ![((1 / g : ℝ) : ℂ), ((1 / g : ℝ) : ℂ)] ∧ s.V 0 = ![((3 * e / g : ℝ) : ℂ), ((8 * e / g : ℝ) : ℂ)] ∧ s.a 0 = 49 * e ^ 2 ∧
    s.b 0 = Real.sqrt 600 * e ^ 2 ∧ s.b 0 ^ 2 * sq (s.U 1) = 1825 * e ^ 3 / 11 := by
  have hB := Be_bse e
  have hd := Be_def e he
  have hP := pair_shift (Be e) hB.herm hB.symm
  have hpos := pos_shift (Be e) hd
  have hne : s1.U 0 ≠ 0 := by
    intro h; have := congrFun h 0; simp [s1] at this
  obtain ⟨g1, g2, g3⟩ := inv_start (app := applyShift (Be e)) (P := applyShift (Be e) 1) (M := applyShift (Be e) (-1)) rfl hP hpos s1 hne
  have hu1 : s1.U 0 = ![((1 : ℝ) : ℂ), ((1 : ℝ) : ℂ)] := by simp [s1]
  have hPu : applyShift (Be e) 1 (s1.U 0) = ![((3 * e : ℝ) : ℂ), ((8 * e : ℝ) : ℂ)] := by rw [hu1, Be_pos]; simp
  have hgam : gam0 (applyShift (Be e)) s1 = 11 * e := by
    unfold gam0
    rw [hPu, hu1]
    show rdot _ _ = _
    rw [rdot2]; ring
  obtain ⟨g, hg⟩ : ∃ g, g = Real.sqrt (gam0 (applyShift (Be e)) s1) := ⟨_, rfl⟩
  have hgg : g * g = 11 * e := by rw [hg, hgam, Real.mul_self_sqrt (by positivity)]
  have hg0 : 0 < g := by rw [hg, hgam]; exact Real.sqrt_pos.2 (by positivity)
  have hgne : g ≠ 0 := ne_of_gt hg0
  obtain ⟨t, ht⟩ : ∃ t, t = normalize0 (applyShift (Be e)) s1 := ⟨_, rfl⟩
  have hU0 : t.U 0 = ![((1 / g : ℝ) : ℂ), ((1 / g : ℝ) : ℂ)] := by
    rw [ht]; unfold normalize0; simp only []
    rw [Function.update_self, Complex.coe_smul, ← hg, hu1, smul2r]; simp
  have hV0 : t.V 0 = ![((3 * e / g : ℝ) : ℂ), ((8 * e / g : ℝ) : ℂ)] := by
    rw [ht]; unfold normalize0; simp only []
    rw [Function.update_self, Complex.coe_smul, ← hg, hPu, smul2r]
    congr 2 <;> push_cast <;> ring_nf
  rw [← ht] at g3
  obtain ⟨hx, ha⟩ := newX_eq (app := applyShift (Be e)) rfl rfl hP le_rfl g3
  have hMV : applyShift (Be e) (-1) (t.V 0) = ![((9 * e ^ 2 / g : ℝ) : ℂ), ((64 * e ^ 2 / g : ℝ) : ℂ)] := by
    rw [hV0, Be_neg]
    rw [← Complex.ofReal_mul, ← Complex.ofReal_mul]
    congr 2 <;> push_cast <;> ring_nf
  have hal : rdot (t.V 0) (applyShift (Be e) (-1) (t.V 0)) = 49 * e ^ 2 := by
    rw [hMV, hV0, rdot2]
    have : 3 * e / g * (9 * e ^ 2 / g) + 8 * e / g * (64 * e ^ 2 / g) = 539 * e ^ 3 / (g * g) := by field_simp; ring
    rw [this, hgg]; field_simp; norm_num
  have hloc : loc (applyShift (Be e) (-1)) 0 0 t = ![((-40 * e ^ 2 / g : ℝ) : ℂ), ((15 * e ^ 2 / g : ℝ) : ℂ)] := by
    unfold loc
    rw [hal, hMV, hU0, Finset.range_zero, Finset.sum_empty, sub_zero, smul2r, sub2r]
    congr 2
    · push_cast; ring_nf
    · congr 1; push_cast; ring_nf
  have hgm : gam (applyShift (Be e)) 0 0 t = 600 * e ^ 4 := by
    unfold gam
    rw [hx, hloc, Be_pos, ← Complex.ofReal_mul, ← Complex.ofReal_mul]
    show rdot _ _ = _
    rw [rdot2]
    have : 3 * e * (-40 * e ^ 2 / g) * (-40 * e ^ 2 / g) + 8 * e * (15 * e ^ 2 / g) * (15 * e ^ 2 / g) = 6600 * e ^ 5 / (g * g) := by
      field_simp; ring
    rw [this, hgg]; field_simp; norm_num
  have hsq : Real.sqrt (gam (applyShift (Be e)) 0 0 t) = Real.sqrt 600 * e ^ 2 := by
    rw [hgm, Real.sqrt_mul (by norm_num), show e ^ 4 = (e ^ 2) ^ 2 by ring, Real.sqrt_sq (by positivity)]
  have hs6 : 0 < Real.sqrt 600 := Real.sqrt_pos.2 (by norm_num)
  have hbne : ¬ Real.sqrt (gam (applyShift (Be e)) 0 0 t) = 0 := by rw [hsq]; positivity
  refine ⟨step (applyShift (Be e)) 0 0 t, g, hg0, hgg, ?_, ?_, ?_, ?_, ?_, ?_⟩
  · unfold shao0
    rw [if_neg g1, if_neg g2, ← ht]
    unfold lanczos
    rw [if_neg (by rw [hgm]; have : 0 < 600 * e ^ 4 := by positivity
                   linarith), if_neg hbne]
    rfl
  · rw [← hU0]; unfold step; simp
  · rw [← hV0]; unfold step; simp
  · rw [← hal, ← ha]; unfold step; simp
  · rw [← hsq]; unfold step; simp
  · have hU1 : (step (applyShift (Be e)) 0 0 t).U 1 = (1 / (Real.sqrt 600 * e ^ 2)) • loc (applyShift (Be e) (-1)) 0 0 t := by
      unfold step; simp only []
      rw [show (0 : ℕ) + 1 = 1 from rfl, Function.update_self, if_neg hbne, hx, Complex.coe_smul, hsq]
    have hb : (step (applyShift (Be e)) 0 0 t).b 0 = Real.sqrt 600 * e ^ 2 := by rw [← hsq]; unfold step; simp
    rw [hb, hU1, sq_smul, hloc, sq2]
    have : (Real.sqrt 600 * e ^ 2) ^ 2 * ((1 / (Real.sqrt 600 * e ^ 2)) ^ 2 * (-40 * e ^ 2 / g * (-40 * e ^ 2 / g) + 15 * e ^ 2 / g * (15 * e ^ 2 / g)))
        = 1825 * e ^ 4 / (g * g) := by field_simp; ring
    rw [this, hgg]; field_simp

/-- C174 is false of the code: for every tolerance there is a definite problem and a start vector such that the relative error estimate of
the first Ritz pair is below the tolerance, although the residual of the normalized vector relative to the eigenvalue is more than 2/5. -/
theorem C174_false (tol : ℝ) (htol : 0 < tol) :
    ∃ (B : Blk 2) (s0 : Lz 2), IsBse B ∧ Definite B ∧ ∃ s, shao0 (applyShift B) 1 s0 = some ⟨s, 1, false⟩ ∧
      ∀ Q th, Diag (stored 0 s.a s.b) 1 Q th → 0 < ritz th 0 ∧ est s 1 Q 0 / ritz th 0 < tol ∧
        firstFail (fun i => est s 1 Q i / ritz th i) tol 1 0 = 1 ∧
        ∀ x, x = asmShao (ritz th 0 : ℂ) (comb 1 Q s.U 0) (comb 1 Q s.V 0) →
          0 < sq x ∧ (2 / 5 * ritz th 0) ^ 2 * sq x < sq (B.H *ᵥ x - (ritz th 0 : ℂ) • x) := by
  obtain ⟨e, he, het⟩ : ∃ e, 0 < e ∧ 4 * e ≤ tol := ⟨tol / 4, by positivity, by linarith⟩
  obtain ⟨s, g, hg0, hgg, hr, hU, hV, ha, hb, hs⟩ := Be_run e he
  refine ⟨Be e, s1, Be_bse e, Be_def e he, s, hr, ?_⟩
  intro Q th hQ
  have hq : Q 0 0 * Q 0 0 = 1 := by
    have := hQ.ortho 0 (by norm_num) 0 (by norm_num)
    simpa using this
  have hth : th 0 = 49 * e ^ 2 := by
    have := hQ.eig 0 (by norm_num) 0 (by norm_num)
    simp only [Finset.range_one, Finset.sum_singleton] at this
    have hQ0 : Q 0 0 ≠ 0 := by intro h; rw [h] at hq; norm_num at hq
    have h2 := mul_right_cancel₀ hQ0 this
    rw [← h2, ← ha]; unfold stored; simp
  have hri : ritz th 0 = 7 * e := by
    unfold ritz
    rw [hth, show 49 * e ^ 2 = (7 * e) ^ 2 by ring, Real.sqrt_sq (by positivity)]
  have hQa : |Q 0 0| = 1 := by
    have : |Q 0 0| * |Q 0 0| = 1 := by rw [abs_mul_abs_self]; exact hq
    nlinarith [abs_nonneg (Q 0 0)]
  have hest : est s 1 Q 0 = Real.sqrt 600 * e ^ 2 := by
    unfold est
    simp only [Nat.sub_self]
    rw [hQa, hb, one_mul]
  have h600 : Real.sqrt 600 < 28 := by
    rw [Real.sqrt_lt' (by norm_num)]; norm_num
  have hlt : est s 1 Q 0 / ritz th 0 < tol := by
    rw [hest, hri, div_lt_iff₀ (by positivity)]
    have h1 : Real.sqrt 600 * e ^ 2 < 28 * e ^ 2 := by
      apply mul_lt_mul_of_pos_right h600 (by positivity)
    have h2 : 28 * e ^ 2 ≤ tol * (7 * e) := by nlinarith
    linarith
  refine ⟨by rw [hri]; positivity, hlt, ?_, ?_⟩
  · unfold firstFail firstFail
    rw [if_neg (not_le.2 hlt)]
  · intro x hx
    obtain ⟨hP1, hP2⟩ := C172_cycle (Be e) (Be_bse e) (Be_def e he) 1 (by norm_num) s1 (by intro h; have := congrFun h 0; simp [s1] at this)
    have hdec := (C172_partial (Be e) (Be_bse e) (Be_def e he) 1 (by norm_num) s1
      (by intro h; have := congrFun h 0; simp [s1] at this) 0 s (Run.first s hr)).1
    obtain ⟨c1, c2⟩ := C174_partial (Be e) (Be_bse e) 1 (by norm_num) s _ hdec Q th hQ 0 (by norm_num) (by rw [hth]; positivity) x hx
    have hcu : sq (comb 1 Q s.U 0) = 2 / (11 * e) := by
      rw [comb_r, Finset.range_one, Finset.sum_singleton, sq_smul, hU, sq2, show Q 0 0 ^ 2 = 1 by rw [pow_two]; exact hq, ← hgg]
      field_simp; norm_num
    have hcv : sq (comb 1 Q s.V 0) = 73 * e / 11 := by
      rw [comb_r, Finset.range_one, Finset.sum_singleton, sq_smul, hV, sq2, show Q 0 0 ^ 2 = 1 by rw [pow_two]; exact hq]
      have : 1 * (3 * e / g * (3 * e / g) + 8 * e / g * (8 * e / g)) = 73 * e ^ 2 / (g * g) := by field_simp; ring
      rw [this, hgg]; field_simp
    have hsx : sq x = 342 * e / 11 := by
      rw [c2, hcu, hcv, hri]; field_simp; ring
    have hres : sq ((Be e).H *ᵥ x - (ritz th 0 : ℂ) • x) = 3650 * e ^ 3 / 11 := by
      rw [c1, hest, ← hb, mul_assoc, hs]; ring
    rw [hres, hsx, hri]
    refine ⟨by positivity, ?_⟩
    have : 0 < e ^ 3 := by positivity
    nlinarith

/-- A run with two columns exists for a non-trivial problem: the hypotheses of C172 are met (here the first factorization), and the
hypotheses of C174 and C175. -/
example : ∃ s, Run (applyShift (Be 1)) 1 s1 0 s ∧ s.b 0 ≠ 0 := by
  obtain ⟨s, g, hg0, hgg, hr, hU, hV, ha, hb, hs⟩ := Be_run 1 one_pos
  refine ⟨s, Run.first s hr, ?_⟩
  rw [hb]
  have : 0 < Real.sqrt 600 := Real.sqrt_pos.2 (by norm_num)
  positivity

/-- Exact pair for C175: `R = 2`, `C = 0`, `u = 1`, `v = 2`, eigenvalue 2. -/
example : ∃ B : Blk 1, IsBse B ∧ Definite B ∧ ∃ u v : Vc 1, u ≠ 0 ∧ v = B.R *ᵥ u + B.C *ᵥ star u ∧ B.R *ᵥ v - B.C *ᵥ star v = ((2 : ℝ) * 2) • u := by
  refine ⟨⟨fun _ _ => 2, 0⟩, ⟨?_, by simp⟩, ?_, fun _ => 1, fun _ => 2, ?_, ?_, ?_⟩
  · ext i j; rw [Matrix.conjTranspose_apply]; simp
  · intro x hx
    obtain ⟨i, hi⟩ := Function.ne_iff.1 hx
    have hp := Complex.normSq_pos.2 hi
    have : i = 0 := Subsingleton.elim _ _
    subst this
    rw [Complex.normSq_apply] at hp
    simp [dotProduct, mulVec]
    nlinarith
  · intro h; have := congrFun h 0; simp at this
  · funext i; simp [mulVec, dotProduct]
  · funext i; simp [mulVec, dotProduct]

end Verif.Bse
