import Verif.Lrep.Thm

/-! C181 is false of the code, witness; cases that meet the hypotheses of C178 to C183. -/
set_option linter.all false

namespace Verif.Lrep

open Finset Matrix Verif.Bse

/-- Diagonal matrix scaled by `e`. -/
noncomputable def De (e : ℝ) : Mt 2 := Matrix.diagonal ![3 * e, 8 * e]

/-- Start vector with both components 1. -/
noncomputable def t1 : Tz 2 := ⟨fun _ => ![1, 1], fun _ => 0, fun _ => 0, fun _ => 0⟩

theorem De_mul (e x y : ℝ) : De e *ᵥ ![x, y] = ![3 * e * x, 8 * e * y] := by
  unfold De
  funext i
  rw [Matrix.mulVec_diagonal]
  fin_cases i <;> simp

theorem d2 (a b c d : ℝ) : (![a, b] : Vr 2) ⬝ᵥ ![c, d] = a * c + b * d := by
  simp [dotProduct, Fin.sum_univ_two]

theorem nsq2 (a b : ℝ) : nsq (![a, b] : Vr 2) = a * a + b * b := by
  unfold nsq; rw [Fin.sum_univ_two]; simp; ring

theorem sm2 (r a b : ℝ) : r • (![a, b] : Vr 2) = ![r * a, r * b] := by
  funext i; fin_cases i <;> simp

theorem sb2 (a b c d : ℝ) : (![a, b] : Vr 2) - ![c, d] = ![a - c, b - d] := by
  funext i; fin_cases i <;> simp

theorem De_spd (e : ℝ) (he : 0 < e) : Spd (De e) := by
  refine ⟨by unfold De; simp, ?_⟩
  intro x hx
  have hxx : x = ![x 0, x 1] := by funext i; fin_cases i <;> rfl
  have h1 : x ⬝ᵥ (De e *ᵥ x) = 3 * e * (x 0 * x 0) + 8 * e * (x 1 * x 1) := by
    have h2 := De_mul e (x 0) (x 1)
    rw [← hxx] at h2
    rw [h2]
    simp [dotProduct, Fin.sum_univ_two]; ring
  rw [h1]
  obtain ⟨i, hi⟩ := Function.ne_iff.1 hx
  have a0 := mul_self_nonneg (x 0)
  have a1 := mul_self_nonneg (x 1)
  fin_cases i
  · have : 0 < x 0 * x 0 := mul_self_pos.2 hi
    positivity
  · have : 0 < x 1 * x 1 := mul_self_pos.2 hi
    positivity

theorem t1_ne : t1.V 0 ≠ 0 := by intro h; have := congrFun h 0; simp [t1] at this

/-- The first factorization with one column. -/
theorem De_run (e : ℝ) (he : 0 < e) : ∃ s g, 0 < g ∧ g * g = 11 * e ∧ teng0 (De e) (De e) 1 t1 = some ⟨s, 1, false⟩ ∧
    s.V 0 = ![1 / g, 1 / g] ∧ s.U 0 = ![3 * e / g, 8 * e / g] ∧ s.a 0 = 49 * e ^ 2 ∧
    s.b 0 = Real.sqrt 600 * e ^ 2 ∧ s.b 0 ^ 2 * nsq (s.V 1) = 1825 * e ^ 3 / 11 := by
  have hS := De_spd e he
  obtain ⟨g1, g2, g3⟩ := invT_start (K := De e) hS.pos t1 t1_ne
  have hu1 : t1.V 0 = ![1, 1] := rfl
  have hPu : De e *ᵥ t1.V 0 = ![3 * e, 8 * e] := by rw [hu1, De_mul]; simp
  have hgam : gamT0 (De e) t1 = 11 * e := by
    unfold gamT0
    rw [hPu, hu1, d2]; ring
  obtain ⟨g, hg⟩ : ∃ g, g = Real.sqrt (gamT0 (De e) t1) := ⟨_, rfl⟩
  have hgg : g * g = 11 * e := by rw [hg, hgam, Real.mul_self_sqrt (by positivity)]
  have hg0 : 0 < g := by rw [hg, hgam]; exact Real.sqrt_pos.2 (by positivity)
  have hgne : g ≠ 0 := ne_of_gt hg0
  obtain ⟨t, ht⟩ : ∃ t, t = normT0 (De e) t1 := ⟨_, rfl⟩
  have hV0 : t.V 0 = ![1 / g, 1 / g] := by
    rw [ht]; unfold normT0; simp only []
    rw [Function.update_self, ← hg, hu1, sm2, mul_one]
  have hU0 : t.U 0 = ![3 * e / g, 8 * e / g] := by
    rw [ht]; unfold normT0; simp only []
    rw [Function.update_self, ← hg, hPu, sm2]
    congr 1 <;> ring_nf
  rw [← ht] at g3
  obtain ⟨hx, ha⟩ := newT_eq hS.sym le_rfl g3
  have hKU : De e *ᵥ t.U 0 = ![9 * e ^ 2 / g, 64 * e ^ 2 / g] := by
    rw [hU0, De_mul]
    congr 1
    · ring
    · congr 1; ring
  have hal : t.U 0 ⬝ᵥ (De e *ᵥ t.U 0) = 49 * e ^ 2 := by
    rw [hKU, hU0, d2]
    have : 3 * e / g * (9 * e ^ 2 / g) + 8 * e / g * (64 * e ^ 2 / g) = 539 * e ^ 3 / (g * g) := by field_simp; ring
    rw [this, hgg]; field_simp; norm_num
  have hloc : locV (De e) 0 0 t = ![-40 * e ^ 2 / g, 15 * e ^ 2 / g] := by
    unfold locV
    rw [hal, hKU, hV0, Finset.range_zero, Finset.sum_empty, sub_zero, sm2, sb2]
    congr 1
    · ring
    · congr 1; ring
  have hgm : gamT (De e) (De e) 0 0 t = 600 * e ^ 4 := by
    unfold gamT
    rw [hx, hloc, De_mul, d2]
    have : 3 * e * (-40 * e ^ 2 / g) * (-40 * e ^ 2 / g) + 8 * e * (15 * e ^ 2 / g) * (15 * e ^ 2 / g) = 6600 * e ^ 5 / (g * g) := by
      field_simp; ring
    rw [this, hgg]; field_simp; norm_num
  have hsq : Real.sqrt (gamT (De e) (De e) 0 0 t) = Real.sqrt 600 * e ^ 2 := by
    rw [hgm, Real.sqrt_mul (by norm_num), show e ^ 4 = (e ^ 2) ^ 2 by ring, Real.sqrt_sq (by positivity)]
  have hs6 : 0 < Real.sqrt 600 := Real.sqrt_pos.2 (by norm_num)
  have hbne : ¬ Real.sqrt (gamT (De e) (De e) 0 0 t) = 0 := by rw [hsq]; positivity
  refine ⟨stepT (De e) (De e) 0 0 t, g, hg0, hgg, ?_, ?_, ?_, ?_, ?_, ?_⟩
  · unfold teng0
    rw [if_neg g1, if_neg g2, ← ht]
    unfold lanczosT
    rw [if_neg (by rw [hgm]; have : 0 < 600 * e ^ 4 := by positivity
                   linarith), if_neg hbne]
    rfl
  · rw [← hV0]; unfold stepT; simp
  · rw [← hU0]; unfold stepT; simp
  · rw [← hal, ← ha]; unfold stepT; simp
  · rw [← hsq]; unfold stepT; simp
  · have hV1 : (stepT (De e) (De e) 0 0 t).V 1 = (1 / (Real.sqrt 600 * e ^ 2)) • locV (De e) 0 0 t := by
      unfold stepT; simp only []
      rw [show (0 : ℕ) + 1 = 1 from rfl, Function.update_self, if_neg hbne, hx, hsq]
    have hb : (stepT (De e) (De e) 0 0 t).b 0 = Real.sqrt 600 * e ^ 2 := by rw [← hsq]; unfold stepT; simp
    rw [hb, hV1, nsq_smul, hloc, nsq2]
    have : (Real.sqrt 600 * e ^ 2) ^ 2 * ((1 / (Real.sqrt 600 * e ^ 2)) ^ 2 * (-40 * e ^ 2 / g * (-40 * e ^ 2 / g) + 15 * e ^ 2 / g * (15 * e ^ 2 / g)))
        = 1825 * e ^ 4 / (g * g) := by field_simp; ring
    rw [this, hgg]; field_simp

/-- C181 is false of the code: for every tolerance there are symmetric positive definite matrices and a start vector such that the
relative error estimate of the first Ritz pair is below the tolerance, although the residual of the normalized vector relative to the
eigenvalue is more than 2/5. -/
theorem C181_false (tol : ℝ) (htol : 0 < tol) :
    ∃ (K M : Mt 2) (s0 : Tz 2), Spd K ∧ Spd M ∧ ∃ s, teng0 K M 1 s0 = some ⟨s, 1, false⟩ ∧
      ∀ Q th, Diag (stored 0 s.a s.b) 1 Q th → 0 < ritzT th 0 ∧ estT s 1 Q 0 / ritzT th 0 < tol ∧
        firstFail (fun i => estT s 1 Q i / ritzT th i) tol 1 0 = 1 ∧
        ∀ x, x = asmTeng (ritzT th 0) (combT 1 Q s.V 0) (combT 1 Q s.U 0) →
          0 < nsq x ∧ (2 / 5 * ritzT th 0) ^ 2 * nsq x < nsq (Hred K M *ᵥ x - ritzT th 0 • x) := by
  obtain ⟨e, he, het⟩ : ∃ e, 0 < e ∧ 4 * e ≤ tol := ⟨tol / 4, by positivity, by linarith⟩
  obtain ⟨s, g, hg0, hgg, hr, hV, hU, ha, hb, hs⟩ := De_run e he
  refine ⟨De e, De e, t1, De_spd e he, De_spd e he, s, hr, ?_⟩
  intro Q th hQ
  have hq : Q 0 0 * Q 0 0 = 1 := by
    have := hQ.ortho 0 (by norm_num) 0 (by norm_num)
    simpa using this
  have hth : th 0 = 49 * e ^ 2 := by
    have := hQ.eig 0 (by norm_num) 0 (by norm_num)
    simp only [Finset.range_one, Finset.sum_singleton] at this
    have hQ0 : Q 0 0 ≠ 0 := by intro h; rw [h] at hq; norm_num at hq
    have h2 := mul_right_cancel₀ hQ0 this
    rw [← h2, ← ha]; unfold stored; simp
  have hri : ritzT th 0 = 7 * e := by
    unfold ritzT
    rw [hth, show 49 * e ^ 2 = (7 * e) ^ 2 by ring, Real.sqrt_sq (by positivity)]
  have hQa : |Q 0 0| = 1 := by
    have : |Q 0 0| * |Q 0 0| = 1 := by rw [abs_mul_abs_self]; exact hq
    nlinarith [abs_nonneg (Q 0 0)]
  have hest : estT s 1 Q 0 = Real.sqrt 600 * e ^ 2 := by
    unfold estT
    simp only [Nat.sub_self]
    rw [hQa, hb, one_mul]
  have h600 : Real.sqrt 600 < 28 := by
    rw [Real.sqrt_lt' (by norm_num)]; norm_num
  have hlt : estT s 1 Q 0 / ritzT th 0 < tol := by
    rw [hest, hri, div_lt_iff₀ (by positivity)]
    have h1 : Real.sqrt 600 * e ^ 2 < 28 * e ^ 2 := by
      apply mul_lt_mul_of_pos_right h600 (by positivity)
    have h2 : 28 * e ^ 2 ≤ tol * (7 * e) := by nlinarith
    linarith
  refine ⟨by rw [hri]; positivity, hlt, ?_, ?_⟩
  · unfold firstFail firstFail
    rw [if_neg (not_le.2 hlt)]
  · intro x hx
    have hdec := (C178_partial (De_spd e he).sym (De_spd e he) 1 (by norm_num) t1 t1_ne 0 s (RunT.first s hr)).1
    obtain ⟨c1, c2⟩ := C181_partial (De e) (De e) 1 (by norm_num) s _ hdec Q th hQ 0 (by norm_num) (by rw [hth]; positivity) x hx
    have hcv : nsq (combT 1 Q s.V 0) = 2 / (11 * e) := by
      unfold combT
      rw [Finset.range_one, Finset.sum_singleton, nsq_smul, hV, nsq2, show Q 0 0 ^ 2 = 1 by rw [pow_two]; exact hq, ← hgg]
      field_simp; norm_num
    have hcu : nsq (combT 1 Q s.U 0) = 73 * e / 11 := by
      unfold combT
      rw [Finset.range_one, Finset.sum_singleton, nsq_smul, hU, nsq2, show Q 0 0 ^ 2 = 1 by rw [pow_two]; exact hq]
      have : 1 * (3 * e / g * (3 * e / g) + 8 * e / g * (8 * e / g)) = 73 * e ^ 2 / (g * g) := by field_simp; ring
      rw [this, hgg]; field_simp
    have hsx : nsq x = 171 * e / 11 := by
      rw [c2, hcu, hcv, hri]; field_simp; ring
    have hres : nsq (Hred (De e) (De e) *ᵥ x - ritzT th 0 • x) = 1825 * e ^ 3 / 11 := by
      rw [c1, hest, ← hb, hs]
    rw [hres, hsx, hri]
    refine ⟨by positivity, ?_⟩
    have : 0 < e ^ 3 := by positivity
    nlinarith

/-- The hypotheses of C178 (and, through it, of C181) are met by a complete factorization with non-zero residual. -/
example : ∃ s, (De 1)ᵀ = De 1 ∧ Spd (De 1) ∧ t1.V 0 ≠ 0 ∧ RunT (De 1) (De 1) 1 t1 0 s ∧ s.b 0 ≠ 0 := by
  obtain ⟨s, g, hg0, hgg, hr, hV, hU, ha, hb, hs⟩ := De_run 1 one_pos
  refine ⟨s, (De_spd 1 one_pos).sym, De_spd 1 one_pos, t1_ne, RunT.first s hr, ?_⟩
  rw [hb]
  have : 0 < Real.sqrt 600 := Real.sqrt_pos.2 (by norm_num)
  positivity

/-- The hypotheses of C182 and C183 are met: `K = M = I` of order 2 breaks down after one column, and the dense problem has a solution. -/
example : ∃ s Q th, teng0 (1 : Mt 2) 1 3 t1 = some ⟨s, 1, true⟩ ∧ Spd (1 : Mt 2) ∧ Diag (stored 0 s.a s.b) 1 Q th ∧
    TengDec (1 : Mt 2) 1 1 s.V s.U (stored 0 s.a s.b) (fun _ => 0) 0 := by
  obtain ⟨s, hs, ha⟩ := one_run t1 t1_ne 3 (by norm_num)
  refine ⟨s, fun _ _ => 1, fun _ => 1, hs, spd_one, ⟨?_, ?_⟩, ?_⟩
  · intro i hi l hl
    obtain rfl : i = 0 := by omega
    obtain rfl : l = 0 := by omega
    simp
  · intro i hi r hr
    obtain rfl : i = 0 := by omega
    obtain rfl : r = 0 := by omega
    have : stored 0 s.a s.b 0 0 = 1 := by rw [← ha]; unfold stored; simp
    simp [this]
  · obtain ⟨⟨out, ho, _, h4⟩, _⟩ := C178_cycle (K := (1 : Mt 2)) (M := 1) (by simp) spd_one 3 (by norm_num) t1 t1_ne
    rw [hs] at ho
    obtain rfl := Option.some.inj ho
    exact (h4 rfl).2.2.1

/-- Exact pair for C180: `A = 5/2`, `B = 3/2`, so `K = 1`, `M = 4`, eigenvalue 2, in both variants. -/
example : ∃ A B : Mt 1, ∃ u v : Vr 1, v ≠ 0 ∧ u = (A + B) *ᵥ v ∧ (A - B) *ᵥ u = ((2 : ℝ) * 2) • v ∧
    ∃ u' v' : Vr 1, u' ≠ 0 ∧ (A + B) *ᵥ u' = (2 : ℝ) • v' ∧ (A - B) *ᵥ v' = (2 : ℝ) • u' := by
  refine ⟨Matrix.of fun _ _ => 5 / 2, Matrix.of fun _ _ => 3 / 2, fun _ => 4, fun _ => 1, ?_, ?_, ?_, fun _ => 1, fun _ => 2, ?_, ?_, ?_⟩
  · intro h; have := congrFun h 0; simp at this
  · funext i; simp [mulVec, dotProduct]; norm_num
  · funext i; simp [mulVec, dotProduct]; norm_num
  · intro h; have := congrFun h 0; simp at this
  · funext i; simp [mulVec, dotProduct]; norm_num
  · funext i; simp [mulVec, dotProduct]; norm_num

/-- Start vector with both components 1. -/
noncomputable def z1 : Zz 2 := ⟨fun _ => ![1, 1], fun _ => 0, fun _ => 0, fun _ => 0, fun _ => 0⟩

/-- The hypotheses of C179 are met by a complete factorization for `K = M = diag(3,8)`. -/
example : ∃ s, Spd (De 1) ∧ z1.U 0 ≠ 0 ∧ RunZ (De 1) (De 1) 1 z1 0 s := by
  have hS := De_spd 1 one_pos
  have hne : z1.U 0 ≠ 0 := by intro h; have := congrFun h 0; simp [z1] at this
  obtain ⟨g1, g2, g3⟩ := invZ_start (K := De 1) (M := De 1) hS.pos z1 hne
  obtain ⟨s, hs⟩ : ∃ s, s = normZ0 (De 1) z1 := ⟨_, rfl⟩
  rw [← hs] at g3
  obtain ⟨v1, v2⟩ := form_nn hS.pos (newZv 0 0 s)
  have hg : 0 ≤ gamZv (De 1) 0 0 s := v1
  have hb : Real.sqrt (gamZv (De 1) 0 0 s) ≠ 0 := by
    intro hc
    exact newZv_ne le_rfl g3 (v2 ((Real.sqrt_eq_zero hg).1 hc))
  obtain ⟨hi, hu⟩ := invZv hS.sym le_rfl g3 hg hb
  obtain ⟨u1, u2⟩ := form_nn hS.pos (newZu 0 (stepZv (De 1) 0 0 s))
  have hg2 : 0 ≤ gamZu (De 1) 0 (stepZv (De 1) 0 0 s) := u1
  have hb2 : Real.sqrt (gamZu (De 1) 0 (stepZv (De 1) 0 0 s)) ≠ 0 := by
    intro hc
    have h0 := u2 ((Real.sqrt_eq_zero hg2).1 hc)
    obtain ⟨f0, _⟩ := newZu_facts hS.sym le_rfl hi hu
    rw [h0] at f0
    obtain ⟨g, hgd⟩ : ∃ g, g = 1 / Real.sqrt (gamZ0 (De 1) z1) := ⟨_, rfl⟩
    have hgne : g ≠ 0 := by rw [hgd]; exact one_div_ne_zero g2
    obtain ⟨c, hcd⟩ : ∃ c, c = 1 / Real.sqrt (gamZv (De 1) 0 0 s) := ⟨_, rfl⟩
    have hcne : c ≠ 0 := by rw [hcd]; exact one_div_ne_zero hb
    have hz : z1.U 0 = ![1, 1] := rfl
    have hU0 : (stepZv (De 1) 0 0 s).U 0 = ![g, g] := by
      unfold stepZv; simp only []
      rw [Function.update_of_ne (by norm_num), hs]; unfold normZ0; simp only []
      rw [Function.update_self, ← hgd, hz, sm2, mul_one]
    have hN : newZv 0 0 s = ![3 * g, 8 * g] := by
      unfold newZv
      simp only [if_true, Finset.Ico_self, Finset.sum_empty, sub_zero]
      rw [hs]; unfold normZ0; simp only []
      rw [Function.update_self, ← hgd, hz, De_mul, sm2]
      funext i; fin_cases i <;> simp [mul_comm]
    have hV0 : (stepZv (De 1) 0 0 s).V 0 = ![c * (3 * g), c * (8 * g)] := by
      unfold stepZv; simp only []
      rw [Function.update_self, if_neg hb, ← hcd, hN, sm2]
    rw [hV0, De_mul, hU0] at f0
    obtain ⟨b, hbb⟩ : ∃ b, b = (stepZv (De 1) 0 0 s).a 0 := ⟨_, rfl⟩
    rw [← hbb] at f0
    have e0 := congrFun f0 0
    have e1 := congrFun f0 1
    simp at e0 e1
    have : c * g = 0 := by nlinarith
    rcases mul_eq_zero.1 this with h | h
    · exact hcne h
    · exact hgne h
  refine ⟨_, hS, hne, RunZ.first (stepZu (De 1) 0 (stepZv (De 1) 0 0 s)) ?_⟩
  unfold zhong0
  rw [if_neg g1, if_neg g2, ← hs]
  unfold lanczosZ
  rw [if_neg (not_lt.2 hg), if_neg hb, if_neg (not_lt.2 hg2), if_neg hb2]
  rfl

end Verif.Lrep
