import Verif.Bse.Thm

/-! Property C176: shift-and-invert in the structured solver for Bethe-Salpeter problems. -/
set_option linter.all false

namespace Verif.Bse

open Finset Matrix

variable {n : ℕ}

theorem split_ab (p q : Vc n) : ∃ a b : Vc n, Sum.elim p q = Sum.elim (a + b) (star (a - b)) := by
  refine ⟨(1 / 2 : ℝ) • (p + star q), (1 / 2 : ℝ) • (p - star q), ?_⟩
  congr 1
  · funext i; simp; ring
  · funext i; simp; ring

theorem pos_inj {P : Vc n → Vc n} (h : Pos P) {x : Vc n} (hx : P x = 0) : x = 0 := by
  by_contra hne
  have := h x hne
  rw [hx, rdot_comm, rdot_zero] at this
  exact lt_irrefl _ this

theorem elim_eq {a b c d : Vc n} (h : Sum.elim a (star b) = Sum.elim c (star d)) : a = c ∧ b = d := by
  constructor
  · funext i; exact congrFun h (Sum.inl i)
  · funext i
    have := congrFun h (Sum.inr i)
    exact star_injective this

/-- The kernel of `H` in terms of the two parts. -/
theorem H_solve (B : Blk n) (hB : IsBse B) (a b c d : Vc n)
    (h : B.H *ᵥ Sum.elim (a + b) (star (a - b)) = Sum.elim (c + d) (star (d - c))) : applyShift B 1 a = c ∧ applyShift B (-1) b = d := by
  rw [H_ab B hB] at h
  obtain ⟨h1, h2⟩ := elim_eq h
  constructor
  · funext i
    have e1 := congrFun h1 i
    have e2 := congrFun h2 i
    simp only [Pi.add_apply, Pi.sub_apply] at e1 e2
    linear_combination (e1 - e2) / 2
  · funext i
    have e1 := congrFun h1 i
    have e2 := congrFun h2 i
    simp only [Pi.add_apply, Pi.sub_apply] at e1 e2
    linear_combination (e1 + e2) / 2

theorem H_unit (B : Blk n) (hB : IsBse B) (hd : Definite B) : IsUnit B.H := by
  rw [← Matrix.mulVec_injective_iff_isUnit]
  intro z w hzw
  have h0 : B.H *ᵥ (z - w) = 0 := by rw [mulVec_sub, sub_eq_zero]; exact hzw
  obtain ⟨y, hy⟩ : ∃ y, y = z - w := ⟨_, rfl⟩
  rw [← hy] at h0
  have hy2 : y = Sum.elim (fun i => y (Sum.inl i)) (fun i => y (Sum.inr i)) := by funext i; cases i <;> rfl
  obtain ⟨a, b, hab⟩ := split_ab (fun i => y (Sum.inl i)) (fun i => y (Sum.inr i))
  rw [hab] at hy2
  rw [hy2] at h0
  obtain ⟨h1, h2⟩ := H_solve B hB a b 0 0 (by rw [h0]; simp)
  have ha := pos_inj (pos_shift B hd) h1
  have hb := pos_inj (pos_neg B hd) h2
  rw [← sub_eq_zero, ← hy, hy2, ha, hb]
  simp

theorem sinv_at {B : Blk n} (hu : IsUnit B.H) (s : ℝ) (x : Vc n) : ∃ z, z = B.H⁻¹ *ᵥ Sum.elim x (low s x) ∧ applySinvert B 0 s x = top z ∧
    B.H *ᵥ z = Sum.elim x (low s x) := by
  refine ⟨_, rfl, ?_, ?_⟩
  · unfold applySinvert; simp
  · rw [mulVec_mulVec, Matrix.mul_nonsing_inv _ ((Matrix.isUnit_iff_isUnit_det _).1 hu), one_mulVec]

/-- Target 0: the application with sign 1 inverts the map with sign -1 and conversely. -/
theorem sinv_pos (B : Blk n) (hB : IsBse B) (hd : Definite B) (x : Vc n) : applyShift B (-1) (applySinvert B 0 1 x) = x := by
  obtain ⟨z, hz, h1, h2⟩ := sinv_at (H_unit B hB hd) 1 x
  have hy2 : z = Sum.elim (fun i => z (Sum.inl i)) (fun i => z (Sum.inr i)) := by funext i; cases i <;> rfl
  obtain ⟨a, b, hab⟩ := split_ab (fun i => z (Sum.inl i)) (fun i => z (Sum.inr i))
  rw [hab] at hy2
  rw [hy2] at h2
  obtain ⟨h3, h4⟩ := H_solve B hB a b 0 x (by rw [h2]; unfold low; rw [if_neg (by norm_num)]; simp)
  have ha := pos_inj (pos_shift B hd) h3
  rw [h1, hy2, ha]
  have : top (Sum.elim (0 + b) (star (0 - b))) = b := by funext i; simp [top]
  rw [this, h4]

theorem sinv_neg (B : Blk n) (hB : IsBse B) (hd : Definite B) (x : Vc n) : applyShift B 1 (applySinvert B 0 (-1) x) = x := by
  obtain ⟨z, hz, h1, h2⟩ := sinv_at (H_unit B hB hd) (-1) x
  have hy2 : z = Sum.elim (fun i => z (Sum.inl i)) (fun i => z (Sum.inr i)) := by funext i; cases i <;> rfl
  obtain ⟨a, b, hab⟩ := split_ab (fun i => z (Sum.inl i)) (fun i => z (Sum.inr i))
  rw [hab] at hy2
  rw [hy2] at h2
  obtain ⟨h3, h4⟩ := H_solve B hB a b x 0 (by rw [h2]; unfold low; rw [if_pos rfl]; simp)
  have hb := pos_inj (pos_neg B hd) h4
  rw [h1, hy2, hb]
  have : top (Sum.elim (a + 0) (star (a - 0))) = a := by funext i; simp [top]
  rw [this, h3]

theorem inj_of_pos {P M : Vc n → Vc n} (h : Pair P M) (hp : Pos P) {x y : Vc n} (hxy : P x = P y) : x = y := by
  have h1 : P (x + (-1 : ℝ) • y) = 0 := by rw [h.Padd, h.Psm, hxy]; simp
  have := pos_inj hp h1
  rw [neg_one_smul, ← sub_eq_add_neg, sub_eq_zero] at this
  exact this

theorem inj_of_pos' {P M : Vc n → Vc n} (h : Pair P M) (hp : Pos M) {x y : Vc n} (hxy : M x = M y) : x = y := by
  have h1 : M (x + (-1 : ℝ) • y) = 0 := by rw [h.Madd, h.Msm, hxy]; simp
  have := pos_inj hp h1
  rw [neg_one_smul, ← sub_eq_add_neg, sub_eq_zero] at this
  exact this

theorem pair_sinv (B : Blk n) (hB : IsBse B) (hd : Definite B) :
    Pair (applySinvert B 0 1) (applySinvert B 0 (-1)) ∧ Pos (applySinvert B 0 1) := by
  have hP := pair_shift B hB.herm hB.symm
  have hp1 := pos_shift B hd
  have hp2 := pos_neg B hd
  have e1 := sinv_pos B hB hd
  have e2 := sinv_neg B hB hd
  refine ⟨⟨?_, ?_, ?_, ?_, ?_, ?_, ?_⟩, ?_⟩
  · intro x y; apply inj_of_pos' hP hp2; rw [e1, hP.Madd, e1, e1]
  · intro x y; apply inj_of_pos hP hp1; rw [e2, hP.Padd, e2, e2]
  · intro r x; apply inj_of_pos' hP hp2; rw [e1, hP.Msm, e1]
  · intro r x; apply inj_of_pos hP hp1; rw [e2, hP.Psm, e2]
  · intro x y
    have := hP.Msy (applySinvert B 0 1 x) (applySinvert B 0 1 y)
    rw [e1, e1] at this
    exact this.symm
  · intro x y
    have := hP.Psy (applySinvert B 0 (-1) x) (applySinvert B 0 (-1) y)
    rw [e2, e2] at this
    exact this.symm
  · intro x y
    have := hP.cr' (applySinvert B 0 1 x) (applySinvert B 0 (-1) y)
    rw [e1, e2] at this
    exact this.symm
  · intro x hx
    have hne : applySinvert B 0 1 x ≠ 0 := by
      intro h0
      have := e1 x
      rw [h0, hP.M0] at this
      exact hx this.symm
    have := hp2 _ hne
    rw [e1, rdot_comm] at this
    exact this

theorem comb_relI {P M : Vc n → Vc n} (hP : Pair P M) {k m : ℕ} {s : Lz n} (h : DecI P M k m s) (hb : s.U m = 0)
    {Q : ℕ → ℕ → ℝ} {th : ℕ → ℝ} (hQ : Diag (stored k s.a s.b) m Q th) (i : ℕ) (hi : i < m) :
    comb m Q s.V i = P (comb m Q s.U i) ∧ M (comb m Q s.V i) = th i • comb m Q s.U i := by
  rw [comb_r, comb_r]
  constructor
  · rw [hP.Psum]
    apply Finset.sum_congr rfl; intro r hr
    rw [hP.Psm, h.prod r (Finset.mem_range.1 hr)]
  · rw [hP.Msum]
    rw [Finset.sum_congr rfl (g := fun r => ∑ l ∈ range m, (stored k s.a s.b l r * Q r i) • s.U l)
      (by
        intro r hr
        rw [hP.Msm, h.rel r (Finset.mem_range.1 hr), hb, smul_zero, add_zero, Finset.smul_sum]
        apply Finset.sum_congr rfl; intro l _; rw [smul_smul, mul_comm]; rfl)]
    rw [Finset.sum_comm, Finset.smul_sum]
    apply Finset.sum_congr rfl; intro l hl
    rw [← Finset.sum_smul, hQ.eig i hi l (Finset.mem_range.1 hl), smul_smul]

/-- C176 (partial: target 0, factorization that ends with zero residual, exact solves): the returned values are eigenvalues of `H` and the
assembled vectors are eigenvectors. The value is mapped back twice, once for the user and once (ks-bse.c:203) for the vector. -/
theorem C176_partial (B : Blk n) (hB : IsBse B) (hd : Definite B) (m : ℕ) (s0 : Lz n) (h0 : s0.U 0 ≠ 0) :
    ∃ out, shao0 (applySinvert B 0) m s0 = some out ∧ (out.bd = true → 0 < out.m ∧
      ∀ Q th, Diag (stored 0 out.s.a out.s.b) out.m Q th → ∀ i < out.m, ∃ (lam : ℝ) (x : Fin n ⊕ Fin n → ℂ),
        lam = backSinvert 0 (ritz th i) ∧ x = asmShao ((backSinvert 0 lam : ℝ) : ℂ) (comb out.m Q out.s.U i) (comb out.m Q out.s.V i) ∧
        0 < lam ∧ x ≠ 0 ∧ B.H *ᵥ x = (lam : ℂ) • x) := by
  obtain ⟨hP, hpos⟩ := pair_sinv B hB hd
  obtain ⟨g1, g2, g3⟩ := inv_start (app := applySinvert B 0) (P := applySinvert B 0 1) (M := applySinvert B 0 (-1)) rfl hP hpos s0 h0
  obtain ⟨out, ho, h3, h4⟩ := lanczos_spec (app := applySinvert B 0) rfl rfl hP hpos 0 m 0 _ le_rfl g3
  refine ⟨out, ?_, ?_⟩
  · unfold shao0; rw [if_neg g1, if_neg g2]; exact ho
  · intro hc
    obtain ⟨a1, a2, a3, a4, a5⟩ := h4 hc
    refine ⟨a1, ?_⟩
    intro Q th hQ i hi
    obtain ⟨c1, c2⟩ := comb_relI hP a3 a5 hQ i hi
    have c3 := comb_one (T := stored 0 out.s.a out.s.b) a3.bi hQ i hi
    obtain ⟨u, hu⟩ : ∃ u, u = comb out.m Q out.s.U i := ⟨_, rfl⟩
    obtain ⟨v, hv⟩ : ∃ v, v = comb out.m Q out.s.V i := ⟨_, rfl⟩
    rw [← hu, ← hv] at c1 c2 c3
    have hMv : applyShift B (-1) v = u := by rw [c1, sinv_pos B hB hd]
    have hS := pair_shift B hB.herm hB.symm
    have hPu : v = th i • applyShift B 1 u := by rw [← hS.Psm, ← c2, sinv_neg B hB hd]
    have hune : u ≠ 0 := by intro h; rw [h, rdot_zero] at c3; norm_num at c3
    have hth : 0 < th i := by
      have h5 := pos_shift B hd u hune
      have h6 : th i * rdot (applyShift B 1 u) u = 1 := by rw [← rdot_smul_left, ← hPu]; exact c3
      by_contra hn
      have := mul_nonpos_of_nonpos_of_nonneg (not_lt.1 hn) h5.le
      linarith
    obtain ⟨mu, hmu⟩ : ∃ mu, mu = ritz th i := ⟨_, rfl⟩
    have hmp : 0 < mu := by rw [hmu]; exact Real.sqrt_pos.2 hth
    have hmm : mu * mu = th i := by rw [hmu]; exact Real.mul_self_sqrt hth.le
    have hb1 : backSinvert 0 (ritz th i) = 1 / mu := by unfold backSinvert; rw [hmu, add_zero]
    have hb2 : backSinvert 0 (1 / mu) = mu := by unfold backSinvert; simp
    refine ⟨1 / mu, asmShao (mu : ℂ) u v, hb1.symm, by rw [hb2, hu, hv], by positivity, ?_, ?_⟩
    · intro hz
      rw [asmShao_ab] at hz
      apply hune
      funext j
      have k1 := congrFun hz (Sum.inl j)
      have k2 := congrFun hz (Sum.inr j)
      simp only [Sum.elim_inl, Sum.elim_inr, Pi.add_apply, Pi.star_apply, Pi.sub_apply, Pi.zero_apply, Pi.smul_apply, star_eq_zero] at k1 k2
      have k3 : mu • u j = 0 := by
        have : mu • u j + mu • u j = 0 := by linear_combination k1 + k2
        have h4 : (2 : ℂ) * mu • u j = 0 := by rw [two_mul]; exact this
        simpa using h4
      rcases smul_eq_zero.1 k3 with h4 | h4
      · exact absurd h4 (ne_of_gt hmp)
      · exact h4
    · rw [asmShao_ab, ← sub_eq_zero, H_ab B hB, elim_sub_smul, hMv, hS.Psm]
      have hPu' : applyShift B 1 u = (1 / th i) • v := by
        have hPu2 : (1 / th i) • v = (1 / th i) • th i • applyShift B 1 u := congrArg (fun w => (1 / th i) • w) hPu
        rw [hPu2, smul_smul, one_div_mul_cancel (ne_of_gt hth), one_smul]
      rw [hPu', smul_smul, ← hmm]
      have hm1 : mu * (1 / (mu * mu)) = 1 / mu := by field_simp
      rw [hm1, smul_add, smul_sub, smul_smul, one_div_mul_cancel (ne_of_gt hmp), one_smul]
      have e1 : (1 / mu) • v + u - (u + (1 / mu) • v) = 0 := by abel
      have e2 : u - (1 / mu) • v - (u - (1 / mu) • v) = 0 := by abel
      rw [e1, e2, star_zero]
      funext j; cases j <;> rfl

/-! ### Other targets -/

/-- `R = 2`, `C = 1`. -/
noncomputable def B21 : Blk 1 := ⟨Matrix.of fun _ _ => 2, Matrix.of fun _ _ => 1⟩
/-- Blocks whose products agree with those of the inverse of `H - I`. -/
noncomputable def B31 : Blk 1 := ⟨Matrix.of fun _ _ => 3 / 2, Matrix.of fun _ _ => 1 / 2⟩
/-- Start vector 1. -/
noncomputable def sOne : Lz 1 := ⟨fun _ _ => 1, fun _ => 0, fun _ => 0, fun _ => 0⟩

theorem B1_bse (r c : ℝ) : IsBse (⟨Matrix.of fun _ _ => (r : ℂ), Matrix.of fun _ _ => (c : ℂ)⟩ : Blk 1) where
  herm := by ext i j; rw [Matrix.conjTranspose_apply]; simp
  symm := by ext i j; rfl

theorem B1_def (r c : ℝ) (h1 : c < r) (h2 : -c < r) : Definite (⟨Matrix.of fun _ _ => (r : ℂ), Matrix.of fun _ _ => (c : ℂ)⟩ : Blk 1) := by
  intro x hx
  obtain ⟨i, hi⟩ := Function.ne_iff.1 hx
  have hp := Complex.normSq_pos.2 hi
  have : i = 0 := Subsingleton.elim _ _
  subst this
  rw [Complex.normSq_apply] at hp
  simp [dotProduct, mulVec]
  have e : (x 0).re * (r * (x 0).re + c * (x 0).re) + (x 0).im * (r * (x 0).im + -(c * (x 0).im)) =
      (r + c) * ((x 0).re * (x 0).re) + (r - c) * ((x 0).im * (x 0).im) := by ring
  rw [e]
  have p1 := mul_self_nonneg (x 0).re
  have p2 := mul_self_nonneg (x 0).im
  rcases p1.lt_or_eq with q1 | q1
  · have := mul_pos (by linarith : 0 < r + c) q1
    have := mul_nonneg (by linarith : 0 ≤ r - c) p2
    linarith
  · have q2 : 0 < (x 0).im * (x 0).im := by linarith
    have := mul_pos (by linarith : 0 < r - c) q2
    rw [← q1]; linarith

theorem B21_bse : IsBse B21 := by have := B1_bse 2 1; unfold B21; simpa using this
theorem B21_def : Definite B21 := by have := B1_def 2 1 (by norm_num) (by norm_num); unfold B21; simpa using this
theorem B31_bse : IsBse B31 := by have := B1_bse (3 / 2) (1 / 2); unfold B31; simpa using this
theorem B31_def : Definite B31 := by have := B1_def (3 / 2) (1 / 2) (by norm_num) (by norm_num); unfold B31; simpa using this

theorem B21_inv : (B21.H - ((1 : ℝ) : ℂ) • 1) * Matrix.fromBlocks (Matrix.of fun _ _ => 3 / 2) (Matrix.of fun _ _ => 1 / 2) (Matrix.of fun _ _ => -1 / 2) (Matrix.of fun _ _ => -1 / 2) = 1 := by
  ext i j
  rw [Matrix.mul_apply, Fintype.sum_sum_type]
  rcases i with i | i <;> rcases j with j | j <;> fin_cases i <;> fin_cases j <;>
    simp [Blk.H, B21, Matrix.conjTranspose_apply, Matrix.transpose_apply] <;> norm_num

theorem sinv21 (s : ℝ) : applySinvert B21 1 s = applyShift B31 s := by
  funext x
  unfold applySinvert applyShift
  rw [Matrix.inv_eq_right_inv B21_inv, Matrix.fromBlocks_mulVec]
  funext i
  simp [top, B31, mulVec, dotProduct]
  ring

/-- C176 is false of the code for other targets: for the definite problem `R = 2`, `C = 1` and target 1, which is not an eigenvalue, the
factorization ends with zero residual (breakdown), but the returned value is not an eigenvalue of `H`. -/
theorem C176_false : ∃ (B : Blk 1) (sigma : ℝ) (s0 : Lz 1), IsBse B ∧ Definite B ∧ IsUnit (B.H - (sigma : ℂ) • 1) ∧
    ∃ s, shao0 (applySinvert B sigma) 1 s0 = some ⟨s, 1, true⟩ ∧ s.b 0 = 0 ∧ ∀ Q th, Diag (stored 0 s.a s.b) 1 Q th →
      ∀ x : Fin 1 ⊕ Fin 1 → ℂ, x ≠ 0 → B.H *ᵥ x ≠ ((backSinvert sigma (ritz th 0) : ℝ) : ℂ) • x := by
  have happ : applySinvert B21 1 = applyShift B31 := by funext s; exact sinv21 s
  have hP := pair_shift B31 B31_bse.herm B31_bse.symm
  have hpos := pos_shift B31 B31_def
  have hne : sOne.U 0 ≠ 0 := by intro h; have := congrFun h 0; simp [sOne] at this
  obtain ⟨g1, g2, g3⟩ := inv_start (app := applyShift B31) (P := applyShift B31 1) (M := applyShift B31 (-1)) rfl hP hpos sOne hne
  have hPu : ∀ r : ℝ, applyShift B31 1 (fun _ => (r : ℂ)) = (2 : ℝ) • (fun _ => (r : ℂ)) := by
    intro r; rw [shift_pos]; funext i; simp [B31, mulVec, dotProduct]; ring
  have hMu : ∀ r : ℝ, applyShift B31 (-1) (fun _ => (r : ℂ)) = (fun _ => (r : ℂ)) := by
    intro r; rw [shift_neg]; funext i; simp [B31, mulVec, dotProduct]; ring
  obtain ⟨t, ht⟩ : ∃ t, t = normalize0 (applyShift B31) sOne := ⟨_, rfl⟩
  rw [← ht] at g3
  obtain ⟨r, hr⟩ : ∃ r : ℝ, t.U 0 = fun _ => (r : ℂ) := by
    refine ⟨1 / Real.sqrt (gam0 (applyShift B31) sOne), ?_⟩
    rw [ht]; unfold normalize0; simp only []; rw [Function.update_self]
    funext i; simp [sOne]
  have hV : t.V 0 = (2 : ℝ) • (fun _ => (r : ℂ)) := by rw [g3.prod 0 le_rfl, hr, hPu]
  have hMV : applyShift B31 (-1) (t.V 0) = t.V 0 := by rw [hV, hP.Msm, hMu]
  have hal : rdot (t.V 0) (applyShift B31 (-1) (t.V 0)) = 2 := by
    rw [hMV]
    have h1 := g3.bi 0 le_rfl 0 le_rfl
    rw [if_pos rfl] at h1
    have h2 : t.V 0 = (2 : ℝ) • t.U 0 := by rw [hV, hr]
    have h5 : rdot (t.V 0) (t.V 0) = rdot (t.V 0) ((2 : ℝ) • t.U 0) := by rw [← h2]
    rw [h5, rdot_smul, h1]; norm_num
  obtain ⟨hx, ha⟩ := newX_eq (app := applyShift B31) rfl rfl hP le_rfl g3
  have hloc : loc (applyShift B31 (-1)) 0 0 t = 0 := by
    unfold loc
    rw [hal, hMV, hr, hV, Finset.range_zero, Finset.sum_empty, sub_zero, sub_self]
  have hg : gam (applyShift B31) 0 0 t = 0 := by unfold gam; rw [hx, hloc]; simp [dot]
  refine ⟨B21, 1, sOne, B21_bse, B21_def, ?_, step (applyShift B31) 0 0 t, ?_, ?_, ?_⟩
  · exact (Matrix.isUnit_iff_isUnit_det _).2 (Matrix.isUnit_det_of_right_inverse B21_inv)
  · rw [happ]
    unfold shao0
    rw [if_neg g1, if_neg g2, ← ht]
    unfold lanczos
    rw [hg, if_neg (lt_irrefl _), if_pos Real.sqrt_zero]
  · unfold step; simp [hg]
  · intro Q th hQ x hx0 he
    have hq : Q 0 0 * Q 0 0 = 1 := by
      have := hQ.ortho 0 (by norm_num) 0 (by norm_num)
      simpa using this
    have hth : th 0 = 2 := by
      have := hQ.eig 0 (by norm_num) 0 (by norm_num)
      simp only [Finset.range_one, Finset.sum_singleton] at this
      have hQ0 : Q 0 0 ≠ 0 := by intro h; rw [h] at hq; norm_num at hq
      have h2 := mul_right_cancel₀ hQ0 this
      rw [← h2]; unfold stored; rw [if_pos rfl]; unfold step; simp [ha, hal]
    obtain ⟨l, hl⟩ : ∃ l, l = backSinvert 1 (ritz th 0) := ⟨_, rfl⟩
    rw [← hl] at he
    have e1 := congrFun he (Sum.inl 0)
    have e2 := congrFun he (Sum.inr 0)
    simp [Blk.H, B21, mulVec, dotProduct, Fintype.sum_sum_type, Matrix.conjTranspose_apply, Matrix.transpose_apply] at e1 e2
    have h3 : ((l : ℂ) ^ 2 - 3) * x (Sum.inl 0) = 0 := by linear_combination (-(l : ℂ) - 2) * e1 - e2
    have h4 : ((l : ℂ) ^ 2 - 3) * x (Sum.inr 0) = 0 := by linear_combination e1 - ((l : ℂ) - 2) * e2
    have h5 : (l : ℂ) ^ 2 - 3 ≠ 0 := by
      intro h
      have h6 : l ^ 2 - 3 = 0 := by exact_mod_cast h
      have h7 : l = 1 / Real.sqrt 2 + 1 := by rw [hl]; unfold backSinvert ritz; rw [hth]
      have h8 : Real.sqrt 2 * Real.sqrt 2 = 2 := Real.mul_self_sqrt (by norm_num)
      have h9 : 0 < Real.sqrt 2 := Real.sqrt_pos.2 (by norm_num)
      obtain ⟨w, hw⟩ : ∃ w, w = Real.sqrt 2 := ⟨_, rfl⟩
      rw [← hw] at h7 h8 h9
      have h10 : 1 / w = w / 2 := by field_simp; linarith
      rw [h10] at h7
      rw [h7] at h6
      nlinarith
    apply hx0
    funext i
    rcases i with i | i
    · have : i = 0 := Subsingleton.elim _ _
      subst this
      exact (mul_eq_zero.1 h3).resolve_left h5
    · have : i = 0 := Subsingleton.elim _ _
      subst this
      exact (mul_eq_zero.1 h4).resolve_left h5

/-- The hypotheses of C176_partial are met by a problem with both blocks nonzero. -/
example : IsBse B21 ∧ Definite B21 ∧ sOne.U 0 ≠ 0 :=
  ⟨B21_bse, B21_def, by intro h; have := congrFun h 0; simp [sOne] at this⟩

end Verif.Bse
