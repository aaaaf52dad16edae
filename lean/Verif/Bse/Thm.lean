import Verif.Bse.Spec
import Verif.Bse.ShaoLoop

/-! Properties C172, C174, C175 and C177 (Bethe-Salpeter Krylov-Schur, variant of Shao). -/
set_option linter.all false

namespace Verif.Bse

open Finset Matrix

variable {n : ℕ}

theorem pos_shift (B : Blk n) (h : Definite B) : Pos (applyShift B 1) := by
  intro x hx
  have := h x hx
  rw [rdot_comm, shift_pos]; exact this

theorem dec_shao {B : Blk n} {k m : ℕ} {s : Lz n} (h : DecI (applyShift B 1) (applyShift B (-1)) k m s) :
    ShaoDec B m s.U s.V (stored k s.a s.b) (lastOnly m (s.b (m - 1))) (s.U m) where
  prod i hi := by rw [h.prod i hi, shift_pos]
  biorth i hi j hj := h.bi i hi j hj
  imU i hi j hj := h.iu i hi j hj
  imV i hi j hj := h.iv i hi j hj
  sym i j := arrow_symm k s.a s.b i j
  rel j hj := by rw [← shift_neg, h.rel j hj]; rfl
  resV i hi := h.fr i hi
  resU i hi := h.fi i hi

theorem run_inv (B : Blk n) (hB : IsBse B) (hd : Definite B) (m : ℕ) (hm : 0 < m) (s0 : Lz n) (h0 : s0.U 0 ≠ 0) (k : ℕ) (s : Lz n)
    (hr : Run (applyShift B) m s0 k s) : k < m ∧ Inv (applyShift B 1) (applyShift B (-1)) k m s := by
  have hP := pair_shift B hB.herm hB.symm
  have hpos := pos_shift B hd
  induction hr with
  | first s hs =>
    obtain ⟨g1, g2, g3⟩ := inv_start (app := applyShift B) (P := applyShift B 1) (M := applyShift B (-1)) rfl hP hpos s0 h0
    unfold shao0 at hs
    rw [if_neg g1, if_neg g2] at hs
    obtain ⟨out, ho, h3, _⟩ := lanczos_spec (app := applyShift B) rfl rfl hP hpos 0 m 0 _ le_rfl g3
    rw [hs] at ho
    obtain rfl := Option.some.inj ho
    have := (h3 rfl).2
    rw [Nat.zero_add] at this
    exact ⟨hm, this⟩
  | next k p s s' Q th hr hQ hp hpm hl ih =>
    obtain ⟨hk, hi⟩ := ih
    have h4 := inv_restart hP hk hpm.le hi Q th (fun i hi l hl => hQ.ortho i (by omega) l (by omega))
      (fun i hi r hr => hQ.eig i (by omega) r hr)
    obtain ⟨out, ho, h3, _⟩ := lanczos_spec (app := applyShift B) rfl rfl hP hpos p (m - p) p _ le_rfl h4
    rw [hl] at ho
    obtain rfl := Option.some.inj ho
    have := (h3 rfl).2
    rw [Nat.add_sub_cancel' hpm.le] at this
    exact ⟨hpm, this⟩

/-- C172 (partial: exact arithmetic, no locked columns, dense solver by specification): after any number of restarts the pairs of vectors
satisfy the structured decomposition with the stored matrix, and the further vector is normalized in the same form. -/
theorem C172_partial (B : Blk n) (hB : IsBse B) (hd : Definite B) (m : ℕ) (hm : 0 < m) (s0 : Lz n) (h0 : s0.U 0 ≠ 0) (k : ℕ) (s : Lz n)
    (hr : Run (applyShift B) m s0 k s) :
    ShaoDec B m s.U s.V (stored k s.a s.b) (lastOnly m (s.b (m - 1))) (s.U m) ∧
      (star (B.R *ᵥ s.U m + B.C *ᵥ star (s.U m)) ⬝ᵥ s.U m).re = 1 ∧ s.V m = B.R *ᵥ s.U m + B.C *ᵥ star (s.U m) := by
  obtain ⟨hk, hi⟩ := run_inv B hB hd m hm s0 h0 k s hr
  have h1 := hi.prod m le_rfl
  rw [shift_pos] at h1
  refine ⟨dec_shao (dec_of_inv hk hi), ?_, h1⟩
  have := hi.bi m le_rfl m le_rfl
  rw [if_pos rfl, h1] at this
  exact this

/-- C172, last factorization: from any state of the run the next factorization has a result (no root of a negative number); if it ends
early, the decomposition holds with the columns computed so far and without residual. -/
theorem C172_cycle (B : Blk n) (hB : IsBse B) (hd : Definite B) (m : ℕ) (hm : 0 < m) (s0 : Lz n) (h0 : s0.U 0 ≠ 0) :
    (∃ out, shao0 (applyShift B) m s0 = some out ∧ (out.bd = false → out.m = m) ∧ (out.bd = true → 0 < out.m ∧ out.m ≤ m ∧
      ShaoDec B out.m out.s.U out.s.V (stored 0 out.s.a out.s.b) (fun _ => 0) 0 ∧ out.s.b (out.m - 1) = 0)) ∧
    (∀ k s Q th p, Run (applyShift B) m s0 k s → Diag (stored k s.a s.b) m Q th → 0 < p → p < m →
      ∃ out, lanczos (applyShift B) p (m - p) p (restart Q th m p s) = some out ∧ (out.bd = false → out.m = m) ∧
        (out.bd = true → p < out.m ∧ out.m ≤ m ∧ ShaoDec B out.m out.s.U out.s.V (stored p out.s.a out.s.b) (fun _ => 0) 0 ∧
          out.s.b (out.m - 1) = 0)) := by
  have hP := pair_shift B hB.herm hB.symm
  have hpos := pos_shift B hd
  have key : ∀ {k : ℕ} {o : Out n}, DecI (applyShift B 1) (applyShift B (-1)) k o.m o.s → o.s.b (o.m - 1) = 0 →
      ShaoDec B o.m o.s.U o.s.V (stored k o.s.a o.s.b) (fun _ => 0) 0 := by
    intro k o h hb
    have h3 := dec_shao h
    refine ⟨h3.prod, h3.biorth, h3.imU, h3.imV, h3.sym, ?_, by intro i _; simp, by intro i _; simp⟩
    intro j hj
    rw [h3.rel j hj]
    unfold lastOnly
    rw [hb]; simp
  constructor
  · obtain ⟨g1, g2, g3⟩ := inv_start (app := applyShift B) (P := applyShift B 1) (M := applyShift B (-1)) rfl hP hpos s0 h0
    obtain ⟨out, ho, h3, h4⟩ := lanczos_spec (app := applyShift B) rfl rfl hP hpos 0 m 0 _ le_rfl g3
    refine ⟨out, ?_, ?_, ?_⟩
    · unfold shao0; rw [if_neg g1, if_neg g2]; exact ho
    · intro hc; have := (h3 hc).1; omega
    · intro hc
      obtain ⟨a1, a2, a3, a4, a5⟩ := h4 hc
      exact ⟨a1, by omega, key a3 a4, a4⟩
  · intro k s Q th p hr hQ hp hpm
    obtain ⟨hk, hi⟩ := run_inv B hB hd m hm s0 h0 k s hr
    have h4 := inv_restart hP hk hpm.le hi Q th (fun i hi l hl => hQ.ortho i (by omega) l (by omega))
      (fun i hi r hr => hQ.eig i (by omega) r hr)
    obtain ⟨out, ho, h3, h5⟩ := lanczos_spec (app := applyShift B) rfl rfl hP hpos p (m - p) p _ le_rfl h4
    refine ⟨out, ho, ?_, ?_⟩
    · intro hc; have := (h3 hc).1; omega
    · intro hc
      obtain ⟨a1, a2, a3, a4, a5⟩ := h5 hc
      exact ⟨a1, by omega, key a3 a4, a4⟩

/-! ### Assembly of vectors -/

theorem mul_elim (B : Blk n) (p q : Vc n) :
    B.H *ᵥ Sum.elim p q = Sum.elim (B.R *ᵥ p + B.C *ᵥ q) (-(B.Cᴴ *ᵥ p) - B.Rᵀ *ᵥ q) := by
  unfold Blk.H
  rw [Matrix.fromBlocks_mulVec]
  simp only [Sum.elim_comp_inl, Sum.elim_comp_inr, neg_mulVec]
  rw [sub_eq_add_neg]

theorem star_mul_sym (C : Matrix (Fin n) (Fin n) ℂ) (hC : Cᵀ = C) (p : Vc n) : Cᴴ *ᵥ p = star (C *ᵥ star p) := by
  ext i
  simp only [mulVec, dotProduct, conjTranspose_apply, Pi.star_apply, star_sum, star_mul', star_star]
  apply Finset.sum_congr rfl
  intro j _
  have : C j i = C i j := by rw [← Matrix.transpose_apply C, hC]
  rw [this]

theorem tr_mul_herm (R : Matrix (Fin n) (Fin n) ℂ) (hR : R.IsHermitian) (p : Vc n) : Rᵀ *ᵥ p = star (R *ᵥ star p) := by
  ext i
  simp only [mulVec, dotProduct, transpose_apply, Pi.star_apply, star_sum, star_mul', star_star]
  apply Finset.sum_congr rfl
  intro j _
  rw [← hR.apply j i]

theorem H_ab (B : Blk n) (hB : IsBse B) (a b : Vc n) :
    B.H *ᵥ Sum.elim (a + b) (star (a - b)) = Sum.elim (applyShift B 1 a + applyShift B (-1) b) (star (applyShift B (-1) b - applyShift B 1 a)) := by
  rw [mul_elim, star_mul_sym B.C hB.symm, tr_mul_herm B.R hB.herm, shift_pos, shift_neg, star_star]
  congr 1
  · simp only [mulVec_add, star_sub, mulVec_sub]; abel
  · rw [← star_neg, ← star_sub]
    congr 1
    simp only [star_add, mulVec_add, mulVec_sub]; abel

theorem asmShao_ab (l : ℝ) (u v : Vc n) : asmShao (l : ℂ) u v = Sum.elim (l • u + v) (star (l • u - v)) := by
  unfold asmShao
  rw [Complex.coe_smul]
  congr 1
  · abel
  · congr 1; rw [show (-2 : ℂ) • v = -v - v by rw [neg_smul, two_smul]; abel]; abel

theorem elim_sub_smul (l : ℝ) (a b c d : Vc n) : Sum.elim a (star b) - (l : ℂ) • Sum.elim c (star d) = Sum.elim (a - l • c) (star (b - l • d)) := by
  funext i
  cases i with
  | inl i => simp
  | inr i => simp

theorem shao_residual (B : Blk n) (hB : IsBse B) (l : ℝ) (u v : Vc n) (hv : v = applyShift B 1 u) :
    B.H *ᵥ asmShao (l : ℂ) u v - (l : ℂ) • asmShao (l : ℂ) u v =
      Sum.elim (applyShift B (-1) v - (l * l) • u) (star (applyShift B (-1) v - (l * l) • u)) := by
  have hP := pair_shift B hB.herm hB.symm
  rw [asmShao_ab, H_ab B hB, elim_sub_smul, hP.Psm, ← hv]
  congr 1
  · rw [smul_add, smul_smul]; abel
  · congr 1; rw [smul_sub, smul_smul]; abel

/-- C175, variant SHAO: an exact pair gives an eigenvector. -/
theorem C175_shao (B : Blk n) (hB : IsBse B) (lam : ℝ) (hl : lam ≠ 0) (u v : Vc n) (hu : u ≠ 0) (hv : v = B.R *ᵥ u + B.C *ᵥ star u)
    (he : B.R *ᵥ v - B.C *ᵥ star v = (lam * lam) • u) :
    B.H *ᵥ asmShao (lam : ℂ) u v = (lam : ℂ) • asmShao (lam : ℂ) u v ∧ asmShao (lam : ℂ) u v ≠ 0 := by
  constructor
  · have h := shao_residual B hB lam u v (by rw [shift_pos]; exact hv)
    rw [shift_neg, he, sub_self, star_zero] at h
    rw [← sub_eq_zero, h]
    funext i; cases i <;> rfl
  · intro h0
    rw [asmShao_ab] at h0
    apply hu
    funext i
    have h1 := congrFun h0 (Sum.inl i)
    have h2 := congrFun h0 (Sum.inr i)
    simp only [Sum.elim_inl, Sum.elim_inr, Pi.add_apply, Pi.star_apply, Pi.sub_apply, Pi.zero_apply, Pi.smul_apply, star_eq_zero] at h1 h2
    have h3 : lam • u i = 0 := by
      have : lam • u i + lam • u i = 0 := by linear_combination h1 + h2
      have h4 : (2 : ℂ) * lam • u i = 0 := by rw [two_mul]; exact this
      simpa using h4
    rcases smul_eq_zero.1 h3 with h4 | h4
    · exact absurd h4 hl
    · exact h4

/-- C175, variant GRUNING: singular vectors give an eigenvector for the singular value. -/
theorem C175_gruning (B : Blk n) (hB : IsBse B) (lam : ℝ) (u v : Vc n) (hne : u ≠ 0 ∨ v ≠ 0)
    (h1 : B.R *ᵥ u + B.C *ᵥ star u = lam • v) (h2 : B.R *ᵥ v - B.C *ᵥ star v = lam • u) :
    B.H *ᵥ asmGruning u v = (lam : ℂ) • asmGruning u v ∧ asmGruning u v ≠ 0 := by
  have ha : asmGruning u v = Sum.elim (u + v) (star (u - v)) := by
    unfold asmGruning
    congr 2
    rw [show (-2 : ℂ) • v = -v - v by rw [neg_smul, two_smul]; abel]; abel
  constructor
  · rw [ha, ← sub_eq_zero, H_ab B hB, elim_sub_smul, shift_pos, shift_neg, h1, h2]
    have e1 : lam • v + lam • u - lam • (u + v) = 0 := by rw [smul_add]; abel
    have e2 : lam • u - lam • v - lam • (u - v) = 0 := by rw [smul_sub]; abel
    rw [e1, e2, star_zero]
    funext i; cases i <;> rfl
  · intro h0
    rw [ha] at h0
    have key : u = 0 ∧ v = 0 := by
      constructor <;> funext i <;>
      · have h1 := congrFun h0 (Sum.inl i)
        have h2 := congrFun h0 (Sum.inr i)
        simp only [Sum.elim_inl, Sum.elim_inr, Pi.add_apply, Pi.star_apply, Pi.sub_apply, Pi.zero_apply, star_eq_zero] at h1 h2
        first
          | (show u i = 0; linear_combination (h1 + h2) / 2)
          | (show v i = 0; linear_combination (h1 - h2) / 2)
    rcases hne with h | h
    · exact h key.1
    · exact h key.2

/-- C175, variant PROJECTEDBSE: with the stored vectors `X = u + v`, `Y = conj (u - v)` it assembles twice the vector of SHAO. -/
theorem C175_projected (lam : ℝ) (u v : Vc n) : asmProj (lam : ℂ) (u + v) (star (u - v)) = (2 : ℂ) • asmShao (lam : ℂ) u v := by
  funext i
  cases i with
  | inl i => simp [asmProj, asmShao]; ring
  | inr i => simp [asmProj, asmShao]; ring

/-! ### Residuals -/

theorem sq_elim (a : Vc n) : sq (Sum.elim a (star a)) = 2 * sq a := by
  unfold sq
  rw [Fintype.sum_sum_type]
  simp [two_mul]

theorem sq_smul {ι : Type} [Fintype ι] (r : ℝ) (a : ι → ℂ) : sq (r • a) = r ^ 2 * sq a := by
  unfold sq
  rw [Finset.mul_sum]
  apply Finset.sum_congr rfl
  intro i _
  rw [Pi.smul_apply, Complex.real_smul, Complex.normSq_mul, Complex.normSq_ofReal]; ring

theorem comb_rel (B : Blk n) (hB : IsBse B) {m : ℕ} {U V : ℕ → Vc n} {T : ℕ → ℕ → ℝ} {b : ℝ} {f : Vc n} (hm : 0 < m)
    (h : ShaoDec B m U V T (lastOnly m b) f) {Q : ℕ → ℕ → ℝ} {th : ℕ → ℝ} (hQ : Diag T m Q th) (i : ℕ) (hi : i < m) :
    comb m Q V i = applyShift B 1 (comb m Q U i) ∧
      applyShift B (-1) (comb m Q V i) = th i • comb m Q U i + (Q (m - 1) i * b) • f := by
  have hP := pair_shift B hB.herm hB.symm
  have hc : ∀ W : ℕ → Vc n, comb m Q W i = ∑ r ∈ range m, Q r i • W r := by
    intro W; unfold comb; apply Finset.sum_congr rfl; intro r _; rw [Complex.coe_smul]
  rw [hc, hc]
  constructor
  · rw [hP.Psum]
    apply Finset.sum_congr rfl; intro r hr
    rw [hP.Psm, shift_pos, h.prod r (Finset.mem_range.1 hr)]
  · rw [hP.Msum]
    rw [Finset.sum_congr rfl (g := fun r => (∑ l ∈ range m, (T l r * Q r i) • U l) + (Q r i * lastOnly m b r) • f)
      (by
        intro r hr
        rw [hP.Msm, shift_neg, h.rel r (Finset.mem_range.1 hr), smul_add, Finset.smul_sum, smul_smul]
        congr 1
        apply Finset.sum_congr rfl; intro l _; rw [smul_smul, mul_comm])]
    rw [Finset.sum_add_distrib, Finset.sum_comm, ← Finset.sum_smul]
    congr 1
    · rw [Finset.smul_sum]
      apply Finset.sum_congr rfl; intro l hl
      rw [← Finset.sum_smul, hQ.eig i hi l (Finset.mem_range.1 hl), smul_smul]
    · congr 1
      rw [Finset.sum_eq_single (m - 1)]
      · unfold lastOnly; rw [if_pos (by omega)]
      · intro r hr hne; unfold lastOnly; rw [if_neg (by omega), mul_zero]
      · intro hc; exact absurd (Finset.mem_range.2 (by omega)) hc

/-- C174 (partial): the exact residual of the vector that is returned: its squared norm is twice the square of the estimate times the
squared norm of the further basis vector; the vector itself has squared norm `2 (lambda^2 |u|^2 + |v|^2)`. Neither norm enters the
estimate. -/
theorem C174_partial (B : Blk n) (hB : IsBse B) (m : ℕ) (hm : 0 < m) (s : Lz n) (T : ℕ → ℕ → ℝ)
    (h : ShaoDec B m s.U s.V T (lastOnly m (s.b (m - 1))) (s.U m)) (Q : ℕ → ℕ → ℝ) (th : ℕ → ℝ) (hQ : Diag T m Q th) (i : ℕ) (hi : i < m)
    (hth : 0 ≤ th i) (x : Fin n ⊕ Fin n → ℂ) (hx : x = asmShao (ritz th i : ℂ) (comb m Q s.U i) (comb m Q s.V i)) :
    sq (B.H *ᵥ x - (ritz th i : ℂ) • x) = 2 * est s m Q i ^ 2 * sq (s.U m) ∧
      sq x = 2 * (ritz th i ^ 2 * sq (comb m Q s.U i) + sq (comb m Q s.V i)) := by
  obtain ⟨h1, h2⟩ := comb_rel B hB hm h hQ i hi
  constructor
  · rw [hx, shao_residual B hB _ _ _ h1, h2]
    unfold ritz
    rw [Real.mul_self_sqrt hth, add_sub_cancel_left, sq_elim, sq_smul]
    unfold est
    rw [mul_pow, mul_pow, sq_abs]; ring
  · rw [hx, asmShao_ab]
    unfold sq
    rw [Fintype.sum_sum_type, Finset.mul_sum, ← Finset.sum_add_distrib, ← Finset.sum_add_distrib, Finset.mul_sum]
    apply Finset.sum_congr rfl
    intro j _
    simp only [Sum.elim_inl, Sum.elim_inr, Pi.add_apply, Pi.star_apply, Pi.sub_apply, Pi.smul_apply, Complex.normSq_apply,
      Complex.add_re, Complex.add_im, Complex.sub_re, Complex.sub_im, Complex.star_def, Complex.conj_re, Complex.conj_im,
      Complex.smul_re, Complex.smul_im, smul_eq_mul]
    ring

/-! ### Breakdown -/

theorem pos_neg (B : Blk n) (h : Definite B) : Pos (applyShift B (-1)) := by
  intro x hx
  have hx' : Complex.I • x ≠ 0 := by
    intro h0
    apply hx
    rcases smul_eq_zero.1 h0 with h1 | h1
    · exact absurd h1 Complex.I_ne_zero
    · exact h1
  have h1 := pos_shift B h _ hx'
  have e : applyShift B 1 (Complex.I • x) = Complex.I • applyShift B (-1) x := by
    rw [shift_pos, shift_neg, star_smul, mulVec_smul, mulVec_smul, smul_sub]
    simp [sub_eq_add_neg]
  rw [e] at h1
  have e2 : rdot (Complex.I • applyShift B (-1) x) (Complex.I • x) = rdot (applyShift B (-1) x) x := by
    rw [rdot_eq, rdot_eq]
    apply Finset.sum_congr rfl
    intro i _
    simp; ring
  rw [e2] at h1
  exact h1

theorem comb_r {m : ℕ} (Q : ℕ → ℕ → ℝ) (W : ℕ → Vc n) (i : ℕ) : comb m Q W i = ∑ r ∈ range m, Q r i • W r := by
  unfold comb; apply Finset.sum_congr rfl; intro r _; rw [Complex.coe_smul]

/-- The combined vectors keep the normalization. -/
theorem comb_one {m : ℕ} {U V : ℕ → Vc n} {T : ℕ → ℕ → ℝ} (hb : ∀ i < m, ∀ j < m, rdot (V i) (U j) = if i = j then 1 else 0)
    {Q : ℕ → ℕ → ℝ} {th : ℕ → ℝ} (hQ : Diag T m Q th) (i : ℕ) (hi : i < m) : rdot (comb m Q V i) (comb m Q U i) = 1 := by
  have h := hQ.ortho i hi i hi
  rw [if_pos rfl] at h
  rw [comb_r, comb_r, rdot_sum_left, ← h]
  apply Finset.sum_congr rfl; intro r hr
  rw [rdot_smul_left, rdot_sum, Finset.sum_congr rfl (g := fun c => Q c i * (if r = c then 1 else 0))
    (by intro c hc; rw [rdot_smul, hb r (Finset.mem_range.1 hr) c (Finset.mem_range.1 hc)]), sum_ite_one _ _ (Finset.mem_range.1 hr)]

/-- Pairs of a decomposition without residual are exact. -/
theorem exact_pair (B : Blk n) (hB : IsBse B) (hd : Definite B) {m : ℕ} {U V : ℕ → Vc n} {T : ℕ → ℕ → ℝ} (hm : 0 < m)
    (h : ShaoDec B m U V T (fun _ => 0) 0) {Q : ℕ → ℕ → ℝ} {th : ℕ → ℝ} (hQ : Diag T m Q th) (i : ℕ) (hi : i < m) :
    0 < ritz th i ∧ B.H *ᵥ asmShao (ritz th i : ℂ) (comb m Q U i) (comb m Q V i) = (ritz th i : ℂ) • asmShao (ritz th i : ℂ) (comb m Q U i) (comb m Q V i) ∧
      asmShao (ritz th i : ℂ) (comb m Q U i) (comb m Q V i) ≠ 0 := by
  have h' : ShaoDec B m U V T (lastOnly m 0) 0 :=
    ⟨h.prod, h.biorth, h.imU, h.imV, h.sym, by intro j hj; rw [h.rel j hj]; simp, h.resV, h.resU⟩
  obtain ⟨h1, h2⟩ := comb_rel B hB hm h' hQ i hi
  have h3 : rdot (comb m Q V i) (comb m Q U i) = 1 := comb_one (T := T) h.biorth hQ i hi
  have hu : comb m Q U i ≠ 0 := by intro h0; rw [h0, rdot_zero] at h3; norm_num at h3
  have hv : comb m Q V i ≠ 0 := by intro h0; rw [h0, rdot_comm, rdot_zero] at h3; norm_num at h3
  rw [smul_zero, add_zero] at h2
  have hth : 0 < th i := by
    have := pos_neg B hd _ hv
    rw [rdot_comm, h2, rdot_smul, h3, mul_one] at this
    exact this
  have hr : 0 < ritz th i := Real.sqrt_pos.2 hth
  have hrr : ritz th i * ritz th i = th i := Real.mul_self_sqrt hth.le
  refine ⟨hr, ?_⟩
  apply C175_shao B hB _ (ne_of_gt hr) _ _ hu
  · rw [h1, shift_pos]
  · rw [← shift_neg, h2, hrr]

theorem firstFail_all (err : ℕ → ℝ) (tol : ℝ) : ∀ t k, (∀ i, k ≤ i → i < k + t → err i < tol) → firstFail err tol t k = k + t := by
  intro t
  induction t with
  | zero => intro k _; rfl
  | succ t ih =>
    intro k h
    unfold firstFail
    rw [if_neg (not_le.2 (h k le_rfl (by omega))), ih (k + 1) (fun i h1 h2 => h i (by omega) (by omega))]
    omega

/-- C177 (partial): at an early end of the first factorization all pairs are exact eigenpairs of `H`, they are all counted as converged,
and the solver ends successfully if they are enough. -/
theorem C177_partial (B : Blk n) (hB : IsBse B) (hd : Definite B) (m : ℕ) (hm : 0 < m) (s0 : Lz n) (h0 : s0.U 0 ≠ 0) (out : Out n)
    (ho : shao0 (applyShift B) m s0 = some out) (hbd : out.bd = true) (Q : ℕ → ℕ → ℝ) (th : ℕ → ℝ)
    (hQ : Diag (stored 0 out.s.a out.s.b) out.m Q th) (tol : ℝ) (htol : 0 < tol) (nev its maxit : ℕ) :
    (∀ i < out.m, ∃ x, x = asmShao (ritz th i : ℂ) (comb out.m Q out.s.U i) (comb out.m Q out.s.V i) ∧ x ≠ 0 ∧
      B.H *ᵥ x = (ritz th i : ℂ) • x ∧ est out.s out.m Q i = 0) ∧
    firstFail (fun i => est out.s out.m Q i / ritz th i) tol out.m 0 = out.m ∧
    ((nev + 1) / 2 ≤ out.m → verdict true out.m nev its maxit = Verdict.convergedTol) := by
  obtain ⟨⟨out', ho', _, h4⟩, _⟩ := C172_cycle B hB hd m hm s0 h0
  rw [ho] at ho'
  obtain rfl := Option.some.inj ho'
  obtain ⟨a1, a2, a3, a4⟩ := h4 hbd
  have he : ∀ i, est out.s out.m Q i = 0 := by intro i; unfold est; rw [a4, mul_zero]
  refine ⟨?_, ?_, ?_⟩
  · intro i hi
    obtain ⟨_, b2, b3⟩ := exact_pair B hB hd a1 a3 hQ i hi
    exact ⟨_, rfl, b3, b2, he i⟩
  · rw [firstFail_all _ _ _ _ (by intro i _ _; simp only [he]; simpa using htol), Nat.zero_add]
  · intro h; unfold verdict; rw [if_pos h]

/-- C177 is false of the code: `R = I`, `C = 0` of order `n >= 2` is definite and has 2n eigenvalues; for every start vector the
factorization ends after one column and, when more than two eigenvalues are requested, EPSSolve fails with an error. -/
theorem C177_false (n : ℕ) (hn : 2 ≤ n) (s0 : Lz n) (h0 : s0.U 0 ≠ 0) (m : ℕ) (hm : 0 < m) (nev maxit : ℕ) (h3 : 3 ≤ nev) (hnev : nev ≤ 2 * n)
    (hit : 1 < maxit) :
    ∃ B : Blk n, IsBse B ∧ Definite B ∧ ∃ out, shao0 (applyShift B) m s0 = some out ∧ out.bd = true ∧ out.m = 1 ∧
      verdict out.bd out.m nev 1 maxit = Verdict.error := by
  obtain ⟨B, hBd⟩ : ∃ B : Blk n, B = ⟨1, 0⟩ := ⟨_, rfl⟩
  have hB : IsBse B := by subst hBd; exact ⟨by simp, by simp⟩
  have hP1 : applyShift B 1 = id := by funext x; rw [shift_pos, hBd]; simp
  have hM1 : applyShift B (-1) = id := by funext x; rw [shift_neg, hBd]; simp
  have hd : Definite B := by
    intro x hx
    rw [hBd]
    simp only [one_mulVec, zero_mulVec, add_zero]
    have h1 : (star x ⬝ᵥ x).re = ∑ i, ((x i).re * (x i).re + (x i).im * (x i).im) := rdot_eq x x
    rw [h1]
    obtain ⟨i, hi⟩ := Function.ne_iff.1 hx
    apply Finset.sum_pos'
    · intro j _; exact add_nonneg (mul_self_nonneg _) (mul_self_nonneg _)
    · refine ⟨i, Finset.mem_univ _, ?_⟩
      have := Complex.normSq_pos.2 hi
      rwa [Complex.normSq_apply] at this
  have hP := pair_shift B hB.herm hB.symm
  have hpos := pos_shift B hd
  obtain ⟨g1, g2, g3⟩ := inv_start (app := applyShift B) (P := applyShift B 1) (M := applyShift B (-1)) rfl hP hpos s0 h0
  obtain ⟨hx, _⟩ := newX_eq (app := applyShift B) rfl rfl hP le_rfl g3
  have hz : loc (applyShift B (-1)) 0 0 (normalize0 (applyShift B) s0) = 0 := by
    unfold loc
    have e1 := g3.bi 0 le_rfl 0 le_rfl
    have e2 := g3.prod 0 le_rfl
    rw [hP1] at e2
    simp only [id] at e2
    rw [hM1]
    simp only [id, Finset.range_zero, Finset.sum_empty, sub_zero]
    rw [e2] at e1 ⊢
    rw [e1, if_pos rfl, one_smul, sub_self]
  have hg : gam (applyShift B) 0 0 (normalize0 (applyShift B) s0) = 0 := by
    unfold gam; rw [hx, hz]; simp [dot]
  refine ⟨B, hB, hd, ⟨step (applyShift B) 0 0 (normalize0 (applyShift B) s0), 1, true⟩, ?_, rfl, rfl, ?_⟩
  · unfold shao0
    rw [if_neg g1, if_neg g2]
    obtain ⟨t, rfl⟩ : ∃ t, m = t + 1 := ⟨m - 1, by omega⟩
    unfold lanczos
    rw [hg, if_neg (lt_irrefl _), if_pos Real.sqrt_zero]
  · show verdict true 1 nev 1 maxit = _
    unfold verdict
    rw [if_neg (by omega), if_neg (by omega), if_pos rfl]

end Verif.Bse
