import Verif.Bse.Gr
import Verif.Bse.Thm

/-! Property C173 (bidiagonalization of Gruning). -/
set_option linter.all false

namespace Verif.Bse

open Finset Matrix

variable {n : ℕ} {P M : Vc n → Vc n}

/-- Structured bidiagonal decomposition with `m` columns: `T` represents both products, the second with residual `r f` in the last
column. -/
structure GrDec (B : Blk n) (m : ℕ) (U V : ℕ → Vc n) (T : ℕ → ℕ → ℝ) (r : ℝ) (f : Vc n) : Prop where
  orthU : ∀ i < m, ∀ j < m, 2 * (star (B.R *ᵥ U i + B.C *ᵥ star (U i)) ⬝ᵥ U j).re = if i = j then 1 else 0
  orthV : ∀ i < m, ∀ j < m, 2 * (star (B.R *ᵥ V i - B.C *ᵥ star (V i)) ⬝ᵥ V j).re = if i = j then 1 else 0
  imU : ∀ i < m, ∀ j < m, (star (U i) ⬝ᵥ U j).im = 0
  imV : ∀ i < m, ∀ j < m, (star (V i) ⬝ᵥ V j).im = 0
  relU : ∀ j < m, B.R *ᵥ U j + B.C *ᵥ star (U j) = ∑ i ∈ range m, T i j • V i
  relV : ∀ j < m, B.R *ᵥ V j - B.C *ᵥ star (V j) = ∑ i ∈ range m, T j i • U i + lastOnly m r j • f
  res : ∀ i < m, (star (B.R *ᵥ U i + B.C *ᵥ star (U i)) ⬝ᵥ f).re = 0

/-- `beta1` cannot vanish: the images of `j+1` independent vectors would lie in the span of `j` vectors. -/
theorem newV_ne (hP : Pair P M) {k j : ℕ} (hk : k ≤ j) {s : Gz n} (h : InvG P M k j j s) : newV k j s ≠ 0 := by
  intro h0
  rw [newV_eq (P := P) hk (h.hu j le_rfl)] at h0
  have hPj : P (s.U j) = ∑ l ∈ range j, bidi k s.b1 s.b2 l j • s.V l := sub_eq_zero.1 h0
  have hli : LinearIndependent ℝ (fun i : Fin (j + 1) => P (s.U i)) := by
    rw [Fintype.linearIndependent_iff]
    intro g hg i
    have e : rdot (∑ l : Fin (j + 1), g l • P (s.U l)) (s.U i) = 0 := by rw [hg, rdot_comm, rdot_zero]
    have e2 : ∑ l : Fin (j + 1), g l * (2 * rdot (s.HU l) (s.U i)) = 0 := by
      have : rdot (∑ l : Fin (j + 1), g l • P (s.U l)) (s.U i) = ∑ l : Fin (j + 1), g l * rdot (s.HU l) (s.U i) := by
        have gen : ∀ t : Finset (Fin (j + 1)), rdot (∑ l ∈ t, g l • P (s.U l)) (s.U i) = ∑ l ∈ t, g l * rdot (s.HU l) (s.U i) := by
          intro t
          induction t using Finset.induction_on with
          | empty => rw [Finset.sum_empty, Finset.sum_empty, rdot_comm, rdot_zero]
          | insert a t ha ih =>
            rw [Finset.sum_insert ha, Finset.sum_insert ha, rdot_add_left, ih, rdot_smul_left, h.hu a (by omega)]
        exact gen _
      rw [this] at e
      rw [Finset.sum_congr rfl (g := fun l : Fin (j + 1) => 2 * (g l * rdot (s.HU l) (s.U i))) (by intro l _; ring), ← Finset.mul_sum, e,
        mul_zero]
    rw [Finset.sum_eq_single i] at e2
    · rw [h.ou i (by omega) i (by omega), if_pos rfl, mul_one] at e2; exact e2
    · intro l _ hne
      rw [h.ou l (by omega) i (by omega), if_neg (by intro hc; exact hne (Fin.ext hc)), mul_zero]
    · intro hc; exact absurd (Finset.mem_univ i) hc
  classical
  have hsp : Set.range (fun i : Fin (j + 1) => P (s.U i)) ≤ Submodule.span ℝ (((range j).image s.V : Finset (Vc n)) : Set (Vc n)) := by
    rintro _ ⟨i, rfl⟩
    have hi : P (s.U i) = ∑ l ∈ range j, bidi k s.b1 s.b2 l i • s.V l := by
      rcases Nat.lt_succ_iff_lt_or_eq.1 i.2 with h3 | h3
      · exact h.pu i h3
      · rw [h3]; exact hPj
    show P (s.U i) ∈ _
    rw [hi]
    apply Submodule.sum_mem
    intro l hl
    apply Submodule.smul_mem
    apply Submodule.subset_span
    exact Finset.mem_coe.2 (Finset.mem_image_of_mem _ hl)
  have hc := linearIndependent_le_span' _ hli (((range j).image s.V : Finset (Vc n)) : Set (Vc n)) hsp
  have h2 := Finset.card_image_le (s := range j) (f := s.V)
  rw [Finset.card_range] at h2
  have h3 : Cardinal.mk (Fin (j + 1)) = ((j + 1 : ℕ) : Cardinal) := by simp
  rw [h3] at hc
  have h4 : j + 1 ≤ ((range j).image s.V).card := by
    have h5 : j + 1 ≤ Fintype.card (((range j).image s.V : Finset (Vc n)) : Set (Vc n)) := by exact_mod_cast hc
    exact h5.trans (le_of_eq (Fintype.card_coe _))
  omega

/-- What holds when the loop ends. -/
theorem lanczosG_spec {app : ℝ → Vc n → Vc n} (h1 : app 1 = P) (h2 : app (-1) = M) (hP : Pair P M) (hp1 : Pos P) (hp2 : Pos M) (k : ℕ) :
    ∀ t j s, k ≤ j → InvG P M k j j s → ∃ out, lanczosG app k t j s = some out ∧ out.e ≠ .zero1 ∧
      (out.e = .full → out.m = j + t ∧ InvG P M k out.m out.m out.s) ∧
      (out.e = .zero2 → j < out.m ∧ out.m ≤ j + t ∧ ∃ s', InvG P M k (out.m - 1) out.m s' ∧ newU (out.m - 1) s' = 0 ∧
        out.s = stepU app (out.m - 1) s' ∧ out.s.b2 (out.m - 1) = 0) := by
  intro t
  induction t with
  | zero =>
    intro j s hk h
    exact ⟨_, rfl, (by intro hc; cases hc), fun _ => ⟨rfl, h⟩, (by intro hc; cases hc)⟩
  | succ t ih =>
    intro j s hk h
    have gv := gamV_eq h2 k j s
    obtain ⟨v1, v2⟩ := form_nn hP.M0 hp2 (newV k j s)
    have hg : 0 ≤ gamV app k j s := by rw [gv]; linarith
    have hb : Real.sqrt (gamV app k j s) ≠ 0 := by
      intro hc
      have := (Real.sqrt_eq_zero hg).1 hc
      exact newV_ne hP hk h (v2 (by rw [gv] at this; linarith))
    have hi := invV h2 hP hk h hg hb
    obtain ⟨u1, u2⟩ := form_nn hP.P0 hp1 (newU j (stepV app k j s))
    have gu := gamU_eq h1 j (stepV app k j s)
    have hg2 : 0 ≤ gamU app j (stepV app k j s) := by rw [gu]; linarith
    unfold lanczosG
    rw [if_neg (not_lt.2 hg), if_neg hb, if_neg (not_lt.2 hg2)]
    by_cases hb2 : Real.sqrt (gamU app j (stepV app k j s)) = 0
    · rw [if_pos hb2]
      refine ⟨_, rfl, (by intro hc; cases hc), (by intro hc; cases hc), fun _ => ⟨by show j < j + 1; omega, by show j + 1 ≤ j + (t + 1); omega,
        stepV app k j s, hi, ?_, rfl, ?_⟩⟩
      · have := (Real.sqrt_eq_zero hg2).1 hb2
        exact u2 (by rw [gu] at this; linarith)
      · show (stepU app j (stepV app k j s)).b2 j = 0
        unfold stepU; simp only []; rw [Function.update_self, hb2]
    · rw [if_neg hb2]
      obtain ⟨out, e1, e2, e3, e4⟩ := ih (j + 1) _ (by omega) (invU h1 hP hk hi hg2 hb2)
      refine ⟨out, e1, e2, ?_, ?_⟩
      · intro hc; obtain ⟨a, b⟩ := e3 hc; exact ⟨by omega, b⟩
      · intro hc; obtain ⟨a, b, c⟩ := e4 hc; exact ⟨by omega, by omega, c⟩

theorem invG_start {app : ℝ → Vc n → Vc n} (h1 : app 1 = P) (hP : Pair P M) (hp1 : Pos P) (s : Gz n) (h0 : s.U 0 ≠ 0) :
    ¬ gamG0 app s < 0 ∧ Real.sqrt (gamG0 app s) ≠ 0 ∧ InvG P M 0 0 0 (normG0 app s) := by
  have hg : gamG0 app s = 2 * rdot (P (s.U 0)) (s.U 0) := by unfold gamG0 rdot; rw [h1]; simp
  have hpos := hp1 _ h0
  have hb : Real.sqrt (gamG0 app s) ≠ 0 := by
    have : 0 < Real.sqrt (gamG0 app s) := Real.sqrt_pos.2 (by rw [hg]; linarith)
    exact this.ne'
  obtain ⟨be, hbe⟩ : ∃ be, be = Real.sqrt (gamG0 app s) := ⟨_, rfl⟩
  have hsq : be * be = 2 * rdot (P (s.U 0)) (s.U 0) := by rw [hbe, Real.mul_self_sqrt (by rw [hg]; linarith), hg]
  have hU : (normG0 app s).U 0 = (1 / be) • s.U 0 := by
    unfold normG0; simp only []; rw [Function.update_self, ← hbe, Complex.coe_smul]
  have hHU : (normG0 app s).HU 0 = (1 / be) • P (s.U 0) := by
    unfold normG0; simp only []; rw [Function.update_self, ← hbe, Complex.coe_smul, h1]
  refine ⟨by rw [hg]; linarith, hb, ?_, ?_, ?_, ?_, ?_, ?_, ?_, ?_⟩
  · intro i hi
    obtain rfl : i = 0 := by omega
    rw [hU, hHU, hP.Psm]
  · intro i hi; omega
  · intro i hi l hl
    obtain rfl : i = 0 := by omega
    obtain rfl : l = 0 := by omega
    rw [hU, hHU, rdot_smul, rdot_smul_left, if_pos rfl]
    rw [← hbe] at hb
    have : 2 * (1 / be * (1 / be * rdot (P (s.U 0)) (s.U 0))) = (2 * rdot (P (s.U 0)) (s.U 0)) / (be * be) := by field_simp
    rw [this, ← hsq, div_self (mul_ne_zero hb hb)]
  · intro i hi; omega
  · intro i hi l hl
    obtain rfl : i = 0 := by omega
    obtain rfl : l = 0 := by omega
    exact idot_self _
  · intro i hi; omega
  · intro i hi; omega
  · intro i hi; omega

/-- Last column of the relation for `V`. -/
theorem mv_split {k m : ℕ} (hk : k < m) {s : Gz n} (h : InvG P M k m m s) (i : ℕ) (hi : i < m) :
    M (s.V i) = ∑ l ∈ range m, bidi k s.b1 s.b2 i l • s.U l + lastOnly m (s.b2 (m - 1)) i • s.U m := by
  rw [h.mv i hi, Finset.sum_range_succ]
  congr 2
  unfold bidi lastOnly
  rw [if_neg (by omega : ¬ i = m)]
  by_cases h3 : i + 1 = m
  · rw [if_pos h3, if_pos (Or.inr ⟨by omega, h3.symm⟩), ← h3]; rfl
  · rw [if_neg h3, if_neg (by omega)]

theorem dec_gr {B : Blk n} {k m : ℕ} (hk : k < m) {s : Gz n} (h : InvG (applyShift B 1) (applyShift B (-1)) k m m s) :
    GrDec B m s.U s.V (bidi k s.b1 s.b2) (s.b2 (m - 1)) (s.U m) where
  orthU i hi j hj := by have := h.ou i hi.le j hj.le; rw [h.hu i hi.le, shift_pos] at this; exact this
  orthV i hi j hj := by have := h.ov i hi j hj; rw [h.hv i hi, shift_neg] at this; exact this
  imU i hi j hj := h.iu i hi.le j hj.le
  imV i hi j hj := h.iv i hi j hj
  relU j hj := by rw [← shift_pos, h.pu j hj]
  relV j hj := by rw [← shift_neg, mv_split hk h j hj]
  res i hi := by
    have := h.ou i hi.le m le_rfl
    rw [h.hu i hi.le, shift_pos, if_neg (by omega)] at this
    have h2 : rdot (B.R *ᵥ s.U i + B.C *ᵥ star (s.U i)) (s.U m) = 0 := by linarith
    exact h2

theorem rdot_comb (m : ℕ) (f : ℕ → Vc n) (c : ℕ → ℝ) (x : Vc n) : rdot x (∑ r ∈ range m, c r • f r) = ∑ r ∈ range m, c r * rdot x (f r) := by
  rw [rdot_sum]; apply Finset.sum_congr rfl; intro r _; rw [rdot_smul]

theorem rdot_comb2 (m : ℕ) (X Y : ℕ → Vc n) (c d : ℕ → ℝ) (h : ∀ i < m, ∀ l < m, 2 * rdot (X i) (Y l) = if i = l then 1 else 0) :
    2 * rdot (∑ r ∈ range m, c r • X r) (∑ r ∈ range m, d r • Y r) = ∑ r ∈ range m, c r * d r := by
  rw [rdot_sum_left, Finset.mul_sum]
  apply Finset.sum_congr rfl; intro r hr
  have hr' := Finset.mem_range.1 hr
  rw [rdot_smul_left, rdot_comb, ← mul_assoc, mul_comm 2, mul_assoc, Finset.mul_sum,
    Finset.sum_congr rfl (g := fun l => d l * (if r = l then 1 else 0))
    (by intro l hl; rw [← h r hr' l (Finset.mem_range.1 hl)]; ring), sum_ite_one _ _ hr']

theorem idot_comb0 (m : ℕ) (X : ℕ → Vc n) (c : ℕ → ℝ) (y : Vc n) (h : ∀ i < m, idot (X i) y = 0) :
    idot (∑ r ∈ range m, c r • X r) y = 0 := by
  rw [idot_sum_left]; apply Finset.sum_eq_zero; intro r hr; rw [idot_smul_left, h r (Finset.mem_range.1 hr), mul_zero]

theorem idot_comb0' (m : ℕ) (X : ℕ → Vc n) (c : ℕ → ℝ) (y : Vc n) (h : ∀ i < m, idot y (X i) = 0) :
    idot y (∑ r ∈ range m, c r • X r) = 0 := by
  rw [idot_anti, idot_comb0 _ _ _ _ (by intro i hi; rw [idot_anti, h i hi, neg_zero]), neg_zero]

theorem invG_restart (hP : Pair P M) {k m p : ℕ} {s : Gz n} (hk : k < m) (hp : p < m) (h : InvG P M k m m s) (Q Z : ℕ → ℕ → ℝ) (sg : ℕ → ℝ)
    (hS : Svd (bidi k s.b1 s.b2) m Q Z sg) : InvG P M p p p (restartG Q Z sg m p s) := by
  have cs : ∀ (c : ℕ → ℝ) (f : ℕ → Vc n), ∑ r ∈ range m, ((c r : ℝ) : ℂ) • f r = ∑ r ∈ range m, c r • f r := by
    intro c f; apply Finset.sum_congr rfl; intro r _; rw [Complex.coe_smul]
  have hU : ∀ i < p, (restartG Q Z sg m p s).U i = ∑ r ∈ range m, Z r i • s.U r := by
    intro i hi; unfold restartG; simp only []; rw [if_pos hi, cs (fun r => Z r i)]
  have hHU : ∀ i < p, (restartG Q Z sg m p s).HU i = ∑ r ∈ range m, Z r i • s.HU r := by
    intro i hi; unfold restartG; simp only []; rw [if_pos hi, cs (fun r => Z r i)]
  have hV : ∀ i < p, (restartG Q Z sg m p s).V i = ∑ r ∈ range m, Q r i • s.V r := by
    intro i hi; unfold restartG; simp only []; rw [if_pos hi, cs (fun r => Q r i)]
  have hHV : ∀ i < p, (restartG Q Z sg m p s).HV i = ∑ r ∈ range m, Q r i • s.HV r := by
    intro i hi; unfold restartG; simp only []; rw [if_pos hi, cs (fun r => Q r i)]
  have hU1 : (restartG Q Z sg m p s).U p = s.U m := by unfold restartG; simp
  have hHU1 : (restartG Q Z sg m p s).HU p = s.HU m := by unfold restartG; simp
  have hb1 : (restartG Q Z sg m p s).b1 = sg := rfl
  have hb2 : (restartG Q Z sg m p s).b2 = fun i => s.b2 (m - 1) * Q (m - 1) i := rfl
  have z0 : ∀ i ≤ m, ∀ l ≤ m, i ≠ l → rdot (s.HU i) (s.U l) = 0 := by
    intro i hi l hl hne
    have := h.ou i hi l hl
    rw [if_neg hne] at this; linarith
  have hsum : ∀ (T : ℕ → ℕ → ℝ) (c : ℕ → ℝ) (f : ℕ → Vc n),
      ∑ r ∈ range m, c r • (∑ l ∈ range m, T r l • f l) = ∑ l ∈ range m, (∑ r ∈ range m, T r l * c r) • f l := by
    intro T c f
    rw [Finset.sum_congr rfl (g := fun r => ∑ l ∈ range m, (T r l * c r) • f l)
      (by intro r _; rw [Finset.smul_sum]; apply Finset.sum_congr rfl; intro l _; rw [smul_smul, mul_comm]), Finset.sum_comm]
    apply Finset.sum_congr rfl; intro l _; rw [Finset.sum_smul]
  refine ⟨?_, ?_, ?_, ?_, ?_, ?_, ?_, ?_⟩
  · intro i hi
    rcases Nat.lt_or_eq_of_le hi with h3 | h3
    · rw [hU i h3, hHU i h3, hP.Psum]
      apply Finset.sum_congr rfl; intro r hr; rw [hP.Psm, h.hu r (Finset.mem_range.1 hr).le]
    · subst h3; rw [hU1, hHU1, h.hu m le_rfl]
  · intro i hi
    rw [hV i hi, hHV i hi, hP.Msum]
    apply Finset.sum_congr rfl; intro r hr; rw [hP.Msm, h.hv r (Finset.mem_range.1 hr)]
  · intro i hi l hl
    rcases Nat.lt_or_eq_of_le hi with h3 | h3 <;> rcases Nat.lt_or_eq_of_le hl with h4 | h4
    · rw [hHU i h3, hU l h4, rdot_comb2 m _ _ _ _ (fun a ha b hb => h.ou a ha.le b hb.le), hS.orthoZ i (by omega) l (by omega)]
    · subst h4
      rw [hHU i h3, hU1, rdot_sum_left, Finset.sum_eq_zero, if_neg (by omega)]
      · ring
      · intro r hr; have := Finset.mem_range.1 hr; rw [rdot_smul_left, z0 r this.le m le_rfl (by omega), mul_zero]
    · subst h3
      rw [hHU1, hU l h4, rdot_comb, Finset.sum_eq_zero, if_neg (by omega)]
      · ring
      · intro r hr; have := Finset.mem_range.1 hr; rw [z0 m le_rfl r this.le (by omega), mul_zero]
    · subst h3; subst h4; rw [hHU1, hU1, h.ou m le_rfl m le_rfl, if_pos rfl, if_pos rfl]
  · intro i hi l hl
    rw [hHV i hi, hV l hl, rdot_comb2 m _ _ _ _ h.ov, hS.orthoQ i (by omega) l (by omega)]
  · intro i hi l hl
    rcases Nat.lt_or_eq_of_le hi with h3 | h3 <;> rcases Nat.lt_or_eq_of_le hl with h4 | h4
    · rw [hU i h3, hU l h4]
      exact idot_comb0 _ _ _ _ (fun a ha => idot_comb0' _ _ _ _ (fun b hb => h.iu a ha.le b hb.le))
    · subst h4; rw [hU i h3, hU1]; exact idot_comb0 _ _ _ _ (fun a ha => h.iu a ha.le m le_rfl)
    · subst h3; rw [hU l h4, hU1]; exact idot_comb0' _ _ _ _ (fun a ha => h.iu m le_rfl a ha.le)
    · subst h3; subst h4; exact idot_self _
  · intro i hi l hl
    rw [hV i hi, hV l hl]
    exact idot_comb0 _ _ _ _ (fun a ha => idot_comb0' _ _ _ _ (fun b hb => h.iv a ha b hb))
  · intro i hi
    have e1 : P ((restartG Q Z sg m p s).U i) = sg i • ∑ r ∈ range m, Q r i • s.V r := by
      rw [hU i hi, hP.Psum, Finset.sum_congr rfl (g := fun r => Z r i • ∑ l ∈ range m, (fun a b => bidi k s.b1 s.b2 b a) r l • s.V l)
        (by intro r hr; rw [hP.Psm, h.pu r (Finset.mem_range.1 hr)]), hsum, Finset.smul_sum]
      apply Finset.sum_congr rfl; intro l hl
      rw [hS.right i (by omega) l (Finset.mem_range.1 hl), smul_smul]
    rw [e1, ← hV i hi, hb1, Finset.sum_eq_single i]
    · unfold bidi; rw [if_pos rfl]
    · intro l hl hne
      have := Finset.mem_range.1 hl
      unfold bidi; rw [if_neg hne, if_neg (by omega), zero_smul]
    · intro hc; exact absurd (Finset.mem_range.2 hi) hc
  · intro i hi
    have e1 : M ((restartG Q Z sg m p s).V i) = sg i • (∑ r ∈ range m, Z r i • s.U r) + (s.b2 (m - 1) * Q (m - 1) i) • s.U m := by
      rw [hV i hi, hP.Msum, Finset.sum_congr rfl (g := fun r => Q r i • (∑ l ∈ range m, bidi k s.b1 s.b2 r l • s.U l)
        + (Q r i * lastOnly m (s.b2 (m - 1)) r) • s.U m)
        (by intro r hr; rw [hP.Msm, mv_split hk h r (Finset.mem_range.1 hr), smul_add, smul_smul]), Finset.sum_add_distrib, hsum]
      congr 1
      · rw [Finset.smul_sum]
        apply Finset.sum_congr rfl; intro l hl
        rw [hS.left i (by omega) l (Finset.mem_range.1 hl), smul_smul]
      · rw [← Finset.sum_smul]
        congr 1
        unfold lastOnly
        rw [Finset.sum_eq_single (m - 1)]
        · rw [if_pos (by omega)]; ring
        · intro r hr hne; rw [if_neg (by omega), mul_zero]
        · intro hc; exact absurd (Finset.mem_range.2 (by omega)) hc
    rw [e1, Finset.sum_range_succ, ← hU i hi, hU1, hb1, hb2]
    congr 1
    · rw [Finset.sum_eq_single i]
      · unfold bidi; rw [if_pos rfl]
      · intro l hl hne
        have := Finset.mem_range.1 hl
        unfold bidi; rw [if_neg (Ne.symm hne), if_neg (by omega), zero_smul]
      · intro hc; exact absurd (Finset.mem_range.2 hi) hc
    · unfold bidi; rw [if_neg (by omega : ¬ i = p), if_pos (Or.inl ⟨hi, rfl⟩)]

theorem runG_inv (B : Blk n) (hB : IsBse B) (hd : Definite B) (m : ℕ) (hm : 0 < m) (s0 : Gz n) (h0 : s0.U 0 ≠ 0) (k : ℕ) (s : Gz n)
    (hr : RunG (applyShift B) m s0 k s) : k < m ∧ InvG (applyShift B 1) (applyShift B (-1)) k m m s := by
  have hP := pair_shift B hB.herm hB.symm
  induction hr with
  | first s hs =>
    obtain ⟨g1, g2, g3⟩ := invG_start (app := applyShift B) (P := applyShift B 1) (M := applyShift B (-1)) rfl hP (pos_shift B hd) s0 h0
    obtain ⟨out, e1, e2, e3, e4⟩ := lanczosG_spec (app := applyShift B) rfl rfl hP (pos_shift B hd) (pos_neg B hd) 0 m 0 _ le_rfl g3
    unfold gruning0 at hs
    rw [if_neg g1, if_neg g2, e1] at hs
    obtain rfl := Option.some.inj hs
    exact ⟨hm, (e3 rfl).2⟩
  | next k p s s' Q Z sg hr' hS hp0 hpm hl ih =>
    obtain ⟨hk, hi⟩ := ih
    have hi' := invG_restart hP hk hpm hi Q Z sg hS
    obtain ⟨out, e1, e2, e3, e4⟩ := lanczosG_spec (app := applyShift B) rfl rfl hP (pos_shift B hd) (pos_neg B hd) p (m - p) p _ le_rfl hi'
    rw [hl] at e1
    obtain rfl := Option.some.inj e1
    exact ⟨hpm, (e3 rfl).2⟩

/-- C173 (partial: exact arithmetic, no locked columns, dense solver by specification): after the first factorization and after any number
of restarts both bases are orthonormal in their forms and both products are represented by the stored matrix. -/
theorem C173_partial (B : Blk n) (hB : IsBse B) (hd : Definite B) (m : ℕ) (hm : 0 < m) (s0 : Gz n) (h0 : s0.U 0 ≠ 0) (k : ℕ) (s : Gz n)
    (hr : RunG (applyShift B) m s0 k s) :
    GrDec B m s.U s.V (bidi k s.b1 s.b2) (s.b2 (m - 1)) (s.U m) ∧
      2 * (star (B.R *ᵥ s.U m + B.C *ᵥ star (s.U m)) ⬝ᵥ s.U m).re = 1 := by
  obtain ⟨hk, hi⟩ := runG_inv B hB hd m hm s0 h0 k s hr
  refine ⟨dec_gr hk hi, ?_⟩
  have := hi.ou m le_rfl m le_rfl
  rw [if_pos rfl, hi.hu m le_rfl, shift_pos] at this
  exact this

/-- Early end of the loop: the decomposition has no residual. -/
theorem dec_gr_end {B : Blk n} (hB : IsBse B) {k m : ℕ} (hm : 0 < m) (hk : k < m) {s : Gz n}
    (h : InvG (applyShift B 1) (applyShift B (-1)) k (m - 1) m s) (hn : newU (m - 1) s = 0) (hb : (stepU (applyShift B) (m - 1) s).b2 (m - 1) = 0) :
    GrDec B m (stepU (applyShift B) (m - 1) s).U (stepU (applyShift B) (m - 1) s).V
      (bidi k (stepU (applyShift B) (m - 1) s).b1 (stepU (applyShift B) (m - 1) s).b2) 0 0 := by
  obtain ⟨j, rfl⟩ : ∃ j, m = j + 1 := ⟨m - 1, by omega⟩
  simp only [Nat.add_sub_cancel] at *
  obtain ⟨f0, _, _⟩ := newU_facts (pair_shift B hB.herm hB.symm) (by omega : k ≤ j) h
  rw [hn] at f0
  have hU : ∀ i < j + 1, (stepU (applyShift B) j s).U i = s.U i := by intro i hi; unfold stepU; simp only []; rw [upd_lt _ _ hi]
  have hV : (stepU (applyShift B) j s).V = s.V := rfl
  have hb1 : (stepU (applyShift B) j s).b1 = s.b1 := rfl
  have hT : ∀ l i, l < j + 1 → i < j + 1 → bidi k (stepU (applyShift B) j s).b1 (stepU (applyShift B) j s).b2 l i = bidi k s.b1 s.b2 l i := by
    intro l i hl hi
    have : ∀ a < j, (stepU (applyShift B) j s).b2 a = s.b2 a := by intro a ha; unfold stepU; simp only []; rw [upd_lt _ _ ha]
    unfold bidi
    rw [hb1]
    by_cases hli : l = i
    · rw [if_pos hli, if_pos hli]
    · rw [if_neg hli, if_neg hli]
      by_cases hc : (l < k ∧ i = k) ∨ (k ≤ l ∧ i = l + 1)
      · rw [if_pos hc, if_pos hc, this l (by omega)]
      · rw [if_neg hc, if_neg hc]
  refine ⟨?_, ?_, ?_, ?_, ?_, ?_, ?_⟩
  · intro i hi l hl
    rw [hU i hi, hU l hl]
    have := h.ou i (by omega) l (by omega); rw [h.hu i (by omega), shift_pos] at this; exact this
  · intro i hi l hl
    rw [hV]
    have := h.ov i hi l hl; rw [h.hv i hi, shift_neg] at this; exact this
  · intro i hi l hl; rw [hU i hi, hU l hl]; exact h.iu i (by omega) l (by omega)
  · intro i hi l hl; rw [hV]; exact h.iv i hi l hl
  · intro i hi
    rw [hU i hi, ← shift_pos, h.pu i hi, hV]
    apply Finset.sum_congr rfl; intro l hl; rw [hT l i (Finset.mem_range.1 hl) hi]
  · intro i hi
    rw [hV, ← shift_neg, smul_zero, add_zero, Finset.sum_congr rfl (g := fun l => bidi k s.b1 s.b2 i l • s.U l)
      (by intro l hl; have := Finset.mem_range.1 hl; rw [hT i l hi this, hU l this])]
    rcases Nat.lt_succ_iff_lt_or_eq.1 hi with h3 | h3
    · rw [h.mv i h3]
    · subst h3
      rw [Finset.sum_range_succ, Finset.sum_eq_zero]
      · have : bidi k s.b1 s.b2 i i = s.b1 i := by unfold bidi; rw [if_pos rfl]
        rw [this, zero_add]
        exact sub_eq_zero.1 f0.symm
      · intro l hl
        have := Finset.mem_range.1 hl
        have : bidi k s.b1 s.b2 i l = 0 := by unfold bidi; rw [if_neg (by omega), if_neg (by omega)]
        rw [this, zero_smul]
  · intro i hi; simp

/-- C173, next factorization: it has a result (no root of a negative number), `beta1` never vanishes, and if `beta2` vanishes the
decomposition holds with the columns computed and without residual. -/
theorem C173_cycle (B : Blk n) (hB : IsBse B) (hd : Definite B) (m : ℕ) (hm : 0 < m) (s0 : Gz n) (h0 : s0.U 0 ≠ 0) :
    (∃ out, gruning0 (applyShift B) m s0 = some out ∧ out.e ≠ .zero1 ∧ (out.e = .full → out.m = m) ∧
      (out.e = .zero2 → 0 < out.m ∧ out.m ≤ m ∧ GrDec B out.m out.s.U out.s.V (bidi 0 out.s.b1 out.s.b2) 0 0)) ∧
    (∀ k s Q Z sg p, RunG (applyShift B) m s0 k s → Svd (bidi k s.b1 s.b2) m Q Z sg → 0 < p → p < m →
      ∃ out, lanczosG (applyShift B) p (m - p) p (restartG Q Z sg m p s) = some out ∧ out.e ≠ .zero1 ∧ (out.e = .full → out.m = m) ∧
        (out.e = .zero2 → p < out.m ∧ out.m ≤ m ∧ GrDec B out.m out.s.U out.s.V (bidi p out.s.b1 out.s.b2) 0 0)) := by
  have hP := pair_shift B hB.herm hB.symm
  constructor
  · obtain ⟨g1, g2, g3⟩ := invG_start (app := applyShift B) (P := applyShift B 1) (M := applyShift B (-1)) rfl hP (pos_shift B hd) s0 h0
    obtain ⟨out, e1, e2, e3, e4⟩ := lanczosG_spec (app := applyShift B) rfl rfl hP (pos_shift B hd) (pos_neg B hd) 0 m 0 _ le_rfl g3
    refine ⟨out, ?_, e2, ?_, ?_⟩
    · unfold gruning0; rw [if_neg g1, if_neg g2, e1]
    · intro hc; have := (e3 hc).1; omega
    · intro hc
      obtain ⟨a1, a2, s', a3, a4, a5, a6⟩ := e4 hc
      rw [a5] at a6 ⊢
      exact ⟨a1, by omega, dec_gr_end hB a1 a1 a3 a4 a6⟩
  · intro k s Q Z sg p hr hS hp0 hpm
    obtain ⟨hk, hi⟩ := runG_inv B hB hd m hm s0 h0 k s hr
    obtain ⟨out, e1, e2, e3, e4⟩ := lanczosG_spec (app := applyShift B) rfl rfl hP (pos_shift B hd) (pos_neg B hd) p (m - p) p _ le_rfl
      (invG_restart hP hk hpm hi Q Z sg hS)
    refine ⟨out, e1, e2, ?_, ?_⟩
    · intro hc; have := (e3 hc).1; omega
    · intro hc
      obtain ⟨a1, a2, s', a3, a4, a5, a6⟩ := e4 hc
      rw [a5] at a6 ⊢
      exact ⟨a1, by omega, dec_gr_end hB (by omega) a1 a3 a4 a6⟩

end Verif.Bse
