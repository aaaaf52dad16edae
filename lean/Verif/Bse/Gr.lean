import Verif.Bse.GrModel
import Verif.Bse.ShaoLoop

/-! Helper lemmas for the bidiagonalization of Gruning: the invariant and its preservation. -/
set_option linter.all false

namespace Verif.Bse

open Finset Matrix

variable {n : ℕ} {P M : Vc n → Vc n}

/-- Invariant: columns `0..j` of `U`, columns `0..q-1` of `V` where `q` is `j` or `j+1`. -/
structure InvG (P M : Vc n → Vc n) (k j q : ℕ) (s : Gz n) : Prop where
  hu : ∀ i ≤ j, s.HU i = P (s.U i)
  hv : ∀ i < q, s.HV i = M (s.V i)
  ou : ∀ i ≤ j, ∀ l ≤ j, 2 * rdot (s.HU i) (s.U l) = if i = l then 1 else 0
  ov : ∀ i < q, ∀ l < q, 2 * rdot (s.HV i) (s.V l) = if i = l then 1 else 0
  iu : ∀ i ≤ j, ∀ l ≤ j, idot (s.U i) (s.U l) = 0
  iv : ∀ i < q, ∀ l < q, idot (s.V i) (s.V l) = 0
  pu : ∀ i < q, P (s.U i) = ∑ l ∈ range q, bidi k s.b1 s.b2 l i • s.V l
  mv : ∀ i < j, M (s.V i) = ∑ l ∈ range (j + 1), bidi k s.b1 s.b2 i l • s.U l

theorem newV_eq {k j : ℕ} (hk : k ≤ j) {s : Gz n} (h : s.HU j = P (s.U j)) :
    newV k j s = P (s.U j) - ∑ l ∈ range j, bidi k s.b1 s.b2 l j • s.V l := by
  unfold newV
  rw [h]
  congr 1
  by_cases hjk : j = k
  · subst hjk
    rw [if_pos rfl, ← Finset.range_eq_Ico]
    apply Finset.sum_congr rfl; intro l hl
    have := Finset.mem_range.1 hl
    unfold bidi
    rw [if_neg (by omega : ¬ l = j), if_pos (Or.inl ⟨this, rfl⟩), Complex.coe_smul]
  · rw [if_neg (by omega)]
    have hj : 0 < j := by omega
    rw [Finset.range_eq_Ico]
    symm
    rw [← Finset.sum_subset (s₁ := Ico (j + 1 - 2) j)]
    · apply Finset.sum_congr rfl; intro l hl
      have := Finset.mem_Ico.1 hl
      unfold bidi
      rw [if_neg (by omega : ¬ l = j), if_pos (Or.inr ⟨by omega, by omega⟩), Complex.coe_smul]
    · intro l hl; have := Finset.mem_Ico.1 hl; exact Finset.mem_Ico.2 ⟨by omega, by omega⟩
    · intro l hl hl'
      have := Finset.mem_Ico.1 hl
      have h2 : ¬ (j + 1 - 2 ≤ l ∧ l < j) := fun hc => hl' (Finset.mem_Ico.2 hc)
      unfold bidi
      rw [if_neg (by omega : ¬ l = j), if_neg (by omega), zero_smul]

/-- Facts about the new vector of `V`. -/
theorem newV_facts (hP : Pair P M) {k j : ℕ} (hk : k ≤ j) {s : Gz n} (h : InvG P M k j j s) :
    (∀ i < j, rdot (s.HV i) (newV k j s) = 0) ∧ ∀ i < j, idot (s.V i) (newV k j s) = 0 := by
  rw [newV_eq (P := P) hk (h.hu j le_rfl)]
  constructor
  · intro i hi
    have e1 : 2 * rdot (s.HV i) (P (s.U j)) = bidi k s.b1 s.b2 i j := by
      rw [h.hv i hi, h.mv i hi, rdot_sum_left, Finset.mul_sum,
        Finset.sum_congr rfl (g := fun l => bidi k s.b1 s.b2 i l * (if j = l then 1 else 0))
        (by intro l hl; have hl' := Finset.mem_range.1 hl
            rw [rdot_smul_left, rdot_comm, ← h.hu j le_rfl, ← h.ou j le_rfl l (by omega)]; ring), sum_ite_one _ _ (by omega)]
    have e2 : 2 * rdot (s.HV i) (∑ l ∈ range j, bidi k s.b1 s.b2 l j • s.V l) = bidi k s.b1 s.b2 i j := by
      rw [rdot_sum, Finset.mul_sum, Finset.sum_congr rfl (g := fun l => bidi k s.b1 s.b2 l j * (if i = l then 1 else 0))
        (by intro l hl; have hl' := Finset.mem_range.1 hl
            rw [rdot_smul, ← h.ov i hi l hl']; ring), sum_ite_one _ _ hi]
    rw [rdot_sub]; linarith
  · intro i hi
    have e1 : idot (s.V i) (P (s.U j)) = 0 := by
      rw [← hP.cr', h.mv i hi, idot_sum_left]
      apply Finset.sum_eq_zero; intro l hl; have hl' := Finset.mem_range.1 hl
      rw [idot_smul_left, h.iu l (by omega) j le_rfl, mul_zero]
    have e2 : idot (s.V i) (∑ l ∈ range j, bidi k s.b1 s.b2 l j • s.V l) = 0 := by
      rw [idot_sum]
      apply Finset.sum_eq_zero; intro l hl; have hl' := Finset.mem_range.1 hl
      rw [idot_smul, h.iv i hi l hl', mul_zero]
    rw [idot_sub, e1, e2, sub_zero]

theorem gamV_eq {app : ℝ → Vc n → Vc n} (h2 : app (-1) = M) (k j : ℕ) (s : Gz n) :
    gamV app k j s = 2 * rdot (M (newV k j s)) (newV k j s) := by
  unfold gamV rdot; rw [h2]; simp

theorem gamU_eq {app : ℝ → Vc n → Vc n} (h1 : app 1 = P) (j : ℕ) (s : Gz n) :
    gamU app j s = 2 * rdot (P (newU j s)) (newU j s) := by
  unfold gamU rdot; rw [h1]; simp

theorem form_nn {P : Vc n → Vc n} (h0 : P 0 = 0) (hpos : Pos P) (x : Vc n) : 0 ≤ rdot (P x) x ∧ (rdot (P x) x = 0 → x = 0) := by
  by_cases hx : x = 0
  · subst hx; rw [h0, rdot_zero]; exact ⟨le_rfl, fun _ => rfl⟩
  · have := hpos x hx
    exact ⟨this.le, fun h => by linarith⟩

theorem upd_lt {α : Type} (f : ℕ → α) (v : α) {i j : ℕ} (h : i < j) : Function.update f j v i = f i :=
  Function.update_of_ne (by omega) _ _

/-- First half of a pass. -/
theorem invV {app : ℝ → Vc n → Vc n} (h2 : app (-1) = M) (hP : Pair P M) {k j : ℕ} (hk : k ≤ j) {s : Gz n} (h : InvG P M k j j s)
    (hg : 0 ≤ gamV app k j s) (hb : Real.sqrt (gamV app k j s) ≠ 0) : InvG P M k j (j + 1) (stepV app k j s) := by
  obtain ⟨be, hbe⟩ : ∃ be, be = Real.sqrt (gamV app k j s) := ⟨_, rfl⟩
  obtain ⟨v, hv⟩ : ∃ v, v = newV k j s := ⟨_, rfl⟩
  obtain ⟨f1, f2⟩ := newV_facts hP hk h
  have hve := newV_eq (P := P) hk (h.hu j le_rfl)
  rw [← hv] at f1 f2 hve
  rw [← hbe] at hb
  have hsq : be * be = 2 * rdot (M v) v := by rw [hbe, Real.mul_self_sqrt hg, gamV_eq h2, hv]
  have hV : (stepV app k j s).V = Function.update s.V j ((1 / be) • v) := by
    unfold stepV; simp only []; rw [← hbe, ← hv, if_neg hb, Complex.coe_smul]
  have hHV : (stepV app k j s).HV = Function.update s.HV j ((1 / be) • M v) := by
    unfold stepV; simp only []; rw [← hbe, ← hv, if_neg hb, h2, Complex.coe_smul]
  have hU : (stepV app k j s).U = s.U := rfl
  have hHU : (stepV app k j s).HU = s.HU := rfl
  have hb1 : (stepV app k j s).b1 = Function.update s.b1 j be := by unfold stepV; simp only []; rw [← hbe]
  have hb2 : (stepV app k j s).b2 = s.b2 := rfl
  have hbid : ∀ l i, ¬ (l = j ∧ i = j) → bidi k (Function.update s.b1 j be) s.b2 l i = bidi k s.b1 s.b2 l i := by
    intro l i hne
    unfold bidi
    by_cases hli : l = i
    · subst hli; rw [if_pos rfl, if_pos rfl, Function.update_of_ne (by omega)]
    · rw [if_neg hli, if_neg hli]
  refine ⟨?_, ?_, ?_, ?_, ?_, ?_, ?_, ?_⟩
  · rw [hU, hHU]; exact h.hu
  · intro i hi
    rw [hV, hHV]
    rcases Nat.lt_succ_iff_lt_or_eq.1 hi with h3 | h3
    · rw [upd_lt _ _ h3, upd_lt _ _ h3, h.hv i h3]
    · subst h3; rw [Function.update_self, Function.update_self, hP.Msm]
  · rw [hU, hHU]; exact h.ou
  · intro i hi l hl
    rw [hV, hHV]
    rcases Nat.lt_succ_iff_lt_or_eq.1 hi with h3 | h3 <;> rcases Nat.lt_succ_iff_lt_or_eq.1 hl with h4 | h4
    · rw [upd_lt _ _ h3, upd_lt _ _ h4, h.ov i h3 l h4]
    · subst h4
      rw [upd_lt _ _ h3, Function.update_self, rdot_smul, f1 i h3, if_neg (by omega)]; ring
    · subst h3
      rw [upd_lt _ _ h4, Function.update_self, rdot_smul_left, hP.Msy, ← h.hv l h4, rdot_comm, f1 l h4, if_neg (by omega)]; ring
    · subst h3; subst h4
      rw [Function.update_self, Function.update_self, rdot_smul, rdot_smul_left, if_pos rfl]
      have : 2 * (1 / be * (1 / be * rdot (M v) v)) = (2 * rdot (M v) v) / (be * be) := by field_simp
      rw [this, ← hsq, div_self (mul_ne_zero hb hb)]
  · rw [hU]; exact h.iu
  · intro i hi l hl
    rw [hV]
    rcases Nat.lt_succ_iff_lt_or_eq.1 hi with h3 | h3 <;> rcases Nat.lt_succ_iff_lt_or_eq.1 hl with h4 | h4
    · rw [upd_lt _ _ h3, upd_lt _ _ h4, h.iv i h3 l h4]
    · subst h4; rw [upd_lt _ _ h3, Function.update_self, idot_smul, f2 i h3, mul_zero]
    · subst h3; rw [upd_lt _ _ h4, Function.update_self, idot_smul_left, idot_anti, f2 l h4]; ring
    · subst h3; subst h4; exact idot_self _
  · intro i hi
    rw [hU, hV, hb1, hb2, Finset.sum_range_succ, Function.update_self]
    rw [Finset.sum_congr rfl (g := fun l => bidi k s.b1 s.b2 l i • s.V l)
      (by intro l hl; have := Finset.mem_range.1 hl; rw [hbid l i (by omega), upd_lt _ _ this])]
    rcases Nat.lt_succ_iff_lt_or_eq.1 hi with h3 | h3
    · rw [hbid j i (by omega)]
      have : bidi k s.b1 s.b2 j i = 0 := by unfold bidi; rw [if_neg (by omega), if_neg (by omega)]
      rw [this, zero_smul, add_zero, h.pu i h3]
    · subst h3
      have : bidi k (Function.update s.b1 i be) s.b2 i i = be := by unfold bidi; rw [if_pos rfl, Function.update_self]
      rw [this, smul_smul, mul_one_div, div_self hb, one_smul, hve]; abel
  · intro i hi
    rw [hU, hV, hb1, hb2, upd_lt _ _ hi, h.mv i hi]
    apply Finset.sum_congr rfl; intro l _; rw [hbid i l (by omega)]

/-- The full pass does nothing in exact arithmetic, and facts about the new vector of `U`. -/
theorem newU_facts (hP : Pair P M) {k j : ℕ} (hk : k ≤ j) {s : Gz n} (h : InvG P M k j (j + 1) s) :
    newU j s = M (s.V j) - s.b1 j • s.U j ∧ (∀ i ≤ j, rdot (s.HU i) (newU j s) = 0) ∧ ∀ i ≤ j, idot (s.U i) (newU j s) = 0 := by
  obtain ⟨x, hx⟩ : ∃ x, x = M (s.V j) - s.b1 j • s.U j := ⟨_, rfl⟩
  have hbjj : bidi k s.b1 s.b2 j j = s.b1 j := by unfold bidi; rw [if_pos rfl]
  have c1 : ∀ i ≤ j, rdot (s.HU i) x = 0 := by
    intro i hi
    have e1 : 2 * rdot (s.HU i) (M (s.V j)) = bidi k s.b1 s.b2 j i := by
      rw [h.hu i hi, h.pu i (by omega), rdot_sum_left, Finset.mul_sum,
        Finset.sum_congr rfl (g := fun l => bidi k s.b1 s.b2 l i * (if j = l then 1 else 0))
        (by intro l hl; have hl' := Finset.mem_range.1 hl
            rw [rdot_smul_left, rdot_comm, ← h.hv j (by omega), ← h.ov j (by omega) l hl']; ring), sum_ite_one _ _ (by omega)]
    have e2 := h.ou i hi j le_rfl
    rw [hx, rdot_sub, rdot_smul]
    rcases Nat.lt_or_eq_of_le hi with h3 | h3
    · have : bidi k s.b1 s.b2 j i = 0 := by unfold bidi; rw [if_neg (by omega), if_neg (by omega)]
      rw [this] at e1
      rw [if_neg (by omega)] at e2
      have e2' : rdot (s.HU i) (s.U j) = 0 := by linarith
      rw [e2']; linarith
    · subst h3
      rw [hbjj] at e1
      rw [if_pos rfl] at e2
      have e2' : rdot (s.HU i) (s.U i) = 1 / 2 := by linarith
      rw [e2']; linarith
  have pv : ∀ i ≤ j, idot (P (s.U i)) (s.V j) = 0 := by
    intro i hi
    rw [h.pu i (by omega), idot_sum_left]
    apply Finset.sum_eq_zero; intro l hl; have hl' := Finset.mem_range.1 hl
    rw [idot_smul_left, h.iv l hl' j (by omega), mul_zero]
  have c2 : ∀ i ≤ j, idot (s.HV i) x = 0 := by
    intro i hi
    have e0 : idot (s.HV i) (s.U j) = 0 := by
      rw [h.hv i (by omega), hP.cr', h.pu j (by omega), idot_sum]
      apply Finset.sum_eq_zero; intro l hl; have hl' := Finset.mem_range.1 hl
      rw [idot_smul, h.iv i (by omega) l hl', mul_zero]
    have e1 : idot (s.HV i) (M (s.V j)) = 0 := by
      rcases Nat.lt_or_eq_of_le hi with h3 | h3
      · rw [h.hv i (by omega), h.mv i h3, idot_sum_left]
        apply Finset.sum_eq_zero; intro l hl; have hl' := Finset.mem_range.1 hl
        rw [idot_smul_left, ← hP.cr, pv l (by omega), mul_zero]
      · subst h3; rw [h.hv i (by omega)]; exact idot_self _
    rw [hx, idot_sub, idot_smul, e0, e1]; ring
  have hn : newU j s = x := by
    unfold newU
    rw [h.hv j (by omega), Complex.coe_smul, ← hx]
    unfold orthogG
    rw [Finset.sum_eq_zero (s := range (j + 1)) (f := fun i => ((dot (s.HU i) x).re : ℂ) • s.U i)
      (by intro i hi; have hi' := Finset.mem_range.1 hi
          have := c1 i (by omega); unfold rdot at this; rw [this]; simp),
      Finset.sum_eq_zero (s := range (j + 1)) (f := fun i => (⟨0, (dot (s.HV i) x).im⟩ : ℂ) • s.V i)
      (by intro i hi; have hi' := Finset.mem_range.1 hi
          have := c2 i (by omega); unfold idot at this; rw [this]
          rw [show (⟨0, 0⟩ : ℂ) = 0 from rfl, zero_smul])]
    simp
  refine ⟨by rw [hn, hx], ?_, ?_⟩
  · intro i hi; rw [hn]; exact c1 i hi
  · intro i hi
    rw [hn, hx, idot_sub, ← hP.cr, pv i hi, idot_smul, h.iu i hi j le_rfl]; ring

/-- Second half of a pass. -/
theorem invU {app : ℝ → Vc n → Vc n} (h1 : app 1 = P) (hP : Pair P M) {k j : ℕ} (hk : k ≤ j) {s : Gz n} (h : InvG P M k j (j + 1) s)
    (hg : 0 ≤ gamU app j s) (hb : Real.sqrt (gamU app j s) ≠ 0) : InvG P M k (j + 1) (j + 1) (stepU app j s) := by
  obtain ⟨be, hbe⟩ : ∃ be, be = Real.sqrt (gamU app j s) := ⟨_, rfl⟩
  obtain ⟨x, hx⟩ : ∃ x, x = newU j s := ⟨_, rfl⟩
  obtain ⟨f0, f1, f2⟩ := newU_facts hP hk h
  rw [← hx] at f0 f1 f2
  rw [← hbe] at hb
  have hsq : be * be = 2 * rdot (P x) x := by rw [hbe, Real.mul_self_sqrt hg, gamU_eq h1, hx]
  have hU : (stepU app j s).U = Function.update s.U (j + 1) ((1 / be) • x) := by
    unfold stepU; simp only []; rw [← hbe, ← hx, if_neg hb, Complex.coe_smul]
  have hHU : (stepU app j s).HU = Function.update s.HU (j + 1) ((1 / be) • P x) := by
    unfold stepU; simp only []; rw [← hbe, ← hx, if_neg hb, h1, Complex.coe_smul]
  have hV : (stepU app j s).V = s.V := rfl
  have hHV : (stepU app j s).HV = s.HV := rfl
  have hb2 : (stepU app j s).b2 = Function.update s.b2 j be := by unfold stepU; simp only []; rw [← hbe]
  have hb1 : (stepU app j s).b1 = s.b1 := rfl
  have hbid : ∀ l i, ¬ (l = j ∧ i = j + 1) → bidi k s.b1 (Function.update s.b2 j be) l i = bidi k s.b1 s.b2 l i := by
    intro l i hne
    unfold bidi
    by_cases hli : l = i
    · rw [if_pos hli, if_pos hli]
    · rw [if_neg hli, if_neg hli]
      by_cases hc : (l < k ∧ i = k) ∨ (k ≤ l ∧ i = l + 1)
      · rw [if_pos hc, if_pos hc, Function.update_of_ne (by omega)]
      · rw [if_neg hc, if_neg hc]
  refine ⟨?_, ?_, ?_, ?_, ?_, ?_, ?_, ?_⟩
  · intro i hi
    rw [hU, hHU]
    rcases Nat.lt_or_eq_of_le hi with h3 | h3
    · rw [upd_lt _ _ h3, upd_lt _ _ h3, h.hu i (by omega)]
    · subst h3; rw [Function.update_self, Function.update_self, hP.Psm]
  · rw [hV, hHV]; exact h.hv
  · intro i hi l hl
    rw [hU, hHU]
    rcases Nat.lt_or_eq_of_le hi with h3 | h3 <;> rcases Nat.lt_or_eq_of_le hl with h4 | h4
    · rw [upd_lt _ _ h3, upd_lt _ _ h4, h.ou i (by omega) l (by omega)]
    · subst h4
      rw [upd_lt _ _ h3, Function.update_self, rdot_smul, f1 i (by omega), if_neg (by omega)]; ring
    · subst h3
      rw [upd_lt _ _ h4, Function.update_self, rdot_smul_left, hP.Psy, ← h.hu l (by omega), rdot_comm, f1 l (by omega), if_neg (by omega)]
      ring
    · subst h3; subst h4
      rw [Function.update_self, Function.update_self, rdot_smul, rdot_smul_left, if_pos rfl]
      have : 2 * (1 / be * (1 / be * rdot (P x) x)) = (2 * rdot (P x) x) / (be * be) := by field_simp
      rw [this, ← hsq, div_self (mul_ne_zero hb hb)]
  · rw [hV, hHV]; exact h.ov
  · intro i hi l hl
    rw [hU]
    rcases Nat.lt_or_eq_of_le hi with h3 | h3 <;> rcases Nat.lt_or_eq_of_le hl with h4 | h4
    · rw [upd_lt _ _ h3, upd_lt _ _ h4, h.iu i (by omega) l (by omega)]
    · subst h4; rw [upd_lt _ _ h3, Function.update_self, idot_smul, f2 i (by omega), mul_zero]
    · subst h3; rw [upd_lt _ _ h4, Function.update_self, idot_smul_left, idot_anti, f2 l (by omega)]; ring
    · subst h3; subst h4; exact idot_self _
  · rw [hV]; exact h.iv
  · intro i hi
    rw [hU, hV, hb1, hb2, upd_lt _ _ hi, h.pu i hi]
    apply Finset.sum_congr rfl; intro l _; rw [hbid l i (by omega)]
  · intro i hi
    rw [hU, hV, hb1, hb2, Finset.sum_range_succ, Function.update_self]
    rw [Finset.sum_congr rfl (g := fun l => bidi k s.b1 s.b2 i l • s.U l)
      (by intro l hl; have := Finset.mem_range.1 hl; rw [hbid i l (by omega), upd_lt _ _ this])]
    rcases Nat.lt_succ_iff_lt_or_eq.1 hi with h3 | h3
    · rw [hbid i (j + 1) (by omega)]
      have : bidi k s.b1 s.b2 i (j + 1) = 0 := by unfold bidi; rw [if_neg (by omega), if_neg (by omega)]
      rw [this, zero_smul, add_zero, h.mv i h3]
    · subst h3
      have e1 : bidi k s.b1 (Function.update s.b2 i be) i (i + 1) = be := by
        unfold bidi; rw [if_neg (by omega), if_pos (Or.inr ⟨hk, rfl⟩), Function.update_self]
      rw [e1, smul_smul, mul_one_div, div_self hb, one_smul, f0, Finset.sum_range_succ, Finset.sum_eq_zero]
      · have : bidi k s.b1 s.b2 i i = s.b1 i := by unfold bidi; rw [if_pos rfl]
        rw [this]; abel
      · intro l hl
        have := Finset.mem_range.1 hl
        have : bidi k s.b1 s.b2 i l = 0 := by unfold bidi; rw [if_neg (by omega), if_neg (by omega)]
        rw [this, zero_smul]

end Verif.Bse
