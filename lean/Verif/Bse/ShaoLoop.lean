import Verif.Bse.Shao

/-! Helper lemmas: the whole loop and the restart of the variant of Shao. -/
set_option linter.all false

namespace Verif.Bse

open Finset Matrix

variable {n : ℕ} {P M : Vc n → Vc n}

/-- Columns below `m`, with residual vector `U m`. -/
structure DecI (P M : Vc n → Vc n) (k m : ℕ) (s : Lz n) : Prop where
  prod : ∀ i < m, s.V i = P (s.U i)
  bi : ∀ i < m, ∀ l < m, rdot (s.V i) (s.U l) = if i = l then 1 else 0
  iu : ∀ i < m, ∀ l < m, idot (s.U i) (s.U l) = 0
  iv : ∀ i < m, ∀ l < m, idot (s.V i) (s.V l) = 0
  rel : ∀ i < m, M (s.V i) = (∑ l ∈ range m, arrow k s.a s.b l i • s.U l) + (if i + 1 = m then s.b (m - 1) else 0) • s.U m
  fr : ∀ i < m, rdot (s.V i) (s.U m) = 0
  fi : ∀ i < m, idot (s.U i) (s.U m) = 0

theorem dec_of_inv {k m : ℕ} {s : Lz n} (hk : k < m) (h : Inv P M k m s) : DecI P M k m s where
  prod i hi := h.prod i (by omega)
  bi i hi l hl := h.bi i (by omega) l (by omega)
  iu i hi l hl := h.iu i (by omega) l (by omega)
  iv i hi l hl := h.iv i (by omega) l (by omega)
  fr i hi := by rw [h.bi i (by omega) m le_rfl, if_neg (by omega)]
  fi i hi := h.iu i (by omega) m le_rfl
  rel i hi := by
    rw [h.rel i hi, Finset.sum_range_succ]
    congr 2
    unfold arrow
    rw [if_neg (by omega : ¬ m = i), if_neg (by omega : ¬ m < i)]
    by_cases hij : i + 1 = m
    · rw [if_pos (Or.inr ⟨by omega, by omega⟩), if_pos hij]; congr 1; omega
    · rw [if_neg (by omega), if_neg hij]

/-- Positive definite real form. -/
def Pos (P : Vc n → Vc n) : Prop := ∀ x, x ≠ 0 → 0 < rdot (P x) x

theorem gam_nn {app : ℝ → Vc n → Vc n} (h1 : app 1 = P) (hP : Pair P M) (hpos : Pos P) (k j : ℕ) (s : Lz n) : ¬ gam app k j s < 0 := by
  unfold gam
  rw [h1]
  by_cases hx : newX app k j s = 0
  · rw [hx, hP.P0]; simp [dot]
  · have := hpos _ hx; unfold rdot at this; linarith

theorem dec_breakdown {app : ℝ → Vc n → Vc n} (h1 : app 1 = P) (h2 : app (-1) = M) (hP : Pair P M) (hpos : Pos P) {k j : ℕ} {s : Lz n}
    (hk : k ≤ j) (h : Inv P M k j s) (hb : Real.sqrt (gam app k j s) = 0) :
    DecI P M k (j + 1) (step app k j s) ∧ (step app k j s).b j = 0 ∧ (step app k j s).U (j + 1) = 0 := by
  have hrel := rel_step h1 h2 hP hk h
  obtain ⟨hx, _⟩ := newX_eq h1 h2 hP hk h
  have hg0 : gam app k j s = 0 := by
    have := Real.sqrt_eq_zero'.1 hb
    have h3 := gam_nn h1 hP hpos k j s
    linarith [not_lt.1 h3]
  have hx0 : loc M k j s = 0 := by
    by_contra hne
    have := hpos _ hne
    unfold gam at hg0
    rw [hx, h1] at hg0
    unfold rdot at this
    linarith
  have hU : ∀ i ≤ j, (step app k j s).U i = s.U i := by
    intro i hi; unfold step; simp only []; rw [Function.update_of_ne (by omega)]
  have hV : ∀ i ≤ j, (step app k j s).V i = s.V i := by
    intro i hi; unfold step; simp only []; rw [Function.update_of_ne (by omega)]
  have hU1 : (step app k j s).U (j + 1) = 0 := by
    unfold step; simp only []; rw [Function.update_self, hx, hx0, smul_zero]
  have hB : (step app k j s).b j = 0 := by unfold step; simp only []; rw [Function.update_self, hb]
  refine ⟨⟨?_, ?_, ?_, ?_, ?_, ?_, ?_⟩, hB, hU1⟩
  · intro i hi; rw [hU i (by omega), hV i (by omega), h.prod i (by omega)]
  · intro i hi l hl; rw [hV i (by omega), hU l (by omega), h.bi i (by omega) l (by omega)]
  · intro i hi l hl; rw [hU i (by omega), hU l (by omega), h.iu i (by omega) l (by omega)]
  · intro i hi l hl; rw [hV i (by omega), hV l (by omega), h.iv i (by omega) l (by omega)]
  · intro i hi
    rw [hV i (by omega), hrel i (by omega), hU1, hx0, smul_zero]
    simp only [ite_self]
    congr 1
    apply Finset.sum_congr rfl; intro l hl; rw [hU l (by have := Finset.mem_range.1 hl; omega)]
  · intro i hi; rw [hU1, rdot_zero]
  · intro i hi; rw [hU1, idot_zero]

theorem lanczos_spec {app : ℝ → Vc n → Vc n} (h1 : app 1 = P) (h2 : app (-1) = M) (hP : Pair P M) (hpos : Pos P) (k : ℕ) :
    ∀ t j s, k ≤ j → Inv P M k j s → ∃ out, lanczos app k t j s = some out ∧ (out.bd = false → out.m = j + t ∧ Inv P M k (j + t) out.s) ∧
      (out.bd = true → j < out.m ∧ out.m ≤ j + t ∧ DecI P M k out.m out.s ∧ out.s.b (out.m - 1) = 0 ∧ out.s.U out.m = 0) := by
  intro t
  induction t with
  | zero => intro j s hk h; exact ⟨⟨s, j, false⟩, rfl, fun _ => ⟨rfl, h⟩, fun hc => (by cases hc)⟩
  | succ t ih =>
    intro j s hk h
    have hg := gam_nn h1 hP hpos k j s
    by_cases hb : Real.sqrt (gam app k j s) = 0
    · refine ⟨⟨step app k j s, j + 1, true⟩, ?_, fun hc => (by cases hc), fun _ => ?_⟩
      · unfold lanczos; rw [if_neg hg, if_pos hb]
      · obtain ⟨ha, hbb, hc⟩ := dec_breakdown h1 h2 hP hpos hk h hb
        exact ⟨by show j < j + 1; omega, by show j + 1 ≤ j + (t + 1); omega, ha, hbb, hc⟩
    · obtain ⟨out, ho, h3, h4⟩ := ih (j + 1) (step app k j s) (by omega) (inv_step h1 h2 hP hk h hg hb)
      refine ⟨out, ?_, ?_, ?_⟩
      · unfold lanczos; rw [if_neg hg, if_neg hb]; exact ho
      · intro hc
        have := h3 hc
        rw [show j + 1 + t = j + (t + 1) by omega] at this
        exact this
      · intro hc
        obtain ⟨a1, a2, a3⟩ := h4 hc
        exact ⟨by omega, by omega, a3⟩

theorem inv_start {app : ℝ → Vc n → Vc n} (h1 : app 1 = P) (hP : Pair P M) (hpos : Pos P) (s : Lz n) (hs : s.U 0 ≠ 0) :
    ¬ gam0 app s < 0 ∧ ¬ Real.sqrt (gam0 app s) = 0 ∧ Inv P M 0 0 (normalize0 app s) := by
  have h3 : 0 < gam0 app s := by
    have := hpos _ hs
    rw [rdot_comm] at this
    unfold gam0; rw [h1]; exact this
  have h4 : 0 < Real.sqrt (gam0 app s) := Real.sqrt_pos.2 h3
  refine ⟨by linarith, ne_of_gt h4, ?_⟩
  obtain ⟨g, hg⟩ : ∃ g, g = Real.sqrt (gam0 app s) := ⟨_, rfl⟩
  have hgg : rdot (s.U 0) (P (s.U 0)) = g * g := by
    rw [hg, Real.mul_self_sqrt h3.le]; unfold gam0; rw [h1]; rfl
  have hU : (normalize0 app s).U 0 = (1 / g) • s.U 0 := by
    unfold normalize0; simp only []; rw [Function.update_self, Complex.coe_smul, hg]
  have hV : (normalize0 app s).V 0 = (1 / g) • P (s.U 0) := by
    unfold normalize0; simp only []; rw [Function.update_self, Complex.coe_smul, hg, h1]
  have hg0 : g ≠ 0 := by rw [hg]; exact ne_of_gt h4
  refine ⟨?_, ?_, ?_, ?_, ?_⟩
  · intro i hi
    obtain rfl : i = 0 := by omega
    rw [hU, hV, hP.Psm]
  · intro i hi l hl
    obtain rfl : i = 0 := by omega
    obtain rfl : l = 0 := by omega
    rw [hU, hV, rdot_smul_left, rdot_smul, rdot_comm, hgg, if_pos rfl]; field_simp
  · intro i hi l hl
    obtain rfl : i = 0 := by omega
    obtain rfl : l = 0 := by omega
    exact idot_self _
  · intro i hi l hl
    obtain rfl : i = 0 := by omega
    obtain rfl : l = 0 := by omega
    exact idot_self _
  · intro i hi; omega

theorem inv_restart (hP : Pair P M) {k m p : ℕ} {s : Lz n} (hk : k < m) (hp : p ≤ m) (h : Inv P M k m s) (Q : ℕ → ℕ → ℝ) (th : ℕ → ℝ)
    (hQ : ∀ i < p, ∀ l < p, ∑ r ∈ range m, Q r i * Q r l = if i = l then 1 else 0)
    (hT : ∀ i < p, ∀ r < m, ∑ c ∈ range m, arrow k s.a s.b r c * Q c i = th i * Q r i) : Inv P M p p (restart Q th m p s) := by
  have hU : ∀ i < p, (restart Q th m p s).U i = ∑ r ∈ range m, Q r i • s.U r := by
    intro i hi
    unfold restart; simp only []; rw [if_pos hi]
    apply Finset.sum_congr rfl; intro r _; rw [Complex.coe_smul]
  have hV : ∀ i < p, (restart Q th m p s).V i = ∑ r ∈ range m, Q r i • s.V r := by
    intro i hi
    unfold restart; simp only []; rw [if_pos hi]
    apply Finset.sum_congr rfl; intro r _; rw [Complex.coe_smul]
  have hU1 : (restart Q th m p s).U p = s.U m := by unfold restart; simp
  have hV1 : (restart Q th m p s).V p = s.V m := by unfold restart; simp
  have rg : ∀ {r}, r ∈ range m → r < m := fun hr => Finset.mem_range.1 hr
  refine ⟨?_, ?_, ?_, ?_, ?_⟩
  · intro i hi
    rcases Nat.lt_or_eq_of_le hi with h3 | h3
    · rw [hU i h3, hV i h3, hP.Psum]
      apply Finset.sum_congr rfl; intro r hr; rw [hP.Psm, h.prod r (by have := rg hr; omega)]
    · subst h3; rw [hU1, hV1, h.prod m le_rfl]
  · intro i hi l hl
    rcases Nat.lt_or_eq_of_le hi with h3 | h3 <;> rcases Nat.lt_or_eq_of_le hl with h4 | h4
    · rw [hV i h3, hU l h4, rdot_sum_left, ← hQ i h3 l h4]
      apply Finset.sum_congr rfl; intro r hr
      rw [rdot_smul_left, rdot_sum, Finset.sum_congr rfl (g := fun c => Q c l * (if r = c then 1 else 0))
        (by intro c hc; rw [rdot_smul, h.bi r (by have := rg hr; omega) c (by have := rg hc; omega)]), sum_ite_one _ _ (rg hr)]
    · subst h4
      rw [hV i h3, hU1, rdot_sum_left, if_neg (by omega)]
      apply Finset.sum_eq_zero; intro r hr
      rw [rdot_smul_left, h.bi r (by have := rg hr; omega) m le_rfl, if_neg (by have := rg hr; omega)]; ring
    · subst h3
      rw [hV1, hU l h4, rdot_sum, if_neg (by omega)]
      apply Finset.sum_eq_zero; intro r hr
      rw [rdot_smul, h.bi m le_rfl r (by have := rg hr; omega), if_neg (by have := rg hr; omega)]; ring
    · subst h3; subst h4; rw [hV1, hU1, h.bi m le_rfl m le_rfl, if_pos rfl, if_pos rfl]
  · intro i hi l hl
    rcases Nat.lt_or_eq_of_le hi with h3 | h3 <;> rcases Nat.lt_or_eq_of_le hl with h4 | h4
    · rw [hU i h3, hU l h4, idot_sum_left]
      apply Finset.sum_eq_zero; intro r hr
      rw [idot_smul_left, idot_sum, Finset.sum_eq_zero, mul_zero]
      intro c hc; rw [idot_smul, h.iu r (by have := rg hr; omega) c (by have := rg hc; omega), mul_zero]
    · subst h4
      rw [hU i h3, hU1, idot_sum_left]
      apply Finset.sum_eq_zero; intro r hr
      rw [idot_smul_left, h.iu r (by have := rg hr; omega) m le_rfl, mul_zero]
    · subst h3
      rw [hU1, hU l h4, idot_sum]
      apply Finset.sum_eq_zero; intro r hr
      rw [idot_smul, h.iu m le_rfl r (by have := rg hr; omega), mul_zero]
    · subst h3; subst h4; exact idot_self _
  · intro i hi l hl
    rcases Nat.lt_or_eq_of_le hi with h3 | h3 <;> rcases Nat.lt_or_eq_of_le hl with h4 | h4
    · rw [hV i h3, hV l h4, idot_sum_left]
      apply Finset.sum_eq_zero; intro r hr
      rw [idot_smul_left, idot_sum, Finset.sum_eq_zero, mul_zero]
      intro c hc; rw [idot_smul, h.iv r (by have := rg hr; omega) c (by have := rg hc; omega), mul_zero]
    · subst h4
      rw [hV i h3, hV1, idot_sum_left]
      apply Finset.sum_eq_zero; intro r hr
      rw [idot_smul_left, h.iv r (by have := rg hr; omega) m le_rfl, mul_zero]
    · subst h3
      rw [hV1, hV l h4, idot_sum]
      apply Finset.sum_eq_zero; intro r hr
      rw [idot_smul, h.iv m le_rfl r (by have := rg hr; omega), mul_zero]
    · subst h3; subst h4; exact idot_self _
  · intro i hi
    have hd := dec_of_inv hk h
    have e1 : M ((restart Q th m p s).V i) = th i • (∑ r ∈ range m, Q r i • s.U r) + (s.b (m - 1) * Q (m - 1) i) • s.U m := by
      rw [hV i hi, hP.Msum]
      rw [Finset.sum_congr rfl (g := fun r => (∑ l ∈ range m, (arrow k s.a s.b l r * Q r i) • s.U l)
        + (Q r i * (if r + 1 = m then s.b (m - 1) else 0)) • s.U m)
        (by
          intro r hr
          rw [hP.Msm, hd.rel r (rg hr), smul_add, Finset.smul_sum, smul_smul]
          congr 1
          apply Finset.sum_congr rfl; intro l _; rw [smul_smul, mul_comm])]
      rw [Finset.sum_add_distrib, Finset.sum_comm, ← Finset.sum_smul]
      congr 1
      · rw [Finset.smul_sum]
        apply Finset.sum_congr rfl; intro l hl
        rw [← Finset.sum_smul, hT i hi l (rg hl), smul_smul]
      · congr 1
        rw [Finset.sum_eq_single (m - 1)]
        · rw [if_pos (by omega)]; ring
        · intro r hr hne; rw [if_neg (by omega), mul_zero]
        · intro hc; exact absurd (Finset.mem_range.2 (by omega)) hc
    rw [e1, Finset.sum_range_succ, ← hU i hi, hU1]
    have hb : (restart Q th m p s).b = fun i => s.b (m - 1) * Q (m - 1) i := rfl
    have ha : (restart Q th m p s).a = th := rfl
    rw [ha, hb]
    congr 1
    · rw [Finset.sum_eq_single i]
      · unfold arrow; rw [if_pos rfl]
      · intro l hl hne
        have := Finset.mem_range.1 hl
        unfold arrow
        rw [if_neg hne]
        by_cases hli : l < i
        · rw [if_pos hli, if_neg (by omega), zero_smul]
        · rw [if_neg hli, if_neg (by omega), zero_smul]
      · intro hc; exact absurd (Finset.mem_range.2 hi) hc
    · unfold arrow
      rw [if_neg (by omega : ¬ p = i), if_neg (by omega : ¬ p < i), if_pos (Or.inl ⟨hi, rfl⟩)]

end Verif.Bse
