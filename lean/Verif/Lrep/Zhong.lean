import Verif.Lrep.Teng
import Verif.Bse.Gr

/-! Helper lemmas for the bidiagonalization of Zhong. -/
set_option linter.all false

namespace Verif.Lrep

open Finset Matrix Verif.Bse

variable {n : ℕ} {K M : Mt n}

/-- Invariant: columns `0..j` of `U`, columns `0..q-1` of `V` where `q` is `j` or `j+1`. -/
structure InvZ (K M : Mt n) (k j q : ℕ) (s : Zz n) : Prop where
  mu : ∀ i ≤ j, s.MU i = M *ᵥ s.U i
  ou : ∀ i ≤ j, ∀ l ≤ j, s.MU i ⬝ᵥ s.U l = if i = l then 1 else 0
  ov : ∀ i < q, ∀ l < q, (K *ᵥ s.V i) ⬝ᵥ s.V l = if i = l then 1 else 0
  pu : ∀ i < q, M *ᵥ s.U i = ∑ l ∈ range q, bidi k s.a s.b l i • s.V l
  mv : ∀ i < j, K *ᵥ s.V i = ∑ l ∈ range (j + 1), bidi k s.a s.b i l • s.U l

theorem newZv_eq {k j : ℕ} (hk : k ≤ j) {s : Zz n} (h : s.MU j = M *ᵥ s.U j) :
    newZv k j s = M *ᵥ s.U j - ∑ l ∈ range j, bidi k s.a s.b l j • s.V l := by
  unfold newZv
  rw [h]
  congr 1
  by_cases hjk : j = k
  · subst hjk
    rw [if_pos rfl, ← Finset.range_eq_Ico]
    apply Finset.sum_congr rfl; intro l hl
    have := Finset.mem_range.1 hl
    unfold bidi
    rw [if_neg (by omega : ¬ l = j), if_pos (Or.inl ⟨this, rfl⟩)]
  · rw [if_neg hjk]
    have hj : 0 < j := by omega
    rw [Finset.range_eq_Ico]
    symm
    rw [← Finset.sum_subset (s₁ := Ico (j - 1) j)]
    · apply Finset.sum_congr rfl; intro l hl
      have := Finset.mem_Ico.1 hl
      unfold bidi
      rw [if_neg (by omega : ¬ l = j), if_pos (Or.inr ⟨by omega, by omega⟩)]
    · intro l hl; have := Finset.mem_Ico.1 hl; exact Finset.mem_Ico.2 ⟨by omega, by omega⟩
    · intro l hl hl'
      have := Finset.mem_Ico.1 hl
      have h2 : ¬ (j - 1 ≤ l ∧ l < j) := fun hc => hl' (Finset.mem_Ico.2 hc)
      unfold bidi
      rw [if_neg (by omega : ¬ l = j), if_neg (by omega), zero_smul]

theorem newZv_facts (hK : Kᵀ = K) {k j : ℕ} (hk : k ≤ j) {s : Zz n} (h : InvZ K M k j j s) :
    ∀ i < j, (K *ᵥ s.V i) ⬝ᵥ newZv k j s = 0 := by
  rw [newZv_eq hk (h.mu j le_rfl)]
  intro i hi
  have e1 : (K *ᵥ s.V i) ⬝ᵥ (M *ᵥ s.U j) = bidi k s.a s.b i j := by
    rw [h.mv i hi, r_sum_left, Finset.sum_congr rfl (g := fun l => bidi k s.a s.b i l * (if j = l then 1 else 0))
      (by intro l hl; have hl' := Finset.mem_range.1 hl
          rw [r_smul_left, r_comm, ← h.mu j le_rfl, ← h.ou j le_rfl l (by omega)]), sum_ite_one _ _ (by omega)]
  have e2 : (K *ᵥ s.V i) ⬝ᵥ (∑ l ∈ range j, bidi k s.a s.b l j • s.V l) = bidi k s.a s.b i j := by
    rw [r_sum, Finset.sum_congr rfl (g := fun l => bidi k s.a s.b l j * (if i = l then 1 else 0))
      (by intro l hl; have hl' := Finset.mem_range.1 hl
          rw [r_smul, ← h.ov i hi l hl']), sum_ite_one _ _ hi]
  rw [r_sub, e1, e2, sub_self]

/-- First half of a pass. -/
theorem invZv (hK : Kᵀ = K) {k j : ℕ} (hk : k ≤ j) {s : Zz n} (h : InvZ K M k j j s)
    (hg : 0 ≤ gamZv K k j s) (hb : Real.sqrt (gamZv K k j s) ≠ 0) :
    InvZ K M k j (j + 1) (stepZv K k j s) ∧ (stepZv K k j s).U (j + 1) = K *ᵥ (stepZv K k j s).V j := by
  obtain ⟨be, hbe⟩ : ∃ be, be = Real.sqrt (gamZv K k j s) := ⟨_, rfl⟩
  obtain ⟨v, hv⟩ : ∃ v, v = newZv k j s := ⟨_, rfl⟩
  have f1 := newZv_facts hK hk h
  have hve := newZv_eq (M := M) hk (h.mu j le_rfl)
  rw [← hv] at f1 hve
  rw [← hbe] at hb
  have hsq : be * be = (K *ᵥ v) ⬝ᵥ v := by rw [hbe, Real.mul_self_sqrt hg, hv]; rfl
  have hV : (stepZv K k j s).V = Function.update s.V j ((1 / be) • v) := by
    unfold stepZv; simp only []; rw [← hbe, ← hv, if_neg hb]
  have hU1 : (stepZv K k j s).U (j + 1) = (1 / be) • K *ᵥ v := by
    unfold stepZv; simp only []; rw [Function.update_self, ← hbe, ← hv, if_neg hb]
  have hU : ∀ i ≤ j, (stepZv K k j s).U i = s.U i := by
    intro i hi; unfold stepZv; simp only []; rw [Function.update_of_ne (by omega)]
  have hMU : (stepZv K k j s).MU = s.MU := rfl
  have ha : (stepZv K k j s).a = Function.update s.a j be := by unfold stepZv; simp only []; rw [← hbe]
  have hb2 : (stepZv K k j s).b = s.b := rfl
  have hbid : ∀ l i, ¬ (l = j ∧ i = j) → bidi k (Function.update s.a j be) s.b l i = bidi k s.a s.b l i := by
    intro l i hne
    unfold bidi
    by_cases hli : l = i
    · subst hli; rw [if_pos rfl, if_pos rfl, Function.update_of_ne (by omega)]
    · rw [if_neg hli, if_neg hli]
  refine ⟨⟨?_, ?_, ?_, ?_, ?_⟩, ?_⟩
  · intro i hi; rw [hU i hi, hMU]; exact h.mu i hi
  · intro i hi l hl; rw [hU l hl, hMU]; exact h.ou i hi l hl
  · intro i hi l hl
    rw [hV]
    rcases Nat.lt_succ_iff_lt_or_eq.1 hi with h3 | h3 <;> rcases Nat.lt_succ_iff_lt_or_eq.1 hl with h4 | h4
    · rw [upd_lt _ _ h3, upd_lt _ _ h4, h.ov i h3 l h4]
    · subst h4
      rw [upd_lt _ _ h3, Function.update_self, r_smul, f1 i h3, if_neg (by omega)]; ring
    · subst h3
      rw [upd_lt _ _ h4, Function.update_self, m_sm, r_smul_left, sy hK, r_comm, f1 l h4, if_neg (by omega)]; ring
    · subst h3; subst h4
      rw [Function.update_self, m_sm, r_smul, r_smul_left, if_pos rfl, ← hsq]
      field_simp
  · intro i hi
    rw [hU i (by omega), hV, ha, hb2, Finset.sum_range_succ, Function.update_self]
    rw [Finset.sum_congr rfl (g := fun l => bidi k s.a s.b l i • s.V l)
      (by intro l hl; have := Finset.mem_range.1 hl; rw [hbid l i (by omega), upd_lt _ _ this])]
    rcases Nat.lt_succ_iff_lt_or_eq.1 hi with h3 | h3
    · rw [hbid j i (by omega)]
      have : bidi k s.a s.b j i = 0 := by unfold bidi; rw [if_neg (by omega), if_neg (by omega)]
      rw [this, zero_smul, add_zero, h.pu i h3]
    · subst h3
      have : bidi k (Function.update s.a i be) s.b i i = be := by unfold bidi; rw [if_pos rfl, Function.update_self]
      rw [this, smul_smul, mul_one_div, div_self hb, one_smul, hve]; abel
  · intro i hi
    rw [hV, ha, hb2, upd_lt _ _ hi, h.mv i hi]
    apply Finset.sum_congr rfl; intro l hl; rw [hbid i l (by omega), hU l (by have := Finset.mem_range.1 hl; omega)]
  · rw [hU1, hV, Function.update_self, m_sm]

/-- The full pass does nothing in exact arithmetic, and facts about the new vector of `U`. -/
theorem newZu_facts (hM : Mᵀ = M) {k j : ℕ} (hk : k ≤ j) {s : Zz n} (h : InvZ K M k j (j + 1) s) (hu : s.U (j + 1) = K *ᵥ s.V j) :
    newZu j s = K *ᵥ s.V j - s.a j • s.U j ∧ (∀ i ≤ j, s.MU i ⬝ᵥ newZu j s = 0) := by
  obtain ⟨x, hx⟩ : ∃ x, x = K *ᵥ s.V j - s.a j • s.U j := ⟨_, rfl⟩
  have hbjj : bidi k s.a s.b j j = s.a j := by unfold bidi; rw [if_pos rfl]
  have c1 : ∀ i ≤ j, s.MU i ⬝ᵥ x = 0 := by
    intro i hi
    have e1 : s.MU i ⬝ᵥ (K *ᵥ s.V j) = bidi k s.a s.b j i := by
      rw [h.mu i hi, h.pu i (by omega), r_sum_left,
        Finset.sum_congr rfl (g := fun l => bidi k s.a s.b l i * (if j = l then 1 else 0))
        (by intro l hl; have hl' := Finset.mem_range.1 hl
            rw [r_smul_left, r_comm, ← h.ov j (by omega) l hl']), sum_ite_one _ _ (by omega)]
    have e2 := h.ou i hi j le_rfl
    rw [hx, r_sub, r_smul, e1, e2]
    rcases Nat.lt_or_eq_of_le hi with h3 | h3
    · have : bidi k s.a s.b j i = 0 := by unfold bidi; rw [if_neg (by omega), if_neg (by omega)]
      rw [this, if_neg (by omega)]; ring
    · subst h3
      rw [hbjj, if_pos rfl]; ring
  have hn : newZu j s = x := by
    unfold newZu
    rw [hu]
    simp only []
    rw [← hx, Finset.sum_eq_zero (s := range (j + 1)) (f := fun i => (s.MU i ⬝ᵥ x) • s.U i)
      (by intro i hi; rw [c1 i (by have := Finset.mem_range.1 hi; omega), zero_smul]), sub_zero]
  exact ⟨by rw [hn, hx], by intro i hi; rw [hn]; exact c1 i hi⟩

/-- Second half of a pass. -/
theorem invZu (hM : Mᵀ = M) {k j : ℕ} (hk : k ≤ j) {s : Zz n} (h : InvZ K M k j (j + 1) s) (hu : s.U (j + 1) = K *ᵥ s.V j)
    (hg : 0 ≤ gamZu M j s) (hb : Real.sqrt (gamZu M j s) ≠ 0) : InvZ K M k (j + 1) (j + 1) (stepZu M j s) := by
  obtain ⟨be, hbe⟩ : ∃ be, be = Real.sqrt (gamZu M j s) := ⟨_, rfl⟩
  obtain ⟨x, hx⟩ : ∃ x, x = newZu j s := ⟨_, rfl⟩
  obtain ⟨f0, f1⟩ := newZu_facts hM hk h hu
  rw [← hx] at f0 f1
  rw [← hbe] at hb
  have hsq : be * be = (M *ᵥ x) ⬝ᵥ x := by rw [hbe, Real.mul_self_sqrt hg, hx]; rfl
  have hU : (stepZu M j s).U = Function.update s.U (j + 1) ((1 / be) • x) := by
    unfold stepZu; simp only []; rw [← hbe, ← hx, if_neg hb]
  have hMU : (stepZu M j s).MU = Function.update s.MU (j + 1) ((1 / be) • M *ᵥ x) := by
    unfold stepZu; simp only []; rw [← hbe, ← hx, if_neg hb]
  have hV : (stepZu M j s).V = s.V := rfl
  have hb2 : (stepZu M j s).b = Function.update s.b j be := by unfold stepZu; simp only []; rw [← hbe]
  have ha : (stepZu M j s).a = s.a := rfl
  have hbid : ∀ l i, ¬ (l = j ∧ i = j + 1) → l ≤ j → i ≤ j + 1 → bidi k s.a (Function.update s.b j be) l i = bidi k s.a s.b l i := by
    intro l i hne _ _
    unfold bidi
    by_cases hli : l = i
    · rw [if_pos hli, if_pos hli]
    · rw [if_neg hli, if_neg hli]
      by_cases hc : (l < k ∧ i = k) ∨ (k ≤ l ∧ i = l + 1)
      · rw [if_pos hc, if_pos hc, Function.update_of_ne (by omega)]
      · rw [if_neg hc, if_neg hc]
  refine ⟨?_, ?_, ?_, ?_, ?_⟩
  · intro i hi
    rw [hU, hMU]
    rcases Nat.lt_or_eq_of_le hi with h3 | h3
    · rw [upd_lt _ _ h3, upd_lt _ _ h3, h.mu i (by omega)]
    · subst h3; rw [Function.update_self, Function.update_self, m_sm]
  · intro i hi l hl
    rw [hU, hMU]
    rcases Nat.lt_or_eq_of_le hi with h3 | h3 <;> rcases Nat.lt_or_eq_of_le hl with h4 | h4
    · rw [upd_lt _ _ h3, upd_lt _ _ h4, h.ou i (by omega) l (by omega)]
    · subst h4
      rw [upd_lt _ _ h3, Function.update_self, r_smul, f1 i (by omega), if_neg (by omega)]; ring
    · subst h3
      rw [upd_lt _ _ h4, Function.update_self, r_smul_left, sy hM, ← h.mu l (by omega), r_comm, f1 l (by omega), if_neg (by omega)]
      ring
    · subst h3; subst h4
      rw [Function.update_self, Function.update_self, r_smul, r_smul_left, if_pos rfl, ← hsq]
      field_simp
  · rw [hV]; exact h.ov
  · intro i hi
    rw [hU, hV, ha, hb2, upd_lt _ _ hi, h.pu i hi]
    apply Finset.sum_congr rfl; intro l hl; have := Finset.mem_range.1 hl; rw [hbid l i (by omega) (by omega) (by omega)]
  · intro i hi
    rw [hU, hV, ha, hb2, Finset.sum_range_succ, Function.update_self]
    rw [Finset.sum_congr rfl (g := fun l => bidi k s.a s.b i l • s.U l)
      (by intro l hl; have := Finset.mem_range.1 hl; rw [hbid i l (by omega) (by omega) (by omega), upd_lt _ _ this])]
    rcases Nat.lt_succ_iff_lt_or_eq.1 hi with h3 | h3
    · rw [hbid i (j + 1) (by omega) (by omega) (by omega)]
      have : bidi k s.a s.b i (j + 1) = 0 := by unfold bidi; rw [if_neg (by omega), if_neg (by omega)]
      rw [this, zero_smul, add_zero, h.mv i h3]
    · subst h3
      have e1 : bidi k s.a (Function.update s.b i be) i (i + 1) = be := by
        unfold bidi; rw [if_neg (by omega), if_pos (Or.inr ⟨hk, rfl⟩), Function.update_self]
      rw [e1, smul_smul, mul_one_div, div_self hb, one_smul, f0, Finset.sum_range_succ, Finset.sum_eq_zero]
      · have : bidi k s.a s.b i i = s.a i := by unfold bidi; rw [if_pos rfl]
        rw [this]; abel
      · intro l hl
        have := Finset.mem_range.1 hl
        have : bidi k s.a s.b i l = 0 := by unfold bidi; rw [if_neg (by omega), if_neg (by omega)]
        rw [this, zero_smul]

/-- `alpha` cannot vanish: the images of `j+1` independent vectors would lie in the span of `j` vectors. -/
theorem newZv_ne {k j : ℕ} (hk : k ≤ j) {s : Zz n} (h : InvZ K M k j j s) : newZv k j s ≠ 0 := by
  intro h0
  rw [newZv_eq hk (h.mu j le_rfl)] at h0
  have hPj : M *ᵥ s.U j = ∑ l ∈ range j, bidi k s.a s.b l j • s.V l := sub_eq_zero.1 h0
  have hli : LinearIndependent ℝ (fun i : Fin (j + 1) => M *ᵥ s.U i) := by
    rw [Fintype.linearIndependent_iff]
    intro g hg i
    have e : (∑ l : Fin (j + 1), g l • M *ᵥ s.U l) ⬝ᵥ s.U i = 0 := by rw [hg, r_comm, r_zero]
    have e2 : ∑ l : Fin (j + 1), g l * (s.MU l ⬝ᵥ s.U i) = 0 := by
      have gen : ∀ t : Finset (Fin (j + 1)), (∑ l ∈ t, g l • M *ᵥ s.U l) ⬝ᵥ s.U i = ∑ l ∈ t, g l * (s.MU l ⬝ᵥ s.U i) := by
        intro t
        induction t using Finset.induction_on with
        | empty => rw [Finset.sum_empty, Finset.sum_empty, r_comm, r_zero]
        | insert a t ha ih =>
          rw [Finset.sum_insert ha, Finset.sum_insert ha, r_add_left, ih, r_smul_left, h.mu a (by omega)]
      rw [← gen]; exact e
    rw [Finset.sum_eq_single i] at e2
    · rw [h.ou i (by omega) i (by omega), if_pos rfl, mul_one] at e2; exact e2
    · intro l _ hne
      rw [h.ou l (by omega) i (by omega), if_neg (by intro hc; exact hne (Fin.ext hc)), mul_zero]
    · intro hc; exact absurd (Finset.mem_univ i) hc
  classical
  have hsp : Set.range (fun i : Fin (j + 1) => M *ᵥ s.U i) ≤ Submodule.span ℝ (((range j).image s.V : Finset (Vr n)) : Set (Vr n)) := by
    rintro _ ⟨i, rfl⟩
    have hi : M *ᵥ s.U i = ∑ l ∈ range j, bidi k s.a s.b l i • s.V l := by
      rcases Nat.lt_succ_iff_lt_or_eq.1 i.2 with h3 | h3
      · exact h.pu i h3
      · rw [h3]; exact hPj
    show M *ᵥ s.U i ∈ _
    rw [hi]
    apply Submodule.sum_mem
    intro l hl
    apply Submodule.smul_mem
    apply Submodule.subset_span
    exact Finset.mem_coe.2 (Finset.mem_image_of_mem _ hl)
  have hc := linearIndependent_le_span' _ hli (((range j).image s.V : Finset (Vr n)) : Set (Vr n)) hsp
  have h2 := Finset.card_image_le (s := range j) (f := s.V)
  rw [Finset.card_range] at h2
  have h3 : Cardinal.mk (Fin (j + 1)) = ((j + 1 : ℕ) : Cardinal) := by simp
  rw [h3] at hc
  have h4 : j + 1 ≤ ((range j).image s.V).card := by
    have h5 : j + 1 ≤ Fintype.card (((range j).image s.V : Finset (Vr n)) : Set (Vr n)) := by exact_mod_cast hc
    exact h5.trans (le_of_eq (Fintype.card_coe _))
  omega

/-- What holds when the loop ends. -/
theorem lanczosZ_spec (hK : Kᵀ = K) (hM : Mᵀ = M) (hp1 : PosF M) (hp2 : PosF K) (k : ℕ) :
    ∀ t j s, k ≤ j → InvZ K M k j j s → ∃ out, lanczosZ K M k t j s = some out ∧ out.e ≠ .zero1 ∧
      (out.e = .full → out.m = j + t ∧ InvZ K M k out.m out.m out.s) ∧
      (out.e = .zero2 → j < out.m ∧ out.m ≤ j + t ∧ ∃ s', InvZ K M k (out.m - 1) out.m s' ∧ s'.U out.m = K *ᵥ s'.V (out.m - 1) ∧
        newZu (out.m - 1) s' = 0 ∧ out.s = stepZu M (out.m - 1) s' ∧ out.s.b (out.m - 1) = 0) := by
  intro t
  induction t with
  | zero =>
    intro j s hk h
    exact ⟨_, rfl, (by intro hc; cases hc), fun _ => ⟨rfl, h⟩, (by intro hc; cases hc)⟩
  | succ t ih =>
    intro j s hk h
    obtain ⟨v1, v2⟩ := form_nn hp2 (newZv k j s)
    have hg : 0 ≤ gamZv K k j s := v1
    have hb : Real.sqrt (gamZv K k j s) ≠ 0 := by
      intro hc
      exact newZv_ne hk h (v2 ((Real.sqrt_eq_zero hg).1 hc))
    obtain ⟨hi, hu⟩ := invZv hK hk h hg hb
    obtain ⟨u1, u2⟩ := form_nn hp1 (newZu j (stepZv K k j s))
    have hg2 : 0 ≤ gamZu M j (stepZv K k j s) := u1
    unfold lanczosZ
    rw [if_neg (not_lt.2 hg), if_neg hb, if_neg (not_lt.2 hg2)]
    by_cases hb2 : Real.sqrt (gamZu M j (stepZv K k j s)) = 0
    · rw [if_pos hb2]
      refine ⟨_, rfl, (by intro hc; cases hc), (by intro hc; cases hc), fun _ => ⟨by show j < j + 1; omega, by show j + 1 ≤ j + (t + 1); omega,
        stepZv K k j s, hi, hu, ?_, rfl, ?_⟩⟩
      · exact u2 ((Real.sqrt_eq_zero hg2).1 hb2)
      · show (stepZu M j (stepZv K k j s)).b j = 0
        unfold stepZu; simp only []; rw [Function.update_self, hb2]
    · rw [if_neg hb2]
      obtain ⟨out, e1, e2, e3, e4⟩ := ih (j + 1) _ (by omega) (invZu hM hk hi hu hg2 hb2)
      refine ⟨out, e1, e2, ?_, ?_⟩
      · intro hc; obtain ⟨a, b⟩ := e3 hc; exact ⟨by omega, b⟩
      · intro hc; obtain ⟨a, b, c⟩ := e4 hc; exact ⟨by omega, by omega, c⟩

theorem invZ_start (hp1 : PosF M) (s : Zz n) (h0 : s.U 0 ≠ 0) :
    ¬ gamZ0 M s < 0 ∧ Real.sqrt (gamZ0 M s) ≠ 0 ∧ InvZ K M 0 0 0 (normZ0 M s) := by
  have h3 : 0 < gamZ0 M s := by have := hp1 _ h0; rw [r_comm] at this; exact this
  have hb : 0 < Real.sqrt (gamZ0 M s) := Real.sqrt_pos.2 h3
  obtain ⟨be, hbe⟩ : ∃ be, be = Real.sqrt (gamZ0 M s) := ⟨_, rfl⟩
  have hsq : be * be = (M *ᵥ s.U 0) ⬝ᵥ s.U 0 := by rw [hbe, Real.mul_self_sqrt h3.le]; rfl
  have hU : (normZ0 M s).U 0 = (1 / be) • s.U 0 := by unfold normZ0; simp only []; rw [Function.update_self, ← hbe]
  have hMU : (normZ0 M s).MU 0 = (1 / be) • M *ᵥ s.U 0 := by unfold normZ0; simp only []; rw [Function.update_self, ← hbe]
  refine ⟨by linarith, hb.ne', ?_, ?_, ?_, ?_, ?_⟩
  · intro i hi
    obtain rfl : i = 0 := by omega
    rw [hU, hMU, m_sm]
  · intro i hi l hl
    obtain rfl : i = 0 := by omega
    obtain rfl : l = 0 := by omega
    rw [hU, hMU, r_smul, r_smul_left, if_pos rfl, ← hsq]
    have : be ≠ 0 := by rw [hbe]; exact hb.ne'
    field_simp
  · intro i hi; omega
  · intro i hi; omega
  · intro i hi; omega

/-- Last column of the relation for `V`. -/
theorem mvZ_split {k m : ℕ} (hk : k < m) {s : Zz n} (h : InvZ K M k m m s) (i : ℕ) (hi : i < m) :
    K *ᵥ s.V i = ∑ l ∈ range m, bidi k s.a s.b i l • s.U l + (if i + 1 = m then s.b (m - 1) else 0) • s.U m := by
  rw [h.mv i hi, Finset.sum_range_succ]
  congr 2
  unfold bidi
  rw [if_neg (by omega : ¬ i = m)]
  by_cases h3 : i + 1 = m
  · rw [if_pos h3, if_pos (Or.inr ⟨by omega, h3.symm⟩), ← h3]; rfl
  · rw [if_neg h3, if_neg (by omega)]

theorem invZ_restart {k m p : ℕ} {s : Zz n} (hk : k < m) (hp : p < m) (h : InvZ K M k m m s) (Z W : ℕ → ℕ → ℝ) (sg : ℕ → ℝ)
    (hS : Svd (bidi k s.a s.b) m Z W sg) : InvZ K M p p p (restartZ Z W sg m p s) := by
  have hU : ∀ i < p, (restartZ Z W sg m p s).U i = ∑ r ∈ range m, W r i • s.U r := by
    intro i hi; unfold restartZ; simp only []; rw [if_pos hi]
  have hMU : ∀ i < p, (restartZ Z W sg m p s).MU i = ∑ r ∈ range m, W r i • s.MU r := by
    intro i hi; unfold restartZ; simp only []; rw [if_pos hi]
  have hV : ∀ i < p, (restartZ Z W sg m p s).V i = ∑ r ∈ range m, Z r i • s.V r := by
    intro i hi; unfold restartZ; simp only []; rw [if_pos hi]
  have hU1 : (restartZ Z W sg m p s).U p = s.U m := by unfold restartZ; simp
  have hMU1 : (restartZ Z W sg m p s).MU p = s.MU m := by unfold restartZ; simp
  have ha : (restartZ Z W sg m p s).a = sg := rfl
  have hb : (restartZ Z W sg m p s).b = fun i => s.b (m - 1) * Z (m - 1) i := rfl
  have rg : ∀ {r}, r ∈ range m → r < m := fun hr => Finset.mem_range.1 hr
  refine ⟨?_, ?_, ?_, ?_, ?_⟩
  · intro i hi
    rcases Nat.lt_or_eq_of_le hi with h3 | h3
    · rw [hU i h3, hMU i h3, m_sum]
      apply Finset.sum_congr rfl; intro r hr; rw [m_sm, h.mu r (rg hr).le]
    · subst h3; rw [hU1, hMU1, h.mu m le_rfl]
  · intro i hi l hl
    rcases Nat.lt_or_eq_of_le hi with h3 | h3 <;> rcases Nat.lt_or_eq_of_le hl with h4 | h4
    · rw [hMU i h3, hU l h4, r_comb2 m _ _ _ _ (fun a ha b hb => h.ou a ha.le b hb.le), hS.orthoZ i (by omega) l (by omega)]
    · subst h4
      rw [hMU i h3, hU1, r_comb0 _ _ _ _ (by intro r hr; rw [h.ou r hr.le m le_rfl, if_neg (by omega)]), if_neg (by omega)]
    · subst h3
      rw [hMU1, hU l h4, r_comm, r_comb0 _ _ _ _ (by intro r hr; rw [r_comm, h.ou m le_rfl r hr.le, if_neg (by omega)]), if_neg (by omega)]
    · subst h3; subst h4; rw [hMU1, hU1, h.ou m le_rfl m le_rfl, if_pos rfl, if_pos rfl]
  · intro i hi l hl
    rw [hV i hi, hV l hl, m_sum, Finset.sum_congr rfl (g := fun r => Z r i • K *ᵥ s.V r) (by intro r _; rw [m_sm]),
      r_comb2 m _ _ _ _ h.ov, hS.orthoQ i (by omega) l (by omega)]
  · intro i hi
    have e1 : M *ᵥ (restartZ Z W sg m p s).U i = sg i • ∑ r ∈ range m, Z r i • s.V r := by
      rw [hU i hi, m_sum, Finset.sum_congr rfl (g := fun r => W r i • ∑ l ∈ range m, (fun a b => bidi k s.a s.b b a) r l • s.V l)
        (by intro r hr; rw [m_sm, h.pu r (rg hr)]), s_comm, Finset.smul_sum]
      apply Finset.sum_congr rfl; intro l hl
      rw [hS.right i (by omega) l (rg hl), smul_smul]
    rw [e1, ← hV i hi, ha, Finset.sum_eq_single i]
    · unfold bidi; rw [if_pos rfl]
    · intro l hl hne
      have := Finset.mem_range.1 hl
      unfold bidi; rw [if_neg hne, if_neg (by omega), zero_smul]
    · intro hc; exact absurd (Finset.mem_range.2 hi) hc
  · intro i hi
    have e1 : K *ᵥ (restartZ Z W sg m p s).V i = sg i • (∑ r ∈ range m, W r i • s.U r) + (s.b (m - 1) * Z (m - 1) i) • s.U m := by
      rw [hV i hi, m_sum, Finset.sum_congr rfl (g := fun r => Z r i • (∑ l ∈ range m, bidi k s.a s.b r l • s.U l)
        + (Z r i * (if r + 1 = m then s.b (m - 1) else 0)) • s.U m)
        (by intro r hr; rw [m_sm, mvZ_split hk h r (rg hr), smul_add, smul_smul]), Finset.sum_add_distrib, s_comm,
        last_sum m (by omega) (fun r => Z r i)]
      congr 1
      rw [Finset.smul_sum]
      apply Finset.sum_congr rfl; intro l hl
      rw [hS.left i (by omega) l (rg hl), smul_smul]
    rw [e1, Finset.sum_range_succ, ← hU i hi, hU1, ha, hb]
    congr 1
    · rw [Finset.sum_eq_single i]
      · unfold bidi; rw [if_pos rfl]
      · intro l hl hne
        have := Finset.mem_range.1 hl
        unfold bidi; rw [if_neg (Ne.symm hne), if_neg (by omega), zero_smul]
      · intro hc; exact absurd (Finset.mem_range.2 hi) hc
    · unfold bidi; rw [if_neg (by omega : ¬ i = p), if_pos (Or.inl ⟨hi, rfl⟩)]

end Verif.Lrep
