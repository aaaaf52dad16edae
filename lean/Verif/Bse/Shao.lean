import Verif.Bse.Alg

/-! Helper lemmas for the Lanczos process of Shao: the invariant and its preservation. -/
set_option linter.all false

namespace Verif.Bse

open Finset Matrix

variable {n : ℕ}

/-- Symmetric matrix with an arrow in the first `k` rows and columns and tridiagonal afterwards. -/
def arrow (k : ℕ) (a b : ℕ → ℝ) (i j : ℕ) : ℝ :=
  if i = j then a i
  else if i < j then (if (i < k ∧ j = k) ∨ (k ≤ i ∧ j = i + 1) then b i else 0)
  else (if (j < k ∧ i = k) ∨ (k ≤ j ∧ i = j + 1) then b j else 0)

theorem arrow_symm (k : ℕ) (a b : ℕ → ℝ) (i j : ℕ) : arrow k a b i j = arrow k a b j i := by
  unfold arrow
  by_cases h : i = j
  · subst h; rfl
  · rw [if_neg h, if_neg (Ne.symm h)]
    rcases Nat.lt_or_gt_of_ne h with h1 | h1
    · rw [if_pos h1, if_neg (by omega : ¬ j < i)]
    · rw [if_neg (by omega : ¬ i < j), if_pos h1]

/-- Invariant with columns `0..j`. -/
structure Inv (P M : Vc n → Vc n) (k j : ℕ) (s : Lz n) : Prop where
  prod : ∀ i ≤ j, s.V i = P (s.U i)
  bi : ∀ i ≤ j, ∀ l ≤ j, rdot (s.V i) (s.U l) = if i = l then 1 else 0
  iu : ∀ i ≤ j, ∀ l ≤ j, idot (s.U i) (s.U l) = 0
  iv : ∀ i ≤ j, ∀ l ≤ j, idot (s.V i) (s.V l) = 0
  rel : ∀ i < j, M (s.V i) = ∑ l ∈ range (j + 1), arrow k s.a s.b l i • s.U l

variable {P M : Vc n → Vc n}

theorem sum_ite_one (m : ℕ) (f : ℕ → ℝ) {i : ℕ} (hi : i < m) : ∑ l ∈ range m, f l * (if i = l then 1 else 0) = f i := by
  rw [Finset.sum_eq_single i]
  · simp
  · intro l _ hl; rw [if_neg (Ne.symm hl)]; ring
  · intro h; exact absurd (Finset.mem_range.2 hi) h

theorem sum_ite_one' (m : ℕ) (f : ℕ → ℝ) {i : ℕ} (hi : i < m) : ∑ l ∈ range m, f l * (if l = i then 1 else 0) = f i := by
  rw [← sum_ite_one m f hi]
  apply Finset.sum_congr rfl; intro l _; simp [eq_comm]

/-- The local orthogonalization subtracts column `j` of the stored matrix above the diagonal and the new diagonal entry. -/
theorem locX_eq {s : Lz n} (k j : ℕ) (hk : k ≤ j) (v x : Vc n) :
    locX s.U v s.b k (j + 1) x = x - (∑ i ∈ range j, arrow k s.a s.b i j • s.U i) - (rdot v x) • s.U j := by
  unfold locX
  simp only []
  have key : ∑ i ∈ Ico (if j + 1 = k + 1 then 0 else j + 1 - 2) (j + 1), hLoc s.b k (j + 1) (dot v x).re i • s.U i
      = (∑ i ∈ range j, arrow k s.a s.b i j • s.U i) + (rdot v x) • s.U j := by
    have hl : (if j + 1 = k + 1 then 0 else j + 1 - 2) ≤ j := by split_ifs <;> omega
    rw [Finset.sum_Ico_succ_top hl]
    congr 1
    · rw [Finset.range_eq_Ico, ← Finset.sum_Ico_consecutive _ (Nat.zero_le _) hl]
      rw [Finset.sum_eq_zero (s := Ico 0 _), zero_add]
      · apply Finset.sum_congr rfl
        intro i hi
        rw [Finset.mem_Ico] at hi
        unfold hLoc arrow
        simp only []
        rw [if_pos (by constructor; exact hi.1; omega), if_neg (by omega : ¬ i = j), if_pos hi.2]
        by_cases hjk : j = k
        · rw [if_pos (Or.inl ⟨by omega, hjk⟩), Complex.coe_smul]
        · have h1 := hi.1
          rw [if_neg (by omega : ¬ j + 1 = k + 1)] at h1
          rw [if_pos (Or.inr ⟨by omega, by omega⟩), Complex.coe_smul]
      · intro i hi
        rw [Finset.mem_Ico] at hi
        by_cases hjk : j = k
        · rw [if_pos (by omega : j + 1 = k + 1)] at hi; omega
        · have h1 := hi.2
          rw [if_neg (by omega : ¬ j + 1 = k + 1)] at h1
          unfold arrow
          rw [if_neg (by omega : ¬ i = j), if_pos (by omega : i < j), if_neg (by omega), zero_smul]
    · unfold hLoc
      simp only []
      rw [if_neg (by omega), if_pos (by omega), Complex.coe_smul]; rfl
  rw [key]; abel

theorem cShao_lt (U V : ℕ → Vc n) (j : ℕ) (x : Vc n) {i : ℕ} (hi : i < j) : cShao U V j x i = ((rdot (V i) x : ℝ) : ℂ) := by
  unfold cShao; rw [if_pos hi]; rfl

theorem cShao_ge (U V : ℕ → Vc n) (j : ℕ) (x : Vc n) {i : ℕ} (hi : i < j) : cShao U V j x (j + i) = ⟨0, idot (U i) x⟩ := by
  unfold cShao; rw [if_neg (by omega), if_pos (by omega), Nat.add_sub_cancel_left]; rfl

/-- Vector after the local orthogonalization. -/
noncomputable def loc (M : Vc n → Vc n) (k j : ℕ) (s : Lz n) : Vc n :=
  M (s.V j) - (∑ i ∈ range j, arrow k s.a s.b i j • s.U i) - (rdot (s.V j) (M (s.V j))) • s.U j

theorem loc_r (hP : Pair P M) {k j : ℕ} {s : Lz n} (hk : k ≤ j) (h : Inv P M k j s) :
    ∀ i ≤ j, rdot (s.V i) (loc M k j s) = 0 := by
  intro i hi
  unfold loc
  rw [rdot_sub, rdot_sub, rdot_sum, rdot_smul, h.bi i hi j le_rfl]
  rw [Finset.sum_congr rfl (g := fun l => arrow k s.a s.b l j * (if i = l then 1 else 0))
    (by intro l hl; rw [rdot_smul, h.bi i hi l (by have := Finset.mem_range.1 hl; omega)])]
  rcases Nat.lt_or_eq_of_le hi with h1 | h1
  · rw [sum_ite_one _ _ h1, if_neg (by omega), ← hP.Msy, h.rel i h1, rdot_sum_left]
    rw [Finset.sum_congr rfl (g := fun l => arrow k s.a s.b l i * (if j = l then 1 else 0))
      (by intro l hl; rw [rdot_smul_left, rdot_comm, h.bi j le_rfl l (by have := Finset.mem_range.1 hl; omega)])]
    rw [sum_ite_one _ _ (by omega : j < j + 1), arrow_symm]; ring
  · subst h1
    rw [if_pos rfl, Finset.sum_eq_zero (by intro l hl; rw [if_neg (by have := Finset.mem_range.1 hl; omega)]; ring)]
    ring

theorem loc_i (hP : Pair P M) {k j : ℕ} {s : Lz n} (hk : k ≤ j) (h : Inv P M k j s) :
    ∀ i ≤ j, idot (s.U i) (loc M k j s) = 0 := by
  intro i hi
  unfold loc
  rw [idot_sub, idot_sub, idot_sum, idot_smul, h.iu i hi j le_rfl, ← hP.cr, ← h.prod i hi, h.iv i hi j le_rfl]
  rw [Finset.sum_eq_zero (by intro l hl; rw [idot_smul, h.iu i hi l (by have := Finset.mem_range.1 hl; omega)]; ring)]
  ring

theorem newX_eq {app : ℝ → Vc n → Vc n} (h1 : app 1 = P) (h2 : app (-1) = M) (hP : Pair P M) {k j : ℕ} {s : Lz n} (hk : k ≤ j)
    (h : Inv P M k j s) : newX app k j s = loc M k j s ∧ newA app k j s = rdot (s.V j) (M (s.V j)) := by
  have hl : locX s.U (s.V j) s.b k (j + 1) (M (s.V j)) = loc M k j s := locX_eq k j hk _ _
  constructor
  · unfold newX orthVecX orthogX
    rw [h2, hl]
    rw [Finset.sum_eq_zero, Finset.sum_eq_zero]
    · simp
    · intro i hi
      have hi := Finset.mem_range.1 hi
      rw [cShao_ge _ _ _ _ hi, loc_i hP hk h i (by omega)]
      have : (⟨0, 0⟩ : ℂ) = 0 := rfl
      rw [this, zero_smul]
    · intro i hi
      have hi := Finset.mem_range.1 hi
      rw [cShao_lt _ _ _ _ hi, loc_r hP hk h i (by omega)]; simp
  · unfold newA orthVecH
    rw [h2, hl, cShao_lt _ _ _ _ (by omega), loc_r hP hk h j le_rfl]
    unfold hLoc
    simp only []
    rw [if_neg (by omega), if_pos (by omega)]
    simp [rdot]

/-- The new column of the relation, before scaling. -/
theorem M_last {k j : ℕ} {s : Lz n} (hk : k ≤ j) :
    M (s.V j) = (∑ i ∈ range j, arrow k s.a s.b i j • s.U i) + (rdot (s.V j) (M (s.V j))) • s.U j + loc M k j s := by
  unfold loc; abel

theorem arrow_upd_ne (k : ℕ) (a b : ℕ → ℝ) (j : ℕ) (x y : ℝ) (i l : ℕ) (hi : i < j) (hk : k ≤ j) :
    arrow k (Function.update a j x) (Function.update b j y) l i = arrow k a b l i := by
  unfold arrow
  by_cases h1 : l = i
  · subst h1; rw [if_pos rfl, if_pos rfl, Function.update_of_ne (by omega)]
  · rw [if_neg h1, if_neg h1]
    by_cases h2 : l < i
    · rw [if_pos h2, if_pos h2, Function.update_of_ne (by omega)]
    · rw [if_neg h2, if_neg h2, Function.update_of_ne (by omega)]

theorem arrow_upd_up (k : ℕ) (a b : ℕ → ℝ) (j : ℕ) (x y : ℝ) (l : ℕ) (hl : l < j) :
    arrow k (Function.update a j x) (Function.update b j y) l j = arrow k a b l j := by
  unfold arrow
  rw [if_neg (by omega : ¬ l = j), if_neg (by omega : ¬ l = j), if_pos hl, if_pos hl, Function.update_of_ne (by omega)]

/-- Relation for all columns up to `j` after the step, with residual vector `f`. -/
theorem rel_step {app : ℝ → Vc n → Vc n} (h1 : app 1 = P) (h2 : app (-1) = M) (hP : Pair P M) {k j : ℕ} {s : Lz n} (hk : k ≤ j)
    (h : Inv P M k j s) : ∀ i ≤ j, M (s.V i) = (∑ l ∈ range (j + 1), arrow k (step app k j s).a (step app k j s).b l i • s.U l)
      + (if i = j then loc M k j s else 0) := by
  intro i hi
  rcases Nat.lt_or_eq_of_le hi with h3 | h3
  · rw [if_neg (by omega), add_zero, h.rel i h3]
    apply Finset.sum_congr rfl
    intro l _
    unfold step
    simp only []
    rw [arrow_upd_ne _ _ _ _ _ _ _ _ h3 hk]
  · subst h3
    rw [if_pos rfl]
    refine (M_last (M := M) (s := s) hk).trans ?_
    rw [Finset.sum_range_succ]
    congr 2
    · apply Finset.sum_congr rfl
      intro l hl
      unfold step
      simp only []
      rw [arrow_upd_up _ _ _ _ _ _ _ (Finset.mem_range.1 hl)]
    · unfold step
      simp only []
      unfold arrow
      rw [if_pos rfl, Function.update_self, (newX_eq h1 h2 hP hk h).2]

theorem inv_step {app : ℝ → Vc n → Vc n} (h1 : app 1 = P) (h2 : app (-1) = M) (hP : Pair P M) {k j : ℕ} {s : Lz n} (hk : k ≤ j)
    (h : Inv P M k j s) (h0 : ¬ gam app k j s < 0) (hb : ¬ Real.sqrt (gam app k j s) = 0) : Inv P M k (j + 1) (step app k j s) := by
  have hrel := rel_step h1 h2 hP hk h
  obtain ⟨hx, _⟩ := newX_eq h1 h2 hP hk h
  have hr := loc_r hP hk h
  have hi0 := loc_i hP hk h
  have hU : ∀ i ≤ j, (step app k j s).U i = s.U i := by
    intro i hi; unfold step; simp only []; rw [Function.update_of_ne (by omega)]
  have hV : ∀ i ≤ j, (step app k j s).V i = s.V i := by
    intro i hi; unfold step; simp only []; rw [Function.update_of_ne (by omega)]
  obtain ⟨be, hbe⟩ : ∃ be, be = Real.sqrt (gam app k j s) := ⟨_, rfl⟩
  have hU1 : (step app k j s).U (j + 1) = (1 / be) • loc M k j s := by
    unfold step; simp only []; rw [Function.update_self, if_neg hb, hx, Complex.coe_smul, ← hbe]
  have hV1 : (step app k j s).V (j + 1) = (1 / be) • P (loc M k j s) := by
    unfold step; simp only []; rw [Function.update_self, if_neg hb, hx, h1, Complex.coe_smul, ← hbe]
  have hB : (step app k j s).b j = be := by unfold step; simp only []; rw [Function.update_self, hbe]
  have hbe0 : be ≠ 0 := by rw [hbe]; exact hb
  have hg : rdot (P (loc M k j s)) (loc M k j s) = be * be := by
    rw [hbe, Real.mul_self_sqrt (not_lt.1 h0)]; unfold gam; rw [hx, h1]; rfl
  have hii : ∀ i ≤ j, idot (s.V i) (P (loc M k j s)) = 0 := by
    intro i hi
    rw [← hP.cr', hrel i hi, idot_add_left, idot_sum_left]
    rw [Finset.sum_eq_zero (by intro l hl; rw [idot_smul_left, hi0 l (by have := Finset.mem_range.1 hl; omega)]; ring)]
    by_cases hij : i = j
    · rw [if_pos hij, idot_self]; ring
    · rw [if_neg hij, idot_anti, idot_zero]; ring
  refine ⟨?_, ?_, ?_, ?_, ?_⟩
  · intro i hi
    rcases Nat.lt_or_eq_of_le hi with h3 | h3
    · rw [hU i (by omega), hV i (by omega), h.prod i (by omega)]
    · subst h3; rw [hU1, hV1, hP.Psm]
  · intro i hi l hl
    rcases Nat.lt_or_eq_of_le hi with h3 | h3 <;> rcases Nat.lt_or_eq_of_le hl with h4 | h4
    · rw [hV i (by omega), hU l (by omega), h.bi i (by omega) l (by omega)]
    · subst h4; rw [hV i (by omega), hU1, rdot_smul, hr i (by omega), if_neg (by omega)]; ring
    · subst h3
      rw [hV1, hU l (by omega), rdot_smul_left, hP.Psy, ← h.prod l (by omega), rdot_comm, hr l (by omega), if_neg (by omega)]; ring
    · subst h3; subst h4
      rw [hV1, hU1, rdot_smul_left, rdot_smul, hg, if_pos rfl]; field_simp
  · intro i hi l hl
    rcases Nat.lt_or_eq_of_le hi with h3 | h3 <;> rcases Nat.lt_or_eq_of_le hl with h4 | h4
    · rw [hU i (by omega), hU l (by omega), h.iu i (by omega) l (by omega)]
    · subst h4; rw [hU i (by omega), hU1, idot_smul, hi0 i (by omega)]; ring
    · subst h3; rw [hU l (by omega), hU1, idot_smul_left, idot_anti, hi0 l (by omega)]; ring
    · subst h3; subst h4; exact idot_self _
  · intro i hi l hl
    rcases Nat.lt_or_eq_of_le hi with h3 | h3 <;> rcases Nat.lt_or_eq_of_le hl with h4 | h4
    · rw [hV i (by omega), hV l (by omega), h.iv i (by omega) l (by omega)]
    · subst h4; rw [hV i (by omega), hV1, idot_smul, hii i (by omega)]; ring
    · subst h3; rw [hV l (by omega), hV1, idot_smul_left, idot_anti, hii l (by omega)]; ring
    · subst h3; subst h4; exact idot_self _
  · intro i hi
    rw [hV i (by omega), hrel i (by omega), Finset.sum_range_succ _ (j + 1)]
    congr 1
    · apply Finset.sum_congr rfl; intro l hl; rw [hU l (by have := Finset.mem_range.1 hl; omega)]
    · unfold arrow
      rw [if_neg (by omega : ¬ j + 1 = i), if_neg (by omega : ¬ j + 1 < i), hU1]
      by_cases hij : i = j
      · subst hij
        rw [if_pos rfl, if_pos (Or.inr ⟨hk, rfl⟩), hB, smul_smul, mul_one_div_cancel hbe0, one_smul]
      · rw [if_neg hij, if_neg (by omega), zero_smul]

end Verif.Bse
