import Verif.Lrep.Model
import Verif.Bse.ShaoLoop

/-! Helper lemmas for the Lanczos process of Teng. -/
set_option linter.all false

namespace Verif.Lrep

open Finset Matrix Verif.Bse

variable {n : ℕ} {K M : Mt n}

theorem r_comm (x y : Vr n) : x ⬝ᵥ y = y ⬝ᵥ x := dotProduct_comm x y
theorem r_sub (x y z : Vr n) : x ⬝ᵥ (y - z) = x ⬝ᵥ y - x ⬝ᵥ z := dotProduct_sub x y z
theorem r_add_left (x y z : Vr n) : (x + y) ⬝ᵥ z = x ⬝ᵥ z + y ⬝ᵥ z := add_dotProduct x y z
theorem r_zero (x : Vr n) : x ⬝ᵥ (0 : Vr n) = 0 := dotProduct_zero x
theorem r_smul (r : ℝ) (x y : Vr n) : x ⬝ᵥ (r • y) = r * (x ⬝ᵥ y) := by simp
theorem r_smul_left (r : ℝ) (x y : Vr n) : (r • x) ⬝ᵥ y = r * (x ⬝ᵥ y) := by simp
theorem r_sum (x : Vr n) (s : Finset ℕ) (f : ℕ → Vr n) : x ⬝ᵥ (∑ i ∈ s, f i) = ∑ i ∈ s, x ⬝ᵥ f i := by
  induction s using Finset.induction_on with
  | empty => simp
  | insert a t h ih => rw [Finset.sum_insert h, Finset.sum_insert h, dotProduct_add, ih]
theorem r_sum_left (x : Vr n) (s : Finset ℕ) (f : ℕ → Vr n) : (∑ i ∈ s, f i) ⬝ᵥ x = ∑ i ∈ s, f i ⬝ᵥ x := by
  rw [r_comm, r_sum]; apply Finset.sum_congr rfl; intro i _; rw [r_comm]
theorem m_sum (A : Mt n) (s : Finset ℕ) (f : ℕ → Vr n) : A *ᵥ (∑ i ∈ s, f i) = ∑ i ∈ s, A *ᵥ f i := by
  induction s using Finset.induction_on with
  | empty => simp
  | insert a t h ih => rw [Finset.sum_insert h, Finset.sum_insert h, mulVec_add, ih]
theorem m_sm (A : Mt n) (r : ℝ) (x : Vr n) : A *ᵥ (r • x) = r • A *ᵥ x := mulVec_smul A r x
theorem sy {A : Mt n} (hA : Aᵀ = A) (x y : Vr n) : (A *ᵥ x) ⬝ᵥ y = x ⬝ᵥ (A *ᵥ y) := by
  rw [dotProduct_mulVec, ← mulVec_transpose, hA]

/-- Positive definite form. -/
def PosF (A : Mt n) : Prop := ∀ x : Vr n, x ≠ 0 → 0 < x ⬝ᵥ (A *ᵥ x)

theorem form_nn {A : Mt n} (hpos : PosF A) (x : Vr n) : 0 ≤ (A *ᵥ x) ⬝ᵥ x ∧ ((A *ᵥ x) ⬝ᵥ x = 0 → x = 0) := by
  by_cases hx : x = 0
  · subst hx; rw [r_zero]; exact ⟨le_rfl, fun _ => rfl⟩
  · have := hpos x hx
    rw [r_comm] at this
    exact ⟨this.le, fun h => by linarith⟩

/-- Invariant with columns `0..j`. -/
structure InvT (K M : Mt n) (k j : ℕ) (s : Tz n) : Prop where
  prod : ∀ i ≤ j, s.U i = M *ᵥ s.V i
  bi : ∀ i ≤ j, ∀ l ≤ j, s.U i ⬝ᵥ s.V l = if i = l then 1 else 0
  rel : ∀ i < j, K *ᵥ s.U i = ∑ l ∈ range (j + 1), arrow k s.a s.b l i • s.V l

theorem locT_eq {s : Tz n} (k j : ℕ) (hk : k ≤ j) (u x : Vr n) :
    locT s.V u s.b k (j + 1) x = x - (∑ i ∈ range j, arrow k s.a s.b i j • s.V i) - (u ⬝ᵥ x) • s.V j := by
  unfold locT
  have key : ∑ i ∈ Ico (if j + 1 = k + 1 then 0 else j + 1 - 2) (j + 1), hT s.b k (j + 1) (u ⬝ᵥ x) i • s.V i
      = (∑ i ∈ range j, arrow k s.a s.b i j • s.V i) + (u ⬝ᵥ x) • s.V j := by
    have hl : (if j + 1 = k + 1 then 0 else j + 1 - 2) ≤ j := by split_ifs <;> omega
    rw [Finset.sum_Ico_succ_top hl]
    congr 1
    · rw [Finset.range_eq_Ico, ← Finset.sum_Ico_consecutive _ (Nat.zero_le _) hl]
      rw [Finset.sum_eq_zero (s := Ico 0 _), zero_add]
      · apply Finset.sum_congr rfl
        intro i hi
        rw [Finset.mem_Ico] at hi
        unfold hT arrow
        rw [if_pos (by constructor; exact hi.1; omega), if_neg (by omega : ¬ i = j), if_pos hi.2]
        by_cases hjk : j = k
        · rw [if_pos (Or.inl ⟨by omega, hjk⟩)]
        · have h1 := hi.1
          rw [if_neg (by omega : ¬ j + 1 = k + 1)] at h1
          rw [if_pos (Or.inr ⟨by omega, by omega⟩)]
      · intro i hi
        rw [Finset.mem_Ico] at hi
        by_cases hjk : j = k
        · rw [if_pos (by omega : j + 1 = k + 1)] at hi; omega
        · have h1 := hi.2
          rw [if_neg (by omega : ¬ j + 1 = k + 1)] at h1
          unfold arrow
          rw [if_neg (by omega : ¬ i = j), if_pos (by omega : i < j), if_neg (by omega), zero_smul]
    · unfold hT
      rw [if_neg (by omega), if_pos (by omega)]
  rw [key]; abel

/-- Vector after the local orthogonalization. -/
noncomputable def locV (K : Mt n) (k j : ℕ) (s : Tz n) : Vr n :=
  K *ᵥ s.U j - (∑ i ∈ range j, arrow k s.a s.b i j • s.V i) - (s.U j ⬝ᵥ (K *ᵥ s.U j)) • s.V j

theorem locV_r (hK : Kᵀ = K) {k j : ℕ} {s : Tz n} (hk : k ≤ j) (h : InvT K M k j s) : ∀ i ≤ j, s.U i ⬝ᵥ locV K k j s = 0 := by
  intro i hi
  unfold locV
  rw [r_sub, r_sub, r_sum, r_smul, h.bi i hi j le_rfl]
  rw [Finset.sum_congr rfl (g := fun l => arrow k s.a s.b l j * (if i = l then 1 else 0))
    (by intro l hl; rw [r_smul, h.bi i hi l (by have := Finset.mem_range.1 hl; omega)])]
  rcases Nat.lt_or_eq_of_le hi with h1 | h1
  · rw [sum_ite_one _ _ h1, if_neg (by omega), ← sy hK, h.rel i h1, r_sum_left]
    rw [Finset.sum_congr rfl (g := fun l => arrow k s.a s.b l i * (if j = l then 1 else 0))
      (by intro l hl; rw [r_smul_left, r_comm, h.bi j le_rfl l (by have := Finset.mem_range.1 hl; omega)])]
    rw [sum_ite_one _ _ (by omega : j < j + 1), arrow_symm]; ring
  · subst h1
    rw [if_pos rfl, Finset.sum_eq_zero (by intro l hl; rw [if_neg (by have := Finset.mem_range.1 hl; omega)]; ring)]
    ring

theorem newT_eq (hK : Kᵀ = K) {k j : ℕ} {s : Tz n} (hk : k ≤ j) (h : InvT K M k j s) :
    newT K k j s = locV K k j s ∧ newAT K k j s = s.U j ⬝ᵥ (K *ᵥ s.U j) := by
  have hl : locT s.V (s.U j) s.b k (j + 1) (K *ᵥ s.U j) = locV K k j s := locT_eq k j hk _ _
  constructor
  · unfold newT orthogT
    rw [hl, Finset.sum_eq_zero, sub_zero]
    intro i hi
    have hi := Finset.mem_range.1 hi
    rw [locV_r hK hk h i (by omega), zero_smul]
  · unfold newAT
    rw [hl, locV_r hK hk h j le_rfl]
    unfold hT
    rw [if_neg (by omega), if_pos (by omega), add_zero]

theorem K_last {k j : ℕ} {s : Tz n} :
    K *ᵥ s.U j = (∑ i ∈ range j, arrow k s.a s.b i j • s.V i) + (s.U j ⬝ᵥ (K *ᵥ s.U j)) • s.V j + locV K k j s := by
  unfold locV; abel

theorem relT_step (hK : Kᵀ = K) {k j : ℕ} {s : Tz n} (hk : k ≤ j)
    (h : InvT K M k j s) : ∀ i ≤ j, K *ᵥ s.U i = (∑ l ∈ range (j + 1), arrow k (stepT K M k j s).a (stepT K M k j s).b l i • s.V l)
      + (if i = j then locV K k j s else 0) := by
  intro i hi
  rcases Nat.lt_or_eq_of_le hi with h3 | h3
  · rw [if_neg (by omega), add_zero, h.rel i h3]
    apply Finset.sum_congr rfl
    intro l _
    unfold stepT
    simp only []
    rw [arrow_upd_ne _ _ _ _ _ _ _ _ h3 hk]
  · subst h3
    rw [if_pos rfl]
    refine (K_last (K := K) (s := s) (k := k)).trans ?_
    rw [Finset.sum_range_succ]
    congr 2
    · apply Finset.sum_congr rfl
      intro l hl
      unfold stepT
      simp only []
      rw [arrow_upd_up _ _ _ _ _ _ _ (Finset.mem_range.1 hl)]
    · unfold stepT
      simp only []
      unfold arrow
      rw [if_pos rfl, Function.update_self, (newT_eq hK hk h).2]

theorem invT_step (hK : Kᵀ = K) (hM : Mᵀ = M) {k j : ℕ} {s : Tz n} (hk : k ≤ j)
    (h : InvT K M k j s) (h0 : ¬ gamT K M k j s < 0) (hb : ¬ Real.sqrt (gamT K M k j s) = 0) : InvT K M k (j + 1) (stepT K M k j s) := by
  have hrel := relT_step (M := M) hK hk h
  obtain ⟨hx, _⟩ := newT_eq hK hk h
  have hr := locV_r hK hk h
  have hV : ∀ i ≤ j, (stepT K M k j s).V i = s.V i := by
    intro i hi; unfold stepT; simp only []; rw [Function.update_of_ne (by omega)]
  have hU : ∀ i ≤ j, (stepT K M k j s).U i = s.U i := by
    intro i hi; unfold stepT; simp only []; rw [Function.update_of_ne (by omega)]
  obtain ⟨be, hbe⟩ : ∃ be, be = Real.sqrt (gamT K M k j s) := ⟨_, rfl⟩
  have hV1 : (stepT K M k j s).V (j + 1) = (1 / be) • locV K k j s := by
    unfold stepT; simp only []; rw [Function.update_self, if_neg hb, hx, ← hbe]
  have hU1 : (stepT K M k j s).U (j + 1) = (1 / be) • M *ᵥ locV K k j s := by
    unfold stepT; simp only []; rw [Function.update_self, if_neg hb, hx, ← hbe]
  have hB : (stepT K M k j s).b j = be := by unfold stepT; simp only []; rw [Function.update_self, hbe]
  have hbe0 : be ≠ 0 := by rw [hbe]; exact hb
  have hg : (M *ᵥ locV K k j s) ⬝ᵥ locV K k j s = be * be := by
    rw [hbe, Real.mul_self_sqrt (not_lt.1 h0)]; unfold gamT; rw [hx]
  refine ⟨?_, ?_, ?_⟩
  · intro i hi
    rcases Nat.lt_or_eq_of_le hi with h3 | h3
    · rw [hU i (by omega), hV i (by omega), h.prod i (by omega)]
    · subst h3; rw [hU1, hV1, m_sm]
  · intro i hi l hl
    rcases Nat.lt_or_eq_of_le hi with h3 | h3 <;> rcases Nat.lt_or_eq_of_le hl with h4 | h4
    · rw [hU i (by omega), hV l (by omega), h.bi i (by omega) l (by omega)]
    · subst h4; rw [hU i (by omega), hV1, r_smul, hr i (by omega), if_neg (by omega)]; ring
    · subst h3
      rw [hU1, hV l (by omega), r_smul_left, sy hM, ← h.prod l (by omega), r_comm, hr l (by omega), if_neg (by omega)]; ring
    · subst h3; subst h4
      rw [hU1, hV1, r_smul_left, r_smul, hg, if_pos rfl]; field_simp
  · intro i hi
    rw [hU i (by omega), hrel i (by omega), Finset.sum_range_succ _ (j + 1)]
    congr 1
    · apply Finset.sum_congr rfl; intro l hl; rw [hV l (by have := Finset.mem_range.1 hl; omega)]
    · unfold arrow
      rw [if_neg (by omega : ¬ j + 1 = i), if_neg (by omega : ¬ j + 1 < i), hV1]
      by_cases hij : i = j
      · subst hij
        rw [if_pos rfl, if_pos (Or.inr ⟨hk, rfl⟩), hB, smul_smul, mul_one_div_cancel hbe0, one_smul]
      · rw [if_neg hij, if_neg (by omega), zero_smul]

/-- Columns below `m`, with residual vector `V m`. -/
structure DecT (K M : Mt n) (k m : ℕ) (s : Tz n) : Prop where
  prod : ∀ i < m, s.U i = M *ᵥ s.V i
  bi : ∀ i < m, ∀ l < m, s.U i ⬝ᵥ s.V l = if i = l then 1 else 0
  rel : ∀ i < m, K *ᵥ s.U i = (∑ l ∈ range m, arrow k s.a s.b l i • s.V l) + (if i + 1 = m then s.b (m - 1) else 0) • s.V m
  fr : ∀ i < m, s.U i ⬝ᵥ s.V m = 0

theorem decT_of_inv {k m : ℕ} {s : Tz n} (hk : k < m) (h : InvT K M k m s) : DecT K M k m s where
  prod i hi := h.prod i (by omega)
  bi i hi l hl := h.bi i (by omega) l (by omega)
  fr i hi := by rw [h.bi i (by omega) m le_rfl, if_neg (by omega)]
  rel i hi := by
    rw [h.rel i hi, Finset.sum_range_succ]
    congr 2
    unfold arrow
    rw [if_neg (by omega : ¬ m = i), if_neg (by omega : ¬ m < i)]
    by_cases hij : i + 1 = m
    · rw [if_pos (Or.inr ⟨by omega, by omega⟩), if_pos hij]; congr 1; omega
    · rw [if_neg (by omega), if_neg hij]

theorem gamT_nn (hpos : PosF M) (k j : ℕ) (s : Tz n) : ¬ gamT K M k j s < 0 := not_lt.2 (form_nn hpos _).1

theorem decT_breakdown (hK : Kᵀ = K) (hpos : PosF M) {k j : ℕ} {s : Tz n}
    (hk : k ≤ j) (h : InvT K M k j s) (hb : Real.sqrt (gamT K M k j s) = 0) :
    DecT K M k (j + 1) (stepT K M k j s) ∧ (stepT K M k j s).b j = 0 ∧ (stepT K M k j s).V (j + 1) = 0 := by
  have hrel := relT_step (M := M) hK hk h
  obtain ⟨hx, _⟩ := newT_eq hK hk h
  have hg0 : gamT K M k j s = 0 := (Real.sqrt_eq_zero (form_nn hpos _).1).1 hb
  have hx0 : locV K k j s = 0 := by rw [← hx]; exact (form_nn hpos _).2 hg0
  have hV : ∀ i ≤ j, (stepT K M k j s).V i = s.V i := by
    intro i hi; unfold stepT; simp only []; rw [Function.update_of_ne (by omega)]
  have hU : ∀ i ≤ j, (stepT K M k j s).U i = s.U i := by
    intro i hi; unfold stepT; simp only []; rw [Function.update_of_ne (by omega)]
  have hV1 : (stepT K M k j s).V (j + 1) = 0 := by
    unfold stepT; simp only []; rw [Function.update_self, hx, hx0, smul_zero]
  have hB : (stepT K M k j s).b j = 0 := by unfold stepT; simp only []; rw [Function.update_self, hb]
  refine ⟨⟨?_, ?_, ?_, ?_⟩, hB, hV1⟩
  · intro i hi; rw [hU i (by omega), hV i (by omega), h.prod i (by omega)]
  · intro i hi l hl; rw [hU i (by omega), hV l (by omega), h.bi i (by omega) l (by omega)]
  · intro i hi
    rw [hU i (by omega), hrel i (by omega), hV1, hx0, smul_zero]
    simp only [ite_self]
    congr 1
    apply Finset.sum_congr rfl; intro l hl; rw [hV l (by have := Finset.mem_range.1 hl; omega)]
  · intro i hi; rw [hV1, r_zero]

theorem lanczosT_spec (hK : Kᵀ = K) (hM : Mᵀ = M) (hpos : PosF M) (k : ℕ) :
    ∀ t j s, k ≤ j → InvT K M k j s → ∃ out, lanczosT K M k t j s = some out ∧ (out.bd = false → out.m = j + t ∧ InvT K M k (j + t) out.s) ∧
      (out.bd = true → j < out.m ∧ out.m ≤ j + t ∧ DecT K M k out.m out.s ∧ out.s.b (out.m - 1) = 0) := by
  intro t
  induction t with
  | zero => intro j s hk h; exact ⟨⟨s, j, false⟩, rfl, fun _ => ⟨rfl, h⟩, fun hc => (by cases hc)⟩
  | succ t ih =>
    intro j s hk h
    have hg := gamT_nn (K := K) hpos k j s
    by_cases hb : Real.sqrt (gamT K M k j s) = 0
    · refine ⟨⟨stepT K M k j s, j + 1, true⟩, ?_, fun hc => (by cases hc), fun _ => ?_⟩
      · unfold lanczosT; rw [if_neg hg, if_pos hb]
      · obtain ⟨ha, hbb, hc⟩ := decT_breakdown hK hpos hk h hb
        exact ⟨by show j < j + 1; omega, by show j + 1 ≤ j + (t + 1); omega, ha, hbb⟩
    · obtain ⟨out, ho, h3, h4⟩ := ih (j + 1) (stepT K M k j s) (by omega) (invT_step hK hM hk h hg hb)
      refine ⟨out, ?_, ?_, ?_⟩
      · unfold lanczosT; rw [if_neg hg, if_neg hb]; exact ho
      · intro hc
        have := h3 hc
        rw [show j + 1 + t = j + (t + 1) by omega] at this
        exact this
      · intro hc
        obtain ⟨a1, a2, a3⟩ := h4 hc
        exact ⟨by omega, by omega, a3⟩

theorem invT_start (hpos : PosF M) (s : Tz n) (hs : s.V 0 ≠ 0) :
    ¬ gamT0 M s < 0 ∧ ¬ Real.sqrt (gamT0 M s) = 0 ∧ InvT K M 0 0 (normT0 M s) := by
  have h3 : 0 < gamT0 M s := by
    have := hpos _ hs
    rw [r_comm] at this
    exact this
  have h4 : 0 < Real.sqrt (gamT0 M s) := Real.sqrt_pos.2 h3
  refine ⟨by linarith, ne_of_gt h4, ?_⟩
  obtain ⟨g, hg⟩ : ∃ g, g = Real.sqrt (gamT0 M s) := ⟨_, rfl⟩
  have hgg : (M *ᵥ s.V 0) ⬝ᵥ s.V 0 = g * g := by rw [hg, Real.mul_self_sqrt h3.le]; rfl
  have hV : (normT0 M s).V 0 = (1 / g) • s.V 0 := by unfold normT0; simp only []; rw [Function.update_self, hg]
  have hU : (normT0 M s).U 0 = (1 / g) • M *ᵥ s.V 0 := by unfold normT0; simp only []; rw [Function.update_self, hg]
  have hg0 : g ≠ 0 := by rw [hg]; exact ne_of_gt h4
  refine ⟨?_, ?_, ?_⟩
  · intro i hi
    obtain rfl : i = 0 := by omega
    rw [hU, hV, m_sm]
  · intro i hi l hl
    obtain rfl : i = 0 := by omega
    obtain rfl : l = 0 := by omega
    rw [hU, hV, r_smul_left, r_smul, hgg, if_pos rfl]; field_simp
  · intro i hi; omega

theorem r_comb2 (m : ℕ) (X Y : ℕ → Vr n) (c d : ℕ → ℝ) (h : ∀ i < m, ∀ l < m, X i ⬝ᵥ Y l = if i = l then 1 else 0) :
    (∑ r ∈ range m, c r • X r) ⬝ᵥ (∑ r ∈ range m, d r • Y r) = ∑ r ∈ range m, c r * d r := by
  rw [r_sum_left]
  apply Finset.sum_congr rfl; intro r hr
  have hr' := Finset.mem_range.1 hr
  rw [r_smul_left, r_sum, Finset.sum_congr rfl (g := fun l => d l * (if r = l then 1 else 0))
    (by intro l hl; rw [← h r hr' l (Finset.mem_range.1 hl), r_smul]), sum_ite_one _ _ hr']

theorem r_comb0 (m : ℕ) (X : ℕ → Vr n) (c : ℕ → ℝ) (y : Vr n) (h : ∀ i < m, X i ⬝ᵥ y = 0) : (∑ r ∈ range m, c r • X r) ⬝ᵥ y = 0 := by
  rw [r_sum_left]; apply Finset.sum_eq_zero; intro r hr; rw [r_smul_left, h r (Finset.mem_range.1 hr), mul_zero]

theorem s_comm (m : ℕ) (T : ℕ → ℕ → ℝ) (c : ℕ → ℝ) (f : ℕ → Vr n) :
    ∑ r ∈ range m, c r • (∑ l ∈ range m, T r l • f l) = ∑ l ∈ range m, (∑ r ∈ range m, T r l * c r) • f l := by
  rw [Finset.sum_congr rfl (g := fun r => ∑ l ∈ range m, (T r l * c r) • f l)
    (by intro r _; rw [Finset.smul_sum]; apply Finset.sum_congr rfl; intro l _; rw [smul_smul, mul_comm]), Finset.sum_comm]
  apply Finset.sum_congr rfl; intro l _; rw [Finset.sum_smul]

theorem last_sum (m : ℕ) (hm : 0 < m) (c : ℕ → ℝ) (b : ℝ) (f : Vr n) :
    ∑ r ∈ range m, (c r * (if r + 1 = m then b else 0)) • f = (b * c (m - 1)) • f := by
  rw [← Finset.sum_smul]
  congr 1
  rw [Finset.sum_eq_single (m - 1)]
  · rw [if_pos (by omega)]; ring
  · intro r hr hne; rw [if_neg (by omega), mul_zero]
  · intro hc; exact absurd (Finset.mem_range.2 (by omega)) hc

theorem invT_restart (hM : Mᵀ = M) {k m p : ℕ} {s : Tz n} (hk : k < m) (hp : p ≤ m) (h : InvT K M k m s) (Q : ℕ → ℕ → ℝ) (th : ℕ → ℝ)
    (hQ : ∀ i < p, ∀ l < p, ∑ r ∈ range m, Q r i * Q r l = if i = l then 1 else 0)
    (hT : ∀ i < p, ∀ r < m, ∑ c ∈ range m, arrow k s.a s.b r c * Q c i = th i * Q r i) : InvT K M p p (restartT Q th m p s) := by
  have hV : ∀ i < p, (restartT Q th m p s).V i = ∑ r ∈ range m, Q r i • s.V r := by
    intro i hi; unfold restartT; simp only []; rw [if_pos hi]
  have hU : ∀ i < p, (restartT Q th m p s).U i = ∑ r ∈ range m, Q r i • s.U r := by
    intro i hi; unfold restartT; simp only []; rw [if_pos hi]
  have hV1 : (restartT Q th m p s).V p = s.V m := by unfold restartT; simp
  have hU1 : (restartT Q th m p s).U p = s.U m := by unfold restartT; simp
  have rg : ∀ {r}, r ∈ range m → r < m := fun hr => Finset.mem_range.1 hr
  refine ⟨?_, ?_, ?_⟩
  · intro i hi
    rcases Nat.lt_or_eq_of_le hi with h3 | h3
    · rw [hU i h3, hV i h3, m_sum]
      apply Finset.sum_congr rfl; intro r hr; rw [m_sm, h.prod r (rg hr).le]
    · subst h3; rw [hU1, hV1, h.prod m le_rfl]
  · intro i hi l hl
    rcases Nat.lt_or_eq_of_le hi with h3 | h3 <;> rcases Nat.lt_or_eq_of_le hl with h4 | h4
    · rw [hU i h3, hV l h4, r_comb2 m _ _ _ _ (fun a ha b hb => h.bi a ha.le b hb.le), hQ i h3 l h4]
    · subst h4
      rw [hU i h3, hV1, r_comb0 _ _ _ _ (by intro r hr; rw [h.bi r hr.le m le_rfl, if_neg (by omega)]), if_neg (by omega)]
    · subst h3
      rw [hU1, hV l h4, r_comm, r_comb0 _ _ _ _ (by intro r hr; rw [r_comm, h.bi m le_rfl r hr.le, if_neg (by omega)]), if_neg (by omega)]
    · subst h3; subst h4; rw [hU1, hV1, h.bi m le_rfl m le_rfl, if_pos rfl, if_pos rfl]
  · intro i hi
    have hd := decT_of_inv hk h
    have e1 : K *ᵥ (restartT Q th m p s).U i = th i • (∑ r ∈ range m, Q r i • s.V r) + (s.b (m - 1) * Q (m - 1) i) • s.V m := by
      rw [hU i hi, m_sum, Finset.sum_congr rfl (g := fun r => Q r i • (∑ l ∈ range m, (fun a b => arrow k s.a s.b b a) r l • s.V l)
        + (Q r i * (if r + 1 = m then s.b (m - 1) else 0)) • s.V m)
        (by intro r hr; rw [m_sm, hd.rel r (rg hr), smul_add, smul_smul]), Finset.sum_add_distrib, s_comm,
        last_sum m (by omega) (fun r => Q r i)]
      congr 1
      rw [Finset.smul_sum]
      apply Finset.sum_congr rfl; intro l hl
      rw [hT i hi l (rg hl), smul_smul]
    rw [e1, Finset.sum_range_succ, ← hV i hi, hV1]
    have hb : (restartT Q th m p s).b = fun i => s.b (m - 1) * Q (m - 1) i := rfl
    have ha : (restartT Q th m p s).a = th := rfl
    rw [ha, hb]
    congr 1
    · rw [Finset.sum_eq_single i]
      · unfold arrow; rw [if_pos rfl]
      · intro l hl hne
        have := Finset.mem_range.1 hl
        unfold arrow
        rw [if_neg hne]
        by_cases hli : l < i
        · rw [if_pos hli, if_neg (by omega), zero_smul]
        · rw [if_neg hli, if_neg (by omega), zero_smul]
      · intro hc; exact absurd (Finset.mem_range.2 hi) hc
    · unfold arrow
      rw [if_neg (by omega : ¬ p = i), if_neg (by omega : ¬ p < i), if_pos (Or.inl ⟨hi, rfl⟩)]

end Verif.Lrep
