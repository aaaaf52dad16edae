import Verif.Text.Model
import Mathlib.Tactic.NormNum
/-!
C203: eigenvectors extracted by TOAR.
-/
set_option linter.all false
namespace Verif.Text
noncomputable section
open Classical

variable {V : Type} [AddCommGroup V] [Module ℂ V]

/-- Specification: the blocks are those of the eigenvector of the linearization for the value `t` and the eigenvector `x` of the polynomial. -/
def Lin (phi : ℕ → ℂ → ℂ) (deg : ℕ) (t : ℂ) (x : V) (a : Item V) : Prop := ∀ j < deg, a.u j = phi j t • x

/-- Specification: `y` is a nonzero multiple of `x`. -/
def NonzeroMultiple (y x : V) : Prop := ∃ c : ℂ, c ≠ 0 ∧ y = c • x

/-! ### Lemmas -/

theorem upd_mem (q : ℕ → ℝ) (P : ℕ → Prop) : ∀ (L : List ℕ) (s : ℝ × ℕ), P s.2 → (∀ j ∈ L, P j) → P (L.foldl (upd q) s).2
  | [], s, h, _ => h
  | j :: L, s, h, hL => by
    refine upd_mem q P L (upd q s j) ?_ fun k hk => hL k (List.mem_cons_of_mem _ hk)
    unfold upd
    by_cases c : s.1 < q j
    · rw [if_pos c]; exact hL j List.mem_cons_self
    · rw [if_neg c]; exact h

theorem normIdx_lt (phi : ℕ → ℂ → ℂ) {deg idx : ℕ} (th : ℂ) (hd : idx < deg) : normIdx phi deg th idx < deg := by
  refine upd_mem _ (fun i => i < deg) _ _ hd fun j hj => ?_
  have := List.mem_range'_1.mp hj
  omega

theorem resIdx_lt {deg idx : ℕ} (res : ℕ → ℝ) (hd : idx < deg) : resIdx deg res idx < deg :=
  upd_mem _ (fun i => i < deg) _ _ hd fun j hj => List.mem_range.mp hj

/-- The state is either the initial one and nothing is larger, or the index has the stored value, larger than the initial one. -/
theorem upd_spec (q : ℕ → ℝ) (m : ℝ) : ∀ (L : List ℕ) (s : ℝ × ℕ), m ≤ s.1 →
    ((L.foldl (upd q) s = s ∧ ∀ j ∈ L, q j ≤ s.1) ∨ m < q (L.foldl (upd q) s).2)
  | [], s, h => Or.inl ⟨rfl, fun j hj => by cases hj⟩
  | j :: L, s, h => by
    show (L.foldl (upd q) (upd q s j) = s ∧ _) ∨ m < q (L.foldl (upd q) (upd q s j)).2
    by_cases c : s.1 < q j
    · have e : upd q s j = (q j, j) := if_pos c
      rw [e]
      right
      rcases upd_spec q m L (q j, j) (h.trans c.le) with ⟨h1, _⟩ | h1
      · rw [h1]; exact lt_of_le_of_lt h c
      · exact h1
    · have e : upd q s j = s := if_neg c
      rw [e]
      rcases upd_spec q m L s h with ⟨h1, h2⟩ | h1
      · refine Or.inl ⟨h1, fun k hk => ?_⟩
        rcases List.mem_cons.mp hk with hk | hk
        · rw [hk]; exact not_lt.mp c
        · exact h2 k hk
      · exact Or.inr h1

/-- The selected block is the one of before, and no value of the basis has modulus larger than one, or its value has modulus larger than one. -/
theorem normIdx_spec (phi : ℕ → ℂ → ℂ) (deg : ℕ) (th : ℂ) (idx : ℕ) :
    (normIdx phi deg th idx = idx ∧ ∀ j, 1 ≤ j → j < deg → ‖phi j th‖ ≤ 1) ∨ 1 < ‖phi (normIdx phi deg th idx) th‖ := by
  rcases upd_spec (fun j => ‖phi j th‖) 1 (List.range' 1 (deg - 1)) (1, idx) le_rfl with ⟨h1, h2⟩ | h
  · exact Or.inl ⟨by unfold normIdx; rw [h1], fun j h3 h4 => h2 j (List.mem_range'_1.mpr ⟨h3, by omega⟩)⟩
  · exact Or.inr h

theorem structured_eq (phi : ℕ → ℂ → ℂ) (deg : ℕ) (t : ℂ) (x : V) (a : Item V) (h : Lin phi deg t x a) :
    structuredVec phi deg a = ((((∑ j ∈ Finset.range deg, ‖phi j a.th‖ ^ 2 : ℝ) : ℂ)⁻¹) * ∑ j ∈ Finset.range deg, (starRingEnd ℂ) (phi j a.th) * phi j t) • x := by
  unfold structuredVec
  rw [mul_smul, Finset.sum_smul]
  congr 1
  refine Finset.sum_congr rfl fun j hj => ?_
  rw [h j (Finset.mem_range.mp hj), mul_smul]

theorem structured_self (phi : ℕ → ℂ → ℂ) (h0 : ∀ z, phi 0 z = 1) (deg : ℕ) (hd : 0 < deg) (x : V) (a : Item V) (h : Lin phi deg a.th x a) : structuredVec phi deg a = x := by
  rw [structured_eq phi deg a.th x a h]
  have e : (∑ j ∈ Finset.range deg, (starRingEnd ℂ) (phi j a.th) * phi j a.th) = ((∑ j ∈ Finset.range deg, ‖phi j a.th‖ ^ 2 : ℝ) : ℂ) := by
    rw [Complex.ofReal_sum]
    refine Finset.sum_congr rfl fun j _ => ?_
    rw [mul_comm, Complex.mul_conj, Complex.normSq_eq_norm_sq]
  have p : (0 : ℝ) < ∑ j ∈ Finset.range deg, ‖phi j a.th‖ ^ 2 := by
    have h1 : ‖phi 0 a.th‖ ^ 2 ≤ ∑ j ∈ Finset.range deg, ‖phi j a.th‖ ^ 2 :=
      Finset.single_le_sum (f := fun j => ‖phi j a.th‖ ^ 2) (fun j _ => sq_nonneg _) (Finset.mem_range.mpr hd)
    rw [h0, norm_one, one_pow] at h1
    exact lt_of_lt_of_le one_pos h1
  rw [e, inv_mul_cancel₀ (Complex.ofReal_ne_zero.mpr p.ne'), one_smul]

/-! ### C203 -/

/-- One item, its value and its eigenvector. -/
abbrev Sol (V : Type) := Item V × ℂ × V

/-- Every method returns one vector for each value, in the same order, and it is a multiple of the eigenvector, maybe zero, whatever value the basis is evaluated at and whatever the residuals are. -/
theorem C203_multiple_partial (phi : ℕ → ℂ → ℂ) (deg : ℕ) (hd : 0 < deg) (e : Extract) (l : List (Sol V)) (h : ∀ s ∈ l, Lin phi deg s.2.1 s.2.2 s.1) :
    List.Forall₂ (fun y s => ∃ c : ℂ, y = c • s.2.2) (extract phi deg e (l.map Prod.fst)) l := by
  unfold extract
  suffices H : ∀ (idx : ℕ), idx < deg → List.Forall₂ (fun y (s : Sol V) => ∃ c : ℂ, y = c • s.2.2) (extractFrom phi deg e idx (l.map Prod.fst)) l from H 0 hd
  induction l with
  | nil => intro idx _; cases e <;> exact List.Forall₂.nil
  | cons s l ih =>
    intro idx hi
    have hs := h s List.mem_cons_self
    have ih := ih fun t ht => h t (List.mem_cons_of_mem _ ht)
    cases e with
    | none => exact List.Forall₂.cons ⟨_, hs 0 hd⟩ (ih idx hi)
    | norm => exact List.Forall₂.cons ⟨_, hs _ (normIdx_lt phi _ hi)⟩ (ih _ (normIdx_lt phi _ hi))
    | residual => exact List.Forall₂.cons ⟨_, hs _ (resIdx_lt _ hi)⟩ (ih _ (resIdx_lt _ hi))
    | structured => exact List.Forall₂.cons ⟨_, structured_eq phi deg _ _ _ hs⟩ (ih idx hi)

/-- Without extraction, and with structured extraction if the basis is evaluated at the value of the linearization, the vectors are the eigenvectors themselves. -/
theorem C203_exact_partial (phi : ℕ → ℂ → ℂ) (h0 : ∀ z, phi 0 z = 1) (deg : ℕ) (hd : 0 < deg) (e : Extract) (l : List (Sol V)) (h : ∀ s ∈ l, Lin phi deg s.2.1 s.2.2 s.1)
    (he : e = .none ∨ e = .structured ∧ ∀ s ∈ l, s.1.th = s.2.1) :
    extract phi deg e (l.map Prod.fst) = l.map fun s => s.2.2 := by
  unfold extract
  induction l with
  | nil => cases e <;> rfl
  | cons s l ih =>
    have hs := h s List.mem_cons_self
    have ih := ih (fun t ht => h t (List.mem_cons_of_mem _ ht)) (he.imp id fun g => ⟨g.1, fun t ht => g.2 t (List.mem_cons_of_mem _ ht)⟩)
    rcases he with he | ⟨he, hv⟩
    · subst he
      show s.1.u 0 :: _ = s.2.2 :: _
      rw [hs 0 hd, h0, one_smul]
      exact congrArg _ ih
    · subst he
      show structuredVec phi deg s.1 :: _ = s.2.2 :: _
      rw [structured_self phi h0 deg hd s.2.2 s.1 (by rw [hv s List.mem_cons_self]; exact hs)]
      exact congrArg _ ih

/-- Extraction by norm gives nonzero multiples if the basis is evaluated at the value of the linearization and, for each value, either some polynomial of the basis has modulus larger than one there,
or none has at any value before. -/
theorem C203_norm_partial (phi : ℕ → ℂ → ℂ) (h0 : ∀ z, phi 0 z = 1) (deg : ℕ) (hd : 0 < deg) (l : List (Sol V)) (h : ∀ s ∈ l, Lin phi deg s.2.1 s.2.2 s.1)
    (hv : ∀ s ∈ l, s.1.th = s.2.1)
    (hb : l.Pairwise fun r s => (∃ j, 1 ≤ j ∧ j < deg ∧ 1 < ‖phi j r.2.1‖) → ∃ j, 1 ≤ j ∧ j < deg ∧ 1 < ‖phi j s.2.1‖) :
    List.Forall₂ (fun y s => NonzeroMultiple y s.2.2) (extract phi deg .norm (l.map Prod.fst)) l := by
  unfold extract
  suffices H : ∀ (idx : ℕ), idx < deg → (idx = 0 ∨ ∀ s ∈ l, ∃ j, 1 ≤ j ∧ j < deg ∧ 1 < ‖phi j s.2.1‖) →
      List.Forall₂ (fun y (s : Sol V) => NonzeroMultiple y s.2.2) (extractFrom phi deg .norm idx (l.map Prod.fst)) l from H 0 hd (Or.inl rfl)
  induction l with
  | nil => intro idx _ _; exact List.Forall₂.nil
  | cons s l ih =>
    intro idx hi hidx
    have hs := h s List.mem_cons_self
    have hvs := hv s List.mem_cons_self
    have hlt : normIdx phi deg s.1.th idx < deg := normIdx_lt phi _ hi
    have ih := ih (fun t ht => h t (List.mem_cons_of_mem _ ht)) (fun t ht => hv t (List.mem_cons_of_mem _ ht)) (List.pairwise_cons.mp hb).2
    refine List.Forall₂.cons ⟨phi (normIdx phi deg s.1.th idx) s.2.1, ?_, hs _ hlt⟩ (ih _ hlt ?_)
    · rcases normIdx_spec phi deg s.1.th idx with ⟨h1, h2⟩ | h1
      · rcases hidx with h3 | h3
        · rw [h1, h3, h0]; exact one_ne_zero
        · obtain ⟨j, j1, j2, j3⟩ := h3 s List.mem_cons_self
          have := h2 j j1 j2
          rw [hvs] at this
          exact absurd j3 (not_lt.mpr this)
      · rw [hvs] at h1 ⊢
        intro hc
        rw [hc, norm_zero] at h1
        exact absurd h1 (by norm_num)
    · rcases normIdx_spec phi deg s.1.th idx with ⟨h1, h2⟩ | h1
      · rcases hidx with h3 | h3
        · exact Or.inl (by rw [h1, h3])
        · exact Or.inr fun t ht => h3 t (List.mem_cons_of_mem _ ht)
      · right
        intro t ht
        refine (List.pairwise_cons.mp hb).1 t ht ⟨normIdx phi deg s.1.th idx, ?_, hlt, by rw [hvs] at h1 ⊢; exact h1⟩
        by_contra hc
        have : normIdx phi deg s.1.th idx = 0 := by omega
        rw [this, h0, norm_one] at h1
        exact lt_irrefl _ h1

/-- An eigenvector of the linearization for the value `t` in the monomial basis, with the basis evaluated at `s`. -/
def mono (s t : ℂ) : Item ℂ := ⟨s, fun j => t ^ j, fun _ => 0⟩

/-- Extraction by norm can return the zero vector: the block selected for the value 2 is used for the value 0 too (quadratic problem, monomial basis). -/
theorem C203_norm_false : Lin (fun j z => z ^ j) 2 (2 : ℂ) (1 : ℂ) (mono 2 2) ∧ Lin (fun j z => z ^ j) 2 (0 : ℂ) (1 : ℂ) (mono 0 0) ∧
    ∃ y, extract (fun j z => z ^ j) 2 .norm [mono 2 2, mono 0 0] = [y, 0] := by
  have e1 : normIdx (fun j (z : ℂ) => z ^ j) 2 2 0 = 1 := by
    show (if (1 : ℝ) < ‖(2 : ℂ) ^ 1‖ then (‖(2 : ℂ) ^ 1‖, 1) else (1, 0)).2 = 1
    rw [if_pos (by rw [pow_one]; norm_num)]
  have e2 : normIdx (fun j (z : ℂ) => z ^ j) 2 0 1 = 1 := by
    show (if (1 : ℝ) < ‖(0 : ℂ) ^ 1‖ then (‖(0 : ℂ) ^ 1‖, 1) else (1, 1)).2 = 1
    rw [if_neg (by rw [pow_one, norm_zero]; norm_num)]
  refine ⟨fun j _ => ?_, fun j _ => ?_, (mono 2 2).u 1, ?_⟩
  · show (2 : ℂ) ^ j = (2 : ℂ) ^ j • (1 : ℂ)
    rw [smul_eq_mul, mul_one]
  · show (0 : ℂ) ^ j = (0 : ℂ) ^ j • (1 : ℂ)
    rw [smul_eq_mul, mul_one]
  · show [(mono 2 2).u (normIdx (fun j (z : ℂ) => z ^ j) 2 2 0), (mono 0 0).u (normIdx (fun j (z : ℂ) => z ^ j) 2 0 (normIdx (fun j (z : ℂ) => z ^ j) 2 2 0))] = _
    rw [e1, e2]
    show [_, (0 : ℂ) ^ 1] = _
    rw [pow_one]

/-- The same two values in the other order meet the hypotheses of `C203_norm_partial`. -/
example : (∀ s ∈ [((mono 0 0, 0, 1) : Sol ℂ), (mono 2 2, 2, 1)], Lin (fun j z => z ^ j) 2 s.2.1 s.2.2 s.1 ∧ s.1.th = s.2.1) ∧
    [((mono 0 0, 0, 1) : Sol ℂ), (mono 2 2, 2, 1)].Pairwise fun r s => (∃ j, 1 ≤ j ∧ j < 2 ∧ 1 < ‖r.2.1 ^ j‖) → ∃ j, 1 ≤ j ∧ j < 2 ∧ 1 < ‖s.2.1 ^ j‖ := by
  refine ⟨?_, ?_⟩
  · intro s hs
    rcases List.mem_cons.mp hs with h | h
    · subst h
      exact ⟨fun j _ => by show (0 : ℂ) ^ j = (0 : ℂ) ^ j • (1 : ℂ); rw [smul_eq_mul, mul_one], rfl⟩
    · have h := List.mem_singleton.mp h
      subst h
      exact ⟨fun j _ => by show (2 : ℂ) ^ j = (2 : ℂ) ^ j • (1 : ℂ); rw [smul_eq_mul, mul_one], rfl⟩
  · refine List.pairwise_cons.mpr ⟨fun s hs _ => ?_, List.pairwise_singleton _ _⟩
    have h := List.mem_singleton.mp hs
    subst h
    exact ⟨1, le_rfl, by norm_num, by show (1 : ℝ) < ‖(2 : ℂ) ^ 1‖; rw [pow_one]; norm_num⟩

/-- If the basis is evaluated at another value, structured extraction can return the zero vector as well. -/
theorem C203_structured_value_needed : Lin (fun j z => z ^ j) 2 (1 : ℂ) (1 : ℂ) (mono (-1) 1) ∧ extract (fun j z => z ^ j) 2 .structured [mono (-1) 1] = [0] := by
  have hl : Lin (fun j z => z ^ j) 2 (1 : ℂ) (1 : ℂ) (mono (-1) 1) := fun j _ => by
    show (1 : ℂ) ^ j = (1 : ℂ) ^ j • (1 : ℂ)
    rw [smul_eq_mul, mul_one]
  refine ⟨hl, ?_⟩
  show [structuredVec _ 2 (mono (-1) 1)] = [0]
  rw [structured_eq _ 2 1 1 _ hl]
  simp [Finset.sum_range_succ, mono]

end
end Verif.Text
