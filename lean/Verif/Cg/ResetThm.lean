import Verif.Cg.ResetModel
import Verif.Iter.Two

/-!
# C162: the reset of EPSRQCG as Rayleigh-Ritz projection
-/
set_option linter.all false

namespace Verif.Cg

open Finset

variable {E : Type*} [NormedAddCommGroup E] [InnerProductSpace ℂ E]

/-- `(x, t)` is a Ritz pair of `A` in the span of `V l, ..., V (n-1)`. -/
def RitzPair (A : E →ₗ[ℂ] E) (V : ℕ → E) (l n : ℕ) (x : E) (t : ℝ) : Prop :=
  x ∈ Submodule.span ℂ (V '' {i | l ≤ i ∧ i < n}) ∧ ∀ y ∈ Submodule.span ℂ (V '' {i | l ≤ i ∧ i < n}), inner ℂ y (A x - (t : ℂ) • x) = 0

/-- orthonormal on a range of indices -/
def OrthoR (V : ℕ → E) (l n : ℕ) : Prop := ∀ i, l ≤ i → i < n → ∀ j, l ≤ j → j < n → inner ℂ (V i) (V j) = if i = j then (1 : ℂ) else 0

theorem fill_entries (A : E →ₗ[ℂ] E) (V : ℕ → E) (l : ℕ) (C : ℕ → ℕ → ℂ) : ∀ g r c,
    fill A V l g C r c = if l ≤ r ∧ r ≤ c ∧ c < l + g then inner ℂ (V r) (A (V c)) else if l ≤ c ∧ c + 1 < r ∧ r < l + g then star (inner ℂ (V c) (A (V r))) else C r c := by
  intro g
  induction g with
  | zero => intro r c; rw [if_neg (by omega), if_neg (by omega)]; rfl
  | succ g ih =>
    intro r c
    show fillRow l (l + g) (fillCol A V l (l + g) (fill A V l g C)) r c = _
    unfold fillRow fillCol
    by_cases h1 : r = l + g ∧ l ≤ c ∧ c < l + g - 1
    · rw [if_pos h1, if_pos ⟨rfl, h1.2.1, by omega⟩, if_neg (by omega), if_pos (by omega)]
      rw [h1.1]
    · rw [if_neg h1]
      by_cases h2 : c = l + g ∧ l ≤ r ∧ r ≤ l + g
      · rw [if_pos h2, if_pos (by omega), h2.1]
      · rw [if_neg h2, ih r c]
        by_cases h3 : l ≤ r ∧ r ≤ c ∧ c < l + g
        · rw [if_pos h3, if_pos (by omega)]
        · rw [if_neg h3, if_neg (by omega : ¬ (l ≤ r ∧ r ≤ c ∧ c < l + (g + 1)))]
          by_cases h4 : l ≤ c ∧ c + 1 < r ∧ r < l + g
          · rw [if_pos h4, if_pos (by omega)]
          · rw [if_neg h4, if_neg (by omega)]

/-- The matrix the dense solver sees: all entries of the projected matrix except those next to the diagonal, for
which it sees the old contents of the array. -/
theorem C162_entries {A : E →ₗ[ℂ] E} (hA : A.IsSymmetric) (V : ℕ → E) (l n : ℕ) (C : ℕ → ℕ → ℂ) {i j : ℕ} (hi : l ≤ i) (hin : i < n) (hj : l ≤ j) (hjn : j < n) :
    (i ≠ j + 1 → j ≠ i + 1 → readL (fill A V l (n - l) C) i j = inner ℂ (V i) (A (V j))) ∧
    (i = j + 1 → readL (fill A V l (n - l) C) i j = C i j) ∧ (j = i + 1 → readL (fill A V l (n - l) C) i j = star (C j i)) := by
  have hs : ∀ x y : E, star (inner ℂ x (A y) : ℂ) = inner ℂ y (A x) := by
    intro x y
    rw [← hA y x]
    exact inner_conj_symm (A y) x
  refine ⟨fun h1 h2 => ?_, fun h => ?_, fun h => ?_⟩
  · unfold readL
    by_cases hle : j ≤ i
    · rw [if_pos hle, fill_entries]
      by_cases he : i = j
      · rw [if_pos (by omega), he]
      · rw [if_neg (by omega), if_pos (by omega), hs]
    · rw [if_neg hle, fill_entries, if_neg (by omega), if_pos (by omega), hs, hs]
  · unfold readL
    rw [if_pos (by omega), fill_entries, if_neg (by omega), if_neg (by omega)]
  · unfold readL
    rw [if_neg (by omega), fill_entries, if_neg (by omega), if_neg (by omega)]

/-- The entries below the diagonal that are not filled are zero in every run. -/
theorem C162_stale {A : E →ₗ[ℂ] E} {l : ℕ} {C : ℕ → ℕ → ℂ} (h : ArrayAt A l C) : ∀ j, l ≤ j → C (j + 1) j = 0 := by
  induction h with
  | init => intro _ _; rfl
  | reset l n V th C _ ih =>
    intro j hj
    unfold leaveDiag
    by_cases hb : l ≤ j + 1 ∧ j + 1 < n ∧ l ≤ j ∧ j < n
    · rw [if_pos hb, if_neg (by omega)]
    · rw [if_neg hb, fill_entries, if_neg (by omega), if_neg (by omega)]; exact ih j hj
  | store l k th C _ ih =>
    intro j hj
    unfold storeDiag
    rw [if_neg (by omega)]; exact ih j hj
  | lock l k C _ hk ih => intro j hj; exact ih j (hk.trans hj)

theorem rotate_ortho {V : ℕ → E} {l n : ℕ} {M : ℕ → ℕ → ℂ} {th : ℕ → ℝ} {Q : ℕ → ℕ → ℂ} (hV : OrthoR V l n) (hQ : Solved M l n th Q) : OrthoR (rotate V l n Q) l n := by
  intro i hi hin j hj hjn
  unfold rotate
  rw [if_pos ⟨hi, hin⟩, if_pos ⟨hj, hjn⟩, sum_inner]
  rw [← hQ.cols i hi hin j hj hjn]
  apply sum_congr rfl
  intro r hr
  rw [mem_Ico] at hr
  rw [inner_sum, sum_eq_single_of_mem r (mem_Ico.mpr hr)]
  · rw [inner_smul_left, inner_smul_right, hV r hr.1 hr.2 r hr.1 hr.2, if_pos rfl, mul_one]; rfl
  · intro b hb hne
    rw [mem_Ico] at hb
    rw [inner_smul_left, inner_smul_right, hV r hr.1 hr.2 b hb.1 hb.2, if_neg (Ne.symm hne)]; ring

theorem rotate_inner {A : E →ₗ[ℂ] E} {V : ℕ → E} {l n : ℕ} {Q : ℕ → ℕ → ℂ} {th : ℕ → ℝ} (hV : OrthoR V l n) {i j : ℕ} (hi : l ≤ i) (hin : i < n) (hj : l ≤ j) (hjn : j < n) :
    inner ℂ (V i) (A (rotate V l n Q j) - (th j : ℂ) • rotate V l n Q j) = ∑ r ∈ Ico l n, inner ℂ (V i) (A (V r)) * Q r j - Q i j * (th j : ℂ) := by
  unfold rotate
  rw [if_pos ⟨hj, hjn⟩, inner_sub_right, map_sum, inner_sum, inner_smul_right, inner_sum]
  congr 1
  · apply sum_congr rfl
    intro r _
    rw [map_smul, inner_smul_right, mul_comm]
  · rw [sum_eq_single_of_mem i (mem_Ico.mpr ⟨hi, hin⟩)]
    · rw [inner_smul_right, hV i hi hin i hi hin, if_pos rfl]; ring
    · intro b hb hne
      rw [mem_Ico] at hb
      rw [inner_smul_right, hV i hi hin b hb.1 hb.2, if_neg (Ne.symm hne), mul_zero]

/-- The new vectors are Ritz vectors with the new values exactly when the matrix seen is the projected matrix. -/
theorem ritz_iff {A : E →ₗ[ℂ] E} {V : ℕ → E} {l n : ℕ} {M : ℕ → ℕ → ℂ} {th : ℕ → ℝ} {Q : ℕ → ℕ → ℂ} (hV : OrthoR V l n) (hQ : Solved M l n th Q) :
    (∀ j, l ≤ j → j < n → RitzPair A V l n (rotate V l n Q j) (th j)) ↔ ∀ i, l ≤ i → i < n → ∀ j, l ≤ j → j < n → M i j = inner ℂ (V i) (A (V j)) := by
  constructor
  · intro h i hi hin j hj hjn
    have key : ∀ s, l ≤ s → s < n → ∑ r ∈ Ico l n, (M i r - inner ℂ (V i) (A (V r))) * Q r s = 0 := by
      intro s hs hsn
      have h1 := (h s hs hsn).2 (V i) (Submodule.subset_span ⟨i, ⟨hi, hin⟩, rfl⟩)
      rw [rotate_inner hV hi hin hs hsn, ← hQ.eig i hi hin s hs hsn, ← sum_sub_distrib] at h1
      rw [← neg_eq_zero, ← sum_neg_distrib, ← h1]
      apply sum_congr rfl
      intro r _
      ring
    have : ∑ s ∈ Ico l n, (∑ r ∈ Ico l n, (M i r - inner ℂ (V i) (A (V r))) * Q r s) * star (Q j s) = M i j - inner ℂ (V i) (A (V j)) := by
      simp only [sum_mul]
      rw [sum_comm, sum_eq_single_of_mem j (mem_Ico.mpr ⟨hj, hjn⟩)]
      · simp only [mul_assoc]
        rw [← mul_sum, hQ.rows j hj hjn j hj hjn, if_pos rfl, mul_one]
      · intro b hb hne
        rw [mem_Ico] at hb
        simp only [mul_assoc]
        rw [← mul_sum, hQ.rows b hb.1 hb.2 j hj hjn, if_neg hne, mul_zero]
    rw [sum_eq_zero] at this
    · exact (sub_eq_zero.mp this.symm)
    · intro s hs
      rw [mem_Ico] at hs
      rw [key s hs.1 hs.2, zero_mul]
  · intro h j hj hjn
    refine ⟨?_, ?_⟩
    · unfold rotate
      rw [if_pos ⟨hj, hjn⟩]
      refine Submodule.sum_mem _ fun i hi => Submodule.smul_mem _ _ (Submodule.subset_span ⟨i, ?_, rfl⟩)
      exact mem_Ico.mp hi
    · intro y hy
      induction hy using Submodule.span_induction with
      | mem y hy =>
        obtain ⟨i, ⟨hi, hin⟩, rfl⟩ := hy
        rw [rotate_inner hV hi hin hj hjn, ← hQ.eig i hi hin j hj hjn, sub_eq_zero]
        apply sum_congr rfl
        intro r hr
        rw [mem_Ico] at hr
        rw [h i hi hin r hr.1 hr.2]
      | zero => simp
      | add a b _ _ ha hb => rw [inner_add_left, ha, hb, add_zero]
      | smul a b _ hb => rw [inner_smul_left, hb, mul_zero]

/-- **C162, the part that holds.**  The active vectors stay orthonormal; and if consecutive active vectors are not coupled
by `A`, the reset is the Rayleigh-Ritz projection.  (`V` orthonormal, as after BVOrthonormalizeColumn; standard problem.) -/
theorem C162_partial {A : E →ₗ[ℂ] E} (hA : A.IsSymmetric) {V : ℕ → E} {l n : ℕ} {C : ℕ → ℕ → ℂ} {th : ℕ → ℝ} {Q : ℕ → ℕ → ℂ}
    (hC : ArrayAt A l C) (hV : OrthoR V l n) (hQ : Solved (readL (fill A V l (n - l) C)) l n th Q) :
    OrthoR (rotate V l n Q) l n ∧
    ((∀ i, l ≤ i → i + 1 < n → inner ℂ (V (i + 1)) (A (V i)) = (0 : ℂ)) → ∀ j, l ≤ j → j < n → RitzPair A V l n (rotate V l n Q j) (th j)) := by
  refine ⟨rotate_ortho hV hQ, fun h0 => (ritz_iff hV hQ).mpr ?_⟩
  intro i hi hin j hj hjn
  obtain ⟨h1, h2, h3⟩ := C162_entries hA V l n C hi hin hj hjn
  by_cases e1 : i = j + 1
  · rw [h2 e1, e1, C162_stale hC j hj, h0 j hj (by omega)]
  · by_cases e2 : j = i + 1
    · rw [h3 e2, e2, C162_stale hC i hi, star_zero]
      have := h0 i hi (by omega)
      rw [← hA, ← inner_conj_symm, this]
      simp
    · exact h1 e1 e2

/-- **C162 is false of the code, in every run:** if two consecutive active vectors are coupled by `A`, the
reset does not give the Ritz pairs of the subspace. -/
theorem C162_false {A : E →ₗ[ℂ] E} (hA : A.IsSymmetric) {V : ℕ → E} {l n : ℕ} {C : ℕ → ℕ → ℂ} {th : ℕ → ℝ} {Q : ℕ → ℕ → ℂ}
    (hC : ArrayAt A l C) (hV : OrthoR V l n) (hQ : Solved (readL (fill A V l (n - l) C)) l n th Q)
    {i : ℕ} (hi : l ≤ i) (hin : i + 1 < n) (hne : inner ℂ (V (i + 1)) (A (V i)) ≠ (0 : ℂ)) :
    ¬ ∀ j, l ≤ j → j < n → RitzPair A V l n (rotate V l n Q j) (th j) := by
  intro h
  have := (ritz_iff hV hQ).mp h (i + 1) (by omega) hin i hi (by omega)
  rw [(C162_entries hA V l n C (by omega : l ≤ i + 1) hin hi (by omega)).2.1 rfl, C162_stale hC i hi] at this
  exact hne this.symm

/-- A case: `A = [0 1; 1 0]`, `V` the identity; the solver sees the zero matrix, so that the values become 0 and 0, while the Ritz values are 1 and -1. -/
example : ∃ (A : Iter.E2 →ₗ[ℂ] Iter.E2) (V : ℕ → Iter.E2), A.IsSymmetric ∧ OrthoR V 0 2 ∧
    Solved (readL (fill A V 0 2 (fun _ _ => 0))) 0 2 (fun _ => 0) (fun i j => if i = j then 1 else 0) ∧ inner ℂ (V (0 + 1)) (A (V 0)) ≠ (0 : ℂ) := by
  have hin : ∀ a b c d : ℂ, inner ℂ (Iter.vec2 a b) (Iter.op2 0 1 1 0 (Iter.vec2 c d)) = star a * d + star b * c := by
    intro a b c d; rw [Iter.op2_vec, Iter.inner2]; ring
  obtain ⟨V, h0, h1⟩ : ∃ V : ℕ → Iter.E2, V 0 = Iter.vec2 1 0 ∧ V 1 = Iter.vec2 0 1 := ⟨fun i => if i = 0 then Iter.vec2 1 0 else Iter.vec2 0 1, rfl, rfl⟩
  refine ⟨Iter.op2 0 1 1 0, V, ?_, ?_, ?_, ?_⟩
  · intro x y
    have hx : ∀ z : Iter.E2, z = Iter.vec2 (z 0) (z 1) := by
      intro z; ext i; fin_cases i <;> simp [Iter.vec2]
    rw [hx x, hx y, Iter.op2_vec, Iter.op2_vec, Iter.inner2, Iter.inner2]
    simp
    ring
  · intro i _ hi j _ hj
    interval_cases i <;> interval_cases j <;> simp only [h0, h1, Iter.inner2] <;> simp
  · have hz : ∀ i, i < 2 → ∀ j, j < 2 → readL (fill (Iter.op2 0 1 1 0) V 0 2 (fun _ _ => 0)) i j = 0 := by
      intro i hi j hj
      unfold readL
      rw [fill_entries, fill_entries]
      interval_cases i <;> interval_cases j <;> simp [h0, h1, hin]
    constructor
    · intro i _ hi j _ hj
      rw [sum_eq_zero]
      · simp
      · intro r hr
        rw [mem_Ico] at hr
        rw [hz i hi r hr.2, zero_mul]
    · intro i _ hi j _ hj
      interval_cases i <;> interval_cases j <;> simp [sum_Ico_eq_sum_range, sum_range_succ]
    · intro i _ hi j _ hj
      interval_cases i <;> interval_cases j <;> simp [sum_Ico_eq_sum_range, sum_range_succ]
  · rw [show (0 + 1 : ℕ) = 1 from rfl, h0, h1, hin]; simp

end Verif.Cg
