import Verif.Slice.Model
import Mathlib.Data.Multiset.Count
/-! Counting lemmas for the model of spectrum slicing. -/
set_option linter.all false
namespace Verif.Slice
noncomputable section
open Classical

/-- `l` lies strictly between `x` and `y` in the direction `d`. -/
def btw (d : ℤ) (x y l : ℝ) : Prop := 0 < (d : ℝ) * (l - x) ∧ 0 < (d : ℝ) * (y - l)

theorem countP_split (d : ℤ) (hd : d = 1 ∨ d = -1) (x y z : ℝ) (hx : 0 ≤ (d : ℝ) * (z - x)) (hy : 0 ≤ (d : ℝ) * (y - z))
    (M : Multiset ℝ) (hz : z ∉ M) :
    M.countP (btw d x y) = M.countP (btw d x z) + M.countP (btw d z y) := by
  induction M using Multiset.induction with
  | empty => simp
  | cons a M ih =>
    have ha : z ≠ a := fun h => hz (by simp [h])
    rw [Multiset.countP_cons, Multiset.countP_cons, Multiset.countP_cons, ih (fun h => hz (by simp [h]))]
    have : (if btw d x y a then 1 else 0) = (if btw d x z a then 1 else 0) + (if btw d z y a then (1 : ℕ) else 0) := by
      have hne : (d : ℝ) * z ≠ d * a := by
        rcases hd with rfl | rfl
        · simpa using ha
        · simpa using ha
      simp only [btw, mul_sub, sub_pos, sub_nonneg] at *
      generalize (d : ℝ) * a = A at *
      generalize (d : ℝ) * x = X at *
      generalize (d : ℝ) * y = Y at *
      generalize (d : ℝ) * z = Z at *
      rcases lt_or_gt_of_ne hne with h | h <;> by_cases h1 : X < A <;> by_cases h2 : A < Y <;>
        first
        | (exfalso; linarith)
        | simp [h, h1, h2, not_lt.mpr h.le]
    omega

theorem countP_lt_diff (d : ℤ) (hd : d = 1 ∨ d = -1) (x y : ℝ) (hxy : 0 ≤ (d : ℝ) * (y - x)) (M : Multiset ℝ) (hx : x ∉ M) (hy : y ∉ M) :
    d * ((M.countP (fun l => l < y) : ℤ) - (M.countP (fun l => l < x) : ℤ)) = (M.countP (btw d x y) : ℤ) := by
  induction M using Multiset.induction with
  | empty => simp
  | cons a M ih =>
    have hxa : x ≠ a := fun h => hx (by simp [h])
    have hya : y ≠ a := fun h => hy (by simp [h])
    have ih' := ih (fun h => hx (by simp [h])) (fun h => hy (by simp [h]))
    rw [Multiset.countP_cons, Multiset.countP_cons, Multiset.countP_cons]
    have : d * (((if a < y then 1 else 0 : ℕ) : ℤ) - ((if a < x then 1 else 0 : ℕ) : ℤ)) = ((if btw d x y a then 1 else 0 : ℕ) : ℤ) := by
      rcases hd with rfl | rfl <;> rcases lt_or_gt_of_ne hxa with h1 | h1 <;> rcases lt_or_gt_of_ne hya with h2 | h2 <;>
      · simp only [btw, Int.cast_one, Int.cast_neg, one_mul, neg_mul, neg_sub, sub_pos, sub_nonneg] at *
        first
        | (exfalso; linarith)
        | simp [h1, h2, not_lt.mpr h1.le, not_lt.mpr h2.le]
    push_cast at this ⊢
    linarith

/-- What is assumed of the problem: the eigenvalues are representable numbers and none of them is positive and not larger than the number
that replaces the shift zero. -/
structure Hyp (P : Par) (spec : Multiset ℝ) : Prop where
  pos : 0 < P.maxReal
  bnd : ∀ l ∈ spec, |l| < P.maxReal
  tiny : ∀ l ∈ spec, ¬ (0 < l ∧ l ≤ 10 / P.maxReal)

theorem inertiaAt_eq {P : Par} {spec : Multiset ℝ} (H : Hyp P spec) (v : ℝ) (hv : v ∉ spec) :
    inertiaAt P spec v = (spec.countP (fun l => l < v) : ℤ) := by
  unfold inertiaAt
  by_cases h1 : P.maxReal ≤ v
  · rw [if_pos h1]
    congr 1
    symm
    rw [Multiset.countP_eq_card]
    intro a ha
    have := (abs_lt.mp (H.bnd a ha)).2
    linarith
  · rw [if_neg h1]
    by_cases h2 : v ≤ -P.maxReal
    · rw [if_pos h2]
      have : spec.countP (fun l => l < v) = 0 := by
        rw [Multiset.countP_eq_zero]
        intro a ha
        have := (abs_lt.mp (H.bnd a ha)).1
        linarith
      rw [this]; rfl
    · rw [if_neg h2]
      congr 1
      apply Multiset.countP_congr rfl
      intro a ha
      unfold nz
      by_cases h0 : v = 0
      · rw [if_pos h0, h0]
        have h3 := H.tiny a ha
        have h4 : a ≠ 0 := fun h => hv (by rw [h0, ← h]; exact ha)
        have h5 : 0 < 10 / P.maxReal := by have := H.pos; positivity
        apply propext
        constructor
        · intro h
          by_contra h6
          exact h3 ⟨lt_of_le_of_ne (not_lt.mp h6) (Ne.symm h4), h.le⟩
        · intro h; linarith
      · rw [if_neg h0]

theorem inertia_diff {P : Par} {spec : Multiset ℝ} (H : Hyp P spec) (d : ℤ) (hd : d = 1 ∨ d = -1) (x y : ℝ)
    (hxy : 0 ≤ (d : ℝ) * (y - x)) (hx : x ∉ spec) (hy : y ∉ spec) :
    d * (inertiaAt P spec y - inertiaAt P spec x) = (spec.countP (btw d x y) : ℤ) := by
  rw [inertiaAt_eq H x hx, inertiaAt_eq H y hy]
  exact countP_lt_diff d hd x y hxy spec hx hy

/-! ### The sort -/

theorem insRev_perm (d : ℤ) (r : ℕ → ℝ) (i : ℕ) (l : List ℕ) : (insRev d r i l).Perm (i :: l) := by
  induction l with
  | nil => exact List.Perm.refl _
  | cons j t ih =>
    unfold insRev
    by_cases h : (d : ℝ) * (r i - r j) ≤ 0
    · rw [if_pos h]
      exact (ih.cons j).trans (List.Perm.swap i j t)
    · rw [if_neg h]

theorem foldl_perm (d : ℤ) (r : ℕ → ℝ) (l acc : List ℕ) :
    (l.foldl (fun acc i => insRev d r i acc) acc).Perm (l.reverse ++ acc) := by
  induction l generalizing acc with
  | nil => exact List.Perm.refl _
  | cons i t ih =>
    rw [List.foldl_cons]
    refine (ih _).trans ?_
    rw [List.reverse_cons, List.append_assoc]
    exact (insRev_perm d r i acc).append_left _

theorem sortReal_perm (d : ℤ) (r : ℕ → ℝ) (l : List ℕ) : (sortReal d r l).Perm l := by
  unfold sortReal
  refine (List.reverse_perm _).trans ((foldl_perm d r l []).trans ?_)
  rw [List.append_nil]
  exact List.reverse_perm l

theorem insRev_sorted (d : ℤ) (r : ℕ → ℝ) (i : ℕ) (l : List ℕ) (h : l.Pairwise (fun a b => 0 ≤ (d : ℝ) * (r a - r b))) :
    (insRev d r i l).Pairwise (fun a b => 0 ≤ (d : ℝ) * (r a - r b)) := by
  induction l with
  | nil => exact List.pairwise_singleton _ _
  | cons j t ih =>
    rw [List.pairwise_cons] at h
    unfold insRev
    by_cases hh : (d : ℝ) * (r i - r j) ≤ 0
    · rw [if_pos hh, List.pairwise_cons]
      refine ⟨fun b hb => ?_, ih h.2⟩
      rcases List.mem_cons.mp ((insRev_perm d r i t).mem_iff.mp hb) with rfl | hb'
      · nlinarith
      · exact h.1 b hb'
    · rw [if_neg hh, List.pairwise_cons]
      refine ⟨fun b hb => ?_, List.pairwise_cons.mpr h⟩
      rcases List.mem_cons.mp hb with rfl | hb'
      · linarith
      · have := h.1 b hb'; nlinarith

theorem foldl_sorted (d : ℤ) (r : ℕ → ℝ) (l acc : List ℕ) (h : acc.Pairwise (fun a b => 0 ≤ (d : ℝ) * (r a - r b))) :
    (l.foldl (fun acc i => insRev d r i acc) acc).Pairwise (fun a b => 0 ≤ (d : ℝ) * (r a - r b)) := by
  induction l generalizing acc with
  | nil => exact h
  | cons i t ih => exact ih _ (insRev_sorted d r i acc h)

/-- The list is in the order of traversal. -/
def Srt (d : ℤ) (V : List ℝ) : Prop := V.Pairwise (fun a b => 0 ≤ (d : ℝ) * (b - a))

theorem sortReal_sorted (d : ℤ) (r : ℕ → ℝ) (l : List ℕ) : Srt d ((sortReal d r l).map r) := by
  unfold Srt sortReal
  rw [List.pairwise_map, List.pairwise_reverse]
  exact foldl_sorted d r l [] List.Pairwise.nil

/-! ### Sorted lists -/

theorem drop_countP (d : ℤ) (x : ℝ) (V : List ℝ) (h : Srt d V) :
    V.drop (V.countP (fun v => decide ((d : ℝ) * (v - x) < 0))) = V.filter (fun v => !decide ((d : ℝ) * (v - x) < 0)) := by
  induction V with
  | nil => rfl
  | cons a t ih =>
    unfold Srt at h
    rw [List.pairwise_cons] at h
    by_cases ha : (d : ℝ) * (a - x) < 0
    · rw [List.countP_cons_of_pos (by simpa using ha), List.drop_succ_cons, ih h.2, List.filter_cons_of_neg (by simpa using ha)]
    · have h0 : t.countP (fun v => decide ((d : ℝ) * (v - x) < 0)) = 0 := by
        rw [List.countP_eq_zero]
        intro b hb
        have := h.1 b hb
        simp only [decide_eq_true_eq]
        intro hc
        nlinarith
      rw [List.countP_cons_of_neg (by simpa using ha), h0, List.drop_zero]
      symm
      rw [List.filter_eq_self]
      intro b hb
      rcases List.mem_cons.mp hb with rfl | hb
      · simpa using ha
      · rw [List.countP_eq_zero] at h0
        simpa using h0 b hb

theorem scan_eq (d : ℤ) (value e : ℝ) (V : List ℝ) (h : Srt d V) :
    (scan d value e V).1 = V.countP (fun v => decide ((d : ℝ) * (v - e) < 0 ∧ (d : ℝ) * (v - value) < 0))
    ∧ (scan d value e V).2 = V.countP (fun v => decide ((d : ℝ) * (v - e) < 0 ∧ ¬ (d : ℝ) * (v - value) < 0))
    ∧ V.take ((scan d value e V).1 + (scan d value e V).2) = V.filter (fun v => decide ((d : ℝ) * (v - e) < 0)) := by
  induction V with
  | nil => exact ⟨rfl, rfl, rfl⟩
  | cons a t ih =>
    unfold Srt at h
    rw [List.pairwise_cons] at h
    obtain ⟨i1, i2, i3⟩ := ih h.2
    unfold scan
    by_cases ha : (d : ℝ) * (a - e) < 0
    · rw [if_pos ha]
      by_cases hv : (d : ℝ) * (a - value) < 0
      · rw [if_pos hv, List.countP_cons_of_pos (by simpa using ⟨ha, hv⟩), List.countP_cons_of_neg (by simp [hv]),
          List.filter_cons_of_pos (by simpa using ha), ← i1, ← i2, ← i3]
        refine ⟨rfl, rfl, ?_⟩
        rw [show (scan d value e t).1 + 1 + (scan d value e t).2 = ((scan d value e t).1 + (scan d value e t).2) + 1 by omega]
        rfl
      · rw [if_neg hv, List.countP_cons_of_neg (by simp [hv]), List.countP_cons_of_pos (by simpa using ⟨ha, not_lt.mp hv⟩),
          List.filter_cons_of_pos (by simpa using ha), ← i1, ← i2, ← i3]
        exact ⟨rfl, rfl, rfl⟩
    · rw [if_neg ha]
      have h0 : ∀ b ∈ a :: t, ¬ (d : ℝ) * (b - e) < 0 := by
        intro b hb
        rcases List.mem_cons.mp hb with rfl | hb
        · exact ha
        · have := h.1 b hb
          intro hc; nlinarith
      refine ⟨?_, ?_, ?_⟩
      · symm; rw [List.countP_eq_zero]; intro b hb; simp [h0 b hb]
      · symm; rw [List.countP_eq_zero]; intro b hb; simp [h0 b hb]
      · symm
        show _ = []
        rw [List.filter_eq_nil_iff]
        intro b hb; simpa using h0 b hb

end
end Verif.Slice
