import Verif.Sort.CriteriaModel
import Mathlib.Tactic.Linarith
import Mathlib.Tactic.FieldSimp
import Mathlib.Tactic.Ring
/-! # Property C04: the predefined criteria are the documented total preorders -/
set_option linter.all false
namespace Verif.Sort

theorem slepcAbs_eq (x y : ℝ) : slepcAbs x y = ‖(⟨x, y⟩ : ℂ)‖ := by
  have key : ∀ a b : ℝ, 0 < b → b ≤ a → a * Real.sqrt (1 + b / a * (b / a)) = Real.sqrt (a ^ 2 + b ^ 2) := by
    intro a b hb hab
    have ha : 0 < a := lt_of_lt_of_le hb hab
    rw [show a ^ 2 + b ^ 2 = a ^ 2 * (1 + b / a * (b / a)) by field_simp,
      Real.sqrt_mul (by positivity), Real.sqrt_sq ha.le]
  rw [Complex.norm_def, Complex.normSq_mk]
  unfold slepcAbs
  have hx := abs_nonneg x
  have hy := abs_nonneg y
  rw [show x * x + y * y = |x| ^ 2 + |y| ^ 2 by rw [sq_abs, sq_abs]; ring]
  rcases le_total |x| |y| with h | h
  · simp only [max_eq_right h, min_eq_left h]
    split_ifs with h0
    · rw [h0]; simp [Real.sqrt_sq_eq_abs]
    · rw [key _ _ (lt_of_le_of_ne hx (Ne.symm h0)) h, add_comm]
  · simp only [max_eq_left h, min_eq_right h]
    split_ifs with h0
    · rw [h0]; simp [Real.sqrt_sq_eq_abs]
    · rw [key _ _ (lt_of_le_of_ne hy (Ne.symm h0)) h]

theorem wantLarge_le {a b : ℝ} : wantLarge a b ≤ 0 ↔ b ≤ a := by
  unfold wantLarge; split_ifs with h1 h2 <;> simp <;> linarith
theorem wantSmall_le {a b : ℝ} : wantSmall a b ≤ 0 ↔ a ≤ b := by
  unfold wantSmall; split_ifs with h1 h2 <;> simp <;> linarith

/-- **C04** (meaning, real scalars). The result code is non-positive exactly when the documented
criterion wants the first value at least as much as the second. -/
theorem C04_real_documented (tau : ℝ) (c : Crit) (ar ai br bi : ℝ) :
    critReal tau c ar ai br bi ≤ 0 ↔ GoodAs false tau c ⟨ar, ai⟩ ⟨br, bi⟩ := by
  have hsub : ∀ x y : ℝ, (⟨x, y⟩ : ℂ) - (tau : ℂ) = ⟨x - tau, y⟩ := by
    intro x y; apply Complex.ext <;> simp
  cases c <;> simp only [critReal, GoodAs, slepcAbs_eq, wantLarge_le, wantSmall_le, hsub]
  · simp only [imPart, Bool.false_eq_true, if_false]
    rcases lt_trichotomy |ai| |bi| with h | h | h
    · rw [if_pos h]; simp; constructor
      · linarith
      · intro h1; exact absurd h1 h.ne'
    · rw [if_neg h.not_lt, if_neg (by rw [h]; simp), wantLarge_le]; simp [h]
    · rw [if_neg h.not_gt, if_pos h]; simp [h]
  · simp only [imPart, Bool.false_eq_true, if_false]
    rcases lt_trichotomy |ai| |bi| with h | h | h
    · rw [if_neg h.not_gt, if_pos h]; simp [h]
    · rw [if_neg (by rw [h]; simp), if_neg (by rw [h]; simp), wantLarge_le]; simp [h]
    · rw [if_pos h]; simp; constructor
      · linarith
      · intro h1; exact absurd h1 h.ne
  · simp
  · simp
  · by_cases h1 : 0 < ar <;> by_cases h2 : 0 < br <;> simp [h1, h2, wantSmall_le]

/-- **C04** (meaning, complex scalars). -/
theorem C04_complex_documented (tau : ℂ) (c : Crit) (ar ai br bi : ℂ) :
    critComplex tau c ar ai br bi ≤ 0 ↔ GoodAs true tau c ar br := by
  cases c <;> simp only [critComplex, GoodAs, wantLarge_le, wantSmall_le, Complex.sub_re, Complex.sub_im]
  · simp only [imPart, if_true]
    rcases lt_trichotomy ar.im br.im with h | h | h
    · rw [if_pos h]; simp; constructor
      · linarith
      · intro h1; exact absurd h1 h.ne'
    · rw [if_neg h.not_lt, if_neg (by rw [h]; simp), wantLarge_le]; simp [h]
    · rw [if_neg h.not_gt, if_pos h]; simp [h]
  · simp only [imPart, if_true]
    rcases lt_trichotomy ar.im br.im with h | h | h
    · rw [if_neg h.not_gt, if_pos h]; simp [h]
    · rw [if_neg (by rw [h]; simp), if_neg (by rw [h]; simp), wantLarge_le]; simp [h]
    · rw [if_pos h]; simp; constructor
      · linarith
      · intro h1; exact absurd h1 h.ne
  · simp
  · by_cases h1 : 0 < ar.re <;> by_cases h2 : 0 < br.re <;> simp [h1, h2, wantSmall_le]

/-- The documented order is a total preorder. -/
theorem goodAs_preorder (cb : Bool) (tau : ℂ) (c : Crit) :
    (∀ z w, GoodAs cb tau c z w ∨ GoodAs cb tau c w z) ∧
    (∀ u v w, GoodAs cb tau c u v → GoodAs cb tau c v w → GoodAs cb tau c u w) := by
  cases c <;> unfold GoodAs
  case largestMagnitude => exact ⟨fun z w => le_total _ _, fun u v w h1 h2 => h2.trans h1⟩
  case smallestMagnitude => exact ⟨fun z w => le_total _ _, fun u v w h1 h2 => h1.trans h2⟩
  case largestReal => exact ⟨fun z w => le_total _ _, fun u v w h1 h2 => h2.trans h1⟩
  case smallestReal => exact ⟨fun z w => le_total _ _, fun u v w h1 h2 => h1.trans h2⟩
  case largestImaginary =>
    generalize imPart cb = p
    constructor
    · intro z w
      rcases lt_trichotomy (p z) (p w) with h | h | h
      · right; left; exact h
      · rcases le_total ‖z‖ ‖w‖ with h' | h'
        · right; right; exact ⟨h, h'⟩
        · left; right; exact ⟨h.symm, h'⟩
      · left; left; exact h
    · rintro u v w (h1 | ⟨h1, h1'⟩) (h2 | ⟨h2, h2'⟩)
      · left; linarith
      · left; linarith
      · left; linarith
      · right; exact ⟨h2.trans h1, h2'.trans h1'⟩
  case smallestImaginary =>
    generalize imPart cb = p
    constructor
    · intro z w
      rcases lt_trichotomy (p z) (p w) with h | h | h
      · left; left; exact h
      · rcases le_total ‖z‖ ‖w‖ with h' | h'
        · right; right; exact ⟨h, h'⟩
        · left; right; exact ⟨h.symm, h'⟩
      · right; left; exact h
    · rintro u v w (h1 | ⟨h1, h1'⟩) (h2 | ⟨h2, h2'⟩)
      · left; linarith
      · left; linarith
      · left; linarith
      · right; exact ⟨h2.trans h1, h2'.trans h1'⟩
  case targetMagnitude => exact ⟨fun z w => le_total _ _, fun u v w h1 h2 => h1.trans h2⟩
  case targetReal => exact ⟨fun z w => le_total _ _, fun u v w h1 h2 => h1.trans h2⟩
  case targetImaginary =>
    refine ⟨fun z w => ?_, fun u v w h1 h2 h => (h1 h).trans (h2 h)⟩
    rcases le_total |z.im - tau.im| |w.im - tau.im| with h | h
    · left; intro; exact h
    · right; intro; exact h
  case smallestPosReal =>
    constructor
    · intro z w
      by_cases h1 : 0 < z.re <;> by_cases h2 : 0 < w.re <;> simp only [h1, h2] <;> simp
      · exact le_total _ _
      · exact le_total _ _
    · intro u v w
      by_cases h1 : 0 < u.re <;> by_cases h2 : 0 < v.re <;> by_cases h3 : 0 < w.re <;>
        simp only [h1, h2, h3] <;> simp
      · exact fun a b => a.trans b
      · exact fun a b => a.trans b

/-- **C04** (consistency, real scalars): a total preorder that does not distinguish conjugates. -/
theorem C04_real_consistent (tau : ℝ) (c : Crit) :
    Consistent (critReal tau c) ∧ ConjInvariant (critReal tau c) := by
  refine ⟨⟨fun a b => ?_, fun a b d => ?_⟩, fun r i => ?_⟩
  · unfold Ranks; rw [C04_real_documented, C04_real_documented]; exact (goodAs_preorder _ _ _).1 _ _
  · unfold Ranks; rw [C04_real_documented, C04_real_documented, C04_real_documented]
    exact (goodAs_preorder _ _ _).2 _ _ _
  · have hs : ∀ x y : ℝ, slepcAbs x (-y) = slepcAbs x y := by intro x y; simp [slepcAbs]
    unfold Ranks
    cases c <;> simp [critReal, hs, wantLarge, wantSmall]

/-- **C04** (consistency, complex scalars). -/
theorem C04_complex_consistent (tau : ℂ) (c : Crit) : Consistent (critComplex tau c) := by
  refine ⟨fun a b => ?_, fun a b d => ?_⟩
  · unfold Ranks; rw [C04_complex_documented, C04_complex_documented]
    exact (goodAs_preorder _ _ _).1 _ _
  · unfold Ranks; rw [C04_complex_documented, C04_complex_documented, C04_complex_documented]
    exact (goodAs_preorder _ _ _).2 _ _ _

/-- Result codes of a criterion that swaps sign when its arguments are swapped. -/
def AntisymmetricCode {R : Type} (cmp : Cmp R) : Prop :=
  ∀ ar ai br bi, (cmp ar ai br bi = -1 ∨ cmp ar ai br bi = 0 ∨ cmp ar ai br bi = 1) ∧
    cmp br bi ar ai = - cmp ar ai br bi

theorem wantLarge_anti (a b : ℝ) : (wantLarge a b = -1 ∨ wantLarge a b = 0 ∨ wantLarge a b = 1) ∧
    wantLarge b a = - wantLarge a b := by
  unfold wantLarge
  rcases lt_trichotomy a b with h | h | h
  · simp [h, h.not_gt]
  · simp [h]
  · simp [h, h.not_gt]
theorem wantSmall_anti (a b : ℝ) : (wantSmall a b = -1 ∨ wantSmall a b = 0 ∨ wantSmall a b = 1) ∧
    wantSmall b a = - wantSmall a b := by
  unfold wantSmall
  rcases lt_trichotomy a b with h | h | h
  · simp [h, h.not_gt]
  · simp [h]
  · simp [h, h.not_gt]

/-- **C04** (result codes): always -1, 0 or 1, and antisymmetric, for both builds. -/
theorem C04_codes (tr : ℝ) (tc : ℂ) (c : Crit) :
    AntisymmetricCode (critReal tr c) ∧ AntisymmetricCode (critComplex tc c) := by
  constructor
  · intro ar ai br bi
    cases c <;> simp only [critReal] <;>
      first
      | exact wantLarge_anti _ _
      | exact wantSmall_anti _ _
      | skip
    · rcases lt_trichotomy |ai| |bi| with h | h | h
      · simp [h, h.not_gt]
      · simp only [h, lt_irrefl, gt_iff_lt, if_false]; exact wantLarge_anti _ _
      · simp [h, h.not_gt]
    · rcases lt_trichotomy |ai| |bi| with h | h | h
      · simp [h, h.not_gt]
      · simp only [h, lt_irrefl, gt_iff_lt, if_false]; exact wantLarge_anti _ _
      · simp [h, h.not_gt]
    · simp
    · by_cases h1 : 0 < ar <;> by_cases h2 : 0 < br <;> simp [h1, h2]
      · simpa using wantSmall_anti _ _
      · simpa using wantSmall_anti _ _
  · intro ar ai br bi
    cases c <;> simp only [critComplex] <;>
      first
      | exact wantLarge_anti _ _
      | exact wantSmall_anti _ _
      | skip
    · rcases lt_trichotomy ar.im br.im with h | h | h
      · simp [h, h.not_gt]
      · simp only [h, lt_irrefl, gt_iff_lt, if_false]; exact wantLarge_anti _ _
      · simp [h, h.not_gt]
    · rcases lt_trichotomy ar.im br.im with h | h | h
      · simp [h, h.not_gt]
      · simp only [h, lt_irrefl, gt_iff_lt, if_false]; exact wantLarge_anti _ _
      · simp [h, h.not_gt]
    · by_cases h1 : 0 < ar.re <;> by_cases h2 : 0 < br.re <;> simp [h1, h2]
      · simpa using wantSmall_anti _ _
      · simpa using wantSmall_anti _ _

-- concrete case: 3+4i has magnitude 5 and beats 4 for "largest magnitude", but loses for "largest real"
example : GoodAs false 0 .largestMagnitude ⟨3, 4⟩ ⟨4, 0⟩ ∧ ¬ GoodAs false 0 .largestReal ⟨3, 4⟩ ⟨4, 0⟩ := by
  constructor
  · simp only [GoodAs, ← slepcAbs_eq]
    have h1 : slepcAbs 4 0 = 4 := by simp [slepcAbs]
    have h2 : slepcAbs 3 4 = 5 := by
      rw [slepcAbs_eq, Complex.norm_def, Complex.normSq_mk]
      rw [show (3:ℝ) * 3 + 4 * 4 = 5 ^ 2 by norm_num, Real.sqrt_sq (by norm_num)]
    rw [h1, h2]; norm_num
  · simp only [GoodAs]; norm_num

end Verif.Sort
