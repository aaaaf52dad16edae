import Verif.Lan.LocalModel
import Verif.Iter.Two

/-! # C156: local Lanczos recurrences -/
set_option linter.all false

namespace Verif.Lan

open Finset Verif.Iter

variable {E : Type} [NormedAddCommGroup E] [InnerProductSpace ℂ E]

theorem mgs_eq {V : ℕ → E} {n : ℕ} (hV : OrthoN V n) (wh : ℕ → Bool) (w : E) : ∀ i, i ≤ n →
    mgs V wh i w = w - ∑ p ∈ range i, (if wh p then inner ℂ (V p) w else (0 : ℂ)) • V p
  | 0, _ => by simp [mgs]
  | i + 1, h => by
    have ih := mgs_eq hV wh w i (by omega)
    have hin : inner ℂ (V i) (mgs V wh i w) = inner ℂ (V i) w := by
      rw [ih, inner_sub_right, inner_sum, sum_eq_zero, sub_zero]
      intro p hp
      have hp := mem_range.mp hp
      rw [inner_smul_right, hV i (by omega) p (by omega), if_neg (by omega : ¬ i = p), mul_zero]
    rw [mgs, sum_range_succ]
    by_cases hw : wh i = true
    · rw [if_pos hw, if_pos hw, hin, ih]
      abel
    · rw [if_neg hw, if_neg hw, ih, zero_smul, add_zero]

/-- The three-term relation of column `p`, up to components in the `k` locked columns. -/
def Rel (A : E →ₗ[ℂ] E) (k : ℕ) (V : ℕ → E) (al be : ℕ → ℝ) (p : ℕ) : Prop :=
  A (V p) = ∑ i ∈ range k, inner ℂ (V i) (A (V p)) • V i
    + (if k < p then (be (p - 1) : ℂ) • V (p - 1) else 0) + (al p : ℂ) • V p + (be p : ℂ) • V (p + 1)

structure LInv (A : E →ₗ[ℂ] E) (k : ℕ) (V0 : ℕ → E) (s : LSt E) (j : ℕ) : Prop where
  kj : k ≤ j
  ortho : OrthoN s.V (j + 1)
  rel : ∀ p, k ≤ p → p < j → Rel A k s.V s.al s.be p ∧ 0 < s.be p
  wh : ∀ i, i < j → s.which i = decide (i < k ∨ j ≤ i + 2)
  old : ∀ i, i ≤ k → s.V i = V0 i

theorem wsel_eq {A : E →ₗ[ℂ] E} {k j : ℕ} {V0 : ℕ → E} {s : LSt E} (h : LInv A k V0 s j) (i : ℕ)
    (hi : i ≤ j) : wsel k s.which j i = decide (i < k ∨ j ≤ i + 1) := by
  have := h.kj
  unfold wsel
  by_cases hj : k + 2 ≤ j
  · rw [if_pos hj]
    by_cases e : i = j - 2
    · rw [e, Function.update_self]
      have : ¬ (j - 2 < k ∨ j ≤ j - 2 + 1) := by omega
      simp [this]
    · rw [Function.update_of_ne e]
      by_cases e2 : i = j
      · rw [e2, Function.update_self]; simp
      · rw [Function.update_of_ne e2, h.wh i (by omega)]
        have : (i < k ∨ j ≤ i + 2) ↔ (i < k ∨ j ≤ i + 1) := by omega
        simp only [this]
  · rw [if_neg hj]
    by_cases e2 : i = j
    · rw [e2, Function.update_self]; simp
    · rw [Function.update_of_ne e2, h.wh i (by omega)]
      have : (i < k ∨ j ≤ i + 2) ↔ (i < k ∨ j ≤ i + 1) := by omega
      simp only [this]

/-- Inner products of `A v_j` with earlier columns. -/
theorem inner_Av {A : E →ₗ[ℂ] E} (hA : A.IsSymmetric) {k j : ℕ} {V0 : ℕ → E} {s : LSt E}
    (h : LInv A k V0 s j) (i : ℕ) (hi : k ≤ i) (hij : i < j) :
    inner ℂ (s.V i) (A (s.V j)) = if i + 1 = j then (s.be i : ℂ) else 0 := by
  rw [← hA, (h.rel i hi hij).1, inner_add_left, inner_add_left, inner_add_left, sum_inner,
    inner_smul_left, inner_smul_left, h.ortho i (by omega) j (by omega), if_neg (by omega : i ≠ j),
    h.ortho (i + 1) (by omega) j (by omega)]
  have h1 : ∑ x ∈ range k, inner ℂ (inner ℂ (s.V x) (A (s.V i)) • s.V x) (s.V j) = (0 : ℂ) := by
    refine sum_eq_zero fun p hp => ?_
    have hp := mem_range.mp hp
    rw [inner_smul_left, h.ortho p (by omega) j (by omega), if_neg (by omega), mul_zero]
  have h2 : inner ℂ (if k < i then (s.be (i - 1) : ℂ) • s.V (i - 1) else 0) (s.V j) = (0 : ℂ) := by
    by_cases hk : k < i
    · rw [if_pos hk, inner_smul_left, h.ortho (i - 1) (by omega) j (by omega), if_neg (by omega), mul_zero]
    · rw [if_neg hk, inner_zero_left]
  rw [h1, h2]
  by_cases e : i + 1 = j
  · rw [if_pos e, if_pos e]; simp
  · rw [if_neg e, if_neg e]; simp

/-- What the step subtracts, and that the result is orthogonal to all columns. -/
theorem step_w {A : E →ₗ[ℂ] E} (hA : A.IsSymmetric) {k j : ℕ} {V0 : ℕ → E} {s : LSt E}
    (h : LInv A k V0 s j) :
    let w := mgs s.V (wsel k s.which j) (j + 1) (A (s.V j))
    (∀ i, i ≤ j → inner ℂ (s.V i) w = (0 : ℂ)) ∧
    A (s.V j) = ∑ i ∈ range k, inner ℂ (s.V i) (A (s.V j)) • s.V i
      + (if k < j then (s.be (j - 1) : ℂ) • s.V (j - 1) else 0)
      + ((inner ℂ (s.V j) (mgs s.V (wsel k s.which j) j (A (s.V j)))).re : ℂ) • s.V j + w := by
  have hkj := h.kj
  intro w
  have hw : w = A (s.V j) - ∑ p ∈ range (j + 1), (inner ℂ (s.V p) (A (s.V j))) • s.V p := by
    show mgs s.V (wsel k s.which j) (j + 1) (A (s.V j)) = _
    rw [mgs_eq h.ortho _ _ (j + 1) (le_refl _)]
    congr 1
    refine sum_congr rfl fun p hp => ?_
    have hp := mem_range.mp hp
    rw [wsel_eq h p (by omega)]
    by_cases hd : p < k ∨ j ≤ p + 1
    · simp [hd]
    · rw [inner_Av hA h p (by omega) (by omega), if_neg (by omega : ¬ p + 1 = j)]
      simp
  have horth : ∀ i, i ≤ j → inner ℂ (s.V i) w = (0 : ℂ) := fun i hi => by
    rw [hw, inner_sub_right, inner_sum, sum_eq_single i]
    · rw [inner_smul_right, h.ortho i (by omega) i (by omega), if_pos rfl, mul_one, sub_self]
    · intro p hp hne
      have hp := mem_range.mp hp
      rw [inner_smul_right, h.ortho i (by omega) p hp, if_neg (Ne.symm hne), mul_zero]
    · intro hn; exact absurd (mem_range.mpr (by omega)) hn
  refine ⟨horth, ?_⟩
  have hal : inner ℂ (s.V j) (mgs s.V (wsel k s.which j) j (A (s.V j))) = inner ℂ (s.V j) (A (s.V j)) := by
    rw [mgs_eq h.ortho _ _ j (by omega), inner_sub_right, inner_sum, sum_eq_zero, sub_zero]
    intro p hp
    have hp := mem_range.mp hp
    rw [inner_smul_right, h.ortho j (by omega) p (by omega), if_neg (by omega : ¬ j = p), mul_zero]
  have hre : ((inner ℂ (s.V j) (A (s.V j))).re : ℂ) = inner ℂ (s.V j) (A (s.V j)) := by
    rw [Complex.ext_iff]
    refine ⟨by simp, ?_⟩
    have h1 : (starRingEnd ℂ) (inner ℂ (s.V j) (A (s.V j))) = inner ℂ (s.V j) (A (s.V j)) := by
      rw [inner_conj_symm, hA]
    have := congrArg Complex.im h1
    rw [Complex.conj_im] at this
    rw [Complex.ofReal_im]; linarith
  have hsum : ∑ p ∈ range j, (inner ℂ (s.V p) (A (s.V j))) • s.V p
      = ∑ i ∈ range k, inner ℂ (s.V i) (A (s.V j)) • s.V i
        + (if k < j then (s.be (j - 1) : ℂ) • s.V (j - 1) else 0) := by
    by_cases hk : k < j
    · rw [if_pos hk, ← sum_range_add_sum_Ico _ hkj]
      congr 1
      rw [sum_eq_single (j - 1)]
      · rw [inner_Av hA h (j - 1) (by omega) (by omega), if_pos (by omega)]
      · intro p hp hne
        have hp := mem_Ico.mp hp
        rw [inner_Av hA h p hp.1 hp.2, if_neg (by omega), zero_smul]
      · intro hn; exact absurd (mem_Ico.mpr (by omega)) hn
    · have : j = k := by omega
      rw [if_neg hk, this, add_zero]
  rw [hal, hre, ← hsum, ← sum_range_succ (fun p => (inner ℂ (s.V p) (A (s.V j))) • s.V p), hw]
  abel

theorem rel_congr {A : E →ₗ[ℂ] E} {k p : ℕ} {V V' : ℕ → E} {al al' be be' : ℕ → ℝ}
    (hV : ∀ i, i ≤ p + 1 → V' i = V i) (ha : al' p = al p) (hb : ∀ i, i ≤ p → be' i = be i) (hk : k ≤ p)
    (h : Rel A k V al be p) : Rel A k V' al' be' p := by
  unfold Rel at h ⊢
  rw [hV p (by omega), hV (p + 1) (by omega), hV (p - 1) (by omega), ha, hb p (by omega), hb (p - 1) (by omega)]
  have : ∑ i ∈ range k, inner ℂ (V' i) (A (V p)) • V' i = ∑ i ∈ range k, inner ℂ (V i) (A (V p)) • V i :=
    sum_congr rfl fun i hi => by
      have := mem_range.mp hi
      rw [hV i (by omega)]
  rw [this]; exact h

theorem step_ok {A : E →ₗ[ℂ] E} (hA : A.IsSymmetric) {k j : ℕ} {V0 : ℕ → E} {s : LSt E}
    (h : LInv A k V0 s j) (hb : (lstep A k s j).brk = false) :
    LInv A k V0 (lstep A k s j) (j + 1) ∧ (lstep A k s j).M = s.M := by
  have hkj := h.kj
  obtain ⟨w1, w2⟩ := step_w hA h
  set w := mgs s.V (wsel k s.which j) (j + 1) (A (s.V j)) with hw
  have hw0 : w ≠ 0 := by
    classical
    have : decide (w = 0) = false := hb
    simpa using this
  have hn : ‖w‖ ≠ 0 := norm_ne_zero_iff.2 hw0
  have eV : (lstep A k s j).V = Function.update s.V (j + 1) (((1 / ‖w‖ : ℝ) : ℂ) • w) := if_neg hw0
  have hold : ∀ i, i ≤ j → (lstep A k s j).V i = s.V i := fun i hi => by
    rw [eV, Function.update_of_ne (by omega)]
  have hnew : (lstep A k s j).V (j + 1) = ((1 / ‖w‖ : ℝ) : ℂ) • w := by rw [eV, Function.update_self]
  have eb : (lstep A k s j).be = Function.update s.be j ‖w‖ := rfl
  have ea : (lstep A k s j).al = Function.update s.al j (inner ℂ (s.V j) (mgs s.V (wsel k s.which j) j (A (s.V j)))).re := rfl
  refine ⟨⟨by omega, ?_, ?_, ?_, fun i hi => by rw [hold i (by omega)]; exact h.old i hi⟩, if_neg hw0⟩
  · intro a ha b hb
    by_cases ea : a = j + 1
    · by_cases eb : b = j + 1
      · rw [ea, eb, if_pos rfl, hnew, inner_smul_left, inner_smul_right, inner_self_eq_norm_sq_to_K]
        simp only [Complex.conj_ofReal]
        have : (‖w‖ : ℂ) ≠ 0 := by exact_mod_cast hn
        push_cast
        field_simp
        rfl
      · have hbj : b ≤ j := by omega
        rw [ea, hnew, hold b hbj, if_neg (by omega), inner_smul_left, ← inner_conj_symm, w1 b hbj, map_zero, mul_zero]
    · have haj : a ≤ j := by omega
      by_cases eb : b = j + 1
      · rw [eb, hnew, hold a haj, if_neg (by omega), inner_smul_right, w1 a haj, mul_zero]
      · rw [hold a haj, hold b (by omega)]
        exact h.ortho a (by omega) b (by omega)
  · intro p h1 h2
    by_cases e : p = j
    · subst e
      refine ⟨?_, ?_⟩
      · unfold Rel
        have hs : ∑ i ∈ range k, inner ℂ ((lstep A k s p).V i) (A (s.V p)) • (lstep A k s p).V i
            = ∑ i ∈ range k, inner ℂ (s.V i) (A (s.V p)) • s.V i := sum_congr rfl fun i hi => by
          have := mem_range.mp hi
          rw [hold i (by omega)]
        have hbe : (if k < p then ((lstep A k s p).be (p - 1) : ℂ) • (lstep A k s p).V (p - 1) else 0)
            = if k < p then (s.be (p - 1) : ℂ) • s.V (p - 1) else 0 := by
          by_cases hk : k < p
          · rw [if_pos hk, if_pos hk, hold (p - 1) (by omega), eb, Function.update_of_ne (by omega)]
          · rw [if_neg hk, if_neg hk]
        have hlast : (((lstep A k s p).be p : ℝ) : ℂ) • (lstep A k s p).V (p + 1) = w := by
          rw [hnew, eb, Function.update_self, smul_smul]
          have : (‖w‖ : ℂ) ≠ 0 := by exact_mod_cast hn
          have e1 : ((‖w‖ : ℝ) : ℂ) * ((1 / ‖w‖ : ℝ) : ℂ) = 1 := by push_cast; field_simp
          rw [e1, one_smul]
        rw [hold p (le_refl _), hs, hbe, hlast, ea, Function.update_self]
        exact w2
      · rw [eb, Function.update_self]; exact norm_pos_iff.2 hw0
    · obtain ⟨r1, r2⟩ := h.rel p h1 (by omega)
      refine ⟨rel_congr (fun i hi => hold i (by omega)) ?_ (fun i hi => ?_) h1 r1, ?_⟩
      · rw [ea, Function.update_of_ne e]
      · rw [eb, Function.update_of_ne (by omega)]
      · rw [eb, Function.update_of_ne e]; exact r2
  · intro i hi
    have hi' : i ≤ j := by omega
    show wsel k s.which j i = _
    rw [wsel_eq h i hi']
    have : (i < k ∨ j ≤ i + 1) ↔ (i < k ∨ j + 1 ≤ i + 2) := by omega
    simp only [this]

/-- What EPSLocalLanczos delivers: `M` columns. -/
structure LOut (A : E →ₗ[ℂ] E) (k m : ℕ) (V0 : ℕ → E) (s : LSt E) : Prop where
  lt : k < s.M
  le : s.M ≤ m
  ortho : OrthoN s.V s.M
  full : s.brk = false → s.M = m ∧ OrthoN s.V (s.M + 1)
  brk : s.brk = true → s.be (s.M - 1) = 0
  rel : ∀ p, k ≤ p → p < s.M → Rel A k s.V s.al s.be p
  pos : ∀ p, k ≤ p → p + 1 < s.M → 0 < s.be p
  nn : ∀ p, k ≤ p → p < s.M → 0 ≤ s.be p
  old : ∀ i, i ≤ k → s.V i = V0 i

theorem step_brk {A : E →ₗ[ℂ] E} (hA : A.IsSymmetric) {k j m : ℕ} {V0 : ℕ → E} {s : LSt E}
    (h : LInv A k V0 s j) (hj : j < m) (hb : (lstep A k s j).brk = true) : LOut A k m V0 (lstep A k s j) := by
  have hkj := h.kj
  obtain ⟨w1, w2⟩ := step_w hA h
  set w := mgs s.V (wsel k s.which j) (j + 1) (A (s.V j)) with hw
  have hw0 : w = 0 := by
    classical
    have : decide (w = 0) = true := hb
    simpa using this
  have eV : (lstep A k s j).V = s.V := if_pos hw0
  have eM : (lstep A k s j).M = j + 1 := if_pos hw0
  have eb : (lstep A k s j).be = Function.update s.be j ‖w‖ := rfl
  have ea : (lstep A k s j).al = Function.update s.al j (inner ℂ (s.V j) (mgs s.V (wsel k s.which j) j (A (s.V j)))).re := rfl
  have eb0 : (lstep A k s j).be j = 0 := by rw [eb, Function.update_self, hw0, norm_zero]
  refine ⟨by omega, by omega, by rw [eV, eM]; exact h.ortho, fun hf => by rw [hb] at hf; simp at hf,
    fun _ => by rw [eM]; exact eb0, fun p h1 h2 => ?_, fun p h1 h2 => ?_, fun p h1 h2 => ?_, fun i hi => by rw [eV]; exact h.old i hi⟩
  · rw [eM] at h2
    by_cases e : p = j
    · subst e
      unfold Rel
      have hbe : (if k < p then ((lstep A k s p).be (p - 1) : ℂ) • s.V (p - 1) else 0)
          = if k < p then (s.be (p - 1) : ℂ) • s.V (p - 1) else 0 := by
        by_cases hk : k < p
        · rw [if_pos hk, if_pos hk, eb, Function.update_of_ne (by omega)]
        · rw [if_neg hk, if_neg hk]
      rw [eV, eb0, hbe, ea, Function.update_self]
      rw [hw0] at w2
      simpa using w2
    · refine rel_congr (fun i hi => by rw [eV]) ?_ (fun i hi => ?_) h1 (h.rel p h1 (by omega)).1
      · rw [ea, Function.update_of_ne e]
      · rw [eb, Function.update_of_ne (by omega)]
  · rw [eM] at h2
    rw [eb, Function.update_of_ne (by omega)]
    exact (h.rel p h1 (by omega)).2
  · rw [eM] at h2
    by_cases e : p = j
    · rw [e, eb0]
    · rw [eb, Function.update_of_ne e]
      exact (h.rel p h1 (by omega)).2.le

theorem loop_out {A : E →ₗ[ℂ] E} (hA : A.IsSymmetric) {k m : ℕ} {V0 : ℕ → E} (hkm : k < m) :
    ∀ (g j : ℕ) (s : LSt E), j + g = m → LInv A k V0 s j → s.brk = false → s.M = m → LOut A k m V0 (lloop A k g j s)
  | 0, j, s, h, hi, hb, hM => by
    have hjm : j = m := by omega
    subst hjm
    refine ⟨by show k < s.M; omega, by show s.M ≤ j; omega, ?_, fun _ => ⟨hM, ?_⟩, fun hf => ?_, fun p h1 h2 => ?_, fun p h1 h2 => ?_, fun p h1 h2 => ?_, hi.old⟩
    · intro a ha b hb
      have ha : a < s.M := ha
      have hb : b < s.M := hb
      exact hi.ortho a (by omega) b (by omega)
    · show OrthoN s.V (s.M + 1)
      rw [hM]; exact hi.ortho
    · rw [show (lloop A k 0 j s) = s from rfl, hb] at hf; simp at hf
    · have h2 : p < s.M := h2
      exact (hi.rel p h1 (by omega)).1
    · have h2 : p + 1 < s.M := h2
      exact (hi.rel p h1 (by omega)).2
    · have h2 : p < s.M := h2
      exact (hi.rel p h1 (by omega)).2.le
  | g + 1, j, s, h, hi, hb, hM => by
    rw [lloop]
    by_cases hbr : (lstep A k s j).brk = true
    · rw [if_pos hbr]; exact step_brk hA hi (by omega) hbr
    · rw [if_neg hbr]
      have hbr' : (lstep A k s j).brk = false := by simpa using hbr
      obtain ⟨i1, i2⟩ := step_ok hA hi hbr'
      exact loop_out hA hkm g (j + 1) _ (by omega) i1 hbr' (by rw [i2]; exact hM)

/-- **C156.** For a Hermitian operator and orthonormal locked and start vectors, orthogonalizing each new
vector only against the locked and the two previous ones yields an orthonormal basis and the
three-term relations, with positive `beta` up to a breakdown, where the relation closes. -/
theorem C156_lanczos (A : E →ₗ[ℂ] E) (hA : A.IsSymmetric) (k m : ℕ) (hkm : k < m) (V : ℕ → E)
    (hV : OrthoN V (k + 1)) (al be : ℕ → ℝ) : LOut A k m V (localLanczos A k m V al be) :=
  loop_out hA hkm (m - k) k _ (by omega)
    ⟨le_refl _, hV, fun p h1 h2 => by omega, fun i hi => by
      show decide (i < k) = _
      have : (i < k) ↔ (i < k ∨ k ≤ i + 2) := by omega
      simp only [← this], fun _ _ => rfl⟩ rfl rfl

/-- Entry `p` of the product of the tridiagonal matrix of rows `k..M-1` with `y`. -/
noncomputable def tmul (al be : ℕ → ℝ) (k M : ℕ) (y : ℕ → ℂ) (p : ℕ) : ℂ :=
  (if k < p then (be (p - 1) : ℂ) * y (p - 1) else 0) + al p * y p + (if p + 1 < M then (be p : ℂ) * y (p + 1) else 0)

theorem krylov_sum {A : E →ₗ[ℂ] E} {k : ℕ} {V : ℕ → E} {al be : ℕ → ℝ} (y : ℕ → ℂ) : ∀ (g : ℕ),
    (∀ p, k ≤ p → p < k + (g + 1) → Rel A k V al be p) →
    ∑ p ∈ Ico k (k + (g + 1)), y p • (A (V p) - ∑ i ∈ range k, inner ℂ (V i) (A (V p)) • V i)
      = ∑ p ∈ Ico k (k + (g + 1)), tmul al be k (k + (g + 1)) y p • V p + ((be (k + g) : ℂ) * y (k + g)) • V (k + g + 1)
  | 0, h => by
    have hr := h k (le_refl _) (by omega)
    unfold Rel at hr
    rw [if_neg (by omega), add_zero] at hr
    have e : A (V k) - ∑ i ∈ range k, inner ℂ (V i) (A (V k)) • V i = (al k : ℂ) • V k + (be k : ℂ) • V (k + 1) := by
      rw [sub_eq_iff_eq_add]; conv_lhs => rw [hr]
      abel
    rw [show k + (0 + 1) = k + 1 from rfl, Nat.Ico_succ_singleton, sum_singleton, sum_singleton, e]
    unfold tmul
    rw [if_neg (by omega), if_neg (by omega)]
    simp only [zero_add, add_zero, smul_add, smul_smul]
    rw [mul_comm (y k), mul_comm (y k)]
  | g + 1, h => by
    have ih := krylov_sum (A := A) (k := k) (V := V) (al := al) (be := be) y g (fun p h1 h2 => h p h1 (by omega))
    have hr := h (k + (g + 1)) (by omega) (by omega)
    unfold Rel at hr
    rw [if_pos (by omega)] at hr
    have e : A (V (k + (g + 1))) - ∑ i ∈ range k, inner ℂ (V i) (A (V (k + (g + 1)))) • V i
        = (be (k + g) : ℂ) • V (k + g) + (al (k + (g + 1)) : ℂ) • V (k + (g + 1)) + (be (k + (g + 1)) : ℂ) • V (k + (g + 1) + 1) := by
      rw [sub_eq_iff_eq_add]; conv_lhs => rw [hr]
      rw [show k + (g + 1) - 1 = k + g from rfl]
      abel
    rw [show k + (g + 1 + 1) = k + (g + 1) + 1 from rfl, sum_Ico_succ_top (by omega), sum_Ico_succ_top (by omega), ih, e]
    have hs : ∑ p ∈ Ico k (k + (g + 1)), tmul al be k (k + (g + 1) + 1) y p • V p
        = ∑ p ∈ Ico k (k + (g + 1)), tmul al be k (k + (g + 1)) y p • V p + ((be (k + g) : ℂ) * y (k + (g + 1))) • V (k + g) := by
      rw [show k + (g + 1) = k + g + 1 from rfl, sum_Ico_succ_top (by omega), sum_Ico_succ_top (by omega)]
      have e1 : ∑ p ∈ Ico k (k + g), tmul al be k (k + g + 1 + 1) y p • V p = ∑ p ∈ Ico k (k + g), tmul al be k (k + g + 1) y p • V p :=
        sum_congr rfl fun p hp => by
          have hp := mem_Ico.mp hp
          unfold tmul
          rw [if_pos (by omega : p + 1 < k + g + 1 + 1), if_pos (by omega : p + 1 < k + g + 1)]
      have e2 : tmul al be k (k + g + 1 + 1) y (k + g) = tmul al be k (k + g + 1) y (k + g) + (be (k + g) : ℂ) * y (k + g + 1) := by
        unfold tmul
        rw [if_pos (by omega : k + g + 1 < k + g + 1 + 1), if_neg (by omega : ¬ k + g + 1 < k + g + 1), add_zero]
      rw [e1, e2, add_smul, ← add_assoc]
    have ht : tmul al be k (k + (g + 1) + 1) y (k + (g + 1)) = (be (k + g) : ℂ) * y (k + g) + al (k + (g + 1)) * y (k + (g + 1)) := by
      unfold tmul
      rw [if_pos (by omega), if_neg (by omega), add_zero]
      rfl
    rw [hs, ht, show k + g + 1 = k + (g + 1) from rfl]
    simp only [smul_add, smul_smul, add_smul]
    rw [mul_comm (y (k + (g + 1))), mul_comm (y (k + (g + 1))), mul_comm (y (k + (g + 1)))]
    abel

/-- **C156.** The residual of a Ritz pair, up to components in the locked vectors, has the norm
`beta*|y_last|` that the solver uses as estimate (lanczos.c:562); after a breakdown it is zero. -/
theorem C156_residual (A : E →ₗ[ℂ] E) (hA : A.IsSymmetric) (k m : ℕ) (hkm : k < m) (V : ℕ → E)
    (hV : OrthoN V (k + 1)) (al be : ℕ → ℝ) (y : ℕ → ℂ) (θ : ℂ) :
    let s := localLanczos A k m V al be
    (∀ p, k ≤ p → p < s.M → tmul s.al s.be k s.M y p = θ * y p) →
    let x := ∑ p ∈ Ico k s.M, y p • s.V p
    ‖A x - θ • x - ∑ i ∈ range k, inner ℂ (s.V i) (A x) • s.V i‖ = s.be (s.M - 1) * ‖y (s.M - 1)‖ := by
  intro s hy x
  have o := C156_lanczos A hA k m hkm V hV al be
  have ho : LOut A k m V s := o
  obtain ⟨g, hg⟩ : ∃ g, s.M = k + (g + 1) := ⟨s.M - k - 1, by have := ho.lt; omega⟩
  have hk := krylov_sum y g (fun p h1 h2 => ho.rel p h1 (by omega))
  have hAx : A x = ∑ p ∈ Ico k s.M, y p • A (s.V p) := by
    show A (∑ p ∈ Ico k s.M, y p • s.V p) = _
    rw [map_sum]
    exact sum_congr rfl fun p _ => by rw [map_smul]
  have hloc : ∑ i ∈ range k, inner ℂ (s.V i) (A x) • s.V i
      = ∑ p ∈ Ico k s.M, y p • ∑ i ∈ range k, inner ℂ (s.V i) (A (s.V p)) • s.V i := by
    simp only [smul_sum]
    rw [sum_comm]
    refine sum_congr rfl fun i _ => ?_
    rw [hAx, inner_sum, sum_smul]
    refine sum_congr rfl fun p _ => ?_
    rw [inner_smul_right, smul_smul]
  have hT : ∑ p ∈ Ico k (k + (g + 1)), tmul s.al s.be k (k + (g + 1)) y p • s.V p = θ • x := by
    show _ = θ • ∑ p ∈ Ico k s.M, y p • s.V p
    rw [smul_sum, hg]
    refine sum_congr rfl fun p hp => ?_
    have hp := mem_Ico.mp hp
    rw [← hg, hy p hp.1 (by omega), smul_smul]
  have hmain : A x - θ • x - ∑ i ∈ range k, inner ℂ (s.V i) (A x) • s.V i = ((s.be (k + g) : ℂ) * y (k + g)) • s.V (k + g + 1) := by
    rw [hT] at hk
    simp only [smul_sub, sum_sub_distrib] at hk
    rw [hloc, hAx, hg]
    rw [sub_right_comm, hk]
    abel
  have hM : s.M - 1 = k + g := by omega
  rw [hmain, hM, norm_smul, norm_mul, Complex.norm_real]
  cases hb : s.brk with
  | true =>
    have := ho.brk hb
    rw [hM] at this
    rw [this]; simp
  | false =>
    have hone := (ho.full hb).2 (k + g + 1) (by omega) (k + g + 1) (by omega)
    rw [if_pos rfl, inner_self_eq_norm_sq_to_K] at hone
    have hsq : ‖s.V (k + g + 1)‖ ^ 2 = 1 := by
      have h2 : ((‖s.V (k + g + 1)‖ ^ 2 : ℝ) : ℂ) = ((1 : ℝ) : ℂ) := by push_cast; exact hone
      exact Complex.ofReal_injective h2
    have hn1 : ‖s.V (k + g + 1)‖ = 1 := by
      have := norm_nonneg (s.V (k + g + 1))
      nlinarith
    have hnn : 0 ≤ s.be (k + g) := ho.nn (k + g) (by omega) (by omega)
    rw [hn1, mul_one, Real.norm_eq_abs, abs_of_nonneg hnn]

/-- Beside `C156_lanczos` and `C156_residual`: the matrix `[[0,1],[1,0]]`, start vector `(1,0)`, two steps. -/
example : LOut (op2 0 1 1 0) 0 2 (fun _ => vec2 1 0) (localLanczos (op2 0 1 1 0) 0 2 (fun _ => vec2 1 0) (fun _ => 0) (fun _ => 0)) := by
  refine C156_lanczos _ ?_ 0 2 (by norm_num) _ ?_ _ _
  · intro x y
    have ex : ∀ z : E2, z = vec2 (z 0) (z 1) := fun z => by ext i; fin_cases i <;> simp [vec2]
    rw [ex x, ex y, op2_vec, op2_vec, inner2, inner2]
    simp; ring
  · intro i hi j hj
    have h1 : i = 0 := by omega
    have h2 : j = 0 := by omega
    subst h1; subst h2
    rw [inner2]; simp

end Verif.Lan
