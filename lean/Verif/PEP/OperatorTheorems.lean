import Verif.PEP.LinearModel
import Verif.PEP.BasisTheorems
import Verif.PEP.OperatorSpec
import Mathlib.Tactic.Module
import Mathlib.Tactic.LinearCombination
import Mathlib.Algebra.BigOperators.Intervals

/-! # C70: the implicit operators of PEPLINEAR. C71: the TOAR step. -/
set_option linter.all false

namespace Verif.PEP

open Polynomial Finset

variable {F V : Type*} [Field F] [AddCommGroup V] [Module F V]

/-- The scaled basis in the form used by the operators. -/
theorem scaled_rec3 [DecidableEq F] {p : Pbc F} {φ : ℕ → F[X]} (h : IsBasis p φ) (ha : ∀ k, p.ca k ≠ 0) (s : F) (hs : s ≠ 0)
    (theta : F) : Rec3 (scalePbc p s) (fun k => (φ k).eval (s * theta) / s ^ k) theta := by
  have hr := h.rec3 ha (s * theta)
  have hca : (scalePbc p s).ca = p.ca := by unfold scalePbc; by_cases hc : s ≠ 1 <;> simp [hc]
  have hcb : ∀ k, (scalePbc p s).cb k = p.cb k / s := by
    intro k; unfold scalePbc; by_cases hc : s ≠ 1
    · rw [if_pos hc]
    · rw [if_neg hc, not_not.1 hc, div_one]
  have hcg : ∀ k, (scalePbc p s).cg k = p.cg k / (s * s) := by
    intro k; unfold scalePbc; by_cases hc : s ≠ 1
    · rw [if_pos hc]
    · rw [if_neg hc, not_not.1 hc]; simp
  constructor
  · simp [hr.zero]
  · have := ha 0
    simp only [hr.one, hca, hcb, pow_one]
    field_simp
  · intro k
    have := ha (k+1)
    simp only [hr.step, hca, hcb, hcg]
    field_simp
    ring

/-- The eigenpairs of the companion operator. -/
theorem comp_eigen (p : Pbc F) (ha : ∀ k, p.ca k ≠ 0) (s : F) (A : ℕ → V →ₗ[F] V) (d : ℕ) (hd : 1 ≤ d)
    (f : ℕ → F) (theta : F) (hf : Rec3 p f theta) (x : ℕ → V) :
    IsComp p s A d x (theta • x) ↔
      (∀ i < d, x i = f i • x 0) ∧ ∑ i ∈ range (d+1), (s ^ i * f i) • A i (x 0) = 0 := by
  constructor
  · rintro ⟨X, hX, hsum, h0, h⟩
    have h00 : X 0 = x 0 := hX 0 (by omega)
    have key : ∀ i, i < d → X i = f i • X 0 ∧ X (i+1) = f (i+1) • X 0 := by
      intro i
      induction i with
      | zero =>
        intro _
        refine ⟨by rw [hf.zero, one_smul], ?_⟩
        have h0' : theta • X 0 = p.ca 0 • X 1 + p.cb 0 • X 0 := by rw [h00, ← h00, ← h0, h00]; rfl
        have := ha 0
        rw [zero_add, hf.one]
        linear_combination (norm := skip) (-(p.ca 0)⁻¹) • h0'
        simp only [smul_add, smul_smul, neg_mul, inv_mul_cancel₀ this, neg_smul, one_smul]
        rw [div_eq_mul_inv]
        module
      | succ i ih =>
        intro hi
        obtain ⟨h1, h2⟩ := ih (by omega)
        refine ⟨h2, ?_⟩
        have h' : theta • X (i+1) = p.ca (i+1) • X (i+2) + p.cb (i+1) • X (i+1) + p.cg (i+1) • X i := by
          have := h (i+1) (by omega) hi
          rw [show i + 1 - 1 = i by omega] at this
          rw [← this, hX (i+1) hi]; rfl
        have := ha (i+1)
        rw [h1, h2] at h'
        rw [hf.step]
        linear_combination (norm := skip) (-(p.ca (i+1))⁻¹) • h'
        simp only [smul_add, smul_smul, neg_mul, inv_mul_cancel₀ this, neg_smul, one_smul]
        rw [div_eq_mul_inv]
        module
    have hall : ∀ i, i < d + 1 → X i = f i • x 0 := by
      intro i hi
      rw [← h00]
      by_cases h' : i < d
      · exact (key i h').1
      · have := (key (d-1) (by omega)).2
        rw [show d - 1 + 1 = i by omega] at this; exact this
    refine ⟨fun i hi => by rw [← hX i hi, hall i (by omega)], ?_⟩
    rw [← hsum]
    refine Finset.sum_congr rfl fun i hi => ?_
    rw [hall i (Finset.mem_range.1 hi), map_smul, smul_smul]
  · rintro ⟨hx, hs⟩
    refine ⟨fun i => f i • x 0, fun i hi => (hx i hi).symm, ?_, ?_, ?_⟩
    · rw [← hs]; exact Finset.sum_congr rfl fun i hi => by rw [map_smul, smul_smul]
    · show theta • x 0 = _
      have := ha 0
      try dsimp only
      rw [hf.zero, hf.one, smul_smul, mul_div_cancel₀ _ this]; module
    · intro i h1 hi
      obtain ⟨j, rfl⟩ : ∃ j, i = j + 1 := ⟨i - 1, by omega⟩
      show theta • x (j+1) = _
      have := ha (j+1)
      try dsimp only
      rw [hx (j+1) hi, show j + 1 - 1 = j by omega, hf.step j, smul_smul (p.ca (j+1)), mul_div_cancel₀ _ this]; module

/-- C70, the linearization itself: the eigenvalues of the companion operator are `lam/s` for the eigenvalues `lam` of the matrix
polynomial, and its eigenvectors are formed with the values of the basis. -/
theorem C70_companion [DecidableEq F] {p : Pbc F} {φ : ℕ → F[X]} (h : IsBasis p φ) (ha : ∀ k, p.ca k ≠ 0) (s : F) (hs : s ≠ 0)
    (A : ℕ → V →ₗ[F] V) (d : ℕ) (hd : 1 ≤ d) (theta : F) (x : ℕ → V) :
    (IsComp (scalePbc p s) s A d x (theta • x) ∧ ∃ i < d, x i ≠ 0) ↔
      IsPolyPair φ A d (s * theta) (x 0) ∧ ∀ i < d, x i = ((φ i).eval (s * theta) / s ^ i) • x 0 := by
  have hca : ∀ k, (scalePbc p s).ca k ≠ 0 := by
    intro k; unfold scalePbc; by_cases hc : s ≠ 1 <;> simp [hc, ha]
  rw [comp_eigen _ hca s A d hd _ theta (scaled_rec3 h ha s hs theta) x]
  have hsum : ∑ i ∈ range (d+1), (s ^ i * ((φ i).eval (s * theta) / s ^ i)) • A i (x 0) =
      ∑ i ∈ range (d+1), (φ i).eval (s * theta) • A i (x 0) :=
    Finset.sum_congr rfl fun i _ => by rw [mul_div_cancel₀ _ (pow_ne_zero _ hs)]
  rw [hsum]
  unfold IsPolyPair
  constructor
  · rintro ⟨⟨h1, h2⟩, i, hi, hne⟩
    refine ⟨⟨fun h0 => hne ?_, h2⟩, h1⟩
    rw [h1 i hi, h0, smul_zero]
  · rintro ⟨⟨h0, h2⟩, h1⟩
    exact ⟨⟨h1, h2⟩, 0, by omega, h0⟩

/-! ### The operator without inversion -/

theorem shift_last (p : Pbc F) (s : F) (A : ℕ → V →ₗ[F] V) (d : ℕ) (x y : ℕ → V) (b : ℕ) :
    forUp 0 d (fun i (t : (ℕ → V) × F) => (Function.update t.1 b (t.1 b + t.2 • A i (x i)), t.2 * s)) (y, 1) =
      (Function.update y b (y b + ∑ i ∈ range d, s ^ i • A i (x i)), s ^ d) := by
  refine forUp_inv (fun m (t : (ℕ → V) × F) => t = (Function.update y b (y b + ∑ i ∈ range m, s ^ i • A i (x i)), s ^ m))
    (Nat.zero_le d) _ _ (by simp) ?_
  intro k t _ _ ht
  subst ht
  rw [Prod.mk.injEq]
  refine ⟨?_, by rw [pow_succ]⟩
  dsimp only
  rw [Function.update_self, Function.update_idem, Finset.sum_range_succ, add_assoc]

/-- C70, shift: `MatMult_Linear_Shift` computes the companion operator minus the shift. -/
theorem C70_shift (p : Pbc F) (s : F) (hs : s ≠ 0) (A : ℕ → V →ₗ[F] V) (solve : V → V) (sigma : F) (d : ℕ) (hd : 2 ≤ d)
    (hsolve : ∀ b, A d (solve b) = b) (x : ℕ → V) (hca : p.ca (d-1) ≠ 0) :
    IsComp p s A d x (multShift p s A solve sigma d x + sigma • x) := by
  let w : V := (-(1 / s ^ d)) • solve (∑ i ∈ range d, s ^ i • A i (x i))
  let y1 : ℕ → V := shiftBlocks p sigma d x
  have hy1 : y1 0 = (p.cb 0 - sigma) • x 0 + p.ca 0 • x 1 ∧
      (∀ i, 1 ≤ i → i < d - 1 → y1 i = p.cg i • x (i-1) + (p.cb i - sigma) • x i + p.ca i • x (i+1)) ∧ y1 (d-1) = 0 := by
    have := forUp_inv (fun m (y : ℕ → V) => y 0 = (p.cb 0 - sigma) • x 0 + p.ca 0 • x 1 ∧
      (∀ i, 1 ≤ i → i < m → y i = p.cg i • x (i-1) + (p.cb i - sigma) • x i + p.ca i • x (i+1)) ∧ ∀ i, m ≤ i → y i = 0)
      (show 1 ≤ d - 1 by omega) (fun i y =>
        let y := Function.update y i (y i + p.cg i • x (i-1))
        let y := Function.update y i (y i + (p.cb i - sigma) • x i)
        Function.update y i (y i + p.ca i • x (i+1)))
      (Function.update (Function.update (fun _ => (0:V)) 0 ((0:V) + (p.cb 0 - sigma) • x 0)) 0
        ((Function.update (fun _ => (0:V)) 0 ((0:V) + (p.cb 0 - sigma) • x 0)) 0 + p.ca 0 • x 1)) ?_ ?_
    · exact ⟨this.1, this.2.1, this.2.2 (d-1) le_rfl⟩
    · refine ⟨by rw [Function.update_self, Function.update_self, zero_add], fun i h1 h2 => by omega, fun i hi => ?_⟩
      rw [Function.update_of_ne (by omega), Function.update_of_ne (by omega)]
    · intro k y hk hkd ⟨h0, h1, h2⟩
      try dsimp only
      simp only [Function.update_self, Function.update_idem]
      refine ⟨by rw [Function.update_of_ne (by omega), h0], fun i hi hik => ?_, fun i hi => ?_⟩
      · by_cases hh : i = k
        · rw [hh, Function.update_self, h2 k le_rfl, zero_add]
        · rw [Function.update_of_ne hh]; exact h1 i hi (by omega)
      · rw [Function.update_of_ne (by omega)]; exact h2 i (by omega)
  have hval : multShift p s A solve sigma d x =
      Function.update y1 (d-1) (p.ca (d-1) • w + p.cg (d-1) • x (d-2) + (p.cb (d-1) - sigma) • x (d-1)) := by
    unfold multShift
    have hl := shift_last p s A d x y1 (d-1)
    have e1 : y1 (d-1) + ∑ i ∈ range d, s ^ i • A i (x i) = ∑ i ∈ range d, s ^ i • A i (x i) := by rw [hy1.2.2, zero_add]
    rw [e1] at hl
    simp only [show shiftBlocks p sigma d x = y1 from rfl, hl, Function.update_self, Function.update_idem]
    congr 1
    simp only [w, smul_smul]
    congr 3
    ring
  refine ⟨fun i => if i = d then w else x i, fun i hi => by beta_reduce; rw [if_neg (by omega)], ?_, ?_, ?_⟩
  · beta_reduce
    rw [Finset.sum_range_succ, if_pos rfl]
    have : ∑ i ∈ range d, s ^ i • A i (if i = d then w else x i) = ∑ i ∈ range d, s ^ i • A i (x i) :=
      Finset.sum_congr rfl fun i hi => by rw [if_neg (by have := Finset.mem_range.1 hi; omega)]
    rw [this]
    simp only [w]
    rw [map_smul, hsolve, smul_smul, mul_neg, mul_one_div_cancel (pow_ne_zero _ hs), neg_one_smul, add_neg_cancel]
  · beta_reduce
    rw [Pi.add_apply, Pi.smul_apply, hval, Function.update_of_ne (by omega), hy1.1, if_neg (by omega), if_neg (by omega)]
    module
  · intro i h1 hi
    beta_reduce
    rw [Pi.add_apply, Pi.smul_apply, hval, if_neg (by omega : ¬ i = d), if_neg (by omega : ¬ i - 1 = d)]
    by_cases hh : i = d - 1
    · subst hh
      rw [Function.update_self, if_pos (by omega), show d - 1 - 1 = d - 2 by omega]
      module
    · rw [Function.update_of_ne hh, hy1.2.1 i h1 (by omega), if_neg (by omega)]
      module

/-! ### The operator with inversion -/

/-- Blocks computed by the forward recurrence with zero first block. -/
def zrec (p : Pbc F) (sigma : F) (x : ℕ → V) : ℕ → V
  | 0 => 0
  | 1 => (1 / p.ca 0) • x 0
  | k+2 => (1 / p.ca (k+1)) • (x (k+1) + (sigma - p.cb (k+1)) • zrec p sigma x (k+1) + (-p.cg (k+1)) • zrec p sigma x k)

theorem sinvert_last (s : F) (A : ℕ → V →ₗ[F] V) (e : ℕ) (y : ℕ → V) (h0 : y 0 = 0) :
    forUp 0 e (fun i (t : (ℕ → V) × F) => (Function.update t.1 0 (t.1 0 + t.2 • A (i+1) (t.1 (i+1))), t.2 * s)) (y, s) =
      (Function.update y 0 (∑ i ∈ range e, s ^ (i+1) • A (i+1) (y (i+1))), s ^ (e+1)) := by
  refine forUp_inv (fun m (t : (ℕ → V) × F) =>
    t = (Function.update y 0 (∑ i ∈ range m, s ^ (i+1) • A (i+1) (y (i+1))), s ^ (m+1)))
    (Nat.zero_le e) _ _ ?_ ?_
  · simp only [Finset.range_zero, Finset.sum_empty, zero_add, pow_one]
    rw [← h0, Function.update_eq_self]
  · intro k t _ _ ht
    subst ht
    rw [Prod.mk.injEq]
    refine ⟨?_, by rw [pow_succ _ (k+1)]⟩
    dsimp only
    rw [Function.update_self, Function.update_idem, Finset.sum_range_succ, Function.update_of_ne (by omega)]

theorem sinvert_final (p : Pbc F) (sigma : F) (f : ℕ → F) (hf : Rec3 p f sigma) (d : ℕ) (hd : 1 ≤ d) (y : ℕ → V)
    (i : ℕ) (hi : i < d) :
    (forUp 1 d (fun i (s : (ℕ → V) × F × F) =>
      let t := ((sigma - p.cb (i-1)) * s.2.1 - p.cg (i-1) * s.2.2) / p.ca (i-1)
      (Function.update s.1 i (s.1 i + t • s.1 0), t, s.2.1)) (y, 1, 0)).1 i = if i = 0 then y 0 else y i + f i • y 0 := by
  have := forUp_inv (fun m (s : (ℕ → V) × F × F) => s.1 0 = y 0 ∧ (∀ i, 1 ≤ i → i < m → s.1 i = y i + f i • y 0) ∧
      (∀ i, m ≤ i → s.1 i = y i) ∧ s.2.1 = f (m-1) ∧ (2 ≤ m → s.2.2 = f (m-2)) ∧ (m = 1 → s.2.2 = 0)) hd
    (fun i (s : (ℕ → V) × F × F) =>
      let t := ((sigma - p.cb (i-1)) * s.2.1 - p.cg (i-1) * s.2.2) / p.ca (i-1)
      (Function.update s.1 i (s.1 i + t • s.1 0), t, s.2.1)) (y, 1, 0) ?_ ?_
  · by_cases h0 : i = 0
    · rw [if_pos h0, h0]; exact this.1
    · rw [if_neg h0]; exact this.2.1 i (by omega) hi
  · exact ⟨rfl, fun i h1 h2 => by omega, fun i _ => rfl, hf.zero.symm, fun h => by omega, fun _ => rfl⟩
  · intro k s hk hkd ⟨h0, h1, h2, h3, h4, h5⟩
    have ht : ((sigma - p.cb (k-1)) * s.2.1 - p.cg (k-1) * s.2.2) / p.ca (k-1) = f k := by
      by_cases hk1 : k = 1
      · subst hk1
        rw [h3, h5 rfl, hf.zero, hf.one]; simp
      · obtain ⟨j, rfl⟩ : ∃ j, k = j + 2 := ⟨k - 2, by omega⟩
        rw [h3, h4 (by omega), hf.step]; simp
    try dsimp only
    rw [ht]
    refine ⟨by rw [Function.update_of_ne (by omega), h0], fun i hi hik => ?_, fun i hi => ?_, by simp, fun _ => ?_, fun h => by omega⟩
    · by_cases hh : i = k
      · rw [hh, Function.update_self, h0, h2 k le_rfl]
      · rw [Function.update_of_ne hh]; exact h1 i hi (by omega)
    · rw [Function.update_of_ne (by omega)]; exact h2 i (by omega)
    · rw [h3, show k + 1 - 2 = k - 1 by omega]

/-- Normal form of `MatMult_Linear_Sinvert`. -/
theorem multSinvert_eq (p : Pbc F) (s : F) (A : ℕ → V →ₗ[F] V) (solve : V → V) (sigma : F) (d : ℕ) (hd : 2 ≤ d)
    (f : ℕ → F) (hf : Rec3 p f sigma) (x : ℕ → V) :
    let z := zrec p sigma x
    let y0 := -(solve (∑ i ∈ range (d-2), s ^ (i+1) • A (i+1) (z (i+1)) +
      s ^ (d-1) • A (d-1) (z (d-1) + (p.cg (d-1) / p.ca (d-1)) •
        (if d = 2 then (0:V) else z (d-2))) +
      s ^ d • A d ((1 / p.ca (d-1)) • (x (d-1) + (sigma - p.cb (d-1)) • z (d-1)))))
    ∀ i < d, multSinvert p s A solve sigma d x i = if i = 0 then y0 else z i + f i • y0 := by
  intro z y0 i hi
  let ya : ℕ → V := Function.update (fun _ => (0:V)) 1 ((1 / p.ca 0) • x 0)
  let yb : ℕ → V := if d > 2 then Function.update ya 2 ((1 / p.ca 1) • (x 1 + (sigma - p.cb 1) • ya 1)) else ya
  let yc : ℕ → V := sinvertBlocks p sigma d x
  have hyb : yb 0 = 0 ∧ yb 1 = z 1 ∧ (2 < d → yb 2 = z 2) := by
    simp only [yb]
    by_cases h2 : d > 2
    · rw [if_pos h2]
      refine ⟨rfl, ?_, fun _ => ?_⟩
      · rw [Function.update_of_ne (by omega)]; simp [ya, z, zrec]
      · rw [Function.update_self]; simp [ya, z, zrec]
    · rw [if_neg h2]
      exact ⟨rfl, by simp [ya, z, zrec], fun h => by omega⟩
  have hyc : yc 0 = 0 ∧ ∀ i, 1 ≤ i → i < d → yc i = z i := by
    by_cases h2 : 2 < d
    · have := forUp_inv (fun m (y : ℕ → V) => y 0 = 0 ∧ ∀ i, 1 ≤ i → i ≤ m → y i = z i) (show 2 ≤ d - 1 by omega)
        (fun i y => Function.update y (i+1) ((1 / p.ca i) • (x i + (sigma - p.cb i) • y i + (-p.cg i) • y (i-1)))) yb ?_ ?_
      · exact ⟨this.1, fun i h1 hi => this.2 i h1 (by omega)⟩
      · refine ⟨hyb.1, fun i h1 hi => ?_⟩
        have : i = 1 ∨ i = 2 := by omega
        rcases this with rfl | rfl
        · exact hyb.2.1
        · exact hyb.2.2 h2
      · intro k y hk hkd ⟨h0, h1⟩
        refine ⟨by rw [Function.update_of_ne (by omega), h0], fun i hi hik => ?_⟩
        by_cases hh : i = k + 1
        · subst hh
          obtain ⟨j, rfl⟩ : ∃ j, k = j + 1 := ⟨k - 1, by omega⟩
          rw [Function.update_self, h1 (j+1) (by omega) (by omega), show j + 1 - 1 = j by omega, h1 j (by omega) (by omega)]
          rfl
        · rw [Function.update_of_ne hh]; exact h1 i hi (by omega)
    · have hdd : d = 2 := by omega
      have : yc = yb := forUp_le (by omega) _ _
      rw [this]
      refine ⟨hyb.1, fun i h1 hi => ?_⟩
      have : i = 1 := by omega
      rw [this]; exact hyb.2.1
  have hlast := sinvert_last s A (d-2) yc hyc.1
  have hsum : ∑ i ∈ range (d-2), s ^ (i+1) • A (i+1) (yc (i+1)) = ∑ i ∈ range (d-2), s ^ (i+1) • A (i+1) (z (i+1)) :=
    Finset.sum_congr rfl fun i hi => by rw [hyc.2 (i+1) (by omega) (by have := Finset.mem_range.1 hi; omega)]
  rw [hsum, show d - 2 + 1 = d - 1 by omega] at hlast
  have haux : (Function.update yc 0 (∑ i ∈ range (d-2), s ^ (i+1) • A (i+1) (z (i+1)))) (d-2) = if d = 2 then (0:V) else z (d-2) := by
    by_cases h2 : d = 2
    · subst h2; simp
    · rw [if_neg h2, Function.update_of_ne (by omega), hyc.2 _ (by omega) (by omega)]
  have hval : multSinvert p s A solve sigma d x = (forUp 1 d (fun i (s : (ℕ → V) × F × F) =>
      let t := ((sigma - p.cb (i-1)) * s.2.1 - p.cg (i-1) * s.2.2) / p.ca (i-1)
      (Function.update s.1 i (s.1 i + t • s.1 0), t, s.2.1)) (Function.update yc 0 y0, 1, 0)).1 := by
    unfold multSinvert
    simp only [show sinvertBlocks p sigma d x = yc from rfl, hlast, Function.update_self, Function.update_idem, haux]
    rw [Function.update_of_ne (show d - 1 ≠ 0 by omega), Function.update_of_ne (show d - 1 ≠ 0 by omega),
      hyc.2 (d-1) (by omega) (by omega)]
    rw [show s ^ (d-1) * s = s ^ d by rw [← pow_succ, show d - 1 + 1 = d by omega]]
  rw [hval, sinvert_final p sigma f hf d (by omega) _ i hi]
  by_cases h0 : i = 0
  · rw [if_pos h0, if_pos h0, Function.update_self]
  · rw [if_neg h0, if_neg h0, Function.update_self, Function.update_of_ne h0, hyc.2 i (by omega) hi]

theorem zrec_step (p : Pbc F) (ha : ∀ k, p.ca k ≠ 0) (sigma : F) (x : ℕ → V) (k : ℕ) :
    x (k+1) + sigma • zrec p sigma x (k+1) =
      p.ca (k+1) • zrec p sigma x (k+2) + p.cb (k+1) • zrec p sigma x (k+1) + p.cg (k+1) • zrec p sigma x k := by
  have h : p.ca (k+1) • zrec p sigma x (k+2) =
      x (k+1) + (sigma - p.cb (k+1)) • zrec p sigma x (k+1) + (-p.cg (k+1)) • zrec p sigma x k := by
    conv_lhs => rw [zrec]
    rw [smul_smul, mul_one_div_cancel (ha _), one_smul]
  rw [h]; module

theorem rec3_step (p : Pbc F) (ha : ∀ k, p.ca k ≠ 0) (f : ℕ → F) (sigma : F) (hf : Rec3 p f sigma) (k : ℕ) :
    sigma * f (k+1) = p.ca (k+1) * f (k+2) + p.cb (k+1) * f (k+1) + p.cg (k+1) * f k := by
  rw [hf.step, mul_div_cancel₀ _ (ha _)]; ring

/-- A vector whose blocks are `z_i + psi_i(sigma) v`, with `v` solving the last equation, is the image of `x` by the inverse of the
companion operator minus `sigma`. -/
theorem inverse_of_blocks (p : Pbc F) (ha : ∀ k, p.ca k ≠ 0) (s : F) (A : ℕ → V →ₗ[F] V) (sigma : F) (d : ℕ) (hd : 2 ≤ d)
    (f : ℕ → F) (hf : Rec3 p f sigma) (x y : ℕ → V) (v : V)
    (hv : ∑ i ∈ range (d+1), (s ^ i * f i) • A i v = -∑ i ∈ range (d+1), s ^ i • A i (zrec p sigma x i))
    (hy : ∀ i < d, y i = zrec p sigma x i + f i • v) : IsComp p s A d y (x + sigma • y) := by
  refine ⟨fun i => zrec p sigma x i + f i • v, fun i hi => (hy i hi).symm, ?_, ?_, ?_⟩
  · have : ∑ i ∈ range (d+1), s ^ i • A i (zrec p sigma x i + f i • v) =
        ∑ i ∈ range (d+1), s ^ i • A i (zrec p sigma x i) + ∑ i ∈ range (d+1), (s ^ i * f i) • A i v := by
      rw [← Finset.sum_add_distrib]
      exact Finset.sum_congr rfl fun i _ => by rw [map_add, map_smul, smul_add, smul_smul]
    beta_reduce
    rw [this, hv, add_neg_cancel]
  · rw [Pi.add_apply, Pi.smul_apply, hy 0 (by omega)]
    beta_reduce
    rw [hf.zero, hf.one]
    simp only [zrec]
    have h1 : p.ca 0 • (1 / p.ca 0) • x 0 = x 0 := by rw [smul_smul, mul_one_div_cancel (ha 0), one_smul]
    have h2 : p.ca 0 • ((sigma - p.cb 0) / p.ca 0) • v = (sigma - p.cb 0) • v := by rw [smul_smul, mul_div_cancel₀ _ (ha 0)]
    rw [smul_add (p.ca 0), h1, h2]
    module
  · intro i h1 hi
    obtain ⟨j, rfl⟩ : ∃ j, i = j + 1 := ⟨i - 1, by omega⟩
    rw [Pi.add_apply, Pi.smul_apply, hy (j+1) hi]
    beta_reduce
    rw [show j + 1 - 1 = j by omega]
    have h := zrec_step p ha sigma x j
    have h' := rec3_step p ha f sigma hf j
    have h2 : (sigma * f (j+1)) • v = (p.ca (j+1) * f (j+2) + p.cb (j+1) * f (j+1) + p.cg (j+1) * f j) • v := by rw [h']
    show _ = p.ca (j+1) • (zrec p sigma x (j+2) + f (j+2) • v) + _ + _
    linear_combination (norm := module) h + h2

/-- C70, shift-and-invert: `MatMult_Linear_Sinvert` applies the inverse of the companion operator minus the target, when the degree is
two or the last recurrence coefficient is zero (monomial basis). Missing: the remaining bases in degree three or more, for which
the claim is false (`C70_sinvert_false`). -/
theorem C70_sinvert_partial (p : Pbc F) (ha : ∀ k, p.ca k ≠ 0) (s : F) (A : ℕ → V →ₗ[F] V) (solve : V → V) (sigma : F)
    (d : ℕ) (hd : 2 ≤ d) (hcase : d = 2 ∨ p.cg (d-1) = 0) (f : ℕ → F) (hf : Rec3 p f sigma)
    (hsolve : ∀ b, ∑ i ∈ range (d+1), (s ^ i * f i) • A i (solve b) = b) (x : ℕ → V) :
    IsComp p s A d (multSinvert p s A solve sigma d x) (x + sigma • multSinvert p s A solve sigma d x) := by
  have heq := multSinvert_eq p s A solve sigma d hd f hf x
  obtain ⟨e, rfl⟩ : ∃ e, d = e + 2 := ⟨d - 2, by omega⟩
  simp only [show e + 2 - 2 = e by omega, show e + 2 - 1 = e + 1 by omega] at heq hcase
  have hz : ∑ i ∈ range e, s ^ (i+1) • A (i+1) (zrec p sigma x (i+1)) +
      s ^ (e+1) • A (e+1) (zrec p sigma x (e+1) + (p.cg (e+1) / p.ca (e+1)) • (if e + 2 = 2 then (0:V) else zrec p sigma x e)) +
      s ^ (e+2) • A (e+2) ((1 / p.ca (e+1)) • (x (e+1) + (sigma - p.cb (e+1)) • zrec p sigma x (e+1))) =
      ∑ i ∈ range (e+2+1), s ^ i • A i (zrec p sigma x i) := by
    have e1 : (p.cg (e+1) / p.ca (e+1)) • (if e + 2 = 2 then (0:V) else zrec p sigma x e) = 0 := by
      rcases hcase with h | h
      · rw [if_pos h, smul_zero]
      · rw [h, zero_div, zero_smul]
    have e2 : zrec p sigma x (e+2) = (1 / p.ca (e+1)) • (x (e+1) + (sigma - p.cb (e+1)) • zrec p sigma x (e+1)) := by
      conv_lhs => rw [zrec]
      rcases hcase with h | h
      · have : e = 0 := by omega
        subst this
        rw [show zrec p sigma x 0 = 0 from rfl, smul_zero, add_zero]
      · rw [h, neg_zero, zero_smul, add_zero]
    rw [e1, add_zero, ← e2, Finset.sum_range_succ _ (e+2), Finset.sum_range_succ' _ (e+1), Finset.sum_range_succ _ e,
      show zrec p sigma x 0 = 0 from rfl, map_zero, smul_zero, add_zero]
  rw [hz] at heq
  refine inverse_of_blocks p ha s A sigma (e+2) hd f hf x _
    (-solve (∑ i ∈ range (e+2+1), s ^ i • A i (zrec p sigma x i))) ?_ ?_
  · have : ∀ b : V, ∑ i ∈ range (e+2+1), (s ^ i * f i) • A i (-solve b) = -b := by
      intro b
      rw [← hsolve b, ← Finset.sum_neg_distrib, hsolve b]
      exact Finset.sum_congr rfl fun i _ => by rw [map_neg, smul_neg]
    exact this _
  · intro i hi
    rw [heq i hi]
    by_cases h0 : i = 0
    · rw [if_pos h0, h0, hf.zero, one_smul, show zrec p sigma x 0 = 0 from rfl, zero_add]
    · rw [if_neg h0]

/-- Consequence: for the operators of PEPLINEAR, eigenpairs of the operator give eigenpairs of the matrix polynomial. -/
theorem C70_eigenvalues [DecidableEq F] {p : Pbc F} {φ : ℕ → F[X]} (h : IsBasis p φ) (ha : ∀ k, p.ca k ≠ 0) (s : F) (hs : s ≠ 0)
    (A : ℕ → V →ₗ[F] V) (d : ℕ) (hd : 2 ≤ d) (sigma mu : F) (x : ℕ → V) (hx : ∃ i < d, x i ≠ 0) :
    (∀ solve : V → V, (∀ b, A d (solve b) = b) → multShift (scalePbc p s) s A solve sigma d x = mu • x →
      IsPolyPair φ A d (s * (mu + sigma)) (x 0)) ∧
    (∀ solve : V → V, (∀ b, ∑ i ∈ range (d+1), (φ i).eval (s * sigma) • A i (solve b) = b) → (d = 2 ∨ p.cg (d-1) = 0) →
      mu ≠ 0 → multSinvert (scalePbc p s) s A solve sigma d x = mu • x → IsPolyPair φ A d (s * (sigma + 1 / mu)) (x 0)) := by
  have hca : ∀ k, (scalePbc p s).ca k ≠ 0 := by
    intro k; unfold scalePbc; by_cases hc : s ≠ 1 <;> simp [hc, ha]
  refine ⟨fun solve hsol he => ?_, fun solve hsol hcase hmu he => ?_⟩
  · have h1 := C70_shift (scalePbc p s) s hs A solve sigma d hd hsol x (hca _)
    rw [he, ← add_smul] at h1
    exact ((C70_companion h ha s hs A d (by omega) _ x).1 ⟨h1, hx⟩).1
  · have hcg : d = 2 ∨ (scalePbc p s).cg (d-1) = 0 := by
      refine hcase.imp_right fun h0 => ?_
      unfold scalePbc; by_cases hc : s ≠ 1 <;> simp [hc, h0]
    have hsol' : ∀ b, ∑ i ∈ range (d+1), (s ^ i * ((φ i).eval (s * sigma) / s ^ i)) • A i (solve b) = b := by
      intro b
      refine Eq.trans (Finset.sum_congr rfl fun i _ => ?_) (hsol b)
      rw [mul_div_cancel₀ _ (pow_ne_zero _ hs)]
    have h1 := C70_sinvert_partial (scalePbc p s) hca s A solve sigma d hd hcg _ (scaled_rec3 h ha s hs sigma) hsol' x
    rw [he] at h1
    have h2 : IsComp (scalePbc p s) s A d x ((sigma + 1 / mu) • x) := by
      obtain ⟨X, hX, h3, h4, h5⟩ := h1
      refine ⟨fun i => (1 / mu) • X i, fun i hi => ?_, ?_, ?_, ?_⟩
      · beta_reduce
        rw [hX i hi, Pi.smul_apply, smul_smul, one_div_mul_cancel hmu, one_smul]
      · have : ∑ i ∈ range (d+1), s ^ i • A i ((1 / mu) • X i) = (1 / mu) • ∑ i ∈ range (d+1), s ^ i • A i (X i) := by
          rw [Finset.smul_sum]
          exact Finset.sum_congr rfl fun i _ => by rw [map_smul, smul_comm]
        beta_reduce
        rw [this, h3, smul_zero]
      · simp only [Pi.add_apply, Pi.smul_apply] at h4 ⊢
        have : (sigma + 1 / mu) • x 0 = (1 / mu) • (x 0 + sigma • mu • x 0) := by
          rw [smul_add, smul_smul, smul_smul, show 1 / mu * sigma * mu = sigma by field_simp]; module
        rw [this, h4]; module
      · intro i hi1 hid
        have := h5 i hi1 hid
        simp only [Pi.add_apply, Pi.smul_apply] at this ⊢
        have h6 : (sigma + 1 / mu) • x i = (1 / mu) • (x i + sigma • mu • x i) := by
          rw [smul_add, smul_smul, smul_smul, show 1 / mu * sigma * mu = sigma by field_simp]; module
        rw [h6, this]; module
    exact ((C70_companion h ha s hs A d (by omega) _ x).1 ⟨h2, hx⟩).1

/-- The coefficients of the counterexample: order one, `-33 T_0 + T_2 + T_3`. -/
def cexA : ℕ → ℚ →ₗ[ℚ] ℚ
  | 0 => (-33 : ℚ) • LinearMap.id
  | 1 => 0
  | _ => LinearMap.id

/-- C70 is false for shift-and-invert in degree three with the Chebyshev basis: `λ=2` is an eigenvalue of `-33 T_0 + T_2 + T_3` and
`[1 2 7] = [T_0(2) T_1(2) T_2(2)]` the eigenvector of its linearization, but it is not an eigenvector of the operator applied with
target `0`, although the linear system with `P(0)` is solved exactly. -/
theorem C70_sinvert_false :
    let p : Pbc ℚ := basisCoefficients .chebyshev1
    let solve : ℚ → ℚ := fun b => b / (-34)
    let x : ℕ → ℚ := fun i => if i = 0 then 1 else if i = 1 then 2 else 7
    IsPolyPair (classical ℚ .chebyshev1) cexA 3 2 1 ∧ (∀ i < 3, x i = (classical ℚ .chebyshev1 i).eval 2) ∧
    (∀ b, ∑ i ∈ range 4, (classical ℚ .chebyshev1 i).eval 0 • cexA i (solve b) = b) ∧
    ¬ ∃ mu : ℚ, ∀ i < 3, multSinvert p 1 cexA solve 0 3 x i = mu * x i := by
  intro p solve x
  have e0 : classical ℚ .chebyshev1 0 = 1 := by simp [classical]
  have e1 : classical ℚ .chebyshev1 1 = X := by simp [classical]
  have e2 : classical ℚ .chebyshev1 2 = 2 * X ^ 2 - 1 := by simp [classical, Polynomial.Chebyshev.T_two]
  have e3 : classical ℚ .chebyshev1 3 = 2 * X * (2 * X ^ 2 - 1) - X := by
    have := Polynomial.Chebyshev.T_add_two ℚ 1
    simp only [classical]
    rw [show ((3:ℕ):ℤ) = 1 + 2 by norm_num, this]
    norm_num [Polynomial.Chebyshev.T_two]
  refine ⟨⟨one_ne_zero, ?_⟩, ?_, ?_, ?_⟩
  · simp only [Finset.sum_range_succ, Finset.sum_range_zero, e0, e1, e2, e3]
    simp [cexA]; norm_num
  · intro i hi
    have : i = 0 ∨ i = 1 ∨ i = 2 := by omega
    rcases this with rfl | rfl | rfl
    · simp [x, e0]
    · simp [x, e1]
    · simp [x, e2]; norm_num
  · intro b
    simp only [Finset.sum_range_succ, Finset.sum_range_zero, e0, e1, e2, e3]
    simp [cexA, solve]; ring
  · rintro ⟨mu, h⟩
    have h0 := h 0 (by norm_num)
    have h1 := h 1 (by norm_num)
    simp [multSinvert, sinvertBlocks, forUp, List.range', p, basisCoefficients, tbl, x, cexA, solve, Function.update] at h0 h1
    norm_num at h0 h1
    rw [← h0] at h1
    norm_num at h1

/-- The hypotheses of `C70_sinvert_partial` and `C70_eigenvalues` are met: `λ²-3λ+2`, target `0`. -/
example : ∃ (A : ℕ → ℚ →ₗ[ℚ] ℚ) (solve : ℚ → ℚ) (x : ℕ → ℚ),
    (∀ b, ∑ i ∈ range 3, (classical ℚ .monomial i).eval (1 * 0) • A i (solve b) = b) ∧ (∃ i < 2, x i ≠ 0) ∧
    multSinvert (scalePbc (basisCoefficients .monomial) 1) 1 A solve 0 2 x 0 = (1/2) * x 0 ∧
    multSinvert (scalePbc (basisCoefficients .monomial) 1) 1 A solve 0 2 x 1 = (1/2) * x 1 := by
  refine ⟨fun i => if i = 0 then (2:ℚ) • LinearMap.id else if i = 1 then (-3:ℚ) • LinearMap.id else LinearMap.id, fun b => b / 2,
    fun i => 2 ^ i, fun b => ?_, ⟨0, by norm_num, by norm_num⟩, ?_, ?_⟩
  · simp [Finset.sum_range_succ, classical]; ring
  · simp [multSinvert, sinvertBlocks, forUp, List.range', scalePbc, basisCoefficients, Function.update]; try norm_num
  · simp [multSinvert, sinvertBlocks, forUp, List.range', scalePbc, basisCoefficients, Function.update]; try norm_num

end Verif.PEP
