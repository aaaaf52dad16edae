import Mathlib.Tactic
import Mathlib.Algebra.Polynomial.Div
import Mathlib.Algebra.Polynomial.Degree.Lemmas
import Mathlib.Algebra.Polynomial.RingDivision
import Mathlib.Data.Real.Basic

/-! # The conjugate residual iteration on polynomials

`L` is a linear functional on polynomials (a weighted integral), `Φ` the product with the base
function.  The sequences of the algorithm are defined here without arrays; the arrays are shown to
represent them in `CrArr.lean`. -/

set_option linter.all false

namespace Verif.Filt

open Polynomial

/-- The three polynomials of the iteration. -/
structure Ps where
  p : ℝ[X]
  r : ℝ[X]
  c : ℝ[X]

variable (L Φ : ℝ[X] →ₗ[ℝ] ℝ)

noncomputable def psRho (s : Ps) : ℝ := L (s.r * (X * s.r))
noncomputable def psDen (s : Ps) : ℝ := L (X * s.p * (X * s.p))
noncomputable def psAl0 (s : Ps) : ℝ := psRho L s / psDen L s
noncomputable def psAl (s : Ps) : ℝ := (psRho L s - Φ (X * s.p)) / psDen L s
noncomputable def psR (s : Ps) : ℝ[X] := s.r - C (psAl0 L s) * (X * s.p)
noncomputable def psC (s : Ps) : ℝ[X] := s.c - C (psAl L Φ s) * (X * s.p)
noncomputable def psBet (s : Ps) : ℝ := L (psR L s * (X * psR L s)) / psRho L s
noncomputable def psStep (s : Ps) : Ps :=
  ⟨psR L s + C (psBet L s) * s.p, psR L s, psC L Φ s⟩

noncomputable def psSeq : ℕ → Ps
  | 0 => ⟨1, 1, 1⟩
  | n + 1 => psStep L Φ (psSeq n)

/-- The functional is positive on products of squares with `X` and `X^2`. -/
structure Pos : Prop where
  one : ∀ q : ℝ[X], q ≠ 0 → 0 < L (q * (X * q))
  two : ∀ q : ℝ[X], q ≠ 0 → 0 < L (X * q * (X * q))

variable {L Φ}

theorem LC (a : ℝ) (q : ℝ[X]) : L (C a * q) = a * L q := by
  rw [← smul_eq_C_mul, map_smul, smul_eq_mul]

theorem seq_r0 (k : ℕ) : (psSeq L Φ k).r.eval 0 = 1 := by
  induction k with
  | zero => simp [psSeq]
  | succ k ih => simp [psSeq, psStep, psR, ih]

theorem seq_c0 (k : ℕ) : (psSeq L Φ k).c.eval 0 = 1 := by
  induction k with
  | zero => simp [psSeq]
  | succ k ih => simp [psSeq, psStep, psC, ih]

theorem r_ne (k : ℕ) : (psSeq L Φ k).r ≠ 0 := fun h => by
  have := seq_r0 (L := L) (Φ := Φ) k
  rw [h] at this; simp at this

theorem rho_pos (hp : Pos L) (k : ℕ) : 0 < psRho L (psSeq L Φ k) := hp.one _ (r_ne k)

theorem bet_pos (hp : Pos L) (k : ℕ) : 0 < psBet L (psSeq L Φ k) :=
  div_pos (hp.one _ (r_ne (Φ := Φ) (k + 1))) (rho_pos hp k)

theorem seq_p0 (hp : Pos L) (k : ℕ) : 1 ≤ (psSeq L Φ k).p.eval 0 := by
  induction k with
  | zero => simp [psSeq]
  | succ k ih =>
    have h1 := seq_r0 (L := L) (Φ := Φ) (k + 1)
    have e : (psSeq L Φ (k + 1)).p.eval 0 = (psSeq L Φ (k + 1)).r.eval 0 +
        psBet L (psSeq L Φ k) * (psSeq L Φ k).p.eval 0 := by
      show (psR L (psSeq L Φ k) + C (psBet L (psSeq L Φ k)) * (psSeq L Φ k).p).eval 0 = _
      rw [eval_add, eval_mul, eval_C]; rfl
    rw [e, h1]
    have := bet_pos (Φ := Φ) hp k
    nlinarith

theorem p_ne (hp : Pos L) (k : ℕ) : (psSeq L Φ k).p ≠ 0 := fun h => by
  have := seq_p0 (Φ := Φ) hp k
  rw [h] at this; simp at this; linarith

theorem den_pos (hp : Pos L) (k : ℕ) : 0 < psDen L (psSeq L Φ k) := hp.two _ (p_ne hp k)

theorem al0_pos (hp : Pos L) (k : ℕ) : 0 < psAl0 L (psSeq L Φ k) :=
  div_pos (rho_pos hp k) (den_pos hp k)

/-- Degrees. -/
theorem seq_deg (hp : Pos L) (k : ℕ) :
    (psSeq L Φ k).p.natDegree = k ∧ (psSeq L Φ k).r.natDegree ≤ k ∧ (psSeq L Φ k).c.natDegree ≤ k := by
  induction k with
  | zero => simp [psSeq]
  | succ k ih =>
    obtain ⟨h1, h2, h3⟩ := ih
    have ha := (al0_pos (Φ := Φ) hp k).ne'
    have hx : (X * (psSeq L Φ k).p).natDegree = k + 1 := by
      rw [natDegree_X_mul (p_ne hp k), h1]
    have hxa : (C (psAl0 L (psSeq L Φ k)) * (X * (psSeq L Φ k).p)).natDegree = k + 1 := by
      rw [natDegree_C_mul ha, hx]
    have hr : (psR L (psSeq L Φ k)).natDegree = k + 1 := by
      rw [psR, natDegree_sub_eq_right_of_natDegree_lt (by omega), hxa]
    refine ⟨?_, hr.le, ?_⟩
    · show (psR L (psSeq L Φ k) + C (psBet L (psSeq L Φ k)) * (psSeq L Φ k).p).natDegree = _
      rw [natDegree_add_eq_left_of_natDegree_lt, hr]
      have := natDegree_C_mul_le (psBet L (psSeq L Φ k)) (psSeq L Φ k).p
      omega
    · show (psC L Φ (psSeq L Φ k)).natDegree ≤ _
      rw [psC]
      refine (natDegree_sub_le _ _).trans (max_le (by omega) ?_)
      exact (natDegree_C_mul_le _ _).trans hx.le

theorem r_succ (k : ℕ) : (psSeq L Φ (k + 1)).r =
    (psSeq L Φ k).r - C (psAl0 L (psSeq L Φ k)) * (X * (psSeq L Φ k).p) := rfl

theorem c_succ (k : ℕ) : (psSeq L Φ (k + 1)).c =
    (psSeq L Φ k).c - C (psAl L Φ (psSeq L Φ k)) * (X * (psSeq L Φ k).p) := rfl

theorem p_succ (k : ℕ) : (psSeq L Φ (k + 1)).p =
    (psSeq L Φ (k + 1)).r + C (psBet L (psSeq L Φ k)) * (psSeq L Φ k).p := rfl

theorem bet_eq (k : ℕ) : psBet L (psSeq L Φ k) = psRho L (psSeq L Φ (k + 1)) / psRho L (psSeq L Φ k) := rfl

/-- The orthogonality relations of the conjugate residual method. -/
theorem orth (hp : Pos L) (k : ℕ) :
    (∀ i < k, L (X * (psSeq L Φ k).p * (X * (psSeq L Φ i).p)) = 0) ∧
    (∀ i < k, L ((psSeq L Φ k).r * (X * (psSeq L Φ i).p)) = 0) := by
  induction k using Nat.strong_induction_on with
  | _ k ih =>
  cases k with
  | zero => exact ⟨fun i h => absurd h (by omega), fun i h => absurd h (by omega)⟩
  | succ k =>
    have hk := ih k (by omega)
    -- the value for equal indices
    have hself : L ((psSeq L Φ k).r * (X * (psSeq L Φ k).p)) = psRho L (psSeq L Φ k) := by
      cases k with
      | zero => rfl
      | succ l =>
        have h1 := hk.2 l (by omega)
        rw [p_succ, mul_add, mul_add, map_add, show (psSeq L Φ (l + 1)).r * (X * (C (psBet L (psSeq L Φ l)) * (psSeq L Φ l).p))
          = C (psBet L (psSeq L Φ l)) * ((psSeq L Φ (l + 1)).r * (X * (psSeq L Φ l).p)) by ring, LC, h1, mul_zero, add_zero]
        rfl
    have hb : ∀ i < k + 1, L ((psSeq L Φ (k + 1)).r * (X * (psSeq L Φ i).p)) = 0 := by
      intro i hi
      rw [r_succ, sub_mul, map_sub, mul_assoc, LC]
      rcases Nat.lt_or_ge i k with h | h
      · rw [hk.2 i h, hk.1 i h]; ring
      · obtain rfl : i = k := by omega
        rw [hself]
        have hd := (den_pos (Φ := Φ) hp i).ne'
        rw [psAl0, psDen] at *
        field_simp; ring
    have hc : ∀ i < k + 1, L ((psSeq L Φ (k + 1)).r * (X * (psSeq L Φ i).r)) = 0 := by
      intro i hi
      cases i with
      | zero => exact hb 0 hi
      | succ l =>
        have e : (psSeq L Φ (l + 1)).r = (psSeq L Φ (l + 1)).p - C (psBet L (psSeq L Φ l)) * (psSeq L Φ l).p := by
          rw [p_succ]; ring
        rw [e, mul_sub, mul_sub, map_sub, hb _ hi,
          show (psSeq L Φ (k + 1)).r * (X * (C (psBet L (psSeq L Φ l)) * (psSeq L Φ l).p))
          = C (psBet L (psSeq L Φ l)) * ((psSeq L Φ (k + 1)).r * (X * (psSeq L Φ l).p)) by ring, LC,
          hb l (by omega)]; ring
    refine ⟨fun i hi => ?_, hb⟩
    have ha := (al0_pos (Φ := Φ) hp i).ne'
    have e1 : L ((psSeq L Φ (k + 1)).r * (X * (psSeq L Φ (i + 1)).r)) =
        L ((psSeq L Φ (k + 1)).r * (X * (psSeq L Φ i).r)) -
        psAl0 L (psSeq L Φ i) * L (X * (psSeq L Φ (k + 1)).r * (X * (psSeq L Φ i).p)) := by
      rw [← LC, ← map_sub]; congr 1; rw [r_succ i]; ring
    have e2 : L (X * (psSeq L Φ (k + 1)).p * (X * (psSeq L Φ i).p)) =
        L (X * (psSeq L Φ (k + 1)).r * (X * (psSeq L Φ i).p)) +
        psBet L (psSeq L Φ k) * L (X * (psSeq L Φ k).p * (X * (psSeq L Φ i).p)) := by
      rw [← LC, ← map_add]; congr 1; rw [p_succ k]; ring
    rw [hc i hi] at e1
    rw [e2]
    rcases Nat.lt_or_ge i k with h | h
    · rw [hc (i + 1) (by omega)] at e1
      have : L (X * (psSeq L Φ (k + 1)).r * (X * (psSeq L Φ i).p)) = 0 := by
        have : psAl0 L (psSeq L Φ i) * L (X * (psSeq L Φ (k + 1)).r * (X * (psSeq L Φ i).p)) = 0 := by linarith
        exact (mul_eq_zero.mp this).resolve_left ha
      rw [this, hk.1 i h]; ring
    · obtain rfl : i = k := by omega
      have hd := (den_pos (Φ := Φ) hp i).ne'
      have hr := (rho_pos (Φ := Φ) hp i).ne'
      have e3 : L ((psSeq L Φ (i + 1)).r * (X * (psSeq L Φ (i + 1)).r)) = psRho L (psSeq L Φ (i + 1)) := rfl
      have e4 : L (X * (psSeq L Φ i).p * (X * (psSeq L Φ i).p)) = psDen L (psSeq L Φ i) := rfl
      rw [e3] at e1
      rw [e4, bet_eq]
      have e5 : L (X * (psSeq L Φ (i + 1)).r * (X * (psSeq L Φ i).p)) =
          -(psRho L (psSeq L Φ (i + 1)) / psAl0 L (psSeq L Φ i)) := by
        field_simp; linarith
      rw [e5, psAl0]
      field_simp; ring

theorem r_self (hp : Pos L) (k : ℕ) : L ((psSeq L Φ k).r * (X * (psSeq L Φ k).p)) = psRho L (psSeq L Φ k) := by
  cases k with
  | zero => rfl
  | succ l =>
    have h1 := (orth (Φ := Φ) hp (l + 1)).2 l (by omega)
    rw [p_succ, mul_add, mul_add, map_add, show (psSeq L Φ (l + 1)).r * (X * (C (psBet L (psSeq L Φ l)) * (psSeq L Φ l).p))
      = C (psBet L (psSeq L Φ l)) * ((psSeq L Φ (l + 1)).r * (X * (psSeq L Φ l).p)) by ring, LC, h1, mul_zero, add_zero]
    rfl

theorem c_sub_r (hp : Pos L) (k : ℕ) : ∀ m, k ≤ m →
    L (((psSeq L Φ k).c - (psSeq L Φ k).r) * (X * (psSeq L Φ m).p)) = 0 := by
  induction k with
  | zero => intro m _; simp [psSeq]
  | succ k ih =>
    intro m hm
    have h1 := ih m (by omega)
    have h2 := (orth (Φ := Φ) hp m).1 k (by omega)
    have e : ((psSeq L Φ (k + 1)).c - (psSeq L Φ (k + 1)).r) * (X * (psSeq L Φ m).p) =
        ((psSeq L Φ k).c - (psSeq L Φ k).r) * (X * (psSeq L Φ m).p) +
        C (psAl0 L (psSeq L Φ k) - psAl L Φ (psSeq L Φ k)) * (X * (psSeq L Φ m).p * (X * (psSeq L Φ k).p)) := by
      rw [c_succ, r_succ, C_sub]; ring
    rw [e, map_add, LC, h1, h2]; ring

/-- The normal equations. -/
theorem normal (hp : Pos L) (n : ℕ) : ∀ i < n, L ((psSeq L Φ n).c * (X * (psSeq L Φ i).p)) = Φ (X * (psSeq L Φ i).p) := by
  induction n with
  | zero => intro i hi; omega
  | succ n ih =>
    intro i hi
    rw [c_succ, sub_mul, map_sub, mul_assoc, LC]
    rcases Nat.lt_or_ge i n with h | h
    · rw [ih i h, (orth (Φ := Φ) hp n).1 i h]; ring
    · obtain rfl : i = n := by omega
      have h1 := c_sub_r (Φ := Φ) hp i i le_rfl
      have h2 := r_self (Φ := Φ) hp i
      rw [sub_mul, map_sub] at h1
      have h3 : L ((psSeq L Φ i).c * (X * (psSeq L Φ i).p)) = psRho L (psSeq L Φ i) := by linarith
      have hd := (den_pos (Φ := Φ) hp i).ne'
      have e4 : L (X * (psSeq L Φ i).p * (X * (psSeq L Φ i).p)) = psDen L (psSeq L Φ i) := rfl
      rw [h3, e4, psAl]
      field_simp; ring

/-- The directions span the polynomials of smaller degree. -/
theorem span_dir (hp : Pos L) (G : ℝ[X] →ₗ[ℝ] ℝ) (n : ℕ) (hG : ∀ i < n, G (psSeq L Φ i).p = 0) :
    ∀ D : ℝ[X], D.degree < n → G D = 0 := by
  induction n with
  | zero =>
    intro D hD
    have : D = 0 := by
      rw [← degree_eq_bot]; exact Nat.WithBot.lt_zero_iff.mp hD
    rw [this, map_zero]
  | succ n ih =>
    intro D hD
    have hdeg := (seq_deg (Φ := Φ) hp n).1
    have hne := p_ne (Φ := Φ) hp n
    obtain ⟨q, hq⟩ : ∃ q, q = (psSeq L Φ n).p := ⟨_, rfl⟩
    have hlc : q.coeff n ≠ 0 := by
      have : q.leadingCoeff ≠ 0 := leadingCoeff_ne_zero.mpr (hq ▸ hne)
      rwa [leadingCoeff, hq, hdeg, ← hq] at this
    obtain ⟨a, ha⟩ : ∃ a, a = D.coeff n / q.coeff n := ⟨_, rfl⟩
    have h1 : (D - C a * q).degree < n := by
      rw [degree_lt_iff_coeff_zero]
      intro m hm
      rw [coeff_sub, coeff_C_mul]
      rcases Nat.lt_or_ge n m with h | h
      · have h3 : D.coeff m = 0 := coeff_eq_zero_of_degree_lt (lt_of_lt_of_le hD (by exact_mod_cast h))
        have h4 : q.coeff m = 0 := coeff_eq_zero_of_natDegree_lt (by rw [hq, hdeg]; exact h)
        rw [h3, h4]; ring
      · obtain rfl : m = n := by omega
        rw [ha]; field_simp; ring
    have h2 := ih (fun i hi => hG i (by omega)) _ h1
    rw [map_sub, LC, hq, hG n (by omega), mul_zero, sub_zero] at h2
    exact h2

/-- Best approximation. -/
theorem best (hp : Pos L) (n : ℕ) (S : ℝ[X]) (h0 : S.eval 0 = 1) (hd : S.natDegree ≤ n) :
    L (S * S) - 2 * Φ S = L ((psSeq L Φ n).c * (psSeq L Φ n).c) - 2 * Φ (psSeq L Φ n).c +
      L ((S - (psSeq L Φ n).c) * (S - (psSeq L Φ n).c)) := by
  obtain ⟨c, hc⟩ : ∃ c, c = (psSeq L Φ n).c := ⟨_, rfl⟩
  have hc0 : c.eval 0 = 1 := by rw [hc]; exact seq_c0 n
  have hcd : c.natDegree ≤ n := by rw [hc]; exact (seq_deg hp n).2.2
  rw [← hc]
  obtain ⟨D, hD⟩ : X ∣ S - c := by
    rw [X_dvd_iff, coeff_zero_eq_eval_zero, eval_sub, h0, hc0, sub_self]
  have hDd : D.degree < n := by
    by_cases hz : D = 0
    · rw [hz, degree_zero]; exact WithBot.bot_lt_coe n
    · have h1 : (S - c).natDegree = D.natDegree + 1 := by rw [hD, natDegree_X_mul hz]
      have h2 := (natDegree_sub_le S c).trans (max_le hd hcd)
      rw [degree_eq_natDegree hz]
      exact_mod_cast (by omega : D.natDegree < n)
  have hG := span_dir (Φ := Φ) hp (L.comp (LinearMap.mulLeft ℝ (c * X)) - Φ.comp (LinearMap.mulLeft ℝ X)) n
    (fun i hi => by
      have := normal (Φ := Φ) hp n i hi
      rw [← hc] at this
      simp only [LinearMap.sub_apply, LinearMap.comp_apply, LinearMap.mulLeft_apply, mul_assoc]
      rw [this, sub_self]) D hDd
  simp only [LinearMap.sub_apply, LinearMap.comp_apply, LinearMap.mulLeft_apply, mul_assoc] at hG
  rw [← hD] at hG
  have e1 : S * S = c * c + C 2 * (c * (S - c)) + (S - c) * (S - c) := by
    have : (C 2 : ℝ[X]) = 2 := rfl
    rw [this]; ring
  have e2 : Φ S = Φ c + Φ (S - c) := by rw [← map_add]; congr 1; ring
  rw [e1, map_add, map_add, LC, e2]
  linarith

end Verif.Filt
