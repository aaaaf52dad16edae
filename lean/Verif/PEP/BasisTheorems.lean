import Verif.PEP.BasisSpec
import Verif.PEP.BasisLemmas
import Mathlib.Analysis.Complex.Basic
import Mathlib.Tactic.NormNum
import Mathlib.Tactic.LinearCombination

/-! # C38: polynomial bases of PEP -/
set_option linter.all false

namespace Verif.PEP

open Polynomial

section general
variable {K : Type*} [Field K]

theorem IsBasis.rec3 {p : Pbc K} {φ : ℕ → K[X]} (h : IsBasis p φ) (ha : ∀ k, p.ca k ≠ 0) (x : K) :
    Rec3 p (fun k => (φ k).eval x) x where
  zero := by simp [h.zero]
  one := by
    have := congrArg (fun q => q.eval x) h.first
    simp only [h.zero, eval_add, eval_mul, eval_X, eval_C, eval_one, mul_one] at this
    have ha0 := ha 0
    field_simp
    linear_combination -this
  step k := by
    have := congrArg (fun q => q.eval x) (h.step k)
    simp only [eval_add, eval_mul, eval_X, eval_C] at this
    have ha0 := ha (k+1)
    field_simp
    linear_combination -this

theorem IsBasis.rec3D {p : Pbc K} {φ : ℕ → K[X]} (h : IsBasis p φ) (ha : ∀ k, p.ca k ≠ 0) (x : K) :
    Rec3D p (fun k => (φ k).eval x) (fun k => (derivative (φ k)).eval x) x where
  zero := by simp [h.zero]
  one := by
    have := congrArg (fun q => (derivative q).eval x) h.first
    simp only [h.zero, derivative_add, derivative_mul, derivative_X, derivative_C, derivative_one, eval_add, eval_mul,
      eval_X, eval_C, eval_one, mul_one, eval_zero, mul_zero, zero_mul, add_zero, zero_add] at this
    have ha0 := ha 0
    field_simp
    linear_combination -this
  step k := by
    have := congrArg (fun q => (derivative q).eval x) (h.step k)
    simp only [derivative_add, derivative_mul, derivative_X, derivative_C, eval_add, eval_mul, eval_X, eval_C, eval_one,
      eval_zero, zero_mul, zero_add, one_mul] at this
    have ha0 := ha (k+1)
    field_simp
    linear_combination -this

/-- C38 (any coefficients): if the polynomials satisfy the three-term recurrence with the stored coefficients, the evaluation
routine computes their values, whatever the array contained. -/
theorem C38_evaluation (p : Pbc K) (φ : ℕ → K[X]) (h : IsBasis p φ) (ha : ∀ k, p.ca k ≠ 0) (nmat : ℕ) (hn : 2 ≤ nmat)
    (x : K) (vals : ℕ → K) (k : ℕ) (hk : k < nmat) : evalBasis p nmat x vals k = (φ k).eval x :=
  evalBasis_eq p _ x (h.rec3 ha x) nmat hn vals k hk

/-- C38 (any coefficients): both derivative routines compute the values of the derivatives. -/
theorem C38_derivatives (p : Pbc K) (φ : ℕ → K[X]) (h : IsBasis p φ) (ha : ∀ k, p.ca k ≠ 0) (nmat : ℕ) (hn : 2 ≤ nmat)
    (x : K) (vals : ℕ → K) (k : ℕ) (hk : k < nmat) :
    evalBasisDerivative p nmat x vals k = (derivative (φ k)).eval x ∧
    evalFunctionDerivatives p nmat x vals k = (derivative (φ k)).eval x :=
  ⟨evalBasisDerivative_eq p _ _ x (h.rec3 ha x) (h.rec3D ha x) nmat hn vals k hk,
   evalFunctionDerivatives_eq p _ _ x (h.rec3 ha x) (h.rec3D ha x) nmat hn vals k hk⟩

/-- The bases whose coefficients are right. -/
def IsCorrect (b : Basis) : Prop := b = .monomial ∨ b = .chebyshev1 ∨ b = .chebyshev2

theorem basisCoefficients_isBasis [CharZero K] (b : Basis) (hb : IsCorrect b) :
    IsBasis (basisCoefficients b) (classical K b) ∧ ∀ k, (basisCoefficients (K := K) b).ca k ≠ 0 := by
  have h2 : (2:K) ≠ 0 := two_ne_zero
  have hC : C (1/2 : K) * 2 = 1 := by
    rw [show (2 : K[X]) = C 2 from rfl, ← C_mul]; simp
  rcases hb with rfl | rfl | rfl
  · refine ⟨⟨?_, ?_, ?_⟩, ?_⟩
    · simp [classical]
    · simp [classical, basisCoefficients]
    · intro k; simp [classical, basisCoefficients]; ring
    · intro k; simp [basisCoefficients]
  · refine ⟨⟨?_, ?_, ?_⟩, ?_⟩
    · simp [classical]
    · simp [classical, basisCoefficients, tbl]
    · intro k
      simp only [classical, basisCoefficients, tbl, Nat.cast_add, Nat.cast_one, Nat.cast_ofNat, if_neg (Nat.succ_ne_zero k),
        Chebyshev.T_add_two, map_zero]
      linear_combination (-X * Chebyshev.T K ((k:ℤ)+1)) * hC
    · intro k; simp only [basisCoefficients, tbl]; split_ifs <;> simp
  · refine ⟨⟨?_, ?_, ?_⟩, ?_⟩
    · simp [classical]
    · simp only [classical, basisCoefficients, tbl, Nat.cast_zero, Nat.cast_one, if_true, Chebyshev.U_zero, Chebyshev.U_one, map_zero]
      linear_combination (-X) * hC
    · intro k
      simp only [classical, basisCoefficients, tbl, Nat.cast_add, Nat.cast_one, Nat.cast_ofNat, if_neg (Nat.succ_ne_zero k),
        Chebyshev.U_add_two, map_zero]
      linear_combination (-X * Chebyshev.U K ((k:ℤ)+1)) * hC
    · intro k; simp only [basisCoefficients, tbl]; split_ifs <;> simp

/-- C38 for the monomial and the two Chebyshev bases: the values and the derivatives are those of the classical polynomials.
Missing: Legendre, Laguerre and Hermite, for which the statement is false (`C38_legendre_false`, `C38_laguerre_false`,
`C38_hermite_false`). -/
theorem C38_classical_partial [CharZero K] (b : Basis) (hb : b = .monomial ∨ b = .chebyshev1 ∨ b = .chebyshev2)
    (nmat : ℕ) (hn : 2 ≤ nmat) (x : K) (vals : ℕ → K) (k : ℕ) (hk : k < nmat) :
    evalBasis (basisCoefficients b) nmat x vals k = (classical K b k).eval x ∧
    evalBasisDerivative (basisCoefficients b) nmat x vals k = (derivative (classical K b k)).eval x ∧
    evalFunctionDerivatives (basisCoefficients b) nmat x vals k = (derivative (classical K b k)).eval x := by
  obtain ⟨h, ha⟩ := basisCoefficients_isBasis (K := K) b hb
  exact ⟨C38_evaluation _ _ h ha nmat hn x vals k hk, C38_derivatives _ _ h ha nmat hn x vals k hk⟩

end general

example : ∃ v : ℕ → ℚ, evalBasis (basisCoefficients .chebyshev1) 4 (2:ℚ) v 3 = 26 := by
  refine ⟨fun _ => 0, ?_⟩
  simp [evalBasis, forUp, basisCoefficients, tbl, List.range', Function.update]
  norm_num

section pair

/-- The coefficients seen as complex numbers. -/
noncomputable def Pbc.toComplex (p : Pbc ℝ) : Pbc ℂ := ⟨fun k => (p.ca k : ℂ), fun k => (p.cb k : ℂ), fun k => (p.cg k : ℂ)⟩

theorem rec3_pair (p : Pbc ℝ) (f : ℕ → ℂ) (x y : ℝ) (h : Rec3 p.toComplex f ⟨x, y⟩) :
    Rec3Pair p (fun k => (f k).re) (fun k => (f k).im) x y where
  zero := by simp [h.zero]
  izero := by simp [h.zero]
  one := by simp only [h.one, Pbc.toComplex, Complex.div_ofReal_re]; simp
  ione := by simp only [h.one, Pbc.toComplex, Complex.div_ofReal_im]; simp
  step k := by
    simp only [h.step, Pbc.toComplex, Complex.div_ofReal_re, Complex.sub_re, Complex.mul_re, Complex.ofReal_re,
      Complex.ofReal_im, Complex.sub_im]
    ring
  istep k := by
    simp only [h.step, Pbc.toComplex, Complex.div_ofReal_im, Complex.sub_re, Complex.mul_im, Complex.ofReal_re,
      Complex.ofReal_im, Complex.sub_im]
    ring

theorem rec3D_pair (p : Pbc ℝ) (f d : ℕ → ℂ) (x y : ℝ) (h : Rec3D p.toComplex f d ⟨x, y⟩) :
    Rec3DPair p (fun k => (f k).re) (fun k => (f k).im) (fun k => (d k).re) (fun k => (d k).im) x y where
  zero := by simp [h.zero]
  izero := by simp [h.zero]
  one := by simp only [h.one, Pbc.toComplex, Complex.div_ofReal_re]; simp
  ione := by simp only [h.one, Pbc.toComplex, Complex.div_ofReal_im]; simp
  step k := by
    simp only [h.step, Pbc.toComplex, Complex.div_ofReal_re, Complex.add_re, Complex.sub_re, Complex.mul_re,
      Complex.ofReal_re, Complex.ofReal_im, Complex.sub_im]
    ring
  istep k := by
    simp only [h.step, Pbc.toComplex, Complex.div_ofReal_im, Complex.add_im, Complex.sub_re, Complex.mul_im,
      Complex.ofReal_re, Complex.ofReal_im, Complex.sub_im]
    ring

/-- C38, complex argument in real arithmetic: the two arrays hold the real and imaginary parts of the classical polynomials (and of
their derivatives) at `x + i y`. Missing: Legendre, Laguerre and Hermite. -/
theorem C38_complex_argument_partial (b : Basis) (hb : b = .monomial ∨ b = .chebyshev1 ∨ b = .chebyshev2)
    (nmat : ℕ) (hn : 2 ≤ nmat) (x y : ℝ) (s : (ℕ → ℝ) × (ℕ → ℝ)) (k : ℕ) (hk : k < nmat) :
    (evalBasisPair (basisCoefficients b) nmat x y s).1 k = ((classical ℂ b k).eval (⟨x, y⟩ : ℂ)).re ∧
    (evalBasisPair (basisCoefficients b) nmat x y s).2 k = ((classical ℂ b k).eval (⟨x, y⟩ : ℂ)).im ∧
    (evalBasisDerivativePair (basisCoefficients b) nmat x y s).1 k = ((derivative (classical ℂ b k)).eval (⟨x, y⟩ : ℂ)).re ∧
    (evalBasisDerivativePair (basisCoefficients b) nmat x y s).2 k = ((derivative (classical ℂ b k)).eval (⟨x, y⟩ : ℂ)).im := by
  obtain ⟨h, ha⟩ := basisCoefficients_isBasis (K := ℂ) b hb
  have hp : (basisCoefficients (K := ℝ) b).toComplex = basisCoefficients (K := ℂ) b := by
    rcases hb with rfl | rfl | rfl <;> simp only [Pbc.toComplex, basisCoefficients, tbl] <;> congr 1 <;> funext k <;>
      by_cases hk0 : k = 0 <;> simp [tbl, hk0]
  have hr := h.rec3 ha (⟨x, y⟩ : ℂ)
  have hd := h.rec3D ha (⟨x, y⟩ : ℂ)
  rw [← hp] at hr hd
  have h1 := rec3_pair _ _ x y hr
  have h2 := rec3D_pair _ _ _ x y hd
  have e1 := evalBasisPair_eq _ _ _ x y h1 nmat hn s k hk
  have e2 := evalBasisDerivativePair_eq _ _ _ _ _ x y h1 h2 nmat hn s k hk
  exact ⟨e1.1, e1.2, e2.1, e2.2⟩

end pair

section wrong
variable {K : Type*} [Field K] [CharZero K]

/-- The full claim of C38 for one basis. -/
def EvaluatesClassical (K : Type*) [Field K] (b : Basis) : Prop :=
  ∀ (nmat : ℕ), 2 ≤ nmat → ∀ (x : K) (vals : ℕ → K) (k : ℕ), k < nmat →
    evalBasis (basisCoefficients b) nmat x vals k = (classical K b k).eval x

/-- C38 is false for the Legendre basis: the value of degree two is that of the Legendre polynomial only at `0` and `1`. -/
theorem C38_legendre_false (x : K) (vals : ℕ → K) :
    (evalBasis (basisCoefficients .legendre) 3 x vals 2 = (classical K .legendre 2).eval x ↔ x = 0 ∨ x = 1) ∧
    ¬ EvaluatesClassical K .legendre := by
  have h : ∀ (x : K) (vals : ℕ → K),
      (evalBasis (basisCoefficients .legendre) 3 x vals 2 = (classical K .legendre 2).eval x ↔ x = 0 ∨ x = 1) := by
    intro x vals
    have e1 : evalBasis (basisCoefficients .legendre) 3 x vals 2 = (x^2 + 2*x - 1) / 2 := by
      simp [evalBasis, forUp, basisCoefficients, tbl, List.range', Function.update]
      norm_num
      ring
    have e2 : (classical K .legendre 2).eval x = (3 * x^2 - 1) / 2 := by
      simp [classical, Finset.sum_range_succ]
      ring
    rw [e1, e2]
    constructor
    · intro h
      have h2 : (2:K) ≠ 0 := two_ne_zero
      have : x * (x - 1) = 0 := by
        have := congrArg (fun z => z * 2) h
        simp only [div_mul_cancel₀ _ h2] at this
        have h3 : (2:K) * (x * (x-1)) = 0 := by linear_combination -this
        exact (mul_eq_zero.1 h3).resolve_left h2
      rcases mul_eq_zero.1 this with h | h
      · exact Or.inl h
      · exact Or.inr (by linear_combination h)
    · rintro (rfl | rfl) <;> norm_num
  refine ⟨h x vals, fun hc => ?_⟩
  have := (h 2 (fun _ => 0)).1 (hc 3 (by omega) 2 _ 2 (by omega))
  rcases this with h0 | h1
  · exact two_ne_zero h0
  · have : (1:K) = 0 := by linear_combination h1
    exact one_ne_zero this

/-- C38 is false for the Laguerre basis: the value of degree one is wrong for every argument. -/
theorem C38_laguerre_false (x : K) (vals : ℕ → K) :
    evalBasis (basisCoefficients .laguerre) 2 x vals 1 = -x ∧ (classical K .laguerre 1).eval x = 1 - x ∧
    ¬ EvaluatesClassical K .laguerre := by
  have e1 : ∀ (x : K) vals, evalBasis (basisCoefficients .laguerre) 2 x vals 1 = -x := by
    intro x vals
    simp [evalBasis, forUp, basisCoefficients, tbl, Function.update, div_neg]
  have e2 : ∀ (x : K), (classical K .laguerre 1).eval x = 1 - x := by
    intro x
    simp [classical, Finset.sum_range_succ]; ring
  refine ⟨e1 x vals, e2 x, fun hc => ?_⟩
  have := hc 2 (by omega) 0 vals 1 (by omega)
  rw [e1, e2] at this
  simp at this

/-- C38 is false for the Hermite basis: the value of degree two is wrong for every argument. -/
theorem C38_hermite_false (x : K) (vals : ℕ → K) :
    evalBasis (basisCoefficients .hermite) 3 x vals 2 = 4 * x^2 + 2 ∧ (classical K .hermite 2).eval x = 4 * x^2 - 2 ∧
    ¬ EvaluatesClassical K .hermite := by
  have e1 : ∀ (x : K) vals, evalBasis (basisCoefficients .hermite) 3 x vals 2 = 4 * x^2 + 2 := by
    intro x vals
    simp [evalBasis, forUp, basisCoefficients, tbl, List.range', Function.update]
    ring
  have e2 : ∀ (x : K), (classical K .hermite 2).eval x = 4 * x^2 - 2 := by
    intro x
    simp [classical, hermiteH]; ring
  refine ⟨e1 x vals, e2 x, fun hc => ?_⟩
  have := hc 3 (by omega) 0 vals 2 (by omega)
  rw [e1, e2] at this
  have h4 : (4:K) = 0 := by linear_combination this
  exact absurd h4 (by norm_num)

/-- What the Hermite basis computes instead: `i^k phi_k(x) = H_k(i x)`. -/
theorem C38_hermite_rotated (nmat : ℕ) (hn : 2 ≤ nmat) (x : ℂ) (vals : ℕ → ℂ) (k : ℕ) (hk : k < nmat) :
    Complex.I ^ k * evalBasis (basisCoefficients .hermite) nmat x vals k = (classical ℂ .hermite k).eval (Complex.I * x) := by
  have hI : Complex.I ≠ 0 := Complex.I_ne_zero
  have hrec : Rec3 (basisCoefficients .hermite) (fun k => (Complex.I ^ k)⁻¹ * (hermiteH ℂ k).eval (Complex.I * x)) x := by
    refine ⟨?_, ?_, ?_⟩
    · simp [hermiteH]
    · simp [hermiteH, basisCoefficients, tbl]
      field_simp
      linear_combination (-x) * Complex.I_sq
    · intro k
      simp only [hermiteH, basisCoefficients, tbl, if_neg (Nat.succ_ne_zero k), eval_sub, eval_mul, eval_X, eval_C,
        eval_ofNat, pow_succ, Nat.cast_add, Nat.cast_one]
      have hk : Complex.I ^ k ≠ 0 := pow_ne_zero _ hI
      field_simp
      have h2 : Complex.I ^ 2 = -1 := Complex.I_sq
      linear_combination (-1 * ((k:ℂ)+1) * (hermiteH ℂ k).eval (Complex.I * x)) * h2
  rw [evalBasis_eq _ _ x hrec nmat hn vals k hk]
  have hk : Complex.I ^ k ≠ 0 := pow_ne_zero _ hI
  simp only [classical]
  field_simp

/-- C38 for the solvers: whenever the set-up succeeds, the coefficients in force are those of the basis selected by the user.
Missing: the contour integral solver, for which this is false (`C38_ciss_false`). -/
theorem C38_solvers_partial (t : Solver) (ht : t ≠ .ciss) (b : Basis) (p : Pbc K) (h : setUpPbc t b = some p) :
    p = basisCoefficients b := by
  unfold setUpPbc at h
  cases t <;> simp at h <;> first | exact h.symm | (obtain ⟨rfl, rfl⟩ := h; rfl) | exact absurd rfl ht

/-- C38 is false for the contour integral solver: with the Chebyshev basis selected, set-up succeeds and degree two is evaluated
as `x^2` instead of `2x^2-1`. -/
theorem C38_ciss_false (x : K) (vals : ℕ → K) : ∃ p, setUpPbc .ciss .chebyshev1 = some p ∧
    evalBasis p 3 x vals 2 = x^2 ∧ (classical K .chebyshev1 2).eval x = 2*x^2 - 1 ∧
    (evalBasis p 3 x vals 2 = (classical K .chebyshev1 2).eval x ↔ x^2 = 1) := by
  have e1 : evalBasis (basisCoefficients .monomial) 3 x vals 2 = x^2 := by
    simp [evalBasis, forUp, basisCoefficients, List.range', Function.update]; ring
  have e2 : (classical K .chebyshev1 2).eval x = 2*x^2 - 1 := by
    have h2 : Chebyshev.T K 2 = 2 * X * X - 1 := by
      have := Chebyshev.T_add_two K 0
      simpa using this
    simp [classical, h2]; ring
  refine ⟨_, rfl, e1, e2, ?_⟩
  rw [e1, e2]
  constructor
  · intro h; linear_combination -h
  · intro h; linear_combination -h

end wrong

section scaling
variable {K : Type*} [Field K] [DecidableEq K]

/-- Scaling: with the scaled coefficients the value at `θ = λ/s`, multiplied by `s^k`, is the value at `λ` with the original
coefficients; so `sum_k s^k phi~_k(λ/s) A_k = sum_k phi_k(λ) A_k`. -/
theorem C38_scaled_evaluation (p : Pbc K) (s : K) (hs : s ≠ 0) (nmat : ℕ) (hn : 2 ≤ nmat) (lam : K)
    (vals vals' : ℕ → K) (k : ℕ) (hk : k < nmat) :
    s ^ k * evalBasis (scalePbc p s) nmat (lam / s) vals k = evalBasis p nmat lam vals' k := by
  let f : ℕ → K := fun k => evalBasis p (k+2) lam vals' k
  have hst : ∀ n, 2 ≤ n → ∀ k, k < n → evalBasis p n lam vals' k = f k := by
    intro n hn
    induction n, hn using Nat.le_induction with
    | base =>
      intro k hk
      show _ = evalBasis p (k+2) lam vals' k
      have : k = 0 ∨ k = 1 := by omega
      rcases this with rfl | rfl
      · rfl
      · unfold evalBasis
        rw [forUp_succ (e := 2) (by omega), Function.update_of_ne (by omega)]
    | succ n hn ih =>
      intro k hk
      by_cases h : k = n
      · subst h
        show _ = evalBasis p (k+2) lam vals' k
        unfold evalBasis
        rw [forUp_succ (e := k+1) (by omega), Function.update_of_ne (by omega)]
      · rw [← ih k (by omega)]
        unfold evalBasis
        rw [forUp_succ (e := n) (by omega), Function.update_of_ne h]
  have hf : Rec3 p f lam := by
    refine ⟨?_, ?_, ?_⟩
    · show evalBasis p 2 lam vals' 0 = 1
      simp [evalBasis, forUp_le]
    · rw [← hst 2 (by omega) 1 (by omega)]
      simp [evalBasis, forUp_le]
    · intro k
      rw [← hst (k+3) (by omega) (k+2) (by omega), ← hst (k+2) (by omega) (k+1) (by omega), ← hst (k+2) (by omega) k (by omega)]
      unfold evalBasis
      rw [forUp_succ (e := k+2) (by omega), Function.update_self, show k + 2 - 1 = k + 1 by omega,
        show k + 2 - 2 = k by omega]
  have hg : Rec3 (scalePbc p s) (fun k => f k / s ^ k) (lam / s) := by
    unfold scalePbc
    by_cases h1 : s ≠ 1
    · rw [if_pos h1]
      refine ⟨?_, ?_, ?_⟩
      · simp [hf.zero]
      · simp only [hf.one, pow_one]; field_simp
      · intro k; simp only [hf.step, pow_succ]; field_simp
    · rw [if_neg h1]
      have : s = 1 := not_not.1 h1
      subst this
      simpa using hf
  rw [evalBasis_eq _ _ _ hg nmat hn vals k hk, hst nmat hn k hk]
  field_simp

/-- The coefficients are restored exactly after the solve. -/
theorem C38_scaling_restored (p : Pbc K) (s : K) (hs : s ≠ 0) : unscalePbc (scalePbc p s) s = p := by
  unfold unscalePbc scalePbc
  by_cases h1 : s ≠ 1
  · simp only [if_pos h1]
    cases p
    simp only [Pbc.mk.injEq, true_and]
    constructor <;> funext k <;> field_simp
  · simp only [if_neg h1]

end scaling

end Verif.PEP
