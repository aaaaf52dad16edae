import Mathlib.RingTheory.Polynomial.Chebyshev
import Mathlib.Data.Nat.Choose.Basic
import Mathlib.Data.Nat.Factorial.Basic
import Verif.PEP.BasisModel

/-! The classical polynomials named in the documentation of `PEPBasis`, independently of the model. -/
set_option linter.all false

namespace Verif.PEP

open Polynomial

/-- Physicists' Hermite polynomials: `H_0=1`, `H_1=2x`, `H_{n+2} = 2x H_{n+1} - 2(n+1) H_n`. -/
noncomputable def hermiteH (K : Type*) [Field K] : ℕ → K[X]
  | 0 => 1
  | 1 => 2 * X
  | n+2 => 2 * X * hermiteH K (n+1) - C (2 * ((n:K) + 1)) * hermiteH K n

/-- The classical polynomials. Legendre: `P_n = 2^{-n} sum_i C(n,i)^2 (x-1)^{n-i} (x+1)^i`;
Laguerre: `L_n = sum_i C(n,i) (-1)^i x^i / i!`. -/
noncomputable def classical (K : Type*) [Field K] : Basis → ℕ → K[X]
  | .monomial, n => X ^ n
  | .chebyshev1, n => Chebyshev.T K (n : ℤ)
  | .chebyshev2, n => Chebyshev.U K (n : ℤ)
  | .legendre, n => C ((1/2) ^ n) *
      ∑ i ∈ Finset.range (n+1), C ((n.choose i : K) ^ 2) * (X - 1) ^ (n - i) * (X + 1) ^ i
  | .laguerre, n => ∑ i ∈ Finset.range (n+1), C ((-1) ^ i * (n.choose i : K) / (i.factorial : K)) * X ^ i
  | .hermite, n => hermiteH K n

/-- A sequence of polynomials satisfies the recurrence `x phi_k = a_k phi_{k+1} + b_k phi_k + g_k phi_{k-1}`. -/
structure IsBasis {K : Type*} [Field K] (p : Pbc K) (φ : ℕ → K[X]) : Prop where
  zero : φ 0 = 1
  first : X * φ 0 = C (p.ca 0) * φ 1 + C (p.cb 0) * φ 0
  step : ∀ k, X * φ (k+1) = C (p.ca (k+1)) * φ (k+2) + C (p.cb (k+1)) * φ (k+1) + C (p.cg (k+1)) * φ k

end Verif.PEP
