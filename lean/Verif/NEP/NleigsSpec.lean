import Mathlib.Algebra.Field.Basic
import Mathlib.Algebra.BigOperators.Group.Finset.Basic
import Mathlib.Algebra.Polynomial.AlgebraMap
import Mathlib.Data.Matrix.Basic

/-! Specification, independent of the model, of rational interpolation. -/
set_option linter.all false

namespace Verif.NEP

/-- Rational basis function number `k`: `(1/beta_0) prod_{i<k} (z-s_i) / (beta_{i+1} (1-z/xi_i))`, with `rxi_i = 1/xi_i`. -/
def ratBasis {F : Type*} [Field F] (s beta rxi : ℕ → F) (k : ℕ) (z : F) : F :=
  (1 / beta 0) * ∏ i ∈ Finset.range k, (z - s i) / (beta (i+1) * (1 - z * rxi i))

/-- Value at `z` of the rational function with coefficients `D_0,..,D_{n-1}`. -/
def ratValue {F E : Type*} [Field F] [AddCommGroup E] [Module F E] (s beta rxi : ℕ → F) (n : ℕ) (D : ℕ → E) (z : F) : E :=
  ∑ k ∈ Finset.range n, ratBasis s beta rxi k z • D k

/-- The first `n` nodes can be used for interpolation: they are distinct, the scaling factors are nonzero, and no node is
one of the poles of the first `n` basis functions. -/
structure GoodNodes {F : Type*} [Field F] (s beta rxi : ℕ → F) (n : ℕ) : Prop where
  distinct : ∀ i < n, ∀ j < n, s i = s j → i = j
  scale : ∀ i < n, beta i ≠ 0
  nopole : ∀ i < n, ∀ j, j+1 < n → s i * rxi j ≠ 1

/-- `z` is not one of the poles of the first `n` basis functions. -/
def NoPole {F : Type*} [Field F] (rxi : ℕ → F) (n : ℕ) (z : F) : Prop := ∀ j, j+1 < n → z * rxi j ≠ 1

/-- `Y` is the function `f` of the matrix `M` whose eigenvalues are the distinct numbers `s_0,..,s_{n-1}`: a polynomial in `M` that agrees
with `f` on the eigenvalues. -/
def IsMatFun {F : Type*} [Field F] {n : ℕ} (s : ℕ → F) (f : F → F) (M Y : Matrix (Fin n) (Fin n) F) : Prop :=
  ∃ p : Polynomial F, Y = Polynomial.aeval M p ∧ ∀ i < n, p.eval (s i) = f (s i)

end Verif.NEP
