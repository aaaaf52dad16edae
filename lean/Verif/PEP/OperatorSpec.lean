import Verif.PEP.BasisModel
import Mathlib.Algebra.Module.LinearMap.Defs
import Mathlib.Algebra.BigOperators.Group.Finset.Basic
import Mathlib.Algebra.Polynomial.Eval.Defs

/-! Specification, independent of the model, of the linearization of a matrix polynomial in a basis with a three-term recurrence. -/
set_option linter.all false

namespace Verif.PEP

variable {F V : Type*} [Field F] [AddCommGroup V] [Module F V]

/-- `y` is the image of `x` (vectors of `d` blocks) by the companion operator of `sum_{i<=d} s^i psi_i(.) A_i`, where the `psi_i` have the
recurrence coefficients `p`: extend `x` by a block number `d` so that `sum_i s^i A_i X_i = 0`, and apply the recurrence to the
extended vector. -/
def IsComp (p : Pbc F) (s : F) (A : ℕ → V →ₗ[F] V) (d : ℕ) (x y : ℕ → V) : Prop :=
  ∃ X : ℕ → V, (∀ i < d, X i = x i) ∧ ∑ i ∈ Finset.range (d+1), s ^ i • A i (X i) = 0 ∧
    y 0 = p.ca 0 • X 1 + p.cb 0 • X 0 ∧
    ∀ i, 1 ≤ i → i < d → y i = p.ca i • X (i+1) + p.cb i • X i + p.cg i • X (i-1)

/-- `v` is an eigenvector, for `lam`, of the matrix polynomial `sum_{i<=d} phi_i(lam) A_i`. -/
def IsPolyPair (φ : ℕ → Polynomial F) (A : ℕ → V →ₗ[F] V) (d : ℕ) (lam : F) (v : V) : Prop :=
  v ≠ 0 ∧ ∑ i ∈ Finset.range (d+1), (φ i).eval lam • A i v = 0

end Verif.PEP
