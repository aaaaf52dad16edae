import Verif.Ebal.Ritz
/-!
Specification for Ritz vectors in real arithmetic.
-/
set_option linter.all false
namespace Verif.Ebal.Ritz
noncomputable section

/-- Real eigenpair of `F`. -/
def Eig {n : ℕ} (F : Vr n → Vr n) (lam : ℝ) (x : Vr n) : Prop := x ≠ 0 ∧ F x = lam • x

/-- `x + i y` is an eigenvector of `F` for the eigenvalue `re + i im`. -/
def EigPair {n : ℕ} (F : Vr n → Vr n) (re im : ℝ) (x y : Vr n) : Prop :=
  (x ≠ 0 ∨ y ≠ 0) ∧ F x = re • x - im • y ∧ F y = im • x + re • y

/-- The set-up is consistent: the ST balances with the diagonal used in the correction (see C197), its entries are not zero, and the norm of the basis is one. -/
def Consistent {n : ℕ} (c : Cfg n) : Prop :=
  c.stD = (if c.herm = false ∧ c.balance = true then c.epsD else none) ∧ (∀ d, c.epsD = some d → ∀ i, d i ≠ 0) ∧ ∀ x, x ≠ 0 → 0 < c.bnrm x

end
end Verif.Ebal.Ritz
