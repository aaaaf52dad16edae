import Verif.Pscl.Model
/-!
Specification for scaling in polynomial eigenproblems.
-/
set_option linter.all false
namespace Verif.Pscl
noncomputable section
open Classical

/-- `(lam, x)` is an eigenpair of `A 0 + lam A 1 + ... + lam^d A d`. -/
def PolyEig {ι K : Type} [Field K] (d : ℕ) (A : ℕ → (ι → K) →ₗ[K] (ι → K)) (lam : K) (x : ι → K) : Prop :=
  x ≠ 0 ∧ ∑ j ∈ Finset.range (d + 1), lam ^ j • A j x = 0

/-- `(theta, v)` is an eigenpair of an operator `F` on vectors of `d` blocks. -/
def BlockEig {ι K : Type} [Field K] (d : ℕ) (F : (ℕ → ι → K) → ℕ → ι → K) (theta : K) (v : ℕ → ι → K) : Prop :=
  (∃ j, j < d ∧ v j ≠ 0) ∧ ∀ j, j < d → F v j = theta • v j

/-- The polynomial is regular. -/
def Regular {m : ℕ} {𝕜 : Type} [RCLike 𝕜] (nmat : ℕ) (A : ℕ → Matrix (Fin m) (Fin m) 𝕜) : Prop :=
  ∃ z : 𝕜, (∑ k ∈ Finset.range nmat, z ^ k • A k).det ≠ 0

/-- Weighted squared moduli of the coefficients of the problem scaled with `alpha`, `mu` being the modulus of an eigenvalue of the scaled problem. -/
def wanted {m : ℕ} {𝕜 : Type} [RCLike 𝕜] (nmat : ℕ) (A : ℕ → Matrix (Fin m) (Fin m) 𝕜) (alpha mu : ℝ) : Fin m → Fin m → ℝ := fun i j =>
  ∑ k ∈ Finset.range nmat, (mu ^ k) ^ 2 * ‖((alpha ^ k : ℝ) : 𝕜) * A k i j‖ ^ 2

/-- The number is a power of two. -/
def PowTwo (x : ℝ) : Prop := ∃ k : ℤ, x = 2 ^ k

/-- Settings with the named changes: what `PEPSetFromOptions` should do. -/
def named (p : Settings) (o : Opts) : Settings :=
  { p with
    scale := o.scale.getD p.scale
    sfactor := o.factor.getD p.sfactor
    set := if o.factor.isSome then true else p.set
    its := o.its.getD p.its
    lam := o.lam.getD p.lam }

end
end Verif.Pscl
