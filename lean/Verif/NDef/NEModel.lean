import Verif.NDef.DerivLem

/-!
# Non-equivalence deflation of the two-sided NEPSLP (src/nep/impls/slp/slp-twosided.c)

Matrices with complex exact entries; the columns of `V` and `W` are the locked right and left vectors.  `none`: the code divides by zero.
-/

set_option linter.all false

namespace Verif.NDef.NE
open Matrix

variable {ι : Type} [Fintype ι] [DecidableEq ι] {k : ℕ}

/-- the coefficients `alpha` (slp-twosided.c:170, 204, 242, 270, 340) -/
noncomputable def alpha (l : ℂ) (e : Fin k → ℂ) (i : Fin k) : ℂ := (l - e i - 1) / (l - e i)

/-- `MatMult_NEPDeflationNE` (slp-twosided.c:154-185) with locked vectors and without refinement -/
noncomputable def mulNE (F J : Matrix ι ι ℂ) (V W : Matrix ι (Fin k) ℂ) (e : Fin k → ℂ) (l : ℂ) (isJ : Bool) (x : ι → ℂ) : Option (ι → ℂ) :=
  if (∃ i, l - e i = 0) ∨ (isJ = true ∧ ∃ i, alpha l e i = 0) then none
  else
    let h : Fin k → ℂ := fun i => (Vᴴ *ᵥ x) i * alpha l e i
    let t := x - W *ᵥ h
    if isJ then
      let h2 : Fin k → ℂ := fun i => h i * ((1 / ((l - e i) * (l - e i))) / alpha l e i)
      some (J *ᵥ t + F *ᵥ (-(W *ᵥ h2)))
    else some (F *ᵥ t)

/-- `MatMultTranspose_NEPDeflationNE` (slp-twosided.c:187-221) -/
noncomputable def mulTNE (F J : Matrix ι ι ℂ) (V W : Matrix ι (Fin k) ℂ) (e : Fin k → ℂ) (l : ℂ) (isJ : Bool) (x : ι → ℂ) : Option (ι → ℂ) :=
  if (∃ i, l - e i = 0) ∨ (isJ = true ∧ ∃ i, alpha l e i = 0) then none
  else
    let h : Fin k → ℂ := fun i => (Wᴴ *ᵥ star x) i * star (alpha l e i)
    let t := star (star x - V *ᵥ h)
    if isJ then
      let h2 : Fin k → ℂ := fun i => h i * (star (1 / ((l - e i) * (l - e i))) / star (alpha l e i))
      some (Jᵀ *ᵥ t + Fᵀ *ᵥ star (-(V *ᵥ h2)))
    else some (Fᵀ *ᵥ t)

/-- `MatSolve_NEPDeflationNE` (slp-twosided.c:223-248), exact linear solves -/
noncomputable def solveNE (F : Matrix ι ι ℂ) (V W : Matrix ι (Fin k) ℂ) (e : Fin k → ℂ) (l : ℂ) (b : ι → ℂ) : Option (ι → ℂ) :=
  if ∃ i, l - e i = 0 then none
  else
    let x := F⁻¹ *ᵥ b
    some (x + W *ᵥ fun i => (Vᴴ *ᵥ x) i * (alpha l e i / (1 - alpha l e i)))

/-- `MatSolveTranspose_NEPDeflationNE` (slp-twosided.c:250-277) -/
noncomputable def solveTNE (F : Matrix ι ι ℂ) (V W : Matrix ι (Fin k) ℂ) (e : Fin k → ℂ) (l : ℂ) (b : ι → ℂ) : Option (ι → ℂ) :=
  if ∃ i, l - e i = 0 then none
  else
    let x := star (Fᵀ⁻¹ *ᵥ b)
    some (star (x + V *ᵥ fun i => (Wᴴ *ᵥ x) i * (star (alpha l e i) / (1 - star (alpha l e i)))))

/-- `NEPDeflationNERecoverEigenvectors` (slp-twosided.c:329-355), the right vector before normalization -/
noncomputable def recR (V W : Matrix ι (Fin k) ℂ) (e : Fin k → ℂ) (l : ℂ) (u : ι → ℂ) : ι → ℂ := u - W *ᵥ fun i => (Vᴴ *ᵥ u) i * alpha l e i

/-- the left vector before normalization (lines 335, 346-349) -/
noncomputable def recL (V W : Matrix ι (Fin k) ℂ) (e : Fin k → ℂ) (l : ℂ) (w : ι → ℂ) : ι → ℂ :=
  star w - V *ᵥ fun i => (Wᴴ *ᵥ star w) i * star (alpha l e i)

end Verif.NDef.NE
