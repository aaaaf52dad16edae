import Verif.Bse.RunModel

/-! Specification used in the statements about Bethe-Salpeter problems. -/
set_option linter.all false

namespace Verif.Bse

open Finset Matrix

variable {n : ℕ}

/-- Blocks as required by MatCreateBSE: `R` Hermitian, `C` complex symmetric. -/
structure IsBse (B : Blk n) : Prop where
  herm : B.R.IsHermitian
  symm : B.Cᵀ = B.C

/-- Definite problem: `Re x^H (R x + C conj x) > 0`. -/
def Definite (B : Blk n) : Prop := ∀ x : Vc n, x ≠ 0 → 0 < (star x ⬝ᵥ (B.R *ᵥ x + B.C *ᵥ star x)).re

/-- Structured decomposition with `m` columns, projected matrix `T`, residual coefficients `r` and residual vector `f`. -/
structure ShaoDec (B : Blk n) (m : ℕ) (U V : ℕ → Vc n) (T : ℕ → ℕ → ℝ) (r : ℕ → ℝ) (f : Vc n) : Prop where
  prod : ∀ i < m, V i = B.R *ᵥ U i + B.C *ᵥ star (U i)
  biorth : ∀ i < m, ∀ j < m, (star (V i) ⬝ᵥ U j).re = if i = j then 1 else 0
  imU : ∀ i < m, ∀ j < m, (star (U i) ⬝ᵥ U j).im = 0
  imV : ∀ i < m, ∀ j < m, (star (V i) ⬝ᵥ V j).im = 0
  sym : ∀ i j, T i j = T j i
  rel : ∀ j < m, B.R *ᵥ V j - B.C *ᵥ star (V j) = ∑ i ∈ range m, T i j • U i + r j • f
  resV : ∀ i < m, (star (V i) ⬝ᵥ f).re = 0
  resU : ∀ i < m, (star (U i) ⬝ᵥ f).im = 0

/-- Coefficients of a residual that appears in the last column only. -/
def lastOnly (m : ℕ) (b : ℝ) (j : ℕ) : ℝ := if j + 1 = m then b else 0

/-- Square of the Euclidean norm. -/
def sq {ι : Type} [Fintype ι] (x : ι → ℂ) : ℝ := ∑ i, Complex.normSq (x i)

end Verif.Bse
