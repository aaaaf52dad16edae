import Verif.Lrep.Model

/-! Specification used in the statements about linear response problems. -/
set_option linter.all false

namespace Verif.Lrep

open Finset Matrix

variable {n : ℕ}

/-- Symmetric positive definite. -/
structure Spd (A : Mt n) : Prop where
  sym : Aᵀ = A
  pos : ∀ x : Vr n, x ≠ 0 → 0 < x ⬝ᵥ (A *ᵥ x)

/-- Decomposition of the variant TENG with `m` columns, projected matrix `T`, residual coefficients `r` and residual vector `f`. -/
structure TengDec (K M : Mt n) (m : ℕ) (V U : ℕ → Vr n) (T : ℕ → ℕ → ℝ) (r : ℕ → ℝ) (f : Vr n) : Prop where
  prod : ∀ i < m, U i = M *ᵥ V i
  orth : ∀ i < m, ∀ j < m, V i ⬝ᵥ (M *ᵥ V j) = if i = j then 1 else 0
  sym : ∀ i j, T i j = T j i
  rel : ∀ j < m, K *ᵥ U j = ∑ i ∈ range m, T i j • V i + r j • f
  res : ∀ i < m, V i ⬝ᵥ (M *ᵥ f) = 0

/-- Decomposition of the variant ZHONG with `m` columns: `T` represents both products, the second with residual. -/
structure ZhongDec (K M : Mt n) (m : ℕ) (U V : ℕ → Vr n) (T : ℕ → ℕ → ℝ) (r : ℕ → ℝ) (f : Vr n) : Prop where
  orthU : ∀ i < m, ∀ j < m, U i ⬝ᵥ (M *ᵥ U j) = if i = j then 1 else 0
  orthV : ∀ i < m, ∀ j < m, V i ⬝ᵥ (K *ᵥ V j) = if i = j then 1 else 0
  relU : ∀ j < m, M *ᵥ U j = ∑ i ∈ range m, T i j • V i
  relV : ∀ j < m, K *ᵥ V j = ∑ i ∈ range m, T j i • U i + r j • f
  res : ∀ i < m, U i ⬝ᵥ (M *ᵥ f) = 0

/-- Coefficients of a residual that appears in the last column only. -/
def lastCol (m : ℕ) (b : ℝ) (j : ℕ) : ℝ := if j + 1 = m then b else 0

/-- Square of the Euclidean norm. -/
def nsq {ι : Type} [Fintype ι] (x : ι → ℝ) : ℝ := ∑ i, x i ^ 2

/-- `l` is an eigenvalue of `A`. -/
def IsEig {ι : Type} [Fintype ι] (A : Matrix ι ι ℝ) (l : ℝ) : Prop := ∃ x : ι → ℝ, x ≠ 0 ∧ A *ᵥ x = l • x

end Verif.Lrep
