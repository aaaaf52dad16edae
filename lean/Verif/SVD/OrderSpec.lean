import Verif.SVD.OrderModel

/-!
# What the user relies on: order and sides
-/
set_option linter.all false

namespace Verif.SVD

variable {𝕜 : Type*} [RCLike 𝕜]

/-- Contract of PETSc's `PetscSortRealWithPermutation(n,sigma,idx)`: the first `n` entries of `idx` are rearranged, and
read through the result the values increase. -/
structure SortContract (srt : ℕ → (ℕ → ℝ) → (ℕ → ℕ) → ℕ → ℕ) : Prop where
  perm : ∀ (n : ℕ) (sigma : ℕ → ℝ) (idx : ℕ → ℕ), ∃ e : Equiv.Perm (Fin n), ∀ i : Fin n, srt n sigma idx i = idx (e i)
  sorted : ∀ (n : ℕ) (sigma : ℕ → ℝ) (idx : ℕ → ℕ) (i j : ℕ), i ≤ j → j < n → sigma (srt n sigma idx i) ≤ sigma (srt n sigma idx j)

/-- `(σ,u,v)` is a singular triplet of the user's matrix: `A v = σ u` and `A^H u = σ v`. -/
def IsTriplet (A : Mat 𝕜) (sg : ℝ) (u v : ℕ → 𝕜) : Prop :=
  (∀ i < A.r, ∑ j ∈ Finset.range A.c, A.e i j * v j = (sg : 𝕜) * u i) ∧
  (∀ j < A.c, ∑ i ∈ Finset.range A.r, star (A.e i j) * u i = (sg : 𝕜) * v j)

end Verif.SVD
