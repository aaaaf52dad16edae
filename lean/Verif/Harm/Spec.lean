import Verif.Harm.Model
/-!
Specification for harmonic and refined extraction, independent of how the quantities are computed.
-/
set_option linter.all false
namespace Verif.Harm
noncomputable section
open Classical
variable {𝕜 : Type} [RCLike 𝕜] {E : Type} [NormedAddCommGroup E] [InnerProductSpace 𝕜 E]

/-- The first `n` columns are orthonormal. -/
def Orthon (𝕜 : Type) [RCLike 𝕜] {E : Type} [NormedAddCommGroup E] [InnerProductSpace 𝕜 E] (V : ℕ → E) (n : ℕ) : Prop :=
  ∀ i j, i < n → j < n → inner 𝕜 (V i) (V j) = if i = j then 1 else 0

/-- Linear combination of the first `n` columns. -/
def comb (V : ℕ → E) (n : ℕ) (y : ℕ → 𝕜) : E := ∑ i ∈ Finset.range n, y i • V i

/-- Krylov decomposition with locked columns: orthonormal columns `0..n`; for active columns `Op v_j` is represented exactly by the
matrix and the further vector `v_n`; locked columns are represented by the leading block up to the residuals `r`. -/
structure Decomp (Op : E →ₗ[𝕜] E) (s : State 𝕜 E) (r : ℕ → E) : Prop where
  size : s.nconv < s.n
  orth : Orthon 𝕜 s.V (s.n + 1)
  rel : ∀ j, s.nconv ≤ j → j < s.n → Op (s.V j) = comb s.V s.n (fun i => s.A i j) + if j + 1 = s.n then (s.beta : 𝕜) • s.V s.n else 0
  locked : ∀ j, j < s.nconv → Op (s.V j) = comb s.V s.nconv (fun i => s.A i j) + r j
  clean : ∀ i j, s.nconv ≤ j → s.n < i → s.A i j = 0

/-- Contract of `DSSolve` and `DSSort` for a matrix with `l` locked columns: unitary `Q` which is the identity on the locked part, `A Q = Q T` on the active
columns, locked block unchanged and zeros below it, rows beyond the matrix untouched. -/
structure IsSchur (n l : ℕ) (A : ℕ → ℕ → 𝕜) (d : Dense 𝕜) : Prop where
  unit : ∀ i j, i < n → j < n → ∑ r ∈ Finset.range n, (starRingEnd 𝕜) (d.Q r i) * d.Q r j = if i = j then 1 else 0
  rows : ∀ i j, i < l → j < n → d.Q i j = if i = j then 1 else 0
  cols : ∀ i j, i < n → j < l → d.Q i j = if i = j then 1 else 0
  sim : ∀ i j, i < n → l ≤ j → j < n →
    ∑ r ∈ Finset.range n, A i r * d.Q r j = ∑ r ∈ Finset.range n, d.Q i r * d.T r j
  lockedBlock : ∀ i j, i < l → j < l → d.T i j = A i j
  lockedZero : ∀ i j, l ≤ i → i < n → j < l → d.T i j = 0
  beyond : ∀ i j, n < i → d.T i j = A i j

/-- The quasi-triangular matrix has no 2x2 block across position `c`. -/
def Cut (T : ℕ → ℕ → 𝕜) (n c : ℕ) : Prop := ∀ i j, c ≤ i → i < n → j < c → T i j = 0

/-- Contract of the continued Arnoldi factorization (`BVMatArnoldi` from column `m`, property C80) without breakdown: the first columns of basis and matrix are
kept, new columns satisfy the Krylov relation, orthonormality is continued. -/
structure Continues (Op : E →ₗ[𝕜] E) (k m : ℕ) (V1 : ℕ → E) (A1 : ℕ → ℕ → 𝕜) (s : State 𝕜 E) : Prop where
  nconv : s.nconv = k
  size : m < s.n
  keepV : ∀ j, j ≤ m → s.V j = V1 j
  keepA : ∀ i j, j < m → s.A i j = A1 i j
  orth : Orthon 𝕜 s.V (m + 1) → Orthon 𝕜 s.V (s.n + 1)
  rel : ∀ j, m ≤ j → j < s.n → Op (s.V j) = comb s.V s.n (fun i => s.A i j) + if j + 1 = s.n then (s.beta : 𝕜) • s.V s.n else 0
  clean : ∀ i j, m ≤ j → s.n < i → s.A i j = 0

/-- Residual that a column has when it is locked in this cycle; old ones are kept. -/
def lockRes (s : State 𝕜 E) (g : ℕ → 𝕜) (d : Dense 𝕜) (r : ℕ → E) : ℕ → E := fun j =>
  if s.nconv ≤ j then ((s.beta : 𝕜) * d.Q (s.n - 1) j) • (s.V s.n - comb s.V s.n g) else r j

/-- States reached by any number of harmonic restarts that keep columns `0..m-1`, of which `0..k-1` are locked. -/
inductive Reach (Op : E →ₗ[𝕜] E) (tau : 𝕜) (s0 : State 𝕜 E) (r0 : ℕ → E) : State 𝕜 E → (ℕ → E) → Prop
  | start : Reach Op tau s0 r0 s0 r0
  | next (s s' : State 𝕜 E) (r : ℕ → E) (g : ℕ → 𝕜) (d : Dense 𝕜) (k m : ℕ) :
      Reach Op tau s0 r0 s r →
      translateG s.n s.A tau s.beta = some g →
      IsSchur s.n s.nconv (translateA s.n s.A g s.beta) d →
      s.nconv ≤ k → k < m → m < s.n → Cut d.T s.n k → Cut d.T s.n m →
      Continues Op k m (restartV s.n s.nconv m d g s.V) (restartA s.n s.nconv k m d g s.beta) s' →
      Reach Op tau s0 r0 s' (lockRes s g d r)

/-- `(theta,y)` is an eigenpair of the leading `n x n` block, `y` normalized. -/
structure EigPair (n : ℕ) (A : ℕ → ℕ → 𝕜) (theta : 𝕜) (y : ℕ → 𝕜) : Prop where
  eq : ∀ i, i < n → ∑ j ∈ Finset.range n, A i j * y j = theta * y i
  unit : ∑ j ∈ Finset.range n, ‖y j‖ ^ 2 = 1

/-- `w` and `sigma` are a right singular vector and the smallest singular value of the leading `(n+1) x n` block. -/
structure SmallestSing (n : ℕ) (W : ℕ → ℕ → 𝕜) (sigma : ℝ) (w : ℕ → 𝕜) : Prop where
  nonneg : 0 ≤ sigma
  unit : ∑ j ∈ Finset.range n, ‖w j‖ ^ 2 = 1
  attained : ∑ i ∈ Finset.range (n + 1), ‖∑ j ∈ Finset.range n, W i j * w j‖ ^ 2 = sigma ^ 2
  least : ∀ z : ℕ → 𝕜, ∑ j ∈ Finset.range n, ‖z j‖ ^ 2 = 1 →
    sigma ^ 2 ≤ ∑ i ∈ Finset.range (n + 1), ‖∑ j ∈ Finset.range n, W i j * z j‖ ^ 2

end
end Verif.Harm
