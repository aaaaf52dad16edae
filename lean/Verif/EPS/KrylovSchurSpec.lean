import Verif.EPS.KrylovSchurModel
/-!
Specification for the Krylov-Schur solver: the contract of the dense solver and the Krylov-Schur decomposition.
-/
set_option linter.all false
namespace Verif.EPS.KS
noncomputable section
open Classical Verif.BV Verif.EPS
variable {𝕜 : Type} [RCLike 𝕜] {E : Type} [NormedAddCommGroup E] [InnerProductSpace 𝕜 E]

/-- The contract of `DSSolve` and `DSSort` for complex scalars (LAPACK's `gehrd`, `orghr`, `hseqr`, `trexc`, `trevc`): `Q` is unitary and the
identity outside the active part; `A Q = Q T` for the active columns, where `T` is upper triangular; the locked columns keep their upper
triangle, below their subdiagonal they are cleared if the matrix was in raw state and left otherwise; nothing outside the leading `n x n` block is touched; the
eigenvalues are the diagonal entries; each eigenvector has unit norm, and `last` is the modulus of its last
component in the basis before the transformation. -/
structure DenseOK (dense : Dense 𝕜) : Prop where
  unit : ∀ raw l n A d, dense raw l n A = some d → l < n → ∀ i j, i < n → j < n →
    ∑ c ∈ Finset.range n, star (d.Q c i) * d.Q c j = if i = j then 1 else 0
  block : ∀ raw l n A d, dense raw l n A = some d → l < n → ∀ i j, i < n → j < n → (i < l ∨ j < l) → d.Q i j = if i = j then 1 else 0
  sim : ∀ raw l n A d, dense raw l n A = some d → l < n → ∀ i j, i < n → l ≤ j → j < n →
    ∑ c ∈ Finset.range n, A i c * d.Q c j = ∑ c ∈ Finset.range n, d.Q i c * d.T c j
  tri : ∀ raw l n A d, dense raw l n A = some d → l < n → ∀ i j, l ≤ j → j < i → i < n → d.T i j = 0
  locked : ∀ raw l n A d, dense raw l n A = some d → l < n → ∀ i j, i ≤ j → j < l → d.T i j = A i j
  low : ∀ raw l n A d, dense raw l n A = some d → l < n → ∀ i j, j < l → j + 1 < i → i < n → d.T i j = if raw then 0 else A i j
  outside : ∀ raw l n A d, dense raw l n A = some d → l < n → ∀ i j, n ≤ i ∨ n ≤ j → d.T i j = A i j
  nopair : ∀ raw l n A d, dense raw l n A = some d → ∀ j, d.pair j = false
  eig : ∀ raw l n A d, dense raw l n A = some d → l < n → ∀ j, l ≤ j → j < n → d.eig j = toC (d.T j j)
  vec : ∀ raw l n A d, dense raw l n A = some d → l < n → ∀ j, l ≤ j → j < n → ∃ w : Nat → 𝕜, (∀ i, j < i → w i = 0) ∧
    ∑ i ∈ Finset.range n, ‖w i‖ ^ 2 = 1 ∧ (∀ i, i < n → ∑ c ∈ Finset.Ico i n, d.T i c * w c = d.T j j * w i) ∧
    d.last j = ‖∑ c ∈ Finset.range n, d.Q (n - 1) c * w c‖

/-- The Krylov-Schur decomposition at the top of the loop.  With `p = nconv+l` vectors kept: the basis is orthonormal; an active column
`j` satisfies `Op v_j = sum_{i<=p} A_ij v_i`, row `p` of `A` being the extra row; a locked column satisfies
`Op v_j = sum_{i<=j} A_ij v_i` up to a vector of norm at most the dropped entry of the extra row (everything up to the
span of the deflation space); the rest of the matrix is zero below the subdiagonal. -/
structure Good (Op : E →ₗ[𝕜] E) (cs : List E) (s : State 𝕜 E) : Prop where
  on : ONList 𝕜 (cs ++ cols s.V (s.nconv + s.l + 1))
  active : ∀ j, s.nconv ≤ j → j < s.nconv + s.l → ∃ c ∈ Submodule.span 𝕜 {v | v ∈ cs},
    Op (s.V j) = c + ∑ i ∈ Finset.range (s.nconv + s.l + 1), s.A i j • s.V i
  locked : ∀ j, j < s.nconv → ∃ c ∈ Submodule.span 𝕜 {v | v ∈ cs}, ∃ u : E, ‖u‖ ≤ 1 ∧
    Op (s.V j) = c + ∑ i ∈ Finset.range (j + 1), s.A i j • s.V i + s.drop j • u
  zero : ∀ i j, j + 1 < i → s.nconv + s.l < i ∨ s.nconv + s.l ≤ j → s.A i j = 0

/-- A restart from `s` to `s'` keeps fewer vectors than the size of the factorization (or none). -/
def Room (P : Params) (s s' : State 𝕜 E) : Prop :=
  s'.status = .iterating → s'.l = 0 ∨ s'.nconv + s'.l < min (s.nconv + P.mpd) P.ncv

/-- What is left at the end: the locked part. -/
structure Final (Op : E →ₗ[𝕜] E) (cs : List E) (s : State 𝕜 E) : Prop where
  on : ONList 𝕜 (cs ++ cols s.V s.nconv)
  locked : ∀ j, j < s.nconv → ∃ c ∈ Submodule.span 𝕜 {v | v ∈ cs}, ∃ u : E, ‖u‖ ≤ 1 ∧
    Op (s.V j) = c + ∑ i ∈ Finset.range (j + 1), s.A i j • s.V i + s.drop j • u

/-- The pair with index `j` has been accepted: its value is the diagonal entry `A_jj`, with unit eigenvector `w` of the triangular matrix; the stored
estimate is the value of the convergence test for a residual norm `rho` and is below the tolerance; and the Ritz vector
`x = sum_i w_i v_i` has residual at most `rho` plus the residuals dropped with the previous columns (up to the span of the deflation space). -/
def Accept (Op : E →ₗ[𝕜] E) (cs : List E) (P : Params) (s : State 𝕜 E) (j : Nat) : Prop :=
  ∃ (rho : ℝ) (w : Nat → 𝕜), s.eig j = toC (s.A j j) ∧ s.err j = some (P.conv (s.eig j) rho) ∧ P.conv (s.eig j) rho < P.tol ∧
    ∑ i ∈ Finset.range (j + 1), ‖w i‖ ^ 2 = 1 ∧ (∀ i, i ≤ j → ∑ c ∈ Finset.Ico i (j + 1), s.A i c * w c = s.A j j * w i) ∧
    ∃ y ∈ Submodule.span 𝕜 {v | v ∈ cs},
      ‖Op (∑ i ∈ Finset.range (j + 1), w i • s.V i) - (s.A j j) • (∑ i ∈ Finset.range (j + 1), w i • s.V i) - y‖ ≤
        rho + ∑ i ∈ Finset.range j, ‖s.drop i‖ * ‖w i‖

end
end Verif.EPS.KS
