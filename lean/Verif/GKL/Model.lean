import Verif.BVB.Insert
/-!
Model of the bidiagonalizations of the Lanczos solvers for singular values (`src/svd/impls/lanczos/gklanczos.c`, `src/svd/impls/trlanczos/trlanczos.c`) in exact
arithmetic, on top of the model of Gram-Schmidt orthogonalization of `Verif.BV`.  The basis of right vectors lives in `E`, that of left vectors in `F`; columns are functions of
the index.  `A` and `AT` are the operators `svd->A` and `svd->AT`; that `AT` is the adjoint of `A` is a hypothesis of the theorems.  The inner products are the standard ones and there are
no constraints.
-/
set_option linter.all false
namespace Verif.GKL
open Verif.BV Verif.BVB
variable {𝕜 E F : Type} [RCLike 𝕜] [NormedAddCommGroup E] [InnerProductSpace 𝕜 E] [NormedAddCommGroup F] [InnerProductSpace 𝕜 F]

/-- The options of the orthogonalization of a BV. -/
abbrev Opts := Insert.Opts

variable (𝕜) in
/-- bvorthog.c:379-426 BVOrthonormalizeColumn(bv,j,PETSC_FALSE,&norm,&lindep) for a column `j` whose content is `w`: columns, norm, linear dependence. -/
noncomputable def orthon (o : Opts) (col : ℕ → E) (j : ℕ) (w : E) : (ℕ → E) × ℝ × Bool :=
  let q := orthonormalize (ipForm 𝕜 E) false o.mgs o.eta o.ref (Insert.slots 𝕜 ⟨0, j, col⟩ j) w
  (wr col j q.1, q.2.nrm, q.2.lindep)

variable (𝕜) in
/-- bvorthog.c:314-339 BVOrthogonalizeColumn(bv,j,NULL,&norm,&lindep) for a column `j` whose content is `w`. -/
noncomputable def orthog (o : Opts) (col : ℕ → E) (j : ℕ) (w : E) : (ℕ → E) × ℝ × Bool :=
  let q := gs (ipForm 𝕜 E) false o.mgs o.eta o.ref (Insert.slots 𝕜 ⟨0, j, col⟩ j) w
  (wr col j q.w, q.nrm, q.lindep)

/-- The two bases and the arrays `alpha`, `beta` (the two columns of DS_MAT_T). -/
structure Bid (E F : Type) where
  V : ℕ → E
  U : ℕ → F
  alpha : ℕ → ℝ
  beta : ℕ → ℝ

/-- The loop gklanczos.c:77-98, `fuel` being `*n-i`; the result contains `*n` (if a breakdown happens) and `lindep`. -/
noncomputable def twoLoop (o : Opts) (A : E →ₗ[𝕜] F) (AT : F →ₗ[𝕜] E) : ℕ → ℕ → Bid E F → Bid E F × ℕ × Bool
  | 0, i, s => (s, i, false)
  | fuel + 1, i, s =>
    let v := orthon 𝕜 o s.V i (AT (s.U (i - 1)))
    let s1 : Bid E F := { s with V := v.1, beta := wr s.beta (i - 1) v.2.1 }
    if v.2.2 then (s1, i, true)
    else
      let u := orthon 𝕜 o s1.U i (A (s1.V i))
      let s2 : Bid E F := { s1 with U := u.1, alpha := wr s1.alpha i u.2.1 }
      if u.2.2 then (s2, i, true) else twoLoop o A AT fuel (i + 1) s2

/-- gklanczos.c:58-110 SVDTwoSideLanczos from column `k` to size `n`: the bases and arrays, `*n`, `*breakdown`. -/
noncomputable def twoSide (o : Opts) (A : E →ₗ[𝕜] F) (AT : F →ₗ[𝕜] E) (k n : ℕ) (s : Bid E F) : Bid E F × ℕ × Bool :=
  let u := orthon 𝕜 o s.U k (A (s.V k))
  let s1 : Bid E F := { s with U := u.1, alpha := wr s.alpha k u.2.1 }
  if u.2.2 then (s1, k, true)
  else
    let r := twoLoop o A AT (n - (k + 1)) (k + 1) s1
    if r.2.2 then (r.1, r.2.1, true)
    else
      let z := orthog 𝕜 o r.1.V n (AT (r.1.U (n - 1)))
      ({ r.1 with V := z.1, beta := wr r.1.beta (n - 1) z.2.1 }, n, z.2.2)

/-! ### Specification -/

/-- The column of the entry `beta_i`: the arrow of the kept part ends in column `p`, the rest is bidiagonal. -/
def nxt (p i : ℕ) : ℕ := if i < p then p else i + 1

/-- The matrix stored in compact form (dssvd.c:122-127 with ds->k equal to `p`). -/
def bent (p : ℕ) (alpha beta : ℕ → ℝ) (i j : ℕ) : ℝ := if i = j then alpha i else if nxt p i = j then beta i else 0

/-- `AT` is the adjoint of `A`. -/
def Adj (A : E →ₗ[𝕜] F) (AT : F →ₗ[𝕜] E) : Prop := ∀ x y, inner 𝕜 (A x) y = inner 𝕜 x (AT y)

/-- What is known about the `c` locked and the kept columns `c..p-1` and the next start vector, column `p`: orthonormal bases; `A v_j = alpha_j u_j` up to locked
left vectors with smaller index; `A* u_j = alpha_j v_j + beta_j v_p` for kept columns. -/
structure Kept (A : E →ₗ[𝕜] F) (AT : F →ₗ[𝕜] E) (c p : ℕ) (s : Bid E F) : Prop where
  le : c ≤ p
  onV : Insert.ON 𝕜 s.V (p + 1)
  onU : Insert.ON 𝕜 s.U p
  right : ∀ j < p, A (s.V j) - (s.alpha j : 𝕜) • s.U j ∈ Biorth.spanOf 𝕜 s.U (min j c)
  left : ∀ j, c ≤ j → j < p → AT (s.U j) = (s.alpha j : 𝕜) • s.V j + (s.beta j : 𝕜) • s.V p

/-- The bidiagonalization of size `n` with residual vector `r`: orthonormal bases, `A v_j = sum_i B_ij u_i` up to combinations of the locked left vectors, and
`A* u_i = sum_j B_ij v_j`, plus `r` for the last one; `r` is orthogonal to the right basis and its norm is `beta_{n-1}`. -/
structure Decomp (A : E →ₗ[𝕜] F) (AT : F →ₗ[𝕜] E) (c p n : ℕ) (s : Bid E F) (r : E) : Prop where
  onV : Insert.ON 𝕜 s.V n
  onU : Insert.ON 𝕜 s.U n
  right : ∀ j, c ≤ j → j < n → A (s.V j) - ∑ i ∈ Finset.Ico c n, ((bent p s.alpha s.beta i j : ℝ) : 𝕜) • s.U i ∈ Biorth.spanOf 𝕜 s.U c
  left : ∀ i, c ≤ i → i < n → AT (s.U i) = ∑ j ∈ Finset.Ico c n, ((bent p s.alpha s.beta i j : ℝ) : 𝕜) • s.V j + if i + 1 = n then r else 0
  orth : ∀ j < n, inner 𝕜 (s.V j) r = 0
  norm : c < n → ‖r‖ = s.beta (n - 1)

end Verif.GKL
