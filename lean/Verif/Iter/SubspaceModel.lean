import Verif.Iter.PowerModel

/-!
# Model of the subspace iteration (subspace.c:179-358)
-/

set_option linter.all false

namespace Verif.Iter

open Finset

variable {E : Type*} [NormedAddCommGroup E] [InnerProductSpace ℂ E]

/-- columns of `eps->V` and `AV`, the matrix `T` of the DS, the residual norms and `eps->nconv` -/
structure SSt (E : Type*) where
  V : ℕ → E
  AV : ℕ → E
  T : ℕ → ℕ → ℂ
  rsd : ℕ → ℝ
  k : ℕ

/-- `nv` (subspace.c:218) -/
def SSt.nv (st : SSt E) (mpd ncv : ℕ) : ℕ := min (st.k + mpd) ncv

/-- `AV(:,idx) = OP * V(:,idx)` (subspace.c:228-230) -/
def SSt.AV1 (st : SSt E) (OP : E →ₗ[ℂ] E) (nv : ℕ) (j : ℕ) : E := if st.k ≤ j ∧ j < nv then OP (st.V j) else st.AV j

/-- `BVDot(AV,eps->V,H)` (subspace.c:233-236) -/
noncomputable def SSt.H (st : SSt E) (OP : E →ₗ[ℂ] E) (nv : ℕ) (i j : ℕ) : ℂ := inner ℂ (st.V i) (st.AV1 OP nv j)

/-- `BVMultInPlace(X,Q,nconv,nv)` (subspace.c:248-249) -/
noncomputable def SSt.mulQ (st : SSt E) (nv : ℕ) (Q : ℕ → ℕ → ℂ) (X : ℕ → E) (j : ℕ) : E :=
  if st.k ≤ j ∧ j < nv then ∑ l ∈ Ico st.k nv, Q l j • X l else X j

/-- matrix of the DS after `DSSolve` and `DSSort` (subspace.c:240-242): active columns multiplied by `Q` from the right and active rows by its adjoint from the left -/
noncomputable def SSt.T2 (st : SSt E) (OP : E →ₗ[ℂ] E) (nv : ℕ) (Q : ℕ → ℕ → ℂ) (i j : ℕ) : ℂ :=
  if st.k ≤ j ∧ j < nv ∧ i < nv then
    if i < st.k then ∑ m ∈ Ico st.k nv, st.H OP nv i m * Q m j
    else ∑ l ∈ Ico st.k nv, ∑ m ∈ Ico st.k nv, star (Q l i) * st.H OP nv l m * Q m j
  else st.T i j

/-- contract of `DSSolve`/`DSSort` (type NHEP, complex scalars): `Q` is unitary on the active block and the matrix becomes upper triangular -/
def SchurQ (st : SSt E) (OP : E →ₗ[ℂ] E) (nv : ℕ) (Q : ℕ → ℕ → ℂ) : Prop :=
  (∀ i, st.k ≤ i → i < nv → ∀ j, st.k ≤ j → j < nv → ∑ l ∈ Ico st.k nv, star (Q l i) * Q l j = if i = j then 1 else 0) ∧
    ∀ j, st.k ≤ j → ∀ i, j < i → i < nv → st.T2 OP nv Q i j = 0

/-- projection step and acceptance of `a` columns (subspace.c:227-274); residual norms as in EPSSubspaceResidualNorms (159-177) -/
noncomputable def project (OP : E →ₗ[ℂ] E) (nv : ℕ) (Q : ℕ → ℕ → ℂ) (a : ℕ) (st : SSt E) : SSt E :=
  { V := st.mulQ nv Q st.V
    AV := st.mulQ nv Q (st.AV1 OP nv)
    T := st.T2 OP nv Q
    rsd := fun j => if st.k ≤ j ∧ j < nv then ‖st.mulQ nv Q (st.AV1 OP nv) j - ∑ i ∈ range nv, st.T2 OP nv Q i j • st.mulQ nv Q st.V i‖ else st.rsd j
    k := st.k + a }

/-- orthogonalization loop (subspace.c:298-319): columns `nconv..nv-1` are replaced by `N` -/
def renew (nv : ℕ) (N : ℕ → E) (st : SSt E) : SSt E := { st with V := fun j => if st.k ≤ j ∧ j < nv then N j else st.V j }

/-- the columns below `m` are orthonormal -/
def OrthoN (V : ℕ → E) (m : ℕ) : Prop := ∀ i < m, ∀ j < m, inner ℂ (V i) (V j) = if i = j then (1 : ℂ) else 0

/-- states that can occur; first argument: dimension of the last projection (`none` before a projection).  `BVOrthogonalize` (line 317) makes the renewed columns orthonormal among themselves and to the
    locked ones. -/
inductive ReachS (OP : E →ₗ[ℂ] E) (mpd ncv : ℕ) : Option ℕ → SSt E → Prop
  | init (st : SSt E) : st.k = 0 → OrthoN st.V ncv → ReachS OP mpd ncv none st
  | project (st : SSt E) (Q : ℕ → ℕ → ℂ) (a : ℕ) : ReachS OP mpd ncv none st → SchurQ st OP (st.nv mpd ncv) Q → st.k + a ≤ st.nv mpd ncv →
      ReachS OP mpd ncv (some (st.nv mpd ncv)) (project OP (st.nv mpd ncv) Q a st)
  | renew (st : SSt E) (nv : ℕ) (N : ℕ → E) : ReachS OP mpd ncv (some nv) st → OrthoN (renew nv N st).V nv → ReachS OP mpd ncv none (renew nv N st)

end Verif.Iter
