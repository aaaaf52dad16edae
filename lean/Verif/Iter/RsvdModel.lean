import Verif.Iter.SubspaceModel

/-!
# Model of the randomized SVD (rsvd.c:92-152) and of BVOrthogonalize by Gram-Schmidt (bvorthog.c:516-558)
-/

set_option linter.all false

namespace Verif.Iter

open Finset

variable {E F : Type*} [NormedAddCommGroup E] [InnerProductSpace ℂ E] [NormedAddCommGroup F] [InnerProductSpace ℂ F]

/-- BVOrthogonalizeColumn in exact arithmetic (bvorthog.c:541,547): column `x` minus its components in the first `j` columns -/
noncomputable def gsCol (Y : ℕ → E) (j : ℕ) (x : E) : E := x - ∑ i ∈ range j, inner ℂ (Y i) x • Y i

open Classical in
/-- BVOrthogonalize_GS (bvorthog.c:516-558) on `n` columns from column `l` on; `none`: error of line 548 -/
noncomputable def gs (X : ℕ → E) (l : ℕ) : ℕ → Option (ℕ → E)
  | 0 => some X
  | n + 1 =>
    match gs X l n with
    | none => none
    | some Y => if gsCol Y (l + n) (X (l + n)) = 0 then none else some (Function.update Y (l + n) ((1 / (‖gsCol Y (l + n) (X (l + n))‖ : ℂ)) • gsCol Y (l + n) (X (l + n))))

/-- columns of `svd->V` and `svd->U`, singular values, error estimates, `svd->nconv` and `svd->its` -/
structure RvSt (E F : Type*) where
  V : ℕ → E
  U : ℕ → F
  sigma : ℕ → ℝ
  errest : ℕ → Option ℝ
  k : ℕ
  its : ℕ

/-- BlockMatMult on the active columns (rsvd.c:79-90, 111 and 115) -/
def blockMult {E F : Type*} (f : E → F) (l m : ℕ) (X : ℕ → E) (Y : ℕ → F) (j : ℕ) : F := if l ≤ j ∧ j < m then f (X j) else Y j

/-- coefficients stored by BVOrthogonalize in the matrix of the DS (rsvd.c:121, bvorthog.c:541-546): upper triangular -/
noncomputable def coef (Y X : ℕ → E) (i j : ℕ) : ℂ := if i ≤ j then inner ℂ (Y i) (X j) else 0

/-- BVMultInPlace (rsvd.c:129-130) -/
noncomputable def mulIP (l m : ℕ) (Q : ℕ → ℕ → ℂ) (X : ℕ → E) (j : ℕ) : E := if l ≤ j ∧ j < m then ∑ i ∈ Ico l m, Q i j • X i else X j

/-- unitary on the active block -/
def UnitQ (l m : ℕ) (Q : ℕ → ℕ → ℂ) : Prop := ∀ i, l ≤ i → i < m → ∀ j, l ≤ j → j < m → ∑ p ∈ Ico l m, star (Q p i) * Q p j = if i = j then 1 else 0

/-- contract of DSSolve/DSSort for type SVD on the active block (rsvd.c:124-125): `R Vr = Ur diag(w)`, unitary factors, `w` nonnegative and decreasing -/
def DsSvd (l m : ℕ) (R Ur Vr : ℕ → ℕ → ℂ) (w : ℕ → ℝ) : Prop :=
  UnitQ l m Ur ∧ UnitQ l m Vr ∧ (∀ i, l ≤ i → i < m → ∀ j, l ≤ j → j < m → ∑ p ∈ Ico l m, R i p * Vr p j = Ur i j * w j) ∧
    (∀ j, l ≤ j → j < m → 0 ≤ w j) ∧ ∀ i j, l ≤ i → i ≤ j → j < m → w j ≤ w i

/-- SVDRandomizedResidualNorm (rsvd.c:51-76) -/
noncomputable def rvRes (A : E →ₗ[ℂ] F) (At : F →ₗ[ℂ] E) (v : E) (u : F) (s : ℝ) : ℝ := Real.sqrt (‖A v - (s : ℂ) • u‖ ^ 2 + ‖At u - (s : ℂ) • v‖ ^ 2)

/-- convergence test: `none` stands for PETSC_MAX_REAL; `conv` is the function `svd->converged` -/
abbrev Conv := ℝ → ℝ → Option ℝ

/-- `errest < tol` -/
def lowE (e : Option ℝ) (tol : ℝ) : Prop := ∃ r, e = some r ∧ r < tol

open Classical in
/-- loop of lines 135-141 on `n` entries from `i`: number of consecutive entries which pass -/
noncomputable def countConv (tol : ℝ) (e : ℕ → Option ℝ) : ℕ → ℕ → ℕ
  | 0, _ => 0
  | n + 1, i => if lowE (e i) tol then countConv tol e n (i + 1) + 1 else 0

open Classical in
/-- one iteration (rsvd.c:107-147) for a convergence test other than SVD_CONV_MAXIT; `Ur`, `Vr`, `w` are the results of the DS; `none`: breakdown in BVOrthogonalize -/
noncomputable def rvStep (A : E →ₗ[ℂ] F) (At : F →ₗ[ℂ] E) (conv : Conv) (tol : ℝ) (ncv : ℕ) (Ur Vr : ℕ → ℕ → ℂ) (w : ℕ → ℝ) (st : RvSt E F) : Option (RvSt E F) :=
  match gs (blockMult A st.k ncv st.V st.U) st.k (ncv - st.k) with
  | none => none
  | some U1 =>
    match gs (blockMult At st.k ncv U1 st.V) st.k (ncv - st.k) with
    | none => none
    | some V1 =>
      let U2 := mulIP st.k ncv Vr U1
      let V2 := mulIP st.k ncv Ur V1
      let e := fun j => conv (w j) (rvRes A At (V2 j) (U2 j) (w j))
      let k := countConv tol e (ncv - st.k) st.k
      some { V := V2, U := U2
             sigma := fun j => if st.k ≤ j ∧ j ≤ st.k + k ∧ j < ncv then w j else st.sigma j
             errest := fun j => if st.k ≤ j ∧ j ≤ st.k + k ∧ j < ncv then e j else st.errest j
             k := st.k + k, its := st.its + 1 }

/-- the matrix given to the DS in this iteration (rsvd.c:119-122) -/
noncomputable def dsMat (A : E →ₗ[ℂ] F) (At : F →ₗ[ℂ] E) (ncv : ℕ) (st : RvSt E F) (i j : ℕ) : ℂ :=
  match gs (blockMult A st.k ncv st.V st.U) st.k (ncv - st.k) with
  | none => 0
  | some U1 =>
    match gs (blockMult At st.k ncv U1 st.V) st.k (ncv - st.k) with
    | none => 0
    | some V1 => coef V1 (blockMult At st.k ncv U1 st.V) i j

/-- states that can occur, from arbitrary (random) start vectors (rsvd.c:101-102) -/
inductive ReachRv (A : E →ₗ[ℂ] F) (At : F →ₗ[ℂ] E) (conv : Conv) (tol : ℝ) (ncv : ℕ) : RvSt E F → Prop
  | init (st : RvSt E F) : st.k = 0 → ReachRv A At conv tol ncv st
  | step (st st' : RvSt E F) (Ur Vr : ℕ → ℕ → ℂ) (w : ℕ → ℝ) : ReachRv A At conv tol ncv st → DsSvd st.k ncv (dsMat A At ncv st) Ur Vr w → rvStep A At conv tol ncv Ur Vr w st = some st' →
      ReachRv A At conv tol ncv st'

end Verif.Iter
