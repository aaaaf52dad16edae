import Mathlib.Tactic
import Mathlib.Analysis.Complex.Basic
import Mathlib.LinearAlgebra.Matrix.Hermitian
import Mathlib.LinearAlgebra.Matrix.NonsingularInverse
import Mathlib.Analysis.SpecialFunctions.Pow.NNReal

/-!
# Krylov-Schur for Bethe-Salpeter problems

Models src/eps/impls/krylov/krylovschur/ks-bse.c (variants SHAO and GRUNING, assembly of vectors of all three variants),
src/sys/classes/st/impls/shift/shift.c:34-59 (`STApply_Shift_BSE`), src/sys/classes/st/impls/sinvert/sinvert.c:28-47
(`STApply_Sinvert_BSE`) and src/sys/mat/matstruct.c:46-81 (`MatCreateBSE`). Complex scalars, exact arithmetic. The square root of a
negative number (NaN in the code) is the outcome `none`. Vectors of length n are functions on `Fin n`.
-/
set_option linter.all false

namespace Verif.Bse

open Finset Matrix

/-- Vectors of the length of one block. -/
abbrev Vc (n : ℕ) := Fin n → ℂ

/-- The two blocks given to MatCreateBSE (matstruct.c:46). -/
structure Blk (n : ℕ) where
  R : Matrix (Fin n) (Fin n) ℂ
  C : Matrix (Fin n) (Fin n) ℂ

/-- matstruct.c:48,67-73: the nested matrix, upper row `R`, `C`, lower row minus the Hermitian transpose of `C`, minus the transpose of
`R`. -/
def Blk.H {n : ℕ} (B : Blk n) : Matrix (Fin n ⊕ Fin n) (Fin n ⊕ Fin n) ℂ := Matrix.fromBlocks B.R B.C (-B.Cᴴ) (-B.Rᵀ)

/-- VecDot(y,x): `x^H y`, the product that conjugates its first argument here. -/
def dot {n : ℕ} (x y : Vc n) : ℂ := star x ⬝ᵥ y

/-- shift.c:52-54: lower part of the argument. -/
noncomputable def low {n : ℕ} (s : ℝ) (x : Vc n) : Vc n := if s = -1 then -(star x) else star x

/-- shift.c:34-59 STApply_Shift_BSE, the sign `s` is that of the context. -/
noncomputable def applyShift {n : ℕ} (B : Blk n) (s : ℝ) (x : Vc n) : Vc n := B.C *ᵥ low s x + B.R *ᵥ x

/-- Upper half of a vector. -/
def top {n : ℕ} (z : Fin n ⊕ Fin n → ℂ) : Vc n := fun i => z (Sum.inl i)

/-- sinvert.c:28-47 STApply_Sinvert_BSE: both parts of the argument are set, the linear system with `H - sigma I` is solved, only the
upper part of the result is used by the callers. -/
noncomputable def applySinvert {n : ℕ} (B : Blk n) (sigma : ℝ) (s : ℝ) (x : Vc n) : Vc n :=
  top ((B.H - (sigma : ℂ) • 1)⁻¹ *ᵥ Sum.elim x (low s x))

/-- ks-bse.c:47-61: coefficients; the first `j` are real parts of `V^H x`, the others imaginary parts of `U^H x` times i. -/
noncomputable def cShao {n : ℕ} (U V : ℕ → Vc n) (j : ℕ) (x : Vc n) (i : ℕ) : ℂ :=
  if i < j then ((dot (V i) x).re : ℂ) else if i < 2 * j then ⟨0, (dot (U (i - j)) x).im⟩ else 0

/-- ks-bse.c:62-66 (Orthog_Shao): update of the vector. -/
noncomputable def orthogX {n : ℕ} (U V : ℕ → Vc n) (j : ℕ) (x : Vc n) : Vc n :=
  x - ∑ i ∈ range j, cShao U V j x i • U i - ∑ i ∈ range j, cShao U V j x (j + i) • V i

/-- ks-bse.c:80-86: coefficients of the local orthogonalization. -/
noncomputable def hLoc (beta : ℕ → ℝ) (k j : ℕ) (alpha : ℝ) (i : ℕ) : ℂ :=
  let l := if j = k + 1 then 0 else j - 2
  if l ≤ i ∧ i < j - 1 then (beta i : ℂ) else if i = j - 1 then (alpha : ℂ) else 0

/-- ks-bse.c:83-89: local orthogonalization. -/
noncomputable def locX {n : ℕ} (U : ℕ → Vc n) (v : Vc n) (beta : ℕ → ℝ) (k j : ℕ) (x : Vc n) : Vc n :=
  let l := if j = k + 1 then 0 else j - 2
  x - ∑ i ∈ Ico l j, hLoc beta k j (dot v x).re i • U i

/-- ks-bse.c:74-94 OrthogonalizeVector_Shao: the new vector. -/
noncomputable def orthVecX {n : ℕ} (U V : ℕ → Vc n) (v : Vc n) (beta : ℕ → ℝ) (k j : ℕ) (x : Vc n) : Vc n :=
  orthogX U V j (locX U v beta k j x)

/-- ks-bse.c:68,92: the accumulated coefficients. -/
noncomputable def orthVecH {n : ℕ} (U V : ℕ → Vc n) (v : Vc n) (beta : ℕ → ℝ) (k j : ℕ) (x : Vc n) (i : ℕ) : ℂ :=
  hLoc beta k j (dot v x).re i + cShao U V j (locX U v beta k j x) i

/-- Both bases and the arrays `alpha`, `beta` (columns of DS_MAT_T). -/
structure Lz (n : ℕ) where
  U : ℕ → Vc n
  V : ℕ → Vc n
  a : ℕ → ℝ
  b : ℕ → ℝ

variable {n : ℕ}

/-- ks-bse.c:156-158: new vector before normalization. -/
noncomputable def newX (app : ℝ → Vc n → Vc n) (k j : ℕ) (s : Lz n) : Vc n :=
  orthVecX s.U s.V (s.V j) s.b k (j + 1) (app (-1) (s.V j))

/-- ks-bse.c:159. -/
noncomputable def newA (app : ℝ → Vc n → Vc n) (k j : ℕ) (s : Lz n) : ℝ :=
  (orthVecH s.U s.V (s.V j) s.b k (j + 1) (app (-1) (s.V j)) j).re

/-- ks-bse.c:162-165: argument of the square root. -/
noncomputable def gam (app : ℝ → Vc n → Vc n) (k j : ℕ) (s : Lz n) : ℝ :=
  (dot (app 1 (newX app k j s)) (newX app k j s)).re

/-- ks-bse.c:150-175: one pass of the loop (no scaling if the root is 0: the factor is then 1). -/
noncomputable def step (app : ℝ → Vc n → Vc n) (k j : ℕ) (s : Lz n) : Lz n :=
  let be := Real.sqrt (gam app k j s)
  let x := newX app k j s
  let sc : ℝ := if be = 0 then 1 else 1 / be
  { U := Function.update s.U (j + 1) ((sc : ℂ) • x)
    V := Function.update s.V (j + 1) ((sc : ℂ) • app 1 x)
    a := Function.update s.a j (newA app k j s)
    b := Function.update s.b j be }

/-- Result of a factorization: bases, number of columns `*M`, breakdown flag. -/
structure Out (n : ℕ) where
  s : Lz n
  m : ℕ
  bd : Bool

open Classical in
/-- ks-bse.c:149-176: loop over `j`, at most `t` passes. -/
noncomputable def lanczos (app : ℝ → Vc n → Vc n) (k : ℕ) : ℕ → ℕ → Lz n → Option (Out n)
  | 0, j, s => some ⟨s, j, false⟩
  | t + 1, j, s =>
    if gam app k j s < 0 then none
    else if Real.sqrt (gam app k j s) = 0 then some ⟨step app k j s, j + 1, true⟩
    else lanczos app k t (j + 1) (step app k j s)

/-- ks-bse.c:134-137: argument of the first square root. -/
noncomputable def gam0 (app : ℝ → Vc n → Vc n) (s : Lz n) : ℝ := (dot (s.U 0) (app 1 (s.U 0))).re

/-- ks-bse.c:142-143. -/
noncomputable def normalize0 (app : ℝ → Vc n → Vc n) (s : Lz n) : Lz n :=
  { s with
    U := Function.update s.U 0 (((1 / Real.sqrt (gam0 app s) : ℝ) : ℂ) • s.U 0)
    V := Function.update s.V 0 (((1 / Real.sqrt (gam0 app s) : ℝ) : ℂ) • app 1 (s.U 0)) }

open Classical in
/-- ks-bse.c:127-176 EPSBSELanczos_Shao with `k = 0`: `m` columns from the start vector in `s.U 0`. -/
noncomputable def shao0 (app : ℝ → Vc n → Vc n) (m : ℕ) (s : Lz n) : Option (Out n) :=
  if gam0 app s < 0 then none
  else if Real.sqrt (gam0 app s) = 0 then some ⟨{ s with V := Function.update s.V 0 (app 1 (s.U 0)) }, 1, true⟩
  else lanczos app 0 m 0 (normalize0 app s)

/-- ks-bse.c:786-794 and DSUpdateExtraRow_HEP (dshep.c:359-365), DSTruncate_HEP: restart keeping `p` columns of the `m` computed, with
`Q` the matrix of eigenvectors and `th` the eigenvalues of the projected matrix given by the dense solver. -/
noncomputable def restart (Q : ℕ → ℕ → ℝ) (th : ℕ → ℝ) (m p : ℕ) (s : Lz n) : Lz n where
  U := fun i => if i < p then ∑ r ∈ range m, (Q r i : ℂ) • s.U r else if i = p then s.U m else s.U i
  V := fun i => if i < p then ∑ r ∈ range m, (Q r i : ℂ) • s.V r else if i = p then s.V m else s.V i
  a := th
  b := fun i => s.b (m - 1) * Q (m - 1) i

end Verif.Bse
