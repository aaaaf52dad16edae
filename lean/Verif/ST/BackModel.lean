import Mathlib.LinearAlgebra.Matrix.NonsingularInverse
import Mathlib.Data.Complex.Basic
/-!
# Model of the spectral transformations shift, sinvert and cayley (linear problems, `nmat <= 2`)

Matrices have entries in an arbitrary field (exact arithmetic); the linear solver (KSP) is
represented by the exact inverse.  For `nmat = 1` the second matrix is the identity.
-/
set_option linter.all false
namespace Verif.ST
open Matrix

variable {K : Type} [Field K] {n : Type} [Fintype n] [DecidableEq n]

/-- The three transformations. -/
inductive Kind
  | shift | sinvert | cayley
deriving DecidableEq

/-- `st->P` after `STComputeOperator_*`: shift `src/sys/classes/st/impls/shift/shift.c:133-151`
(`NULL`, i.e. identity, when `nmat=1`), sinvert `.../sinvert/sinvert.c:92-109`,
cayley `.../cayley/cayley.c:132-163`. -/
def opP (k : Kind) (sigma : K) (A B : Matrix n n K) : Matrix n n K :=
  match k with
  | .shift => B
  | .sinvert => A - sigma • B
  | .cayley => A - sigma • B

/-- `st->M` after `STComputeOperator_*` (same lines as `opP`; `NULL` in sinvert with `nmat=1`). -/
def opM (k : Kind) (sigma nu : K) (A B : Matrix n n K) : Matrix n n K :=
  match k with
  | .shift => A - sigma • B
  | .sinvert => B
  | .cayley => A + nu • B

/-- `STApply` without balancing (`STApply_Generic`, `src/sys/classes/st/interface/stsolve.c:16-25`):
`y = P^{-1} M x`. -/
noncomputable def stApply (k : Kind) (sigma nu : K) (A B : Matrix n n K) (x : n → K) : n → K :=
  (opP k sigma A B)⁻¹ *ᵥ (opM k sigma nu A B *ᵥ x)

/-- `STBackTransform_*` with complex scalars, or real eigenvalues: shift.c:109, sinvert.c:58,67,
cayley.c:94,107. -/
def back (k : Kind) (sigma nu theta : K) : K :=
  match k with
  | .shift => theta + sigma
  | .sinvert => 1 / theta + sigma
  | .cayley => (nu + theta * sigma) / (theta - 1)

/-- `STBackTransform_*` for real scalars, on the pair (real part, imaginary part):
shift.c:109, sinvert.c:58-63, cayley.c:94-103 (statement by statement). -/
noncomputable def backPair (k : Kind) (sigma nu : ℝ) (er ei : ℝ) : ℝ × ℝ :=
  match k with
  | .shift => (er + sigma, ei)
  | .sinvert =>
    if ei = 0 then (1 / er + sigma, ei)
    else
      let t := er * er + ei * ei
      (er / t + sigma, - ei / t)
  | .cayley =>
    if ei = 0 then ((nu + er * sigma) / (er - 1), ei)
    else
      let r := er
      let i := ei
      let r := sigma * (r * r + i * i - r) + nu * (r - 1)   -- line 98
      let i := - sigma * i - nu * i                         -- line 99
      let t := i * i + r * (r - 2) + 1                      -- line 100
      (r / t, i / t)

end Verif.ST
