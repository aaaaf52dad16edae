import Mathlib.Analysis.Normed.Module.Basic
import Mathlib.Analysis.RCLike.Basic
import Mathlib.LinearAlgebra.Matrix.ConjTranspose
import Mathlib.Data.Matrix.Mul

/-!
# Structured eigenproblems: eigenvalues and eigenvectors returned to the user

The solver keeps one eigenpair per symmetric group (Bethe-Salpeter, linear response) or one/two per group
(Hamiltonian, real arithmetic); the others are derived when the user asks for them.
-/
set_option linter.all false

namespace Verif.EPS

open Classical

/-- Solution kept in the solver object in real arithmetic: `nconv`, `ncv`, `eigr`, `eigi`, `perm` and the columns of
`V`. -/
structure Store (V : Type*) where
  nconv : Nat
  ncv : Nat
  er : Nat → ℝ
  ei : Nat → ℝ
  perm : Nat → Nat
  col : Nat → V

variable {V : Type*}

/-- `EPS_GetActualConverged` (include/slepc/private/epsimpl.h:372-382) for a structured problem; `mag` says whether
`which` is one of the magnitude criteria. -/
def actualConverged (s : Store V) (mag : Bool) : Nat := if mag then 2 * s.nconv else s.nconv

/-- `EPSGetEigenvalue` for BSE and LREP with doubled indices, real arithmetic
(src/eps/interface/epssolve.c:495, 500-501). -/
noncomputable def pmEig (s : Store V) (i : Nat) : ℝ × ℝ :=
  (if i % 2 = 1 then -s.er (s.perm (i / 2)) else s.er (s.perm (i / 2)), s.ei (s.perm (i / 2)))

/-- Position within the quadruple (src/eps/interface/epssolve.c:517-521, include/slepc/private/epsimpl.h:471-475). -/
noncomputable def iquad (s : Store V) (i : Nat) : Nat :=
  if 1 < i ∧ s.er (s.perm (i / 2)) = s.er (s.perm ((i - 2) / 2)) ∧ s.ei (s.perm (i / 2)) = -s.ei (s.perm ((i - 2) / 2))
  then i % 2 + 2 else i % 2

/-- `EPSGetEigenvalue` for Hamiltonian problems with doubled indices, real arithmetic
(src/eps/interface/epssolve.c:505, 510-524). -/
noncomputable def hamEig (s : Store V) (i : Nat) : ℝ × ℝ :=
  let k := s.perm (i / 2)
  if s.ei k = 0 then (if i % 2 = 1 then -s.er k else s.er k, 0)
  else if s.er k = 0 then (0, if i % 2 = 1 then -s.ei k else s.ei k)
  else (if iquad s i < 2 then -s.er k else s.er k, if iquad s i % 3 = 0 then s.ei k else -s.ei k)

/-- `EPSGetEigenvalue` for Hamiltonian problems (src/eps/interface/epssolve.c:480-527): indices are doubled only for the
magnitude criteria. -/
noncomputable def hamGetEigenvalue (s : Store V) (mag : Bool) (i : Nat) : ℝ × ℝ :=
  if actualConverged s mag = s.nconv then (s.er (s.perm i), s.ei (s.perm i)) else hamEig s i

section vectors
variable [NormedAddCommGroup V] [NormedSpace ℝ V]

/-- Columns of the second basis are shifted (include/slepc/private/epsimpl.h:451). -/
def second (s : Store V) (k : Nat) : V := s.col (k + s.ncv / 2 + 1)

/-- The vectors assembled by `EPS_GetEigenvector_HAMILT` before normalisation
(include/slepc/private/epsimpl.h:448-511). -/
noncomputable def hamRaw (s : Store V) (i : Nat) : V × V :=
  let k := s.perm (i / 2)
  if s.ei k = 0 then (second s k + (if i % 2 = 1 then -s.er k else s.er k) • s.col k, 0)
  else if s.er k = 0 then (second s k, (if i % 2 = 1 then -s.ei k else s.ei k) • s.col k)
  else
    let q := iquad s i
    let k0 := if q < 2 then k else s.perm ((i - 2) / 2)
    let k1 := k0 + 1
    let sr : ℝ := if q < 2 then -1 else 1
    let si : ℝ := if q % 2 = 1 then -1 else 1
    let sv : ℝ := if q % 3 = 0 then -1 else 1
    ((sr * s.er k0) • s.col k0 + (-sr * s.ei k0) • s.col k1 + second s k0,
      (si * s.ei k0) • s.col k0 + (si * s.er k0) • s.col k1 + sv • second s k1)

/-- `EPS_GetEigenvector_HAMILT` (include/slepc/private/epsimpl.h:437-518); `wr`, `wi` tell which of the two vectors the
caller passed (`NULL` otherwise).  The norm is computed from the requested parts only (lines 443, 455-469, 497-512). -/
noncomputable def hamVec (s : Store V) (wr wi : Bool) (i : Nat) : Option V × Option V :=
  let x := (hamRaw s i).1
  let y := (hamRaw s i).2
  let nr := if wr then ‖x‖ else 0
  let ni := if wi then ‖y‖ else 0
  let nrm := if s.ei (s.perm (i / 2)) = 0 then nr else Real.sqrt (nr ^ 2 + ni ^ 2)
  (if wr then some ((1 / nrm) • x) else none, if wi then some ((1 / nrm) • y) else none)

/-- `BV_GetEigenvector` in real arithmetic (include/slepc/private/bvimpl.h:421-444). -/
noncomputable def bvVec (s : Store V) (k : Nat) (wr wi : Bool) : Option V × Option V :=
  if 0 < s.ei k then (if wr then some (s.col k) else none, if wi then some (s.col (k + 1)) else none)
  else if s.ei k < 0 then (if wr then some (s.col (k - 1)) else none, if wi then some (-s.col k) else none)
  else (if wr then some (s.col k) else none, if wi then some 0 else none)

end vectors

section blocks
variable {n : Type*} [Fintype n] {𝕜 : Type*} [RCLike 𝕜]

/-- A vector of a 2x2 block matrix (`MATNEST`). -/
abbrev Blk (n : Type*) (𝕜 : Type*) := (n → 𝕜) × (n → 𝕜)

/-- `MatCreateBSE`: H = [R C; -C^* -R^T] (src/sys/mat/matstruct.c:46-82). -/
def bseMul (R C : Matrix n n 𝕜) (x : Blk n 𝕜) : Blk n 𝕜 :=
  (R.mulVec x.1 + C.mulVec x.2, -(C.conjTranspose.mulVec x.1) - R.transpose.mulVec x.2)

/-- `MatCreateLREP` with two blocks: H = [A B; -B -A] (src/sys/mat/matstruct.c:197-258). -/
def lrepMul (A B : Matrix n n ℝ) (x : Blk n ℝ) : Blk n ℝ :=
  (A.mulVec x.1 + B.mulVec x.2, -(B.mulVec x.1) - A.mulVec x.2)

/-- Reduced form: H = [0 K; M 0] (src/sys/mat/matstruct.c:220-227). -/
def lrepRedMul (K M : Matrix n n ℝ) (x : Blk n ℝ) : Blk n ℝ := (K.mulVec x.2, M.mulVec x.1)

/-- Exchange of the two halves after conjugation: the vector for odd indices in `EPS_GetEigenvector_BSE`
(include/slepc/private/epsimpl.h:401-408). -/
def bseOdd (x : Blk n 𝕜) : Blk n 𝕜 := (fun j => star (x.2 j), fun j => star (x.1 j))

/-- Change of sign of the bottom half: odd indices in `EPS_GetEigenvector_LREP` (include/slepc/private/epsimpl.h:535-537) and
left eigenvectors (src/eps/interface/epssolve.c:651-653). -/
def negBottom (x : Blk n 𝕜) : Blk n 𝕜 := (x.1, -x.2)

/-- Exchange of the two halves: left eigenvectors of the reduced form (src/eps/interface/epssolve.c:663-678). -/
def swapHalves (x : Blk n 𝕜) : Blk n 𝕜 := (x.2, x.1)

/-- `EPS_GetEigenvector_BSE` in real arithmetic (include/slepc/private/epsimpl.h:384-435), also used for LREP in
unreduced form (line 569); for odd indices the imaginary part has its sign changed (line 417). -/
noncomputable def bseVec (s : Store (Blk n ℝ)) (wr wi : Bool) (i : Nat) : Option (Blk n ℝ) × Option (Blk n ℝ) :=
  let k := s.perm (i / 2)
  if i % 2 = 1 then
    (((bvVec s k wr false).1).map bseOdd, ((bvVec s k false wi).2).map fun w => bseOdd (-w))
  else bvVec s k wr wi

/-- `EPS_GetEigenvector_LREP` in real arithmetic (include/slepc/private/epsimpl.h:520-540).  `none` is the dereference of a
null vector in line 535. -/
noncomputable def lrepVec (s : Store (Blk n ℝ)) (wr wi : Bool) (i : Nat) :
    Option (Option (Blk n ℝ) × Option (Blk n ℝ)) :=
  let r := bvVec s (s.perm (i / 2)) wr wi
  if i % 2 = 1 then r.1.map fun x => (some (negBottom x), r.2) else some r

/-- Problem types for which left eigenvectors are derived from right ones (src/eps/interface/epssolve.c:640). -/
inductive TrivialType
  | hep
  | ghep
  | bse
  | lrep (reduced : Bool)
deriving DecidableEq

/-- What `EPSGetLeftEigenvector` does to the right eigenvector (src/eps/interface/epssolve.c:645-679), for a matrix of
nested type (otherwise the call in line 649 is an error): the condition in line 648 is
`problem_type==EPS_BSE || !lrepreduced`, and `lrepreduced` is false unless the type is LREP. -/
def leftVec (t : TrivialType) (x : Blk n 𝕜) : Blk n 𝕜 :=
  if t = .bse ∨ ¬ (t = .lrep true) then negBottom x
  else if t = .lrep true then swapHalves x
  else x

/-- The same for a matrix that is not of nested type (possible only for HEP and GHEP): `MatNestGetISs` fails
(src/eps/interface/epssolve.c:648-649). -/
def leftVecPlain {W : Type*} (t : TrivialType) (x : W) : Option W :=
  if t = .bse ∨ ¬ (t = .lrep true) then none else some x

end blocks

end Verif.EPS
