import Verif.PEP.BasisModel
import Verif.EPS.ResidualModel

/-!
# Model of the error computations of PEP

`src/pep/interface/pepsolve.c:383-451` (residual norm), `:475-536` (`PEPComputeError`),
`src/pep/interface/pepdefault.c:54-88` (convergence tests), `src/pep/interface/pepsetup.c:294-316` (matrix norms discarded).
Vectors and matrices of one process; exact arithmetic. The arrays `t`, `it` (or the ones allocated when `nmat>20`) are the
functions `v0`, `iv0` of previous contents.
-/
set_option linter.all false

namespace Verif.PEP

open Verif.EPS (norm2 absEig)
open Classical

variable {n : Type*} [Fintype n]

/-- One iteration of the loop of pepsolve.c:418-436 in real arithmetic: the state is `(u,ui)`. -/
noncomputable def residStep (A : ℕ → Matrix n n ℝ) (imag : Bool) (vals ivals : ℕ → ℝ) (xr xi : n → ℝ) (i : ℕ)
    (s : (n → ℝ) × (n → ℝ)) : (n → ℝ) × (n → ℝ) :=
  let w := (A i).mulVec xr
  let wi := (A i).mulVec xi
  let s := if vals i ≠ 0 then (s.1 + vals i • w, s.2) else s
  if imag then
    let s := if ivals i ≠ 0 then (s.1 + (-ivals i) • wi, s.2 + ivals i • w) else s
    if vals i ≠ 0 then (s.1, s.2 + vals i • wi) else s
  else s

/-- `PEPComputeResidualNorm_Private` in real arithmetic (pepsolve.c:383-451); `eps` is the machine precision. -/
noncomputable def pepResidNorm (eps : ℝ) (p : Pbc ℝ) (nmat : ℕ) (A : ℕ → Matrix n n ℝ) (v0 iv0 : ℕ → ℝ) (kr ki : ℝ)
    (xr xi : n → ℝ) : ℝ :=
  let v := evalBasisPair p nmat kr ki (v0, iv0)
  let imag : Bool := decide (¬ (ki = 0 ∨ |ki| < |kr * eps|))
  let s := forUp 0 nmat (residStep A imag v.1 v.2 xr xi) (0, 0)
  if imag then absEig (norm2 s.1) (norm2 s.2) else norm2 s.1

/-- `PEPComputeResidualNorm_Private` in complex arithmetic. -/
noncomputable def pepResidNormC (p : Pbc ℂ) (nmat : ℕ) (A : ℕ → Matrix n n ℂ) (v0 : ℕ → ℂ) (k : ℂ) (x : n → ℂ) : ℝ :=
  let v := evalBasis p nmat k v0
  norm2 (forUp 0 nmat (fun i u => if v i ≠ 0 then u + v i • (A i).mulVec x else u) 0)

/-- `PEPErrorType` (include/slepcpep.h:360-362). -/
inductive ErrorType
  | absolute | relative | backward
  deriving DecidableEq

/-- The part of PEP read by the error computations: infinity norms of the current matrices, and the array `nrma`. -/
structure Norms where
  nmat : ℕ
  norms : ℕ → ℝ
  nrma : ℕ → ℝ

/-- Initialization of the matrix norms (pepsolve.c:519-525, pepdefault.c:75-81). -/
noncomputable def initNorms (s : Norms) : Norms :=
  if s.nrma (s.nmat - 1) = 0 then { s with nrma := s.norms } else s

/-- `z = z*t+nrma[j]` for `j=nmat-1,...,0` (pepsolve.c:526-529, pepdefault.c:82-85). -/
def hornerNorms (s : Norms) (t : ℝ) : ℝ := forDown 0 s.nmat (fun j z => z * t + s.nrma j) 0

/-- `PEPComputeError` from the residual norm (pepsolve.c:511-534), together with the new state. -/
noncomputable def computeError (s : Norms) (type : ErrorType) (kr ki res : ℝ) : Norms × ℝ :=
  match type with
  | .absolute => (s, res)
  | .relative => (s, res / absEig kr ki)
  | .backward => (initNorms s, res / hornerNorms (initNorms s) (absEig kr ki))

/-- The convergence tests (pepdefault.c:54-62, 67-88, 108-113); `big` is `PETSC_MAX_REAL`. -/
noncomputable def converged (s : Norms) (type : ErrorType) (big kr ki res : ℝ) : Norms × ℝ :=
  match type with
  | .absolute => (s, res)
  | .relative => (s, if absEig kr ki ≠ 0 then res / absEig kr ki else big)
  | .backward => (initNorms s, res / hornerNorms (initNorms s) (absEig kr ki))

/-- What happens to a PEP, as far as the norms are concerned. -/
inductive NormOp
  | setOperators (nmat : ℕ) (norms : ℕ → ℝ)
  | error (type : ErrorType) (kr ki res : ℝ)
  | converged (type : ErrorType) (kr ki res : ℝ)
  | modify (norms : ℕ → ℝ)

/-- `PEPSetOperators` frees the array and allocates a zero one (pepsetup.c:302-310); `modify` changes the entries of the matrices in
place, which PEP does not notice. -/
noncomputable def normStep (big : ℝ) (s : Norms) : NormOp → Norms
  | .setOperators m f => ⟨m, f, fun _ => 0⟩
  | .error t kr ki r => (computeError s t kr ki r).1
  | .converged t kr ki r => (converged s t big kr ki r).1
  | .modify f => { s with norms := f }

end Verif.PEP
