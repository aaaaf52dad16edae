import Mathlib.Algebra.Field.Basic
import Mathlib.Data.Nat.Cast.Basic
import Mathlib.Logic.Function.Basic

/-!
# Model of the polynomial bases of PEP

`src/pep/interface/pepdefault.c:384-431`, `src/pep/impls/peputils.c:56-109`,
`src/pep/interface/peprefine.c:175-192`, `src/pep/interface/pepsetup.c:302-316`.
Arrays are functions of the index; a loop is a left fold over the indices in the order of the code; each assignment is a
`Function.update`.  Rounding is not modelled.
-/
set_option linter.all false

namespace Verif.PEP

/-- `for (i=s;i<e;i++)` with body `f i`. -/
def forUp {S : Type*} (s e : ℕ) (f : ℕ → S → S) (x : S) : S :=
  (List.range' s (e - s)).foldl (fun x i => f i x) x

/-- `for (i=e-1;i>=s;i--)` with body `f i`. -/
def forDown {S : Type*} (s e : ℕ) (f : ℕ → S → S) (x : S) : S :=
  (List.range' s (e - s)).reverse.foldl (fun x i => f i x) x

/-- The values of `PEPBasis` (include/slepcpep.h:191-197). -/
inductive Basis
  | monomial | chebyshev1 | chebyshev2 | legendre | laguerre | hermite
  deriving DecidableEq, Repr

/-- The array `pbc` of length `3*nmat` split in its three parts `ca`, `cb`, `cg` (pepdefault.c:390-392). -/
structure Pbc (K : Type*) where
  ca : ℕ → K
  cb : ℕ → K
  cg : ℕ → K

variable {K : Type*}

/-- Entry `0` given by `z`, entries `k>=1` by `f k`: shape of the assignments of pepdefault.c:399-428. -/
def tbl (z : K) (f : ℕ → K) : ℕ → K := fun k => if k = 0 then z else f k

/-- `PEPBasisCoefficients` (pepdefault.c:384-431). Entries from `nmat` on, never read, are given by the same formula. -/
def basisCoefficients [Field K] : Basis → Pbc K
  | .monomial   => ⟨fun _ => 1, fun _ => 0, fun _ => 0⟩
  | .chebyshev1 => ⟨tbl 1 fun _ => 1/2, tbl 0 fun _ => 0, tbl 0 fun _ => 1/2⟩
  | .chebyshev2 => ⟨tbl (1/2) fun _ => 1/2, tbl 0 fun _ => 0, tbl 0 fun _ => 1/2⟩
  | .legendre   => ⟨tbl 1 fun k => (k:K)+1, tbl 0 fun k => -2*(k:K), tbl 0 fun k => (k:K)⟩
  | .laguerre   => ⟨tbl (-1) fun k => -((k:K)+1), tbl 0 fun k => 2*(k:K)+1, tbl 0 fun k => -(k:K)⟩
  | .hermite    => ⟨tbl (1/2) fun _ => 1/2, tbl 0 fun _ => 0, tbl 0 fun k => -(k:K)⟩

/-- `PEPEvaluateBasis` (peputils.c:56-76) without `ivals`: complex scalars, or real scalars with a real argument.
`vals` is the previous content of the array. -/
def evalBasis [Field K] (p : Pbc K) (nmat : ℕ) (sigma : K) (vals : ℕ → K) : ℕ → K :=
  let v := Function.update vals 0 1
  let v := Function.update v 1 ((sigma - p.cb 0) / p.ca 0)
  forUp 2 nmat (fun k v =>
    Function.update v k (((sigma - p.cb (k-1)) * v (k-1) - p.cg (k-1) * v (k-2)) / p.ca (k-1))) v

/-- `PEPEvaluateBasis` (peputils.c:56-76) in real scalars with `ivals`: the state is the pair `(vals, ivals)`. -/
def evalBasisPair [Field K] (p : Pbc K) (nmat : ℕ) (sigma isigma : K) (s : (ℕ → K) × (ℕ → K)) : (ℕ → K) × (ℕ → K) :=
  let iv := forUp 0 nmat (fun k iv => Function.update iv k 0) s.2
  let v := Function.update s.1 0 1
  let v := Function.update v 1 ((sigma - p.cb 0) / p.ca 0)
  let iv := Function.update iv 1 (isigma / p.ca 0)
  forUp 2 nmat (fun k s =>
    let v := Function.update s.1 k (((sigma - p.cb (k-1)) * s.1 (k-1) - p.cg (k-1) * s.1 (k-2)) / p.ca (k-1))
    let v := Function.update v k (v k - isigma * s.2 (k-1) / p.ca (k-1))
    let iv := Function.update s.2 k
      (((sigma - p.cb (k-1)) * s.2 (k-1) + isigma * v (k-1) - p.cg (k-1) * s.2 (k-2)) / p.ca (k-1))
    (v, iv)) (v, iv)

/-- `PEPEvaluateBasisDerivative` (peputils.c:81-109) without `ivals`. -/
def evalBasisDerivative [Field K] (p : Pbc K) (nmat : ℕ) (sigma : K) (vals : ℕ → K) : ℕ → K :=
  let v := evalBasis p nmat sigma vals
  let v := forDown 1 nmat (fun k v => Function.update v k (v (k-1))) v
  let v := Function.update v 0 0
  let v := Function.update v 1 (v 1 / p.ca 0)
  forUp 2 nmat (fun k v =>
    let v := Function.update v k (v k + ((sigma - p.cb (k-1)) * v (k-1) - p.cg (k-1) * v (k-2)))
    Function.update v k (v k / p.ca (k-1))) v

/-- `PEPEvaluateBasisDerivative` (peputils.c:81-109) in real scalars with `ivals`. -/
def evalBasisDerivativePair [Field K] (p : Pbc K) (nmat : ℕ) (sigma isigma : K) (s : (ℕ → K) × (ℕ → K)) :
    (ℕ → K) × (ℕ → K) :=
  let s := evalBasisPair p nmat sigma isigma s
  let s := forDown 1 nmat (fun k s => (Function.update s.1 k (s.1 (k-1)), Function.update s.2 k (s.2 (k-1)))) s
  let v := Function.update s.1 0 0
  let v := Function.update v 1 (v 1 / p.ca 0)
  let iv := Function.update s.2 1 (s.2 1 / p.ca 0)
  forUp 2 nmat (fun k s =>
    let v := Function.update s.1 k (s.1 k + ((sigma - p.cb (k-1)) * s.1 (k-1) - p.cg (k-1) * s.1 (k-2)))
    let v := Function.update v k (v k - isigma * s.2 (k-1))
    let v := Function.update v k (v k / p.ca (k-1))
    let iv := Function.update s.2 k
      (s.2 k + ((sigma - p.cb (k-1)) * s.2 (k-1) + isigma * v (k-1) - p.cg (k-1) * s.2 (k-2)))
    let iv := Function.update iv k (iv k / p.ca (k-1))
    (v, iv)) (v, iv)

/-- `PEPEvaluateFunctionDerivatives` (peprefine.c:175-192); the state is `(a0, a1, vals)`. -/
def evalFunctionDerivatives [Field K] (p : Pbc K) (nmat : ℕ) (alpha : K) (vals : ℕ → K) : ℕ → K :=
  let v := Function.update vals 0 0
  let v := if 1 < nmat then Function.update v 1 (1 / p.ca 0) else v
  (forUp 2 nmat (fun i (s : K × K × (ℕ → K)) =>
    let a2 := ((alpha - p.cb (i-2)) * s.2.1 - p.cg (i-2) * s.1) / p.ca (i-2)
    let v := Function.update s.2.2 i
      ((a2 + (alpha - p.cb (i-1)) * s.2.2 (i-1) - p.cg (i-1) * s.2.2 (i-2)) / p.ca (i-1))
    (s.2.1, a2, v)) (0, 1, v)).2.2

/-- Division of the coefficients by the scaling factor (ptoar.c:448-452, linear.c:335-340). -/
def scalePbc [Field K] [DecidableEq K] (p : Pbc K) (s : K) : Pbc K :=
  if s ≠ 1 then ⟨p.ca, fun k => p.cb k / s, fun k => p.cg k / (s * s)⟩ else p

/-- Restoring the coefficients after the solve (ptoar.c:581-585, linear.c:679-684). -/
def unscalePbc [Field K] [DecidableEq K] (p : Pbc K) (s : K) : Pbc K :=
  if s ≠ 1 then ⟨p.ca, fun k => p.cb k * s, fun k => p.cg k * (s * s)⟩ else p

/-- The solvers of PEP (include/slepcpep.h). `linearExplicit` is `PEPLINEAR` with explicit matrices. -/
inductive Solver
  | linear | linearExplicit | toar | stoar | qarnoldi | jd | ciss
  deriving DecidableEq, Repr

/-- The coefficients in force after `PEPSetOperators`, `PEPSetBasis` and the set-up of the solver; `none` is an error.
`PEPSetOperators` leaves monomial coefficients (pepsetup.c:310-314); `PEPBasisCoefficients` is called by linear.c:324 (implicit
matrix), ptoar.c:73 and pjd.c:150; explicit matrices (linear.c:275), STOAR (stoar.c:156) and Q-Arnoldi (qarnoldi.c:53) reject other
bases; `PEPSetUp_CISS` (pciss.c:149-252) does neither. The scaling factor is taken to be one. -/
def setUpPbc [Field K] (t : Solver) (b : Basis) : Option (Pbc K) :=
  match t with
  | .linear | .toar | .jd => some (basisCoefficients b)
  | .linearExplicit | .stoar | .qarnoldi => if b ≠ .monomial then none else some (basisCoefficients .monomial)
  | .ciss => some (basisCoefficients .monomial)

end Verif.PEP
