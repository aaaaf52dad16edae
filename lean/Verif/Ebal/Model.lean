import Mathlib.Data.Complex.Basic
import Mathlib.Analysis.Complex.Norm
import Mathlib.Analysis.SpecialFunctions.Pow.Real
import Mathlib.Data.Matrix.Mul
import Mathlib.LinearAlgebra.Matrix.ConjTranspose
import Mathlib.Tactic
/-!
Model of balancing in EPS: construction of the diagonal, its use in the operator, correction of the vectors, and the calls that change the state of the object.
-/
set_option linter.all false
namespace Verif.Ebal
noncomputable section
open Classical

/-- Vectors (complex scalars). -/
abbrev Vc (n : ℕ) := Fin n → ℂ

/-- `EPSBalance` (include/slepceps.h). -/
inductive Bal | none | oneside | twoside | user
deriving DecidableEq

/-- Relevant values of `EPSStateType` (include/slepc/private/epsimpl.h); computed eigenvectors are not distinguished from the solved state. -/
inductive Stage | initial | setup | solved
deriving DecidableEq

/-- `VecPointwiseDivide`, as used in src/eps/interface/epsdefault.c:133. -/
def pdiv {n : ℕ} (x d : Vc n) : Vc n := fun i => x i / d i

/-- `VecPointwiseMult`, as used in src/eps/interface/epsdefault.c:152. -/
def pmul {n : ℕ} (x d : Vc n) : Vc n := fun i => x i * d i

/-- `MatMult_STOperator` (src/sys/classes/st/interface/stsolve.c:252-256): the operator `S` with the balancing matrix of the ST. -/
def applyOp {n : ℕ} (S : Matrix (Fin n) (Fin n) ℂ) (D : Option (Vc n)) (x : Vc n) : Vc n :=
  match D with
  | .some d => pmul (S.mulVec (pdiv x d)) d
  | .none => S.mulVec x

/-- `p=DA(D\z)` (src/eps/interface/epsdefault.c:485-487); the ST has no balancing matrix at this point (epssetup.c:402). -/
def rowProd {n : ℕ} (S : Matrix (Fin n) (Fin n) ℂ) (D z : Vc n) : Vc n := pmul (applyOp S .none (pdiv z D)) D

/-- `r=D\(A'Dz)` (src/eps/interface/epsdefault.c:495-497). -/
def colProd {n : ℕ} (S : Matrix (Fin n) (Fin n) ℂ) (D z : Vc n) : Vc n := pdiv (S.conjTranspose.mulVec (pmul z D)) D

/-- Estimate of the norm: largest modulus in `p` (src/eps/interface/epsdefault.c:489-493). -/
def maxAbs {n : ℕ} (p : Vc n) : ℝ := ((Finset.univ.sup fun i => ‖p i‖₊ : NNReal) : ℝ)

/-- Update of `D` in one iteration (src/eps/interface/epsdefault.c:504-511). In the first two-sided iteration `p` has been replaced by its moduli, of which only
the modulus is used. -/
def adjust {n : ℕ} (bal : Bal) (cutoff norma : ℝ) (p r D : Vc n) : Vc n := fun i =>
  if bal = .twoside then
    if cutoff * norma < ‖p i‖ ∧ r i ≠ 0 then D i * ((Real.sqrt ‖r i / p i‖ : ℝ) : ℂ) else D i
  else if p i ≠ 0 then D i / ((‖p i‖ : ℝ) : ℂ) else D i

/-- Loop of `EPSBuildBalance_Krylov` (src/eps/interface/epsdefault.c:471-515) after `j` iterations: diagonal and estimate of the norm; `z j` is the vector of
signs of iteration `j`. -/
def loop {n : ℕ} (bal : Bal) (cutoff : ℝ) (S : Matrix (Fin n) (Fin n) ℂ) (z : ℕ → Vc n) : ℕ → Vc n × ℝ
  | 0 => (fun _ => 1, 0)
  | j + 1 =>
    let q := loop bal cutoff S z j
    let p := rowProd S q.1 (z j)
    let norma := if j = 0 then maxAbs p else q.2
    (adjust bal cutoff norma p (colProd S q.1 (z j)) q.1, norma)

/-- `EPSBuildBalance_Krylov` (src/eps/interface/epsdefault.c:456-517). -/
def build {n : ℕ} (bal : Bal) (its : ℕ) (cutoff : ℝ) (S : Matrix (Fin n) (Fin n) ℂ) (z : ℕ → Vc n) : Vc n := (loop bal cutoff S z its).1

/-- Fields of the EPS object and of its ST. -/
structure EPS (n : ℕ) where
  bal : Bal
  its : ℕ
  cutoff : ℝ
  herm : Bool
  stage : Stage
  /-- `eps->D` -/
  epsD : Option (Vc n)
  /-- `st->D` -/
  stD : Option (Vc n)
  S : Matrix (Fin n) (Fin n) ℂ

/-- New object (src/eps/interface/epsbasic.c:100,114, EPSCreate), with given operator and problem type. -/
def create {n : ℕ} (S : Matrix (Fin n) (Fin n) ℂ) (herm : Bool) : EPS n := ⟨.none, 5, 1 / 10 ^ 8, herm, .initial, .none, .none, S⟩

/-- Numerical argument: `PETSC_DETERMINE`, `PETSC_CURRENT` or a value. -/
inductive Par (α : Type) | determine | current | val (a : α)

/-- `EPSSetBalance` (src/eps/interface/epsopts.c:1197-1219); the result says whether the call succeeded. The method is stored before the other arguments are
checked. -/
def setBalance {n : ℕ} (s : EPS n) (bal : Bal) (its : Par ℤ) (cutoff : Par ℝ) : EPS n × Bool :=
  let s1 : EPS n := if s.bal ≠ bal then { s with stage := .initial, bal := bal } else s
  let a : EPS n × Bool := match its with
    | .determine => ({ s1 with its := 5 }, true)
    | .current => (s1, true)
    | .val k => if 0 < k then ({ s1 with its := k.toNat }, true) else (s1, false)
  if a.2 then
    match cutoff with
    | .determine => ({ a.1 with cutoff := 1 / 10 ^ 8 }, true)
    | .current => (a.1, true)
    | .val c => if 0 < c then ({ a.1 with cutoff := c }, true) else (a.1, false)
  else a

/-- `EPSSetProblemType` (src/eps/interface/epsopts.c:994-1054), for the types HEP and NHEP. -/
def setProblem {n : ℕ} (s : EPS n) (herm : Bool) : EPS n :=
  if herm = s.herm then s else { s with herm := herm, stage := .initial }

/-- Balancing part of `EPSSetUp` (src/eps/interface/epssetup.c:293, 400-408). -/
def setUp {n : ℕ} (s : EPS n) (z : ℕ → Vc n) : EPS n :=
  if s.stage ≠ .initial then s
  else if s.bal ≠ .user then
    if s.herm = false ∧ (s.bal = .oneside ∨ s.bal = .twoside) then
      { s with stage := .setup, epsD := .some (build s.bal s.its s.cutoff s.S z), stD := .some (build s.bal s.its s.cutoff s.S z) }
    else { s with stage := .setup, stD := .none }
  else { s with stage := .setup }

/-- `EPSSolve` (src/eps/interface/epssolve.c:137-141): nothing is done if the problem is already solved. -/
def solve {n : ℕ} (s : EPS n) (z : ℕ → Vc n) : EPS n :=
  if s.stage = .solved then s else { setUp s z with stage := .solved }

/-- Calls of the user. `other` is `EPSSetOperators` with matrices giving the operator `S` (src/eps/interface/epssetup.c:511-521, same size), which like other
setters returns to the initial stage; `reset` is `EPSReset` (epsbasic.c:321-327) followed by setting the matrices. -/
inductive Call (n : ℕ)
  | setBalance (bal : Bal) (its : Par ℤ) (cutoff : Par ℝ)
  | setProblem (herm : Bool)
  | setUserD (D : Option (Vc n))
  | other (S : Matrix (Fin n) (Fin n) ℂ)
  | reset
  | setUp (z : ℕ → Vc n)
  | solve (z : ℕ → Vc n)

/-- State after a call. `STSetBalanceMatrix`: src/sys/classes/st/interface/stfunc.c:772-784 (the state of the EPS is not changed). -/
def step {n : ℕ} (s : EPS n) : Call n → EPS n
  | .setBalance b i c => (setBalance s b i c).1
  | .setProblem h => setProblem s h
  | .setUserD D => { s with stD := D }
  | .other S => { s with S := S, stage := .initial }
  | .reset => { s with epsD := .none, stD := .none, stage := .initial }
  | .setUp z => setUp s z
  | .solve z => solve s z

/-- State after a sequence of calls. -/
def run {n : ℕ} (s : EPS n) (cs : List (Call n)) : EPS n := cs.foldl step s

/-- Right eigenvector returned (`EPSComputeVectors_Schur`, src/eps/interface/epsdefault.c:112-136), `y` being the eigenvector of the operator. -/
def retVec {n : ℕ} (s : EPS n) (y : Vc n) : Vc n :=
  if s.herm then y
  else if s.bal ≠ .none then
    match s.epsD with
    | .some d => pdiv y d
    | .none => y
  else y

/-- Left eigenvector returned (src/eps/interface/epsdefault.c:112-116, 142-155). -/
def retLeft {n : ℕ} (s : EPS n) (w : Vc n) : Vc n :=
  if s.herm then w
  else if s.bal ≠ .none then
    match s.epsD with
    | .some d => pmul w d
    | .none => w
  else w

/-- Vectors returned by `EPSGetInvariantSubspace` (src/eps/interface/epssolve.c:370-381), `V` being the computed basis; `orth` is `BVOrthogonalize`. -/
def retSpace {n k : ℕ} (orth : (Fin k → Vc n) → Fin k → Vc n) (s : EPS n) (V : Fin k → Vc n) : Fin k → Vc n :=
  if s.bal ≠ .none then
    match s.epsD with
    | .some d => orth (fun i => pdiv (V i) d)
    | .none => V
  else V

end
end Verif.Ebal
