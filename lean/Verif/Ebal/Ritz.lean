import Mathlib.Analysis.SpecialFunctions.Pow.Real
import Mathlib.Data.Matrix.Mul
import Mathlib.Tactic
/-!
Model of `EPSComputeRitzVector` in real arithmetic.
-/
set_option linter.all false
namespace Verif.Ebal.Ritz
noncomputable section
open Classical

/-- Real vectors. -/
abbrev Vr (n : ℕ) := Fin n → ℝ

/-- `VecNorm` with `NORM_2` (as used in src/eps/interface/epsdefault.c:417, 430). -/
def nrm {n : ℕ} (x : Vr n) : ℝ := Real.sqrt (∑ i, x i ^ 2)

/-- What the function reads of the object: `eps->purify`, `eps->ishermitian`, `eps->ispositive`, whether `eps->balance` is not NONE, `eps->D`, the norm of the basis
(`BVNormVec`), and the balancing matrix and operator of the ST. -/
structure Cfg (n : ℕ) where
  purify : Bool
  herm : Bool
  positive : Bool
  balance : Bool
  epsD : Option (Vr n)
  bnrm : Vr n → ℝ
  stD : Option (Vr n)
  S : Matrix (Fin n) (Fin n) ℝ

/-- `STApply` with the balancing matrix (src/sys/classes/st/interface/stsolve.c:252-256). -/
def apply {n : ℕ} (c : Cfg n) (x : Vr n) : Vr n :=
  match c.stD with
  | some d => fun i => c.S.mulVec (fun j => x j / d j) i * d i
  | none => c.S.mulVec x

/-- Division by `eps->D` if `on` (src/eps/interface/epsdefault.c:422, 435). -/
def fix {n : ℕ} (c : Cfg n) (on : Bool) (x : Vr n) : Vr n :=
  match c.epsD with
  | some d => if on then fun i => x i / d i else x
  | none => x

/-- Real part after purification and correction (src/eps/interface/epsdefault.c:414-422); `x` is `V*Zr`. -/
def realPart {n : ℕ} (c : Cfg n) (x : Vr n) : Vr n :=
  fix c (!c.herm && c.balance)
    (if c.purify then (1 / (if c.herm then c.bnrm (apply c x) else nrm (apply c x))) • apply c x else x)

/-- Imaginary part after purification and correction (src/eps/interface/epsdefault.c:426-435); `y` is `V*Zi`. -/
def imagPart {n : ℕ} (c : Cfg n) (y : Vr n) : Vr n :=
  fix c c.balance (if c.positive then (1 / nrm (apply c y)) • apply c y else y)

/-- Ritz vector of a real eigenvalue, `Zi=NULL` (src/eps/interface/epsdefault.c:408-447). -/
def ritz {n : ℕ} (c : Cfg n) (x : Vr n) : Vr n :=
  if c.balance ∧ c.epsD.isSome then (1 / nrm (realPart c x)) • realPart c x else realPart c x

/-- Real and imaginary parts of the Ritz vector of a complex eigenvalue (src/eps/interface/epsdefault.c:408-447, and `VecNormalizeComplex`, src/sys/vec/vecutil.c:39-49). -/
def ritzPair {n : ℕ} (c : Cfg n) (x y : Vr n) : Vr n × Vr n :=
  if c.balance ∧ c.epsD.isSome then
    let a := 1 / Real.sqrt (nrm (realPart c x) ^ 2 + nrm (imagPart c y) ^ 2)
    (a • realPart c x, a • imagPart c y)
  else (realPart c x, imagPart c y)

end
end Verif.Ebal.Ritz
