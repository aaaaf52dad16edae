import Mathlib.Analysis.SpecialFunctions.Sqrt
import Mathlib.Analysis.SpecialFunctions.Log.Deriv
import Mathlib.Analysis.SpecialFunctions.Complex.LogDeriv
import Mathlib.Analysis.SpecialFunctions.Pow.Deriv

/-!
# Model of the FN class (mathematical functions), scalar evaluation

Sources: `src/sys/classes/fn/interface/fnbasic.c`, `src/sys/classes/fn/impls/*/fn*.c`.

An FN object is modelled by its current parameters: the header (scale factors, method, parallel
mode) and the data of its type.  A combined function owns two FN objects, so an object is a finite
tree.  Scalars are exact (`K` is `ℝ` for the real build, `ℂ` for the complex build), and `none`
stands for a call that returns an error.  Logging, viewers, options and GPU variants are not
modelled.
-/

set_option linter.all false
noncomputable section
open Classical

namespace Verif.FN

/-- The elementary functions of the scalar type (`PetscExpScalar`, `PetscLogScalar`,
`PetscSqrtScalar`, `PetscPowScalarReal(x,1.5)`) and the range checks which only exist in the real
build (`#if !defined(PETSC_USE_COMPLEX)`): `nonneg x` is `x>=0.0`, `pos x` is `x>0.0`. -/
structure Prim (K : Type) where
  exp : K → K
  log : K → K
  sqrt : K → K
  pow15 : K → K
  nonneg : K → Prop
  pos : K → Prop

/-- Real build. -/
def primReal : Prim ℝ where
  exp := Real.exp
  log := Real.log
  sqrt := Real.sqrt
  pow15 := fun x => x ^ (3 / 2 : ℝ)
  nonneg := fun x => 0 ≤ x
  pos := fun x => 0 < x

/-- Complex build: no range checks, principal branches. -/
def primComplex : Prim ℂ where
  exp := Complex.exp
  log := Complex.log
  sqrt := fun x => x ^ (1 / 2 : ℂ)
  pow15 := fun x => x ^ (3 / 2 : ℂ)
  nonneg := fun _ => True
  pos := fun _ => True

/-- Parallel mode, include/slepcfn.h (`FNParallelType`). -/
inductive PMode
  | redundant | synchronized
  deriving DecidableEq

/-- Part of `_p_FN` common to all types, include/slepc/private/fnimpl.h:39-44. -/
structure Header (K : Type) where
  alpha : K
  beta : K
  method : ℕ
  pmode : PMode

/-- Data of the types without children.  `phi` has its index (fnphi.c:19-23), `rational` its two
coefficient arrays (fnrational.c:16-21; `np`, `nq` are the lengths). -/
inductive Leaf (K : Type)
  | exp | log | sqrt | invsqrt
  | phi (k : ℕ)
  | rational (p q : List K)

/-- include/slepcfn.h (`FNCombineType`). -/
inductive Comb
  | add | multiply | divide | compose
  deriving DecidableEq

/-- An FN object with its parameters; children of a combined function as in fncombine.c:22-25. -/
inductive Fn (K : Type)
  | leaf (h : Header K) (t : Leaf K)
  | combine (h : Header K) (c : Comb) (f1 f2 : Fn K)

variable {K : Type} [Field K]

/-- fnrational.c:32-34 (and 38-40): Horner's rule, the first entry of the array is the coefficient
of the highest power. -/
def hornerLoop (x : K) : K → List K → K
  | p, [] => p
  | p, c :: cs => hornerLoop x (c + x * p) cs

/-- fnrational.c:30-35. -/
def hornerP (x : K) : List K → K
  | [] => 1
  | c :: cs => hornerLoop x c cs

/-- fnrational.c:146-149 (and 155-158): value and derivative, derivative updated first. -/
def hornerLoopD (x : K) : K × K → List K → K × K
  | s, [] => s
  | (p, pp), c :: cs => hornerLoopD x (c + x * p, p + x * pp) cs

/-- fnrational.c:140-150. -/
def hornerD (x : K) : List K → K × K
  | [] => (1, 0)
  | c :: cs => hornerLoopD x (c, 0) cs

/-- fnrational.c:23-45 `FNEvaluateFunction_Rational`. -/
def evalRational (p q : List K) (x : K) : Option K :=
  if q = [] then some (hornerP x p)
  else if hornerP x q = 0 then none
  else some (hornerP x p / hornerP x q)

/-- fnrational.c:133-163 `FNEvaluateDerivative_Rational`. -/
def derivRational (p q : List K) (x : K) : Option K :=
  let P := hornerD x p
  if q = [] then some P.2
  else
    let Q := hornerD x q
    if Q.1 = 0 then none
    else some ((P.2 * Q.1 - P.1 * Q.2) / (Q.1 * Q.1))

/-- fnphi.c:27, the table `rfactorial`. -/
def rfactorial (k : ℕ) : K := 1 / (k.factorial : K)

/-- fnphi.c:38-39 (and 54-55), the array `phi[]`. -/
def phiLoop (P : Prim K) (x : K) : ℕ → K
  | 0 => P.exp x
  | i + 1 => (phiLoop P x i - rfactorial i) / x

/-- fnphi.c:29-43 `FNEvaluateFunction_Phi`. -/
def evalPhi (P : Prim K) (k : ℕ) (x : K) : K :=
  if x = 0 then rfactorial k else phiLoop P x k

/-- fnphi.c:45-59 `FNEvaluateDerivative_Phi`. -/
def derivPhi (P : Prim K) (k : ℕ) (x : K) : K :=
  if x = 0 then rfactorial (k + 1) else phiLoop P x k - phiLoop P x (k + 1) * (k : K)

/-- Evaluation of a function without children at the already scaled argument.
fnexp.c:17-22, fnlog.c:17-25, fnsqrt.c:17-25, fninvsqrt.c:17-26, fnphi.c:29-43, fnrational.c:23-45.
Simplification: `log 0`, which the code passes to the C library and which gives minus infinity, is
`none`. -/
def evalLeaf (P : Prim K) (t : Leaf K) (x : K) : Option K :=
  match t with
  | .exp => some (P.exp x)
  | .log => if ¬ P.nonneg x then none else if x = 0 then none else some (P.log x)
  | .sqrt => if ¬ P.nonneg x then none else some (P.sqrt x)
  | .invsqrt => if x = 0 then none else if ¬ P.pos x then none else some (1 / P.sqrt x)
  | .phi k => some (evalPhi P k x)
  | .rational p q => evalRational p q x

/-- Derivative of a function without children at the already scaled argument.
fnexp.c:24-29, fnlog.c:27-36, fnsqrt.c:27-36, fninvsqrt.c:28-37, fnphi.c:45-59,
fnrational.c:133-163. -/
def derivLeaf (P : Prim K) (t : Leaf K) (x : K) : Option K :=
  match t with
  | .exp => some (P.exp x)
  | .log => if x = 0 then none else if ¬ P.pos x then none else some (1 / x)
  | .sqrt => if x = 0 then none else if ¬ P.pos x then none else some (1 / (2 * P.sqrt x))
  | .invsqrt => if x = 0 then none else if ¬ P.pos x then none else some (-1 / (2 * P.pow15 x))
  | .phi k => some (derivPhi P k x)
  | .rational p q => derivRational p q x

/-- fncombine.c:34-51, once the first function has been evaluated to `a`; `e2` evaluates the second
one. -/
def combineVal (c : Comb) (a : K) (x : K) (e2 : K → Option K) : Option K :=
  match c with
  | .add => (e2 x).bind fun b => some (a + b)
  | .multiply => (e2 x).bind fun b => some (a * b)
  | .divide => (e2 x).bind fun b => if b = 0 then none else some (a / b)
  | .compose => e2 a

/-- fnbasic.c:471-485 `FNEvaluateFunction` with fncombine.c:27-53 `FNEvaluateFunction_Combine`. -/
def eval (P : Prim K) : Fn K → K → Option K
  | .leaf h t, x => (evalLeaf P t (h.alpha * x)).bind fun y => some (h.beta * y)
  | .combine h c f1 f2, x =>
    ((eval P f1 (h.alpha * x)).bind fun a => combineVal c a (h.alpha * x) (eval P f2)).bind
      fun y => some (h.beta * y)

/-- fncombine.c:61-88 with the evaluations of the two functions and of their derivatives. -/
def combineDer (c : Comb) (x : K) (e1 e2 d1 d2 : K → Option K) : Option K :=
  match c with
  | .add => (d1 x).bind fun ap => (d2 x).bind fun bp => some (ap + bp)
  | .multiply =>
    (d1 x).bind fun ap => (d2 x).bind fun bp => (e1 x).bind fun a => (e2 x).bind fun b =>
      some (ap * b + a * bp)
  | .divide =>
    (d1 x).bind fun ap => (d2 x).bind fun bp => (e1 x).bind fun a => (e2 x).bind fun b =>
      if b = 0 then none else some ((ap * b - a * bp) / (b * b))
  | .compose =>
    (e1 x).bind fun a => (d1 x).bind fun ap => (d2 a).bind fun yp => some (yp * ap)

/-- fnbasic.c:507-521 `FNEvaluateDerivative` with fncombine.c:55-90
`FNEvaluateDerivative_Combine`. -/
def deriv (P : Prim K) : Fn K → K → Option K
  | .leaf h t, x => (derivLeaf P t (h.alpha * x)).bind fun y => some (h.alpha * h.beta * y)
  | .combine h c f1 f2, x =>
    (combineDer c (h.alpha * x) (eval P f1) (eval P f2) (deriv P f1) (deriv P f2)).bind
      fun y => some (h.alpha * h.beta * y)

/-! ## Setters with checks -/

/-- fnbasic.c:292-303 `FNSetScale`: both factors must be nonzero. -/
def setScale (h : Header K) (alpha beta : K) : Option (Header K) :=
  if ¬ (alpha ≠ 0 ∧ beta ≠ 0) then none else some { h with alpha := alpha, beta := beta }

/-- include/slepcfn.h:20 `FN_MAX_SOLVE`, the length of the method tables in
include/slepc/private/fnimpl.h:27-30. -/
def maxSolve : ℕ := 16

/-- fnbasic.c:353-362 `FNSetMethod` (`meth` nonnegative here). -/
def setMethod (h : Header K) (meth : ℕ) : Option (Header K) :=
  if ¬ meth ≤ maxSolve then none else some { h with method := meth }

/-- fnphi.c:25 `MAX_INDEX`. -/
def maxIndex : ℕ := 10

/-- fnphi.c:109-122 `FNPhiSetIndex_Phi` (`k` nonnegative here). -/
def phiSetIndex (k : ℕ) : Option (Leaf K) :=
  if ¬ k ≤ maxIndex then none else some (.phi k)

end Verif.FN
