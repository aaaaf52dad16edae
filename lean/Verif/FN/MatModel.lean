import Verif.FN.Model
import Mathlib.LinearAlgebra.Matrix.NonsingularInverse
import Mathlib.LinearAlgebra.Matrix.ConjTranspose

/-!
# Model of the FN class: functions of dense matrices

Sources: `src/sys/classes/fn/interface/fnbasic.c:523-856`, fncombine.c, fnrational.c, fnphi.c.

`none` is a call that returns an error; a singular matrix in an LU solve is an error.  What runs on
one process is modelled; `loc` says whether the process is one that computes functions in
synchronized mode (`size==1` or rank 0).  The dense kernels of exp, log, sqrt and invsqrt (Padé,
Schur, iterations) and LAPACK's `syev` are parameters; the theorems name what is assumed of them.
GPU variants are not modelled.  A matrix marked Hermitian is never passed to the children of a
combined function (the outermost call is diagonalized when the method is 0, and otherwise fails), so
children are evaluated with `sym = false`.
-/

set_option linter.all false
noncomputable section
open Classical Matrix

namespace Verif.FN

variable {K : Type} [RCLike K] {n : Type} [Fintype n] [DecidableEq n]

/-- Kernels: matrix function and its first column for a type and a method number, and the
eigendecomposition `(Q, eig)` of a Hermitian matrix. -/
structure MatPrim (K n : Type) where
  fn : ℕ → Leaf K → Matrix n n K → Option (Matrix n n K)
  vec : ℕ → Leaf K → Matrix n n K → Option (n → K)
  syev : Matrix n n K → Matrix n n K × (n → ℝ)

/-- fnrational.c:60-64: `P = P*A + coeff[j]*I`. -/
def polyLoop (A : Matrix n n K) : Matrix n n K → List K → Matrix n n K
  | P, [] => P
  | P, c :: cs => polyLoop A (P * A + c • (1 : Matrix n n K)) cs

/-- fnrational.c:51-67 `EvaluatePoly` (`MatZeroEntries` and `MatShift`). -/
def evaluatePoly (A : Matrix n n K) : List K → Matrix n n K
  | [] => 0 + (1 : K) • (1 : Matrix n n K)
  | c :: cs => polyLoop A (0 + c • (1 : Matrix n n K)) cs

/-- `MatLUFactor` and `MatMatSolve`. -/
def matSolve (Q P : Matrix n n K) : Option (Matrix n n K) :=
  if Q.det = 0 then none else some (Q⁻¹ * P)

/-- `MatLUFactor` and `MatSolve`. -/
def vecSolve (Q : Matrix n n K) (b : n → K) : Option (n → K) :=
  if Q.det = 0 then none else some (Q⁻¹ *ᵥ b)

/-- fnrational.c:69-99 `FNEvaluateFunctionMat_Rational`; the destination is never the argument when
it is written (lines 76-77, 93-96). -/
def rationalMat (p q : List K) (A : Matrix n n K) : Option (Matrix n n K) :=
  if q = [] then some (evaluatePoly A p) else matSolve (evaluatePoly A q) (evaluatePoly A p)

/-- fnrational.c:101-131 `FNEvaluateFunctionMatVec_Rational`. -/
def rationalVec (i0 : n) (p q : List K) (A : Matrix n n K) : Option (n → K) :=
  if q = [] then some ((evaluatePoly A p).col i0)
  else vecSolve (evaluatePoly A q) ((evaluatePoly A p).col i0)

/-- Evaluation of the bare function (without its outer scale factor) at the eigenvalues; fails if one
of them fails. -/
def evalAll (e : K → Option K) (eig : n → ℝ) (al : K) : Option (n → K) :=
  if ∃ i, e (al * (eig i : K)) = none then none
  else some fun i => (e (al * (eig i : K))).getD 0

/-- fnbasic.c:523-573 `FNEvaluateFunctionMat_Sym_Private`, `firstonly` false. -/
def symMat (MP : MatPrim K n) (e : K → Option K) (h : Header K) (A : Matrix n n K) :
    Option (Matrix n n K) :=
  let Q := (MP.syev A).1
  (evalAll e (MP.syev A).2 h.alpha).bind fun y =>
    let W : Matrix n n K := Matrix.of fun i j => star (Q j i) * h.beta * y i
    some (Q * W)

/-- The same with `firstonly` true: `W` has one column. -/
def symVec (MP : MatPrim K n) (i0 : n) (e : K → Option K) (h : Header K) (A : Matrix n n K) :
    Option (n → K) :=
  let Q := (MP.syev A).1
  (evalAll e (MP.syev A).2 h.alpha).bind fun y =>
    let W : n → K := fun i => star (Q i0 i) * h.beta * y i
    some (Q *ᵥ W)

/-- fnphi.c:82-92: the auxiliary matrix of order `m+k`. -/
def phiAux (i0 : n) (k : ℕ) (al : K) (A : Matrix n n K) : Matrix (n ⊕ Fin k) (n ⊕ Fin k) K :=
  fun r c => match r, c with
    | .inl i, .inl j => A i j
    | .inr _, .inl _ => 0
    | .inl i, .inr j => if i = i0 ∧ (j : ℕ) = 0 then al else 0
    | .inr i, .inr j => if (i : ℕ) + 1 = j then al else 0

/-- fnphi.c:61-107 `FNEvaluateFunctionMatVec_Phi`, given the routine `expm` for the exponential of
the auxiliary matrix (FNEvaluateFunctionMat_Exp_Higham).  `al` is the inner scale factor of the
object; `A` is the already scaled argument. -/
def phiVec (i0 : n) (k : ℕ) (al : K)
    (expm : Matrix (n ⊕ Fin k) (n ⊕ Fin k) K → Matrix (n ⊕ Fin k) (n ⊕ Fin k) K)
    (A : Matrix n n K) : n → K :=
  let F := expm (phiAux i0 k al A)
  if hk : 0 < k then fun i => (al ^ k)⁻¹ * F (.inl i) (.inr ⟨k - 1, by omega⟩)
  else fun i => 1 * F (.inl i) (.inl i0)

/-- The scalar function of an object without its scale factors (`ops->evaluatefunction`). -/
def bare (P : Prim K) : Fn K → K → Option K
  | .leaf _ t, x => evalLeaf P t x
  | .combine _ c f1 f2, x => (eval P f1 x).bind fun a => combineVal c a x (eval P f2)

def Fn.header : Fn K → Header K
  | .leaf h _ => h
  | .combine h _ _ _ => h

/-- Wrapper part of `FNEvaluateFunctionMat_Private`, fnbasic.c:630-649: whether this process computes,
diagonalization, scaling.  `dest` is the previous content of the destination, `basic` the function of
the type. -/
def wrapMat (P : Prim K) (MP : MatPrim K n) (loc sym : Bool) (f : Fn K)
    (basic : Matrix n n K → Option (Matrix n n K)) (A dest : Matrix n n K) :
    Option (Matrix n n K) :=
  let h := f.header
  if ¬ (loc ∨ h.pmode = .redundant) then some dest
  else if sym ∧ h.method = 0 then symMat MP (bare P f) h A
  else
    let M := if h.alpha ≠ 1 then h.alpha • A else A
    (basic M).bind fun F => some (h.beta • F)

/-- fnbasic.c:612-658 `FNEvaluateFunctionMat_Private` (before the broadcast) with
fnbasic.c:596-610 `FNEvaluateFunctionMat_Basic` and fncombine.c:92-130
`FNEvaluateFunctionMat_Combine`.  Work matrices (`W`, `Z`) are created as copies of the argument. -/
def evalMat (P : Prim K) (MP : MatPrim K n) (loc : Bool) (sym : Bool) :
    Fn K → Matrix n n K → Matrix n n K → Option (Matrix n n K)
  | .leaf h t, A, dest =>
    wrapMat P MP loc sym (.leaf h t) (fun M =>
      match t with
      | .rational p q => if h.method ≠ 0 then none else rationalMat p q M
      | .phi _ => none
      | t => MP.fn h.method t M) A dest
  | .combine h c f1 f2, A, dest =>
    wrapMat P MP loc sym (.combine h c f1 f2) (fun M =>
      if h.method ≠ 0 then none
      else match c with
      | .add =>
        (evalMat P MP loc false f1 M M).bind fun W =>
          (evalMat P MP loc false f2 M dest).bind fun B => some (B + W)
      | .multiply =>
        (evalMat P MP loc false f1 M M).bind fun W =>
          (evalMat P MP loc false f2 M M).bind fun Z => some (W * Z)
      | .divide =>
        (evalMat P MP loc false f2 M M).bind fun W =>
          (evalMat P MP loc false f1 M dest).bind fun B => matSolve W B
      | .compose =>
        (evalMat P MP loc false f1 M M).bind fun W => evalMat P MP loc false f2 W dest) A dest

/-- Wrapper part of `FNEvaluateFunctionMatVec_Private`, fnbasic.c:778-799. -/
def wrapVec (P : Prim K) (MP : MatPrim K n) (i0 : n) (loc sym : Bool) (f : Fn K)
    (basic : Matrix n n K → Option (n → K)) (A : Matrix n n K) (dest : n → K) :
    Option (n → K) :=
  let h := f.header
  if ¬ (loc ∨ h.pmode = .redundant) then some dest
  else if sym ∧ h.method = 0 then symVec MP i0 (bare P f) h A
  else
    let M := if h.alpha ≠ 1 then h.alpha • A else A
    (basic M).bind fun v => some (h.beta • v)

/-- fnbasic.c:762-810 `FNEvaluateFunctionMatVec_Private` (before the broadcast) with fncombine.c:132-179
`FNEvaluateFunctionMatVec_Combine`; vectors created with VecDuplicate are zero.  `expm` computes the
exponential of the auxiliary matrix of the phi functions. -/
def evalVec (P : Prim K) (MP : MatPrim K n) (i0 : n)
    (expm : ∀ k, Matrix (n ⊕ Fin k) (n ⊕ Fin k) K → Matrix (n ⊕ Fin k) (n ⊕ Fin k) K)
    (loc : Bool) (sym : Bool) : Fn K → Matrix n n K → (n → K) → Option (n → K)
  | .leaf h t, A, dest =>
    wrapVec P MP i0 loc sym (.leaf h t) (fun M =>
      match t with
      | .rational p q => if h.method ≠ 0 then none else rationalVec i0 p q M
      | .phi k => if h.method ≠ 0 then none else some (phiVec i0 k h.alpha (expm k) M)
      | t => MP.vec h.method t M) A dest
  | .combine h c f1 f2, A, dest =>
    wrapVec P MP i0 loc sym (.combine h c f1 f2) (fun M =>
      if h.method ≠ 0 then none
      else match c with
      | .add =>
        (evalVec P MP i0 expm loc false f1 M 0).bind fun w =>
          (evalVec P MP i0 expm loc false f2 M dest).bind fun v => some (v + w)
      | .multiply =>
        (evalMat P MP loc false f1 M M).bind fun Z =>
          (evalVec P MP i0 expm loc false f2 M 0).bind fun w => some (Z *ᵥ w)
      | .divide =>
        (evalMat P MP loc false f2 M M).bind fun Z =>
          (evalVec P MP i0 expm loc false f1 M 0).bind fun w => vecSolve Z w
      | .compose =>
        (evalMat P MP loc false f1 M M).bind fun Z => evalVec P MP i0 expm loc false f2 Z dest) A dest

/-- fnbasic.c:650-656: at the end of the outermost call in synchronized mode the result of rank 0
(`loc = true`) replaces the result of the other processes.  `FNEvaluateFunctionMat` as seen by a
process. -/
def functionMat (P : Prim K) (MP : MatPrim K n) (loc sym : Bool) (f : Fn K)
    (A dest : Matrix n n K) : Option (Matrix n n K) :=
  match evalMat P MP loc sym f A dest with
  | none => none
  | some F => if f.header.pmode = .synchronized then evalMat P MP true sym f A dest else some F

end Verif.FN
