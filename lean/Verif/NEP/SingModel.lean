import Verif.FN.Model
import Mathlib.Data.Matrix.Mul
import Mathlib.Analysis.Normed.Field.Basic

/-! # Model of the automatic detection of singularities in NLEIGS

Source: `src/nep/impls/nleigs/nleigs.c`. The objects of class FN are those of `Verif.FN.Model`. Scalars are exact; `geev` is the LAPACK
eigenvalue routine (in the real build, only the eigenvalues with zero imaginary part), `none` if it fails to converge. Memory leaks are not
modelled. -/
set_option linter.all false
noncomputable section
open Classical

namespace Verif.NEP.Sing
open Verif.FN

variable {K : Type} [NormedField K]

/-- Companion matrix filled in by `NEPNLEIGSAuxiliarPRootFinder` (nleigs.c:74-78): `q` are the coefficients, highest power first. -/
def companion (n : ℕ) (q : List K) : Matrix (Fin n) (Fin n) K :=
  fun i j => if j.1 = n-1 then -(q.getD (n - i.1) 0) / q.getD 0 0 else if i.1 = j.1+1 then 1 else 0

/-- LAPACK `geev` without vectors. -/
abbrev Geev (K : Type) := (n : ℕ) → Matrix (Fin n) (Fin n) K → Option (List K)

/-- What `NEPNLEIGSAuxiliarPRootFinder` produces. -/
inductive Roots (K : Type)
  | ok (l : List K)
  | notavail
  | nonfinite

/-- `NEPNLEIGSAuxiliarPRootFinder` (nleigs.c:58-97); a zero leading coefficient leads to a division by zero (76, 78). -/
def rootFinder (geev : Geev K) (deg : ℕ) (q : List K) : Roots K :=
  if deg = 0 then .ok []
  else if q.getD 0 0 = 0 then .nonfinite
  else match geev deg (companion deg q) with
    | some l => .ok l
    | none => .notavail

/-- `NEPNLEIGSAuxiliarRmDuplicates` with `max=0` (nleigs.c:99-114): each value is appended, then removed if it is within the tolerance of
a previous one. -/
def rmDup (tol : ℝ) : List K → List K → List K
  | [], pout => pout
  | z :: pin, pout => rmDup tol pin (if ∃ w ∈ pout, ‖z - w‖ < tol then pout else pout ++ [z])

/-- Every value is written inside an array of length `cap` (nleigs.c:106). -/
def rmDupFits (tol : ℝ) (cap : ℕ) : List K → List K → Prop
  | [], _ => True
  | z :: pin, pout => pout.length < cap ∧ rmDupFits tol cap pin (if ∃ w ∈ pout, ‖z - w‖ < tol then pout else pout ++ [z])

/-- Outcome of `NEPNLEIGSFNSingularities`: `unset` when the output arguments `nisol`, `isol` are not assigned. -/
inductive Out (K : Type)
  | set (l : List K) (rat : Bool)
  | unset (rat : Bool)
  | ub
  | nonfinite

/-- Rational case (nleigs.c:127-148). -/
def singRational (geev : Geev K) (tol : ℝ) (q : List K) : Out K :=
  if 1 < q.length then
    match rootFinder geev (q.length-1) q with
    | .ok l => .set (rmDup tol l []) true
    | .notavail => .set [] true
    | .nonfinite => .nonfinite
  else .set [] true

/-- Combined case once both children have been treated (nleigs.c:155-163). -/
def singCombine (tol : ℝ) (o1 o2 : Out K) : Out K :=
  match o1, o2 with
  | .set l1 r1, .set l2 r2 => if 0 < l1.length + l2.length then .set (rmDup tol l2 (rmDup tol l1 [])) (r1 && r2) else .unset (r1 && r2)
  | .nonfinite, _ => .nonfinite
  | _, .nonfinite => .nonfinite
  | _, _ => .ub

/-- `NEPNLEIGSFNSingularities` (nleigs.c:116-167); the scaling factors of the functions are not used. -/
def fnSing (geev : Geev K) (tol : ℝ) : Fn K → Out K
  | .leaf _ (.rational _ q) => singRational geev tol q
  | .leaf _ _ => .unset false
  | .combine _ c f1 f2 => if c ≠ .compose ∧ c ≠ .divide then singCombine tol (fnSing geev tol f1) (fnSing geev tol f2) else .unset false

/-- State of the loop of `NEPNLEIGSRationalSingularities`: last assigned `nisol` (`none` if never assigned), the points stored so far,
the flag. -/
structure LoopState (K : Type) where
  nisol : Option ℕ
  dxi : List K
  rational : Bool

/-- Result of the detection. -/
inductive SingRes (K : Type)
  | ok (dxi : List K)
  | error
  | ub
  | nonfinite

/-- Outcome of one iteration. -/
inductive StepRes (K : Type)
  | next (s : LoopState K)
  | ub
  | nonfinite

/-- One iteration (nleigs.c:181-187). `cap` is the length of the array `dxi`. If the output arguments were not assigned the previous
values are used: `nisol` of the previous iteration, while `isol` was freed and set to NULL. -/
def loopStep (tol : ℝ) (cap : ℕ) (s : LoopState K) (o : Out K) : StepRes K :=
  match o with
  | .nonfinite => .nonfinite
  | .ub => .ub
  | .set l r =>
    if rmDupFits tol cap l s.dxi then .next ⟨some l.length, rmDup tol l s.dxi, s.rational && r⟩ else .ub
  | .unset r => if s.nisol = some 0 then .next { s with rational := s.rational && r } else .ub

/-- The loop of `NEPNLEIGSRationalSingularities` (nleigs.c:180-188). -/
def loop (geev : Geev K) (tol : ℝ) (cap : ℕ) : List (Fn K) → LoopState K → StepRes K
  | [], s => .next s
  | f :: fs, s =>
    match loopStep tol cap s (fnSing geev tol f) with
    | .next s' => loop geev tol cap fs s'
    | .ub => .ub
    | .nonfinite => .nonfinite

/-- `NEPNLEIGSRationalSingularities` and the check in its caller (nleigs.c:169-190, 376-377). -/
def ratSing (geev : Geev K) (tol : ℝ) (cap : ℕ) (fs : List (Fn K)) : SingRes K :=
  match loop geev tol cap fs ⟨none, [], true⟩ with
  | .next s => if s.rational then .ok s.dxi else .error
  | .ub => .ub
  | .nonfinite => .nonfinite

end Verif.NEP.Sing
