import Mathlib.Analysis.SpecialFunctions.Pow.Real
import Mathlib.Analysis.SpecialFunctions.Log.Base
import Mathlib.Analysis.SpecialFunctions.Trigonometric.Basic
import Mathlib.Analysis.RCLike.Basic
/-!
Model of the time stepping of `MFNSolve_Expokit` (src/mfn/impls/expokit/mfnexpokit.c:44-180), in exact arithmetic.

The operations on vectors are parameters: `step` applies to a vector the approximation of the exponential for a length
of time, in the direction of the sign of the scale factor (`beta*V*exp(sgn*t*H)*e_1`, lines 111-122 and 152-157), `bd` tells
whether the Arnoldi factorization started at a vector breaks down (line 93), and `p1`, `p2` are the two error
estimates (lines 129-130).  An infinite or NaN value of `t_new`, as results from a division by zero, is `none`.
-/
set_option linter.all false
namespace Verif.MFN.Expokit
noncomputable section

/-- Data of the problem: `m`, `mxstep`, `tol`, `t_out`, `anorm`. -/
structure Par (E : Type) where
  m : Nat
  mxstep : Nat
  tol : ℝ
  tout : ℝ
  anorm : ℝ
  step : ℝ → E → E
  bd : E → Bool
  p1 : ℝ → E → ℝ
  p2 : ℝ → E → ℝ

/-- Rounding of a step up to two digits, mfnexpokit.c:77-78, 146-147, 164-165. -/
def round2 (t : ℝ) : ℝ :=
  let s := (10 : ℝ) ^ (⌊Real.logb 10 t⌋ - 1)
  (⌈t / s⌉ : ℝ) * s

/-- `gamma*t*pow(t*tol/err,xm)` rounded, lines 145-147 and 163-165. -/
def scaleStep (tol t err xm : ℝ) : ℝ := round2 ((9 / 10) * t * (t * tol / err) ^ xm)

/-- `err_loc` and `xm`, lines 129-141. -/
def estimate {E : Type} (P : Par E) (t : ℝ) (x : E) : ℝ × ℝ :=
  let p1 := P.p1 t x
  let p2 := P.p2 t x
  if p1 > 10 * p2 then (p2, 1 / (P.m : ℝ))
  else if p1 > p2 then (p1 * p2 / (p1 - p2), 1 / (P.m : ℝ))
  else (p1, 1 / ((P.m : ℝ) - 1))

/-- Result of the inner loop: the time for which `K` was computed, the value of `t_step`, `err_loc`, `xm`, and
whether the last step was accepted (a ghost). -/
structure Inner where
  kt : ℝ
  t : ℝ
  err : ℝ
  xm : ℝ
  ok : Bool

/-- Inner loop of rejections, lines 110-150, with `n+1` evaluations left. -/
def inner {E : Type} (P : Par E) (x : E) : Nat → ℝ → Inner
  | n, t =>
    let e := estimate P t x
    if e.1 ≤ (12 / 10) * t * P.tol then ⟨t, t, e.1, e.2, true⟩
    else
      let t' := scaleStep P.tol t e.1 e.2
      match n with
      | 0 => ⟨t, t', e.1, e.2, false⟩
      | k + 1 => inner P x k t'

/-- Reasons: iterating, MFN_CONVERGED_TOL, MFN_DIVERGED_ITS. -/
inductive Reason | iterating | tol | its
deriving DecidableEq

/-- Variables between iterations. `applied` (the times of the steps applied to `x`, last first) and `exhausted` (some
iteration ran out of rejections) are ghosts. -/
structure St (E : Type) where
  x : E
  tnow : ℝ
  tnew : Option ℝ
  its : Nat
  reason : Reason
  applied : List ℝ
  exhausted : Bool

/-- Lines 160-168: update of the time, convergence test, next step. -/
def finish {E : Type} (P : Par E) (s : St E) (r : Inner) : St E :=
  let its := s.its + 1
  let x := P.step r.kt s.x
  let tnow := s.tnow + r.t
  let conv := decide (tnow ≥ P.tout)
  let reason0 := if conv then Reason.tol else Reason.iterating
  let tnew := if conv then s.tnew else if r.err = 0 then none else some (scaleStep P.tol r.t r.err r.xm)
  let reason := if its = P.mxstep then Reason.its else reason0
  ⟨x, tnow, tnew, its, reason, r.kt :: s.applied, s.exhausted || !r.ok⟩

/-- `t_step`, lines 89-90. -/
def stepLen {E : Type} (P : Par E) (s : St E) : ℝ :=
  match s.tnew with
  | none => P.tout - s.tnow
  | some t => min (P.tout - s.tnow) t

/-- One iteration of the outer loop, lines 87-170. -/
def iter {E : Type} (P : Par E) (s : St E) : St E :=
  if P.bd s.x then finish P s ⟨P.tout - s.tnow, P.tout - s.tnow, P.tol, 1 / (P.m : ℝ), true⟩
  else finish P s (inner P s.x 10 (stepLen P s))

/-- First value of `t_new`, lines 73-78. -/
def firstStep {E : Type} (P : Par E) (beta : ℝ) : Option ℝ :=
  if P.anorm = 0 then none
  else
    let fact := (((P.m : ℝ) + 1) / 2.72) ^ (P.m + 1) * Real.sqrt (2 * Real.pi * ((P.m : ℝ) + 1))
    some (round2 ((1 / P.anorm) * (fact * P.tol / (4 * beta * P.anorm)) ^ (1 / (P.m : ℝ))))

/-- The outer loop, with at most `fuel` iterations. -/
def loop {E : Type} (P : Par E) : Nat → St E → St E
  | 0, s => s
  | fuel + 1, s => if s.reason = .iterating then loop P fuel (iter P s) else s

/-- State before the loop, lines 68-81. -/
def start {E : Type} (P : Par E) (beta : ℝ) (b : E) : St E := ⟨b, 0, firstStep P beta, 0, .iterating, [], false⟩

/-- `MFNSolve_Expokit` up to the final scaling of line 171. -/
def solve {E : Type} (P : Par E) (beta : ℝ) (b : E) : St E := loop P P.mxstep (start P beta b)

/-- `sgn`, line 79: a division by the absolute value of the scale factor; `none` is NaN. -/
def sgn {𝕜 : Type} [RCLike 𝕜] (t : 𝕜) : Option 𝕜 := if t = 0 then none else some (t / (‖t‖ : ℝ))

end
end Verif.MFN.Expokit
