import Mathlib.Analysis.Complex.Norm

/-!
# Stopping tests of the solvers

The functions that decide after each restart whether a solver stops, and the threshold variant with its
memory (`ctx->its`).  Values are exact reals / complex numbers.
-/
set_option linter.all false

namespace Verif.EPS

open Classical

/-- `EPS_CONVERGED_ITERATING`, `EPS_CONVERGED_TOL`, `EPS_DIVERGED_ITS`, `SVD_CONVERGED_MAXIT` and the analogues of the
other solver classes. -/
inductive Reason
  | iterating
  | tol
  | divergedIts
  | maxit
deriving DecidableEq, Repr

/-- `EPSStoppingBasic` (src/eps/interface/epsdefault.c:286-298), `PEPStoppingBasic`
(src/pep/interface/pepdefault.c:143-155), `NEPStoppingBasic` (src/nep/interface/nepdefault.c:169-181). -/
def stoppingBasic (its maxIt nconv nev : Nat) : Reason :=
  if nconv ≥ nev then .tol else if its ≥ maxIt then .divergedIts else .iterating

/-- `SVDStoppingBasic` (src/svd/interface/svddefault.c:84-99); `convMaxit` is `svd->conv == SVD_CONV_MAXIT`. -/
def svdStoppingBasic (convMaxit : Bool) (its maxIt nconv nsv : Nat) : Reason :=
  if nconv ≥ nsv ∧ convMaxit = false then .tol
  else if its ≥ maxIt then (if convMaxit then .maxit else .divergedIts)
  else .iterating

/-- `EPSWhich`, as far as the threshold test distinguishes them. -/
inductive Which
  | largestMag
  | smallestMag
  | largestReal
  | smallestReal
  | targetMag
  | other
deriving DecidableEq

/-- What the solver knows after an iteration: `k` converged of `n` approximations, in this order, with error
estimates.  The eigenvalues are those of the original problem (after `STBackTransform`). -/
structure Obs where
  k : Nat
  n : Nat
  eig : Nat → ℂ
  err : Nat → ℝ

/-- Settings of the threshold test. -/
structure Settings where
  which : Which
  rel : Bool
  thres : ℝ
  nev : Nat
  maxIt : Nat

/-- The number that represents an eigenvalue in the context: `EPSSetCtxThreshold`
(include/slepc/private/epsimpl.h:297-305). -/
noncomputable def repr (w : Which) (z : ℂ) : ℝ :=
  match w with
  | .largestMag => ‖z‖
  | .smallestMag => ‖z‖
  | _ => z.re

/-- `firstev` (include/slepc/private/epsimpl.h:290,298,302). -/
noncomputable def firstev (w : Which) (o : Obs) : ℝ := repr w (o.eig 0)

/-- `firstnc` (include/slepc/private/epsimpl.h:293-296,300,304). -/
noncomputable def firstnc (w : Which) (o : Obs) : ℝ := repr w (if o.n > o.k then o.eig o.k else 0)

/-- The conditions of `EPSStoppingThreshold` on the first non-converged value
(src/eps/interface/epsdefault.c:359-360, 367, 374). -/
def epsBeyond (S : Settings) (o : Obs) : Prop :=
  let fnc := firstnc S.which o
  let fev := firstev S.which o
  let e := o.err o.k
  let magnit : Prop := S.which = .smallestMag ∨ S.which = .largestMag ∨ S.which = .targetMag
  (magnit ∧ S.which = .targetMag ∧
    ((S.rel = true ∧ ((S.thres > 1 ∧ fnc - e > S.thres * fev) ∨ (S.thres < 1 ∧ fnc + e < S.thres * fev))) ∨
      (S.rel = false ∧ fnc - e > S.thres))) ∨
  (magnit ∧ ((S.which = .largestMag ∧ ((S.rel = true ∧ fnc + e < S.thres * fev) ∨ (S.rel = false ∧ fnc + e < S.thres))) ∨
      (S.which = .smallestMag ∧ fnc - e > S.thres))) ∨
  (¬ magnit ∧ ((S.which = .largestReal ∧ fnc + e < S.thres) ∨ (S.which = .smallestReal ∧ fnc - e > S.thres)))

/-- The skeleton shared by `EPSStoppingThreshold` (src/eps/interface/epsdefault.c:338-386) and
`SVDStoppingThreshold` (src/svd/interface/svddefault.c:139-179): `beyond` is the condition on the first
non-converged value, `limit` the reason reported at the iteration limit, `wait` is `ctx->its`.  Returns
the reason and the new `ctx->its`. -/
noncomputable def thresholdStep (beyond : Prop) (limit : Reason) (maxIt nev its k n : Nat) (wait : Int) : Reason × Int :=
  if k = 0 then (if its ≥ maxIt then limit else .iterating, wait)
  else if k = n then (.tol, wait)
  else if beyond then (if (its : Int) = wait + 1 then (.tol, wait) else (.iterating, its))
  else if nev ≠ 0 ∧ k ≥ nev then (.tol, wait)
  else (if its ≥ maxIt then limit else .iterating, wait)

/-- `EPSStoppingThreshold`. -/
noncomputable def epsStep (S : Settings) (its : Nat) (wait : Int) (o : Obs) : Reason × Int :=
  thresholdStep (epsBeyond S o) .divergedIts S.maxIt S.nev its o.k o.n wait

/-- `ctx->its` after iteration `i` of a solve whose `i`-th iteration (from 1) shows `obs i`; `w0` is the value at the
start of the solve (`-1` after set-up, src/eps/interface/epssetup.c:378). -/
noncomputable def waitAt (S : Settings) (obs : Nat → Obs) (w0 : Int) : Nat → Int
  | 0 => w0
  | i + 1 => (epsStep S (i + 1) (waitAt S obs w0 i) (obs (i + 1))).2

/-- The reason after iteration `i + 1` (the solver stops at the first one that is not `iterating`). -/
noncomputable def reasonAt (S : Settings) (obs : Nat → Obs) (w0 : Int) (i : Nat) : Reason :=
  (epsStep S (i + 1) (waitAt S obs w0 i) (obs (i + 1))).1

/-- The condition of `SVDStoppingThreshold` (src/svd/interface/svddefault.c:163) with the context filled by
`SVDSetCtxThreshold` (include/slepc/private/svdimpl.h:187-198); `sigma`, `err` are the singular value approximations and
their error estimates, `k` converged of `n`. -/
def svdBeyond (largest rel : Bool) (thres : ℝ) (k n : Nat) (sigma err : Nat → ℝ) : Prop :=
  let fnc := if n > k then sigma k else 0
  let fsv := sigma 0
  let e := err k
  (largest = true ∧ ((rel = true ∧ fnc + e < thres * fsv) ∨ (rel = false ∧ fnc + e < thres))) ∨
    (largest = false ∧ fnc - e > thres)

end Verif.EPS
