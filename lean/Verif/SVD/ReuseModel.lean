import Verif.SVD.OrderModel
import Mathlib.Data.Rat.Defs

/-!
# Settings that a reused cross or cyclic solver passes to its eigensolver

Each set-up is described by the settings in force (`Request`); the state is what the `EPS` object and the `SVD` object
keep from one set-up to the next. The eigensolver is the internal one (`usereps` false) and is not changed by the user.
-/
set_option linter.all false

namespace Verif.SVD

/-- Problem type of the `SVD`. -/
inductive Kind | standard | hyperbolic | generalized
  deriving DecidableEq

/-- Problem types given to the `EPS`. -/
inductive EType | hep | ghep | ghiep
  deriving DecidableEq

/-- `eps->which`, the values used by the two solvers; `smallestPos` is `EPS_WHICH_USER` with
`SlepcCompareSmallestPosReal`. -/
inductive EWhich | largestMagnitude | smallestMagnitude | largestReal | smallestReal | targetMagnitude | targetReal
    | smallestPos
  deriving DecidableEq

/-- Settings in force at one set-up. `swapped` : fewer rows than columns (standard, hyperbolic). `tol`, `ncv`: value
given by the user since the previous set-up, if any. -/
structure Request where
  kind : Kind
  swapped : Bool
  which : Which
  explicit : Bool
  nsv : ℕ
  tol : Option ℚ
  ncv : Option ℕ

/-- State kept between set-ups: the `EPS` (problem type, `ST` is shift-and-invert, type is Krylov-Schur, `which`, target,
number of values, basis size, tolerance) and `svd->tol`, `svd->ncv`. `none` is unset or `PETSC_DETERMINE`. -/
structure Reuse where
  ptype : Option EType
  sinvert : Bool
  isks : Bool
  which : EWhich
  target : ℚ
  nev : ℕ
  encv : Option ℕ
  etol : Option ℚ
  stol : Option ℚ
  sncv : Option ℕ

/-- `SVDCrossGetEPS_Cross`, `SVDCyclicGetEPS_Cyclic` (src/svd/impls/cross/cross.c:526-542, cyclic.c:997-1013). `isks`:
whether the type of the `EPS` was set before the first set-up (`SVDSetFromOptions`). -/
def freshEps (isks : Bool) : Reuse := ⟨none, false, isks, .largestMagnitude, 0, 0, none, none, none, none⟩

/-- `SLEPC_DEFAULT_TOL`. -/
def defaultTol : ℚ := 1 / 100000000

/-- Number of matrices passed to `EPSSetOperators` and problem type set, cross solver
(src/svd/impls/cross/cross.c:179-198). -/
def crossType (s : Reuse) (r : Request) : ℕ × Option EType :=
  match r.kind with
  | .generalized => (2, if s.ptype = none then some .ghep else s.ptype)
  | .hyperbolic => if r.swapped then (2, some .ghiep) else (1, some .hep)
  | .standard => (1, some .hep)

/-- Check of `EPSSetUp` (src/eps/interface/epssetup.c:328). -/
def typeOk (nmat : ℕ) (t : Option EType) : Bool := nmat = 1 || t = some .ghep || t = some .ghiep

/-- Choice of the end of the spectrum (src/svd/impls/cross/cross.c:199-214): new `sinvert`, `target`, `which`. -/
def crossWhich (s : Reuse) (r : Request) : Bool × ℚ × EWhich :=
  if r.kind = .generalized ∧ r.which = .smallest then
    if r.explicit ∧ s.isks ∧ ¬ s.sinvert then (true, 0, .targetReal)
    else (s.sinvert, s.target, if s.sinvert then .targetReal else .smallestReal)
  else if s.sinvert then (s.sinvert, s.target, .targetMagnitude)
  else (s.sinvert, s.target, if r.which = .largest then .largestMagnitude else .smallestMagnitude)

/-- `SVDSetUp_Cross` (src/svd/impls/cross/cross.c:174-249) with the check of `EPSSetUp`; `none`: error. The basis size is
not followed here (`EPSSetDimensions` gets `svd->ncv`). -/
def crossSetUp (s : Reuse) (r : Request) : Option Reuse :=
  let t := crossType s r
  let w := crossWhich s r
  let stol := if r.tol = none then s.stol else r.tol
  if typeOk t.1 t.2 then
    some { s with
      ptype := t.2, sinvert := w.1, isks := true, target := w.2.1, which := w.2.2
      nev := r.nsv                                          -- EPSSetDimensions (215)
      etol := some (stol.getD (defaultTol / 10))            -- EPSSetTolerances (217)
      stol := some (stol.getD defaultTol) }                 -- (249)
  else none

/-- Number of matrices and problem type, cyclic solver (src/svd/impls/cyclic/cyclic.c:387-424). -/
def cyclicType (s : Reuse) (r : Request) : ℕ × Option EType :=
  match r.kind with
  | .generalized => (2, if s.ptype = none then some .ghep else s.ptype)
  | .hyperbolic => (2, some .ghiep)
  | .standard => (1, some .hep)

/-- Choice of the end of the spectrum, cyclic solver (src/svd/impls/cyclic/cyclic.c:426-440). The `ST` stays the default
one. -/
def cyclicWhich (s : Reuse) (r : Request) : ℚ × EWhich :=
  match r.which with
  | .largest =>
    if s.sinvert then (s.target, .targetMagnitude)
    else if r.kind = .hyperbolic then (s.target, .largestMagnitude)
    else (s.target, .largestReal)
  | .smallest =>
    if r.kind = .generalized then (s.target, .largestReal)
    else if r.kind = .hyperbolic then (0, .targetMagnitude)
    else (0, .smallestPos)

/-- `EPSGetDimensions` (src/eps/interface/epsopts.c:362). -/
def gotNev (s : Reuse) : ℕ := if s.nev = 0 then 1 else s.nev

/-- `SVDSetUp_Cyclic` (src/svd/impls/cyclic/cyclic.c:381-450, 512-516) with the check of `EPSSetUp`; `none`: error.
`determine nev` stands for the basis size that `EPSSetUp` chooses when none is given, `q` for the smaller dimension of
the matrix. -/
def cyclicSetUp (determine : ℕ → ℕ) (q : ℕ) (s : Reuse) (r : Request) : Option Reuse :=
  let t := cyclicType s r
  let w := cyclicWhich s r
  let stol := if r.tol = none then s.stol else r.tol
  let sncv := if r.ncv = none then s.sncv else r.ncv
  if gotNev s = 1 ∨ 2 * r.nsv ≤ gotNev s then                                   -- (442)
    let nev := max (gotNev s) (2 * r.nsv)
    let ncv := match s.encv, sncv with                                          -- (444)
      | none, some c => some (max (3 * r.nsv) c)
      | e, _ => e
    let ncv' := ncv.getD (determine nev)                                        -- EPSSetUp
    if typeOk t.1 t.2 then
      some { s with
        ptype := t.2, isks := true, target := w.1, which := w.2, nev := nev, encv := some ncv'
        etol := some (s.etol.getD (stol.getD (defaultTol / 10)))                -- (447-450)
        stol := some (stol.getD defaultTol)                                     -- (516)
        sncv := some (min ncv' q) }                                             -- (513-514)
    else none
  else none

/-- A sequence of set-ups. -/
def reuseRun (f : Reuse → Request → Option Reuse) (s : Reuse) : List Request → Option Reuse
  | [] => some s
  | r :: rs => match f s r with
    | none => none
    | some s' => reuseRun f s' rs

end Verif.SVD
