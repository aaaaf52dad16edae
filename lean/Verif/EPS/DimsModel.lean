import Mathlib.Data.Nat.Basic
import Mathlib.Tactic.Common

/-!
# Dimensions of the eigensolvers

`nev`/`nsv`, `ncv` and `mpd` of the solver objects, how the user gives them and how set-up completes them.
`none` stands for `PETSC_DETERMINE`.  Integer overflow is not modelled.
-/
set_option linter.all false

namespace Verif.EPS

/-- The three numbers kept in a solver object (`eps->nev`, `eps->ncv`, `eps->mpd`,
include/slepc/private/epsimpl.h; analogous fields in svdimpl.h, pepimpl.h, nepimpl.h). -/
structure Dims where
  nev : Nat
  ncv : Option Nat
  mpd : Option Nat
deriving DecidableEq, Repr

/-- An argument of `EPSSetDimensions`: `PETSC_CURRENT`, `PETSC_DETERMINE` or a number. -/
inductive DimArg
  | current
  | determine
  | value (k : Int)

/-- src/eps/interface/epsopts.c:419-430 (`ncv` and `mpd` are treated alike); also
src/svd/interface/svdopts.c:307-318, src/pep/interface/pepopts.c:403-414. -/
def setArg (old : Option Nat) : DimArg → Option (Option Nat)
  | .current => some old
  | .determine => some none
  | .value k => if 0 < k then some (some k.toNat) else none

/-- src/eps/interface/epsopts.c:415-418: `PETSC_DETERMINE` (negative) is not accepted for `nev`. -/
def setNev (old : Nat) : DimArg → Option Nat
  | .current => some old
  | .determine => none
  | .value k => if 0 < k then some k.toNat else none

/-- `EPSSetDimensions` (src/eps/interface/epsopts.c:408-433), `SVDSetDimensions`
(src/svd/interface/svdopts.c:296-321), `PEPSetDimensions` (src/pep/interface/pepopts.c:392-417).
`none` is an error; the fields already assigned before the error are not tracked. -/
def setDimensions (d : Dims) (nev ncv mpd : DimArg) : Option Dims :=
  (setNev d.nev nev).bind fun a => (setArg d.ncv ncv).bind fun b => (setArg d.mpd mpd).map fun c => ⟨a, b, c⟩

/-- The part of the problem that set-up looks at: order of the matrix, whether eigenvalues come in
`±` pairs (`EPS_BSE`, `EPS_LREP`), whether the threshold stopping test is active, and whether the
solver is one of Krylov-Schur, Arnoldi, Lanczos. -/
structure EpsProblem where
  n : Nat
  half : Bool
  threshold : Bool
  krylov : Bool

/-- Safeguard for small problems, src/eps/interface/epssetup.c:340-345. -/
def epsCap (p : EpsProblem) (d : Dims) : Dims :=
  { nev := if d.nev > p.n then p.n else d.nev
    ncv := d.ncv.map fun c => if p.half then (if 2 * c > p.n then p.n / 2 else c) else (if c > p.n then p.n else c)
    mpd := d.mpd }

/-- Dimension of the space searched: src/eps/interface/epssetup.c:695. -/
def epsSize (p : EpsProblem) : Nat := if p.half then p.n / 2 else p.n

/-- Number of pairs to compute: src/eps/interface/epssetup.c:699. -/
def epsPairs (p : EpsProblem) (nev : Nat) : Nat := if p.half then (nev + 1) / 2 else nev

/-- The check on a given `ncv`: src/eps/interface/epssetup.c:702-706. -/
def epsCheck (p : EpsProblem) (nev2 c : Nat) : Bool :=
  if p.krylov then decide (c ≥ nev2 + 1) || (decide (c = nev2) && decide (c = epsSize p)) else decide (c ≥ nev2)

/-- The default rule for `ncv` and `mpd` shared by all solvers
(src/eps/interface/epssetup.c:707-716, src/svd/interface/svdsetup.c:488-497,
src/pep/interface/pepsetup.c:431-440, src/nep/interface/nepsetup.c:269-278); `small` is the value
used when few eigenvalues are wanted. -/
def defaults (size nev small : Nat) (mpd : Option Nat) : Nat × Nat :=
  match mpd with
  | some m => (min size (nev + m), m)
  | none => if nev < 500 then (min size small, min size small) else (min size (nev + 500), 500)

/-- `EPSSetDimensions_Default` (src/eps/interface/epssetup.c:692-718). -/
def epsDefault (p : EpsProblem) (d : Dims) : Option Dims :=
  let nev := if d.nev = 0 ∧ p.threshold = false then 1 else d.nev
  let nev2 := epsPairs p nev
  match d.ncv with
  | some c => if epsCheck p nev2 c then some ⟨nev, some c, some (d.mpd.getD c)⟩ else none
  | none =>
    let r := defaults (epsSize p) nev2 (max (2 * nev2) (nev2 + 15)) d.mpd
    some ⟨nev, some r.1, some r.2⟩

/-- The dimension part of `EPSSetUp` (src/eps/interface/epssetup.c:339-345 followed by the call of
`EPSSetDimensions_Default` in the solver's set-up, e.g. src/eps/impls/krylov/krylovschur/krylovschur.c:115).
For `n = 0` set-up returns at once. -/
def epsSetUp (p : EpsProblem) (d : Dims) : Option Dims :=
  if p.n = 0 then some d else epsDefault p (epsCap p d)

/-- Sizes of the matrices of an SVD problem; `b` is the number of rows of the second matrix (GSVD). -/
structure SvdProblem where
  m : Nat
  n : Nat
  b : Option Nat
  threshold : Bool

/-- src/svd/interface/svdsetup.c:353 and 479-484. -/
def svdSize (p : SvdProblem) : Nat :=
  match p.b with
  | some b => min (min p.m p.n) b
  | none => min p.m p.n

/-- `SVDSetDimensions_Default` (src/svd/interface/svdsetup.c:474-499). -/
def svdDefault (p : SvdProblem) (d : Dims) : Option Dims :=
  let nsv := if d.nev = 0 ∧ p.threshold = false then 1 else d.nev
  match d.ncv with
  | some c => if nsv ≤ c then some ⟨nsv, some c, some (d.mpd.getD c)⟩ else none
  | none =>
    let r := defaults (svdSize p) nsv (max (2 * nsv) 10) d.mpd
    some ⟨nsv, some r.1, some r.2⟩

/-- The check of src/svd/interface/svdsetup.c:356. -/
def svdCheck (d : Dims) : Bool :=
  match d.ncv with
  | some c => decide (d.nev ≤ c)
  | none => true

/-- The dimension part of `SVDSetUp` (src/svd/interface/svdsetup.c:353-356 and the call of
`SVDSetDimensions_Default` in the solver's set-up). -/
def svdSetUp (p : SvdProblem) (d : Dims) : Option Dims :=
  let d' : Dims := ⟨min d.nev (svdSize p), d.ncv.map (fun c => min c (svdSize p)), d.mpd⟩
  if svdCheck d' then svdDefault p d' else none

/-- Polynomial eigenproblem of order `n` and degree `deg = nmat - 1`. -/
structure PepProblem where
  n : Nat
  deg : Nat
  krylov : Bool

/-- `PEPSetDimensions_Default` (src/pep/interface/pepsetup.c:417-442). -/
def pepDefault (p : PepProblem) (d : Dims) : Option Dims :=
  let dim := p.deg * p.n
  match d.ncv with
  | some c =>
    if (if p.krylov then decide (c > d.nev) || (decide (c = d.nev) && decide (c = dim)) else decide (c ≥ d.nev))
    then some ⟨d.nev, some c, some (d.mpd.getD c)⟩ else none
  | none =>
    let r := defaults dim d.nev (max (2 * d.nev) (d.nev + 15)) d.mpd
    some ⟨d.nev, some r.1, some r.2⟩

/-- The dimension part of `PEPSetUp` (src/pep/interface/pepsetup.c:121-122) with the default rule. -/
def pepSetUp (p : PepProblem) (d : Dims) : Option Dims :=
  let dim := p.deg * p.n
  pepDefault p ⟨if d.nev > dim then dim else d.nev, d.ncv.map (fun c => if c > dim then dim else c), d.mpd⟩

/-- `NEPSetDimensions_Default` (src/nep/interface/nepsetup.c:264-280); `NEPSetUp` applies no cap. -/
def nepSetUp (n : Nat) (d : Dims) : Option Dims :=
  match d.ncv with
  | some c => if c ≥ d.nev then some ⟨d.nev, some c, some (d.mpd.getD c)⟩ else none
  | none =>
    let r := defaults n d.nev (max (2 * d.nev) (d.nev + 15)) d.mpd
    some ⟨d.nev, some r.1, some r.2⟩

end Verif.EPS
