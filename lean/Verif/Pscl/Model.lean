import Mathlib.Tactic
import Mathlib.Analysis.SpecialFunctions.Log.Basic
import Mathlib.Analysis.SpecialFunctions.Pow.Real
import Mathlib.Analysis.RCLike.Basic
import Mathlib.LinearAlgebra.Matrix.Determinant.Basic
/-!
Model of scaling in polynomial eigenproblems: `PEPSetScale` and the scaling part of `PEPSetFromOptions` (src/pep/interface/pepopts.c),
`PEPComputeScaleFactor`, `PEPBuildDiagonalScaling` and `PEPComputeVectors_Default` (src/pep/interface/pepdefault.c), their use in `PEPSetUp`
(src/pep/interface/pepsetup.c) and the operators applied by the linearization based solvers.

Exact arithmetic.  An invalid access or an undefined conversion is the outcome `none`.
-/
set_option linter.all false
namespace Verif.Pscl
noncomputable section
open Classical

/-- `PEPScale`, include/slepcpep.h. -/
inductive Scale | off | scalar | diagonal | both
deriving DecidableEq

/-- `scale==PEP_SCALE_DIAGONAL || scale==PEP_SCALE_BOTH`, pepsetup.c:238. -/
def Scale.isDiag : Scale → Bool
  | .diagonal => true
  | .both => true
  | _ => false

/-- `scale==PEP_SCALE_SCALAR || scale==PEP_SCALE_BOTH`, pepopts.c:986. -/
def Scale.isScalar : Scale → Bool
  | .scalar => true
  | .both => true
  | _ => false

/-- The solvers with `PEPComputeVectors_Default`: ptoar.c:833, qarnoldi.c:524, stoar.c:1114, linear.c:1048. -/
inductive Solver | toar | qarnoldi | stoar | linear
deriving DecidableEq

/-- What solvers and extraction read of the object: `pep->scale`, `pep->Dr`, `pep->sfactor`. -/
structure Obj (ι K : Type) where
  scale : Scale
  Dr : Option (ι → K)
  sfactor : K

section solve
variable {ι K : Type} [Field K]

/-- `VecPointwiseMult(v,v,pep->Dr)` if there is a diagonal, ptoar.c:128-130, 135, 148, qarnoldi.c:146, 149. -/
def mulDr (D : Option (ι → K)) (v : ι → K) : ι → K :=
  match D with
  | none => v
  | some d => fun i => v i * d i

/-- `VecPointwiseDivide(t,t,pep->Dr)` if there is a diagonal, ptoar.c:161, qarnoldi.c:154. -/
def divDr (D : Option (ι → K)) (v : ι → K) : ι → K :=
  match D with
  | none => v
  | some d => fun i => v i / d i

/-- Whether the solver looks at `pep->Dr`: ptoar.c:128-161 and qarnoldi.c:146-154 do, stoar.c:202-230 and linear.c:72-82 do not. -/
def usesDr : Solver → Bool
  | .toar => true
  | .qarnoldi => true
  | .stoar => false
  | .linear => false

/-- The diagonal with which the solver works. -/
def workDr (s : Solver) (p : Obj ι K) : Option (ι → K) := if usesDr s then p.Dr else none

/-- The new block computed from the blocks `v 0 .. v (d-1)`: ptoar.c:127-161 (no shift-and-invert), qarnoldi.c:145-154, stoar.c:207-218, linear.c:72-82;
`solve` is `STMatSolve` with the last coefficient.  Simplified: monomial basis, zero shift, default linearization. -/
def lastBlock (s : Solver) (p : Obj ι K) (d : ℕ) (A : ℕ → (ι → K) →ₗ[K] (ι → K)) (solve : (ι → K) →ₗ[K] (ι → K)) (v : ℕ → ι → K) : ι → K :=
  divDr (workDr s p) ((-1 / p.sfactor ^ d) • solve (∑ j ∈ Finset.range d, p.sfactor ^ j • A j (mulDr (workDr s p) (v j))))

/-- The operator on vectors of `d` blocks: the blocks are moved up (ptoar.c:190-205, qarnoldi.c:148, linear.c:45-69) and the last one is new. -/
def blockOp (s : Solver) (p : Obj ι K) (d : ℕ) (A : ℕ → (ι → K) →ₗ[K] (ι → K)) (solve : (ι → K) →ₗ[K] (ι → K)) (v : ℕ → ι → K) : ℕ → ι → K := fun j =>
  if j + 1 < d then v (j + 1) else lastBlock s p d A solve v

/-- Eigenvalue returned, qarnoldi.c:287 (likewise in the other solvers). -/
def retVal (p : Obj ι K) (theta : K) : K := p.sfactor * theta

/-- Vector left by `PEPComputeVectors_Default` before normalization, pepdefault.c:170-179 (first block extracted, no multiple refinement). -/
def retVec (p : Obj ι K) (x : ι → K) : ι → K :=
  if p.scale.isDiag = true ∧ p.Dr.isSome = true then mulDr p.Dr x else x

/-- `PEPSetScale` with the given strategy followed by `PEPSetUp`: the diagonals are created and computed for a diagonal strategy (pepsetup.c:238-242) and
stay in the object otherwise (pepopts.c:985-1024, pepsetup.c:238). -/
def useScale (p : Obj ι K) (s : Scale) (computed : ι → K) : Obj ι K :=
  { p with scale := s, Dr := if s.isDiag then some computed else p.Dr }

/-- The object after a sequence of solves with different strategies; pepbasic.c:69-70, 98-99. -/
def history (computed : ι → K) (sfactor : K) (ss : List Scale) : Obj ι K :=
  ss.foldl (fun p s => useScale p s computed) { scale := .off, Dr := none, sfactor := sfactor }
end solve

section balance
variable {m : ℕ}

/-- `w *= pep->slambda*pep->slambda*pep->sfactor` up to the `k`-th matrix, pepdefault.c:239. -/
def weight (lam sf : ℝ) : ℕ → ℝ
  | 0 => 1
  | k + 1 => weight lam sf k * (lam * lam * sf)

/-- The matrix `M`, pepdefault.c:217-242 (global entries). -/
def buildM {𝕜 : Type} [RCLike 𝕜] (nmat : ℕ) (A : ℕ → Matrix (Fin m) (Fin m) 𝕜) (lam sf : ℝ) : Fin m → Fin m → ℝ := fun i j =>
  ∑ k ∈ Finset.range nmat, weight lam sf k * (‖A k i j‖ * ‖A k i j‖)

/-- `-(PetscInt)((d < 0)?(d-0.5):(d+0.5))` with `d = PetscLogReal(c)/l2`, `l2 = 2*log(2)`, pepdefault.c:203, 273-274: conversion truncates. -/
def expo (c : ℝ) : ℤ :=
  if Real.log c / (2 * Real.log 2) < 0 then -⌈Real.log c / (2 * Real.log 2) - 1 / 2⌉ else -⌊Real.log c / (2 * Real.log 2) + 1 / 2⌋

/-- State of the loop: the matrix and the two diagonals. -/
structure Bal (m : ℕ) where
  M : Fin m → Fin m → ℝ
  Dl : Fin m → ℝ
  Dr : Fin m → ℝ

/-- Column sums, pepdefault.c:267-270. -/
def csum (M : Fin m → Fin m → ℝ) (j : Fin m) : ℝ := ∑ i, |M i j|

/-- Row sums, pepdefault.c:299. -/
def rsum (M : Fin m → Fin m → ℝ) (i : Fin m) : ℝ := ∑ j, |M i j|

/-- Update of `Dr` and scaling of the columns, pepdefault.c:272-294. -/
def colScale (b : Bal m) : Bal m :=
  { b with
    M := fun i j => b.M i j * ((2:ℝ) ^ expo (csum b.M j) * (2:ℝ) ^ expo (csum b.M j))
    Dr := fun j => b.Dr j * (2:ℝ) ^ expo (csum b.M j) }

/-- Update of `Dl` and scaling of the rows, pepdefault.c:298-306. -/
def rowScale (b : Bal m) : Bal m :=
  { b with
    M := fun i j => b.M i j * ((2:ℝ) ^ expo (rsum b.M i) * (2:ℝ) ^ expo (rsum b.M i))
    Dl := fun i => b.Dl i * (2:ℝ) ^ expo (rsum b.M i) }

/-- `emax` of one iteration, pepdefault.c:262, 278, 307, 312. -/
def emax (b : Bal m) : ℤ :=
  max (Finset.univ.fold max 0 fun j => expo (csum b.M j)) (Finset.univ.fold max 0 fun i => expo (rsum (colScale b).M i))

/-- `emin` of one iteration, pepdefault.c:262, 279, 308, 313. -/
def emin (b : Bal m) : ℤ :=
  min (Finset.univ.fold min 0 fun j => expo (csum b.M j)) (Finset.univ.fold min 0 fun i => expo (rsum (colScale b).M i))

/-- One iteration, pepdefault.c:262-313; `none` is the undefined conversion of the logarithm of zero. -/
def sweep (b : Bal m) : Option (Bal m) :=
  if ∃ j, csum b.M j = 0 then none
  else if ∃ i, rsum (colScale b).M i = 0 then none
  else some (rowScale (colScale b))

/-- The loop, pepdefault.c:261-315; the flag tells whether the stopping condition of line 314 was met. -/
def loop : ℕ → Bal m → Option (Bal m × Bool)
  | 0, b => some (b, false)
  | k + 1, b =>
    match sweep b with
    | none => none
    | some b' => if emax b ≤ emin b + 2 then some (b', true) else loop k b'

/-- `PEPBuildDiagonalScaling`: diagonals set to one (pepdefault.c:249-250), then `its` iterations at most. -/
def build {𝕜 : Type} [RCLike 𝕜] (nmat : ℕ) (A : ℕ → Matrix (Fin m) (Fin m) 𝕜) (lam sf : ℝ) (its : ℕ) : Option (Bal m × Bool) :=
  loop its { M := buildM nmat A lam sf, Dl := fun _ => 1, Dr := fun _ => 1 }

/-- Vectors in memory and the pointers `pep->Dl`, `pep->Dr`. -/
structure Mem (m : ℕ) where
  vec : ℕ → Fin m → ℝ
  next : ℕ
  Dl : Option ℕ
  Dr : Option ℕ

/-- `PEPSetScale` with vectors of the user: a reference is kept, pepopts.c:998-1011. -/
def provide (x : Mem m) (dl dr : ℕ) : Mem m := { x with Dl := some dl, Dr := some dr }

/-- Creation of missing vectors, pepsetup.c:239-240. -/
def create (x : Mem m) : Mem m :=
  { x with
    Dl := some (x.Dl.getD x.next)
    Dr := some (x.Dr.getD (x.next + 1))
    next := x.next + 2 }

/-- The part of `PEPSetUp` for diagonal scaling, pepsetup.c:238-242; the result is written through `VecGetArray`, pepdefault.c:249-252, 276, 304, 316-317. -/
def setupDiag {𝕜 : Type} [RCLike 𝕜] (s : Scale) (nmat : ℕ) (A : ℕ → Matrix (Fin m) (Fin m) 𝕜) (lam sf : ℝ) (its : ℕ) (x : Mem m) : Option (Mem m) :=
  if s.isDiag then
    match build nmat A lam sf its with
    | none => none
    | some r =>
      let y := create x
      some { y with vec := Function.update (Function.update y.vec (y.Dl.getD 0) r.1.Dl) (y.Dr.getD 0) r.1.Dr }
  else some x
end balance

/-- State of the variable `A` in `PEPBuildDiagonalScaling`. -/
inductive Slot | uninit | live | dead
deriving DecidableEq

/-- One iteration of the loop that adds the matrices, pepdefault.c:226-241; `none` is `MatCopy` into a variable that holds no matrix (line 228). -/
def addStep (mpi same : Bool) (nmat k : ℕ) (a : Slot) : Option Slot :=
  if mpi = false ∧ same = true ∧ a ≠ .live then none
  else if mpi = true ∨ same = false ∨ k + 2 = nmat then some .dead
  else some .live

/-- The loop `for (k=1;k<nmat;k++)`, pepdefault.c:225-242; `c` iterations from `k`. -/
def addLoop (mpi same : Bool) (nmat : ℕ) : ℕ → ℕ → Slot → Option Slot
  | 0, _, a => some a
  | c + 1, k, a => (addStep mpi same nmat k a).bind (addLoop mpi same nmat c (k + 1))

/-- The list of columns outside the local range, pepdefault.c:255-260: entries are column index and stored value, `aux` starts as zero. -/
def scan (lst lend : ℕ) : List (ℕ × ℝ) → (ℕ → ℝ) → List ℕ → List ℕ
  | [], _, cols => cols
  | (j, v) :: r, aux, cols =>
    scan lst lend r (Function.update aux j (aux j + |v|)) (if aux j = 0 ∧ (j < lst ∨ lend ≤ j) then cols ++ [j] else cols)

/-- Size of the array `cols`, pepdefault.c:248. -/
def capacity (n lst lend nz : ℕ) : ℕ := min (n - lend + lst) nz

/-- The scan with the array of this size: `none` is a write beyond its end. -/
def scanSafe (n lst lend : ℕ) (entries : List (ℕ × ℝ)) : Option (List ℕ) :=
  if (scan lst lend entries (fun _ => 0) []).length ≤ capacity n lst lend entries.length then some (scan lst lend entries (fun _ => 0) []) else none

/-- The loop `for (i=pep->nmat-2;i>0;i--)` and line 372, pepdefault.c:363-372, all matrices with norm. -/
def hloop (norm : ℕ → ℝ) (sf : ℝ) : ℕ → ℝ → ℝ
  | 0, acc => acc * sf + norm 0
  | i + 1, acc => hloop norm sf i (acc * sf + norm (i + 1))

/-- Settings and results of scaling: `scale`, `sfactor`, `dsfactor`, `sfactor_set`, `sits`, `slambda`. -/
structure Settings where
  scale : Scale
  sfactor : ℝ
  dsfactor : ℝ
  set : Bool
  its : ℕ
  lam : ℝ

/-- Initial settings, pepbasic.c:69-73, 119. -/
def initial : Settings := { scale := .off, sfactor := 1, dsfactor := 1, set := false, its := 5, lam := 1 }

/-- `PEPComputeScaleFactor`, monomial basis, all matrices with norm and at least three matrices, pepdefault.c:337-375. -/
def computeFactor (nmat : ℕ) (norm : ℕ → ℝ) (p : Settings) : Settings :=
  if p.scale.isScalar = false then { p with sfactor := 1, dsfactor := 1 }
  else if p.set then p
  else
    { p with
      sfactor := (norm 0 / norm (nmat - 1)) ^ (1 / ((nmat : ℝ) - 1))
      dsfactor := nmat / hloop norm ((norm 0 / norm (nmat - 1)) ^ (1 / ((nmat : ℝ) - 1))) (nmat - 2) (norm (nmat - 1)) }

/-- Arguments of `PEPSetScale`: `PETSC_DETERMINE`, `PETSC_CURRENT` or a value. -/
inductive Arg (α : Type) | determine | current | value (a : α)

/-- `PEPSetScale` without vectors, pepopts.c:985-1024; `none` is an error. -/
def setScale (p : Settings) (s : Scale) (alpha : Arg ℝ) (its : Arg ℕ) (lam : Arg ℝ) : Option Settings :=
  (if s.isScalar then
    match alpha with
    | .determine => some { p with scale := s, sfactor := 0, set := false }
    | .current => some { p with scale := s }
    | .value a => if 0 < a then some { p with scale := s, sfactor := a, set := true } else none
  else some { p with scale := s }).bind fun q =>
  (if s.isDiag then
    match its with
    | .determine => some { q with its := 5 }
    | .current => some q
    | .value i => if 0 < i then some { q with its := i } else none
  else some q).bind fun q =>
  if s.isDiag then
    match lam with
    | .determine => some { q with lam := 1 }
    | .current => some q
    | .value l => if 0 < l then some { q with lam := l } else none
  else some q

/-- Options `-pep_scale`, `-pep_scale_factor`, `-pep_scale_its`, `-pep_scale_lambda`. -/
structure Opts where
  scale : Option Scale
  factor : Option ℝ
  its : Option ℕ
  lam : Option ℝ

/-- Scaling part of `PEPSetFromOptions`, pepopts.c:112-121. -/
def fromOptions (p : Settings) (o : Opts) : Option Settings :=
  if o.scale.isSome ∨ o.factor.isSome ∨ o.its.isSome ∨ o.lam.isSome then
    setScale p (o.scale.getD p.scale)
      (if o.factor.isNone ∧ p.sfactor = 1 then .determine else .value (o.factor.getD p.sfactor))
      (.value (o.its.getD p.its)) (.value (o.lam.getD p.lam))
  else some p

end
end Verif.Pscl
