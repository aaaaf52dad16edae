import Verif.PEP.BasisModel
import Mathlib.Data.Matrix.Block
import Mathlib.Data.Matrix.Mul
import Mathlib.Algebra.Module.LinearMap.Defs
import Mathlib.Algebra.BigOperators.Group.Finset.Basic
import Mathlib.Analysis.Complex.Norm

/-!
# Model of the linearizations of PEPLINEAR and of one TOAR step

`src/pep/impls/linear/qeplin.c:37-169` (explicit linearizations of the quadratic problem),
`src/pep/impls/linear/linear.c:17-207` (implicit operators), `:429-630` (eigenvector extraction),
`src/pep/impls/krylov/toar/ptoar.c:102-190` (TOAR step).
Exact arithmetic; one process. The result of `MatCreateTile` is the block matrix (property C23). The solve with the matrix set by
`STMatSetUp` is a function `solve`.
-/
set_option linter.all false

namespace Verif.PEP

open Matrix

section explicit
variable {F n : Type*} [Field F] [DecidableEq F] [DecidableEq n] [Fintype n]

/-- `PEP_LINEAR`: parameters of the linearization, scaling factors and coefficient matrices. -/
structure LinCtx (F n : Type*) where
  alpha : F
  beta : F
  sfactor : F
  dsfactor : F
  K : Matrix n n F
  C : Matrix n n F
  M : Matrix n n F

/-- `MatCreateTile(a,A,b,B,c,C,d,D,&G)` (src/sys/mat/matutil.c). -/
def tile (a : F) (A : Matrix n n F) (b : F) (B : Matrix n n F) (c : F) (C : Matrix n n F) (d : F) (D : Matrix n n F) :
    Matrix (n ⊕ n) (n ⊕ n) F := fromBlocks (a • A) (b • B) (c • C) (d • D)

/-- `MatCreateExplicit_Linear_NA` (qeplin.c:37-60). -/
def linNA (x : LinCtx F n) : Matrix (n ⊕ n) (n ⊕ n) F :=
  let a := x.alpha; let b := x.beta
  let Ts : Matrix n n F × F :=
    if a ≠ 0 ∧ b ≠ 0 then ((-a * x.dsfactor * x.sfactor) • x.C + b • (1 : Matrix n n F), 1)
    else if a = 0 then (1, b) else (x.C, -a * x.dsfactor * x.sfactor)
  tile (-b * x.dsfactor) x.K a 1 (-x.dsfactor * a) x.K Ts.2 Ts.1

/-- `MatCreateExplicit_Linear_NB` (qeplin.c:62-85). -/
def linNB (x : LinCtx F n) : Matrix (n ⊕ n) (n ⊕ n) F :=
  let a := x.alpha; let b := x.beta
  let Ts : Matrix n n F × F :=
    if a ≠ 0 ∧ b ≠ 0 then ((b * x.dsfactor * x.sfactor) • x.C + a • (1 : Matrix n n F), 1)
    else if b = 0 then (1, a) else (x.C, b * x.dsfactor * x.sfactor)
  tile Ts.2 Ts.1 (b * x.dsfactor * x.sfactor * x.sfactor) x.M b 1 (a * x.sfactor * x.sfactor * x.dsfactor) x.M

/-- `MatCreateExplicit_Linear_SA` (qeplin.c:89-107). -/
def linSA (x : LinCtx F n) : Matrix (n ⊕ n) (n ⊕ n) F :=
  let a := x.alpha; let b := x.beta
  let Ts : Matrix n n F × F :=
    if a ≠ 0 ∧ b ≠ 0 then ((a * x.dsfactor * x.sfactor) • x.C + (-b * x.dsfactor * x.sfactor * x.sfactor) • x.M, 1)
    else if a = 0 then (x.M, -b * x.dsfactor * x.sfactor * x.sfactor) else (x.C, a * x.dsfactor * x.sfactor)
  tile (b * x.dsfactor) x.K (a * x.dsfactor) x.K (a * x.dsfactor) x.K Ts.2 Ts.1

/-- `MatCreateExplicit_Linear_SB` (qeplin.c:109-127). -/
def linSB (x : LinCtx F n) : Matrix (n ⊕ n) (n ⊕ n) F :=
  let a := x.alpha; let b := x.beta
  let Ts : Matrix n n F × F :=
    if a ≠ 0 ∧ b ≠ 0 then ((-b * x.dsfactor * x.sfactor) • x.C + (a * x.dsfactor) • x.K, 1)
    else if b = 0 then (x.K, a * x.dsfactor) else (x.C, -b * x.dsfactor * x.sfactor)
  tile Ts.2 Ts.1 (-b * x.dsfactor * x.sfactor * x.sfactor) x.M (-b * x.dsfactor * x.sfactor * x.sfactor) x.M
    (-a * x.dsfactor * x.sfactor * x.sfactor) x.M

/-- `MatCreateExplicit_Linear_HA` (qeplin.c:131-149). -/
def linHA (x : LinCtx F n) : Matrix (n ⊕ n) (n ⊕ n) F :=
  let a := x.alpha; let b := x.beta
  let Ts : Matrix n n F × F :=
    if a ≠ 0 ∧ b ≠ 0 then ((a * x.dsfactor * x.sfactor) • x.C + (b * x.dsfactor * x.sfactor * x.sfactor) • x.M, 1)
    else if a = 0 then (x.M, b * x.dsfactor * x.sfactor * x.sfactor) else (x.C, a * x.dsfactor * x.sfactor)
  tile (a * x.dsfactor) x.K (-b * x.dsfactor) x.K Ts.2 Ts.1 (a * x.dsfactor) x.K

/-- `MatCreateExplicit_Linear_HB` (qeplin.c:151-169). -/
def linHB (x : LinCtx F n) : Matrix (n ⊕ n) (n ⊕ n) F :=
  let a := x.alpha; let b := x.beta
  let Ts : Matrix n n F × F :=
    if a ≠ 0 ∧ b ≠ 0 then ((b * x.dsfactor * x.sfactor) • x.C + (a * x.dsfactor) • x.K, 1)
    else if b = 0 then (x.K, a * x.dsfactor) else (x.C, b * x.dsfactor * x.sfactor)
  tile (b * x.dsfactor * x.sfactor * x.sfactor) x.M Ts.2 Ts.1 (-a * x.dsfactor * x.sfactor * x.sfactor) x.M
    (b * x.dsfactor * x.sfactor * x.sfactor) x.M

/-- Problem types of PEP. -/
inductive ProblemType | general | hermitian | hyperbolic | gyroscopic
  deriving DecidableEq, Repr

/-- Choice of the linearization in `PEPSetUp_Linear` (linear.c:251-255, 293-301): the pencil `(A,B)`. -/
def explicitPencil (t : ProblemType) (x : LinCtx F n) : Matrix (n ⊕ n) (n ⊕ n) F × Matrix (n ⊕ n) (n ⊕ n) F :=
  match t with
  | .general => (linNA x, linNB x)
  | .hermitian | .hyperbolic => (linSA x, linSB x)
  | .gyroscopic => (linHA x, linHB x)

/-- `PEPLinearSetLinearization_Linear` (linear.c:725-734): `none` is the error. -/
def setLinearization (x : LinCtx F n) (alpha beta : F) : Option (LinCtx F n) :=
  if beta ≠ 0 ∨ alpha ≠ 0 then some { x with alpha := alpha, beta := beta } else none

end explicit

section extraction
variable {V : Type*}

/-- `PEPLinearExtract_None` (linear.c:520-568): the first block of the eigenvector of the pencil. -/
def extractNone (z : ℕ → V) : V := z 0

/-- `PEPLinearExtract_Norm` (linear.c:579-630): the last block if the modulus of the (unscaled) eigenvalue exceeds one, otherwise
the first. -/
noncomputable def extractNorm (nmat : ℕ) (lam : ℂ) (z : ℕ → V) : V :=
  z (if ‖lam‖ > 1 then nmat - 2 else 0)

/-- `PEPLinearExtract_Residual` (linear.c:429-514): `normalize` and `resid` are `VecNormalizeComplex` and
`PEPComputeResidualNorm_Private`; the state is the vector stored and its residual. -/
def extractResidual {R : Type*} [LT R] [DecidableLT R] (normalize : V → V) (resid : V → R) (nmat : ℕ) (z : ℕ → V) : V × R :=
  let w := normalize (z 0)
  forUp 1 (nmat - 1) (fun k (s : V × R) =>
    let w := normalize (z k)
    let rn2 := resid w
    if s.2 > rn2 then (w, rn2) else s) (w, resid w)

end extraction

section operators
variable {F V : Type*} [Field F] [AddCommGroup V] [Module F V]

/-- First and inner blocks of `MatMult_Linear_Shift` (linear.c:41-69). -/
def shiftBlocks (p : Pbc F) (sigma : F) (deg : ℕ) (x : ℕ → V) : ℕ → V :=
  let y : ℕ → V := fun _ => 0
  let y := Function.update y 0 (y 0 + (p.cb 0 - sigma) • x 0)
  let y := Function.update y 0 (y 0 + p.ca 0 • x 1)
  forUp 1 (deg - 1) (fun i y =>
    let y := Function.update y i (y i + p.cg i • x (i-1))
    let y := Function.update y i (y i + (p.cb i - sigma) • x i)
    Function.update y i (y i + p.ca i • x (i+1))) y

/-- `MatMult_Linear_Shift` (linear.c:17-94). `A i` is `STMatMult(st,i,.)`, `solve` is `STMatSolve`, `deg = nmat-1`; vectors of the
linearization are given by their blocks. -/
def multShift (p : Pbc F) (sfactor : F) (A : ℕ → V →ₗ[F] V) (solve : V → V) (sigma : F) (deg : ℕ) (x : ℕ → V) : ℕ → V :=
  let y := shiftBlocks p sigma deg x
  let s := forUp 0 deg (fun i (s : (ℕ → V) × F) =>
    (Function.update s.1 (deg-1) (s.1 (deg-1) + s.2 • A i (x i)), s.2 * sfactor)) (y, 1)
  let y := s.1
  let a := s.2
  let y := Function.update y (deg-1) (solve (y (deg-1)))
  let y := Function.update y (deg-1) ((-p.ca (deg-1) / a) • y (deg-1))
  let y := Function.update y (deg-1) (y (deg-1) + p.cg (deg-1) • x (deg-2))
  Function.update y (deg-1) (y (deg-1) + (p.cb (deg-1) - sigma) • x (deg-1))

/-- First, second and inner blocks of `MatMult_Linear_Sinvert` (linear.c:117-157). -/
def sinvertBlocks (p : Pbc F) (sigma : F) (deg : ℕ) (x : ℕ → V) : ℕ → V :=
  let y : ℕ → V := fun _ => 0
  let y := Function.update y 1 ((1 / p.ca 0) • x 0)
  let y := if deg > 2 then Function.update y 2 ((1 / p.ca 1) • (x 1 + (sigma - p.cb 1) • y 1)) else y
  forUp 2 (deg - 1) (fun i y =>
    Function.update y (i+1) ((1 / p.ca i) • (x i + (sigma - p.cb i) • y i + (-p.cg i) • y (i-1)))) y

/-- `MatMult_Linear_Sinvert` (linear.c:96-207): `sinvertBlocks`, last block (159-191), final update (193-201). -/
def multSinvert (p : Pbc F) (sfactor : F) (A : ℕ → V →ₗ[F] V) (solve : V → V) (sigma : F) (deg : ℕ) (x : ℕ → V) : ℕ → V :=
  let y := sinvertBlocks p sigma deg x
  let s := forUp 0 (deg - 2) (fun i (s : (ℕ → V) × F) =>
    (Function.update s.1 0 (s.1 0 + s.2 • A (i+1) (s.1 (i+1))), s.2 * sfactor)) (y, sfactor)
  let y := s.1
  let a := s.2
  let aux2 := y (deg-1) + (p.cg (deg-1) / p.ca (deg-1)) • y (deg-2)
  let y := Function.update y 0 (y 0 + a • A (deg-1) aux2)
  let a := a * sfactor
  let aux2 := (1 / p.ca (deg-1)) • (x (deg-1) + (sigma - p.cb (deg-1)) • y (deg-1))
  let y := Function.update y 0 (y 0 + a • A deg aux2)
  let y := Function.update y 0 (-(solve (y 0)))
  (forUp 1 deg (fun i (s : (ℕ → V) × F × F) =>
    let t := ((sigma - p.cb (i-1)) * s.2.1 - p.cg (i-1) * s.2.2) / p.ca (i-1)
    (Function.update s.1 i (s.1 i + t • s.1 0), t, s.2.1)) (y, 1, 0)).1

/-- `BVMultVec(V,1.0,0.0,v,c)` with `nv` active columns. -/
def comb (nv : ℕ) (U : ℕ → V) (c : ℕ → F) : V := ∑ j ∈ Finset.range nv, c j • U j

/-- A loop `for (j=0;j<nv;j++)` that assigns `f j` to row `j` of block `k`. -/
def setRows (nv : ℕ) (r : ℕ → ℕ → F) (k : ℕ) (f : ℕ → F) : ℕ → ℕ → F := fun i j => if i = k ∧ j < nv then f j else r i j

/-- Coefficients computed at the beginning of `PEPTOARExtendBasis` in shift-and-invert mode (ptoar.c:113-122); `r` is the previous
content of the new column, `S` the current one; both are indexed by block and row. -/
def toarR (p : Pbc F) (sigma : F) (deg nv : ℕ) (S r : ℕ → ℕ → F) : ℕ → ℕ → F :=
  let r := if deg > 1 then setRows nv r 1 (fun j => S 0 j / p.ca 0) else r
  let r := if deg > 2 then setRows nv r 2 (fun j => (S 1 j + (sigma - p.cb 1) * r 1 j) / p.ca 1) else r
  let r := forUp 2 (deg - 1) (fun k r =>
    setRows nv r (k+1) (fun j => (S k j + (sigma - p.cb k) * r k j - p.cg k * r (k-1) j) / p.ca k)) r
  setRows nv r 0 (fun j => (S (deg-1) j + (sigma - p.cb (deg-1)) * r (deg-1) j - p.cg (deg-1) * r (deg-2) j) / p.ca (deg-1))

/-- `PEPTOARExtendBasis` (ptoar.c:102-163) without diagonal scaling, transformation handled by the solver: the new vector `t`
and the coefficients `r`. -/
def toarExtend (p : Pbc F) (sfactor : F) (A : ℕ → V →ₗ[F] V) (solve : V → V) (sinvert : Bool) (sigma : F) (deg nv : ℕ)
    (U : ℕ → V) (S r : ℕ → ℕ → F) : V × (ℕ → ℕ → F) :=
  if sinvert then
    let r := toarR p sigma deg nv S r
    let q := sfactor • A 1 (comb nv U (r 1))
    let s := forUp 2 deg (fun j (s : V × F) =>
      let a := s.2 * sfactor
      (s.1 + a • A j (comb nv U (r j)), a)) (q, sfactor)
    let q := s.1 + (s.2 * sfactor) • A deg (comb nv U (r 0))
    ((-1 : F) • solve q, r)
  else
    let q := (1:F) • A 0 (comb nv U (S 0))
    let s := forUp 1 (deg - 1) (fun j (s : V × F) =>
      let a := s.2 * sfactor
      (s.1 + a • A j (comb nv U (S j)), a)) (q, 1)
    let a := s.2 * sfactor
    let q := s.1 + a • A (deg-1) (comb nv U (S (deg-1)))
    let a := a * sfactor
    let t := (-p.ca (deg-1) / a) • solve q
    (t + p.cg (deg-1) • comb nv U (S (deg-2)) + p.cb (deg-1) • comb nv U (S (deg-1)), r)

/-- `PEPTOARCoefficients` (ptoar.c:168-190): `x` are the coefficients of the new vector in the basis, stored in block `0`
(shift-and-invert) or `deg-1`. `nv` is the index of the last basis vector. -/
def toarCoefficients (p : Pbc F) (sinvert : Bool) (sigma : F) (deg nv : ℕ) (S r : ℕ → ℕ → F) (x : ℕ → F) : ℕ → ℕ → F :=
  if sinvert then
    (forUp 1 deg (fun k (s : (ℕ → ℕ → F) × F × F) =>
      let t := ((sigma - p.cb (k-1)) * s.2.1 - p.cg (k-1) * s.2.2) / p.ca (k-1)
      ((fun i j => if i = k ∧ j ≤ nv then s.1 i j + t * x j else s.1 i j), t, s.2.1)) (r, 1, 0)).1
  else
    let r := fun i j => if i = 0 ∧ j ≤ nv then (p.cb 0 - sigma) * S 0 j + p.ca 0 * S 1 j else r i j
    let r := forUp 1 (deg - 1) (fun k (r : ℕ → ℕ → F) =>
      fun i j => if i = k ∧ j ≤ nv then (p.cb k - sigma) * S k j + p.ca k * S (k+1) j + p.cg k * S (k-1) j else r i j) r
    fun i j => if i = deg - 1 ∧ j ≤ nv then r i j - sigma * S (deg-1) j else r i j

/-- One step of `PEPTOARrun` (ptoar.c:223-239): extend, orthogonalize (the result `x` of `BVOrthogonalizeColumn` completed with the norm
is given by `orth t`), store the coefficients in the block that holds the new vector, compute the remaining ones.
`nv` columns before the step, `nv+1` after it; the case of a linearly dependent vector is not modelled. -/
def toarStep (p : Pbc F) (sfactor : F) (A : ℕ → V →ₗ[F] V) (solve : V → V) (sinvert : Bool) (sigma : F) (deg nv : ℕ)
    (U : ℕ → V) (orth : V → ℕ → F) (S r : ℕ → ℕ → F) : ℕ → ℕ → F :=
  let tr := toarExtend p sfactor A solve sinvert sigma deg nv U S r
  let x := orth tr.1
  let b := if sinvert then 0 else deg - 1
  let r := fun i j => if i = b ∧ j ≤ nv then x j else tr.2 i j
  toarCoefficients p sinvert sigma deg nv S r x

end operators

end Verif.PEP
