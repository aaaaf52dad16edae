import Verif.BV.KrylovLemmas
import Verif.DS.DimsModel
import Verif.EPS.ConvModel
import Verif.EPS.StoppingModel
/-!
Model of the restart loop of the Krylov-Schur eigensolver, `EPSSolve_KrylovSchur_Default`
(src/eps/impls/krylov/krylovschur/krylovschur.c:233-354), in exact arithmetic: non-Hermitian problems (`BVMatArnoldi`), Ritz
extraction, one-sided, no arbitrary selection, no threshold stopping test, with the standard inner product.

The dense Schur solver (`DSSolve`, `DSSort` and the eigenvectors of `DSVectors`) is a parameter.  The projected matrix (`DS_MAT_A`, leading
dimension `ncv+1`) is a function of row and column.  `PetscInt` is unbounded.
-/
set_option linter.all false
namespace Verif.EPS.KS
noncomputable section
open Classical Verif.BV Verif.EPS
variable {𝕜 : Type} [RCLike 𝕜] {E : Type} [NormedAddCommGroup E] [InnerProductSpace 𝕜 E]

/-- What the dense solver leaves: `Q` (`DS_MAT_Q`), the (quasi-)triangular matrix `T` (in `DS_MAT_A`), the eigenvalues of the active
part, whether an index is the first one of a complex conjugate pair, and the modulus of the last component of each normalized
eigenvector (`*rnorm` in `DSVectors_NHEP_Eigen_Some`, dsnhep.c:157-160). -/
structure DenseOut (𝕜 : Type) where
  Q : Nat → Nat → 𝕜
  T : Nat → Nat → 𝕜
  eig : Nat → ℂ
  pair : Nat → Bool
  last : Nat → ℝ

/-- `DSSolve` and `DSSort` on the leading `n x n` block with the first `l` rows and columns locked (dsutil.c:21-84, 90-167), `raw` if the state is
`DS_STATE_RAW`, krylovschur.c:273;
`none` is an error. -/
abbrev Dense (𝕜 : Type) := (raw : Bool) → (l n : Nat) → (A : Nat → Nat → 𝕜) → Option (DenseOut 𝕜)

/-- Parameters of the solver: `nev`, `ncv`, `mpd`, `max_it`, restart parameter `keep`, locking, whether PETSc is configured with
complex scalars, tolerance, the convergence test (eigenvalue and residual norm to error estimate) and the region of interest
(on eigenvalues as computed, the back transformation being part of `inside` and `conv`). -/
structure Params where
  nev : Nat
  ncv : Nat
  mpd : Nat
  maxIt : Nat
  keep : ℝ
  lock : Bool
  cplx : Bool
  tol : ℝ
  conv : ℂ → ℝ → ℝ
  inside : ℂ → Bool

/-- `EPSConvergedReason` as far as needed; `error` is a call that ends with an error code. -/
inductive Status
  | iterating
  | tol
  | divergedIts
  | breakdown
  | error
deriving DecidableEq

/-- State at the top of the loop: `its`, `nconv`, `l`, columns of the basis, projected matrix, buffer of the BV, eigenvalues, error
estimates, reason.  `drop` is a ghost: for a locked column, the entry of the extra row dropped when it was locked. -/
structure State (𝕜 E : Type) where
  its : Nat
  nconv : Nat
  l : Nat
  V : Nat → E
  A : Nat → Nat → 𝕜
  buf : Nat → Nat → 𝕜
  eig : Nat → ℂ
  err : Nat → Option ℝ
  status : Status
  drop : Nat → 𝕜

/-- An element of the field as a complex number. -/
def toC (x : 𝕜) : ℂ := ⟨RCLike.re x, RCLike.im x⟩

/-- Eigenvalues of the locked part with real scalars, dsutil.c:63-76: the loop from `j` (`fuel` bounds the number of iterations). -/
def lockedReal (l n : Nat) (T : Nat → Nat → 𝕜) : Nat → Nat → (Nat → ℂ) → (Nat → ℂ)
  | 0, _, e => e
  | fuel + 1, j, e =>
    if j < l then
      if j = n - 1 ∨ T (j + 1) j = 0 then
        lockedReal l n T fuel (j + 1) (fun i => if i = j then ⟨RCLike.re (T j j), 0⟩ else e i)
      else
        let w := Real.sqrt ‖T (j + 1) j‖ * Real.sqrt ‖T j (j + 1)‖
        lockedReal l n T fuel (j + 2)
          (fun i => if i = j then ⟨RCLike.re (T j j), w⟩ else if i = j + 1 then ⟨RCLike.re (T j j), -w⟩ else e i)
    else e

/-- The eigenvalues after `DSSolve`: those of the locked part are the diagonal entries with complex scalars (`LAPACKhseqr`,
dsutil.c:78), and recomputed with real scalars.  (`DSSort` starts at the locked size, dsutil.c:109; with real scalars the value
that the loop writes beyond the locked part stays if no reordering is needed, which is what is modelled.) -/
def values (cplx : Bool) (l n : Nat) (d : DenseOut 𝕜) : Nat → ℂ :=
  if cplx then fun j => if j < l then toC (d.T j j) else d.eig j
  else lockedReal l n d.T l 0 d.eig

/-- `DSUpdateExtraRow_NHEP` on the matrix, dsnhep.c:327-329. -/
def withRow (n : Nat) (d : DenseOut 𝕜) : Nat → Nat → 𝕜 := fun i j =>
  if i = n ∧ j < n then DS.updateRow n d.Q (d.T n) j else d.T i j

/-- `DSTruncate_NHEP` without trimming, dsnhep.c:408-412, after `DSUpdateExtraRow` (`k=n`): `l` locked, current size `n`, new size `n1`. -/
def truncated (l n n1 : Nat) (A : Nat → Nat → 𝕜) : Nat → Nat → 𝕜 := fun i j =>
  DS.truncMat true (l : Int) n n n1 (fun a b => A a.toNat b.toNat) (i : Int) (j : Int)

/-- `BVMultInPlace(V,U,s,e)` with active columns `s..n-1`, krylovschur.c:333. -/
def rotate (n s e : Nat) (Q : Nat → Nat → 𝕜) (V : Nat → E) : Nat → E := fun j =>
  if s ≤ j ∧ j < e then ∑ i ∈ Finset.Ico s n, Q i j • V i else V j

/-- Slots of the BV: constraints and the first `n` columns. -/
def slots (cs : List E) (V : Nat → E) (n : Nat) : List (Slot 𝕜 E) := (cs ++ cols V n).map fun v => mkSlot v 1

/-- `l` after the convergence check, krylovschur.c:296-300. -/
def newL (P : Params) (iterating breakdown : Bool) (nconv nv k : Nat) (A : Nat → Nat → 𝕜) : Nat :=
  if iterating = false ∨ breakdown = true ∨ k = nv then 0
  else
    let l0 := max 1 (Nat.floor (((nv - k : Nat) : ℝ) * P.keep))
    let d : DS.Dims := { DS.create .std with ld := P.ncv + 1, l := nconv, n := nv, k := nv, t := nv, extrarow := true, state := .condensed }
    (DS.getTruncateSize P.cplx d (fun j => decide (A j.toNat (j - 1).toNat ≠ 0)) k nv l0).toNat

/-- `EPSGetStartVector(eps,i,&breakdown)`, epssolve.c:917-951: `x` is the random vector (used if `i>0` or no initial
vector was given). -/
def startVector (f : E →ₗ⋆[𝕜] E →ₗ[𝕜] 𝕜) (o : OrthOpts) (cs : List E) (V : Nat → E) (i : Nat) (x : E) : E × Bool :=
  let q := orthonormalize f false o.mgs o.eta o.ref (slots (𝕜 := 𝕜) cs V i) x
  (q.1, q.2.lindep)

/-- The data of `EPSKrylovConvergence` as called at krylovschur.c:290 (`gamma=1`). -/
def convData (P : Params) (e : Nat → ℂ) (d : DenseOut 𝕜) (beta : ℝ) : KrylovData where
  pair := d.pair
  inside := fun j => P.inside (e j)
  est := fun j => some (P.conv (e j) (d.last j * beta))
  lest := fun _ => some 0
  twosided := false
  tol := P.tol

/-- What happens after the convergence check, krylovschur.c:293-347: `V`, `A1` are the basis and matrix after the solution of
the projected problem, `nv` the size, `bd` the breakdown flag, `k` the number of converged values, `reason` the one given by the
stopping test, `x` the random vector used for a new start. -/
def restart (f : E →ₗ⋆[𝕜] E →ₗ[𝕜] 𝕜) (o : OrthOpts) (cs : List E) (P : Params) (s : State 𝕜 E) (d : DenseOut 𝕜) (beta : ℝ)
    (V : Nat → E) (A1 buf : Nat → Nat → 𝕜) (eig : Nat → ℂ) (err : Nat → Option ℝ) (nv : Nat) (bd : Bool) (k : Nat) (reason : Reason) (x : E) :
    State 𝕜 E :=
  let l1 := newL P (decide (reason = .iterating)) bd s.nconv nv k A1
  let l := if P.lock = false ∧ 0 < l1 then l1 + k else l1
  let k := if P.lock = false ∧ 0 < l1 then 0 else k
  let drop : Nat → 𝕜 := fun j => if s.nconv ≤ j ∧ j < k then (beta : 𝕜) * d.Q (nv - 1) j else s.drop j
  match reason with
  | .iterating =>
    if bd = true ∨ k = nv then
      if k < P.nev then
        let q := startVector f o cs V k x
        let V1 : Nat → E := fun j => if j = k then q.1 else V j
        let V2 := rotate nv s.nconv (k + l) d.Q V1
        if q.2 then ⟨s.its + 1, k, l, V2, A1, buf, eig, err, .breakdown, drop⟩
        else ⟨s.its + 1, k, l, fun j => if j = k + l then V2 nv else V2 j, A1, buf, eig, err, .iterating, drop⟩
      else
        let V2 := rotate nv s.nconv (k + l) d.Q V
        ⟨s.its + 1, k, l, if bd then V2 else fun j => if j = k + l then V2 nv else V2 j, A1, buf, eig, err, .iterating, drop⟩
    else
      let V2 := rotate nv s.nconv (k + l) d.Q V
      ⟨s.its + 1, k, l, fun j => if j = k + l then V2 nv else V2 j, truncated s.nconv nv (k + l) A1, buf, eig, err, .iterating, drop⟩
  | .tol => ⟨s.its + 1, k, l, rotate nv s.nconv (k + l) d.Q V, A1, buf, eig, err, .tol, drop⟩
  | _ => ⟨s.its + 1, k, l, rotate nv s.nconv (k + l) d.Q V, A1, buf, eig, err, .divergedIts, drop⟩

/-- One iteration of the loop, krylovschur.c:255-348; `N` is the dimension of the space, `cs` the deflation space
(constraints of the basis). The check of `BVMatArnoldi` is bvkrylov.c:77. -/
def cycle (f : E →ₗ⋆[𝕜] E →ₗ[𝕜] 𝕜) (o : OrthOpts) (Op : E →ₗ[𝕜] E) (N : Nat) (cs : List E) (P : Params) (dense : Dense 𝕜)
    (rnd : Nat → E) (s : State 𝕜 E) : State 𝕜 E :=
  let nv0 := min (s.nconv + P.mpd) P.ncv
  if nv0 ≤ s.nconv + s.l then { s with status := .error }
  else
    let r := matArnoldi f o Op N cs.length (s.nconv + s.l) nv0 (P.ncv + 1) (slots cs s.V (s.nconv + s.l + 1)) s.buf s.A
    match dense (decide (s.l ≠ 0)) s.nconv r.m r.H with
    | none => { s with status := .error }
    | some d =>
      let e := values P.cplx s.nconv r.m d
      let c := krylovConvergence (convData P e d r.beta) false s.nconv (r.m - s.nconv) s.err
      restart f o cs P s d r.beta (fun i => (r.ss.map Slot.v).getD (cs.length + i) 0) (withRow r.m d) r.buf e c.2 r.m r.breakdown c.1
        (stoppingBasic (s.its + 1) P.maxIt c.1 P.nev) (rnd s.its)

/-- The loop `while (eps->reason == EPS_CONVERGED_ITERATING)`, at most `fuel` iterations. -/
def run (f : E →ₗ⋆[𝕜] E →ₗ[𝕜] 𝕜) (o : OrthOpts) (Op : E →ₗ[𝕜] E) (N : Nat) (cs : List E) (P : Params) (dense : Dense 𝕜)
    (rnd : Nat → E) : Nat → State 𝕜 E → State 𝕜 E
  | 0, s => s
  | fuel + 1, s => if s.status = .iterating then run f o Op N cs P dense rnd fuel (cycle f o Op N cs P dense rnd s) else s

/-- The state before the first iteration, krylovschur.c:251-252: `v` is the start vector. -/
def init (v : E) (buf : Nat → Nat → 𝕜) : State 𝕜 E :=
  ⟨0, 0, 0, fun _ => v, fun _ _ => 0, buf, fun _ => 0, fun _ => none, .iterating, fun _ => 0⟩

end
end Verif.EPS.KS
