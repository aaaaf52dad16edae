import Verif.GKL.Model
/-!
Model of the restart loops of SVDTRLANCZOS (two-sided variant, `src/svd/impls/trlanczos/trlanczos.c`) and SVDLANCZOS (two-sided variant, `src/svd/impls/lanczos/gklanczos.c`), in exact
arithmetic.  The dense solver (`DSSolve`, `DSSort` on the compact storage) is a parameter.  Not modelled: SVD_CONV_MAXIT, the threshold stopping test, monitors.
-/
set_option linter.all false
namespace Verif.GKL
noncomputable section
open Verif.BV Verif.BVB
variable {𝕜 E F : Type} [RCLike 𝕜] [NormedAddCommGroup E] [InnerProductSpace 𝕜 E] [NormedAddCommGroup F] [InnerProductSpace 𝕜 F]

/-- What the dense solver leaves: DS_MAT_U, DS_MAT_V and the singular values. -/
structure DenseOut where
  P : ℕ → ℕ → ℝ
  Q : ℕ → ℕ → ℝ
  w : ℕ → ℝ

/-- dssvd.c:397-456 DSSolve_SVD_QR (or the other methods) and DSSort_SVD in compact storage: `raw` if the state is DS_STATE_RAW, locked size `l`, intermediate size `k`, size `n`, the two columns
of DS_MAT_T; `none` is an error. -/
abbrev Dense := (raw : Bool) → (l k n : ℕ) → (alpha beta : ℕ → ℝ) → Option DenseOut

/-- Parameters: `nsv`, `ncv`, `mpd`, `max_it`, restart parameter, locking variant, `trackall`, tolerance, convergence test (singular value and residual norm to error estimate). -/
structure Params where
  nsv : ℕ
  ncv : ℕ
  mpd : ℕ
  maxIt : ℕ
  keep : ℝ
  lock : Bool
  trackall : Bool
  tol : ℝ
  conv : ℝ → ℝ → ℝ

/-- `SVDConvergedReason`; `error` is an error code, `nan` a vector divided by zero that becomes the start vector. -/
inductive Status
  | iterating
  | tol
  | divergedIts
  | breakdown
  | error
  | nan
deriving DecidableEq

/-- State at the top of the loop. -/
structure State (E F : Type) where
  its : ℕ
  nconv : ℕ
  l : ℕ
  B : Bid E F
  sigma : ℕ → ℝ
  err : ℕ → ℝ
  status : Status

open Classical in
/-- The loop gklanczos.c:206-214 from index `k`, `est` being the values computed by `svd->converged`: `*kout` and `errest`. -/
def convLoop (getall : Bool) (tol : ℝ) (est : ℕ → ℝ) : ℕ → ℕ → Option ℕ → (ℕ → ℝ) → ℕ × (ℕ → ℝ)
  | 0, k, marker, err => (marker.getD k, err)
  | fuel + 1, k, marker, err =>
    let err := wr err k (est k)
    let marker := if marker = none ∧ err k ≥ tol then some k else marker
    if marker ≠ none ∧ getall = false then (marker.getD k, err) else convLoop getall tol est fuel (k + 1) marker err

/-- svddefault.c SVDStoppingBasic. -/
def stopping (P : Params) (its k : ℕ) : Status := if k ≥ P.nsv then .tol else if its ≥ P.maxIt then .divergedIts else .iterating

variable (𝕜) in
/-- `BVMultInPlace(X,Q,s,e)` with active columns `s..n-1`. -/
def rotate {X : Type} [NormedAddCommGroup X] [InnerProductSpace 𝕜 X] (n s e : ℕ) (Q : ℕ → ℕ → ℝ) (V : ℕ → X) : ℕ → X :=
  fun j => if s ≤ j ∧ j < e then ∑ i ∈ Finset.Ico s n, (Q i j : 𝕜) • V i else V j

/-- The arrays of DS_MAT_T after DSSolve (dssvd.c:439-442), DSSort and DSUpdateExtraRow_SVD (dssvd.c:204-205): `alpha`. -/
def alphaNew (c nv : ℕ) (d : DenseOut) (alpha : ℕ → ℝ) : ℕ → ℝ := fun i => if c ≤ i ∧ i < nv then d.w i else alpha i
/-- The same for `beta`. -/
def betaNew (nv : ℕ) (d : DenseOut) (beta : ℕ → ℝ) : ℕ → ℝ := fun i => if i < nv then beta (nv - 1) * d.P (nv - 1) i else beta i

/-- SVDKrylovConvergence as called at trlanczos.c:502 and gklanczos.c:271, `beta` being the extra column: `k` and `errest`. -/
def converge (P : Params) (c nv : ℕ) (sigma beta err : ℕ → ℝ) : ℕ × (ℕ → ℝ) :=
  convLoop P.trackall P.tol (fun k => P.conv (sigma k) |beta k|) (nv - c) c none err

open Classical in
/-- trlanczos.c:475-556, one iteration; `x` is the random vector. -/
def trCycle (o : Opts) (A : E →ₗ[𝕜] F) (AT : F →ₗ[𝕜] E) (P : Params) (dense : Dense) (x : E) (s : State E F) : State E F :=
  let c := s.nconv
  let t := twoSide o A AT (c + s.l) (min (c + P.mpd) P.ncv) s.B
  let nv := t.2.1
  let bd := t.2.2
  let b := t.1.beta (nv - 1)
  let V := wr t.1.V nv (((1 / b : ℝ) : 𝕜) • t.1.V nv)
  if nv = 0 then { s with its := s.its + 1, status := .error }
  else match dense (decide (0 < s.l)) c (c + s.l) nv t.1.alpha t.1.beta with
  | none => { s with its := s.its + 1, status := .error }
  | some d =>
    let alpha := alphaNew c nv d t.1.alpha
    let beta := betaNew nv d t.1.beta
    let sigma := fun i => if c ≤ i ∧ i < nv then d.w i else s.sigma i
    let r := converge P c nv sigma beta s.err
    let reason := stopping P (s.its + 1) r.1
    let l1 := if reason ≠ .iterating ∨ bd = true ∨ r.1 = nv then 0 else max 1 (Nat.floor (((nv - r.1 : ℕ) : ℝ) * P.keep))
    let l := if P.lock = false ∧ 0 < l1 then l1 + r.1 else l1
    let k := if P.lock = false ∧ 0 < l1 then 0 else r.1
    let fresh := reason = .iterating ∧ (bd = true ∨ k = nv) ∧ k < P.nsv
    let q := orthon 𝕜 o V k x
    let V1 := if fresh then q.1 else V
    let bd1 := if fresh then q.2.2 else bd
    let reason1 := if fresh ∧ q.2.2 = true then .breakdown else reason
    let V2 := rotate 𝕜 nv c (k + l) d.Q V1
    let U2 := rotate 𝕜 nv c (k + l) d.P t.1.U
    let copy := reason1 = .iterating ∧ bd1 = false
    let V3 := if copy then wr V2 (k + l) (V2 nv) else V2
    let reason2 := if copy ∧ b = 0 ∧ k + l ≠ nv then .nan else reason1
    ⟨s.its + 1, k, l, ⟨V3, U2, alpha, beta⟩, sigma, r.2, reason2⟩

open Classical in
/-- gklanczos.c:245-317, one iteration; `x` is the random vector. -/
def lCycle (o : Opts) (A : E →ₗ[𝕜] F) (AT : F →ₗ[𝕜] E) (P : Params) (dense : Dense) (x : (ℕ → E) → ℕ → E) (s : State E F) : State E F :=
  let c := s.nconv
  let t := twoSide o A AT c (min (c + P.mpd) P.ncv) s.B
  let nv := t.2.1
  let b := t.1.beta (nv - 1)
  if nv = 0 then { s with its := s.its + 1, status := .error }
  else match dense false c 0 nv t.1.alpha t.1.beta with
  | none => { s with its := s.its + 1, status := .error }
  | some d =>
    let alpha := alphaNew c nv d t.1.alpha
    let beta := betaNew nv d t.1.beta
    let sigma := fun i => if c ≤ i ∧ i < nv then d.w i else s.sigma i
    let r := converge P c nv sigma beta s.err
    let k := r.1
    let reason := stopping P (s.its + 1) k
    let V := t.1.V
    let V1 := if reason = .iterating then
        (if k < nv then wr V nv (∑ j ∈ Finset.Ico c nv, (d.Q j k : 𝕜) • V j) else (orthon 𝕜 o V nv (x V nv)).1) else V
    let V2 := rotate 𝕜 nv c k d.Q V1
    let U2 := rotate 𝕜 nv c k d.P t.1.U
    let V3 := if reason = .iterating then wr V2 k (V2 nv) else V2
    ⟨s.its + 1, k, 0, ⟨V3, U2, alpha, beta⟩, sigma, r.2, reason⟩

/-- The loop with at most `m` iterations: `x i` is what the random generator gives in iteration `i`. -/
def trRun (o : Opts) (A : E →ₗ[𝕜] F) (AT : F →ₗ[𝕜] E) (P : Params) (dense : Dense) (x : ℕ → E) : ℕ → State E F → State E F
  | 0, s => s
  | m + 1, s => if s.status = .iterating then trRun o A AT P dense x m (trCycle o A AT P dense (x s.its) s) else s

/-- The same for SVDLANCZOS. -/
def lRun (o : Opts) (A : E →ₗ[𝕜] F) (AT : F →ₗ[𝕜] E) (P : Params) (dense : Dense) (x : ℕ → (ℕ → E) → ℕ → E) : ℕ → State E F → State E F
  | 0, s => s
  | m + 1, s => if s.status = .iterating then lRun o A AT P dense x m (lCycle o A AT P dense (x s.its) s) else s

/-! ### Specification -/

/-- `d` is a singular value decomposition of the active block `c..n-1` of the matrix `B`: orthonormal columns, `B Q = P Sigma`, `B^T P = Q Sigma`, nonnegative values; the locked columns of
`P` are those of the identity (dssvd.c:359-362). -/
structure IsSvd (c n : ℕ) (B : ℕ → ℕ → ℝ) (d : DenseOut) : Prop where
  onP : ∀ a b, c ≤ a → a < n → c ≤ b → b < n → ∑ i ∈ Finset.Ico c n, d.P i a * d.P i b = if a = b then 1 else 0
  onQ : ∀ a b, c ≤ a → a < n → c ≤ b → b < n → ∑ i ∈ Finset.Ico c n, d.Q i a * d.Q i b = if a = b then 1 else 0
  left : ∀ i a, c ≤ i → i < n → c ≤ a → a < n → ∑ j ∈ Finset.Ico c n, B i j * d.Q j a = d.P i a * d.w a
  right : ∀ j a, c ≤ j → j < n → c ≤ a → a < n → ∑ i ∈ Finset.Ico c n, B i j * d.P i a = d.Q j a * d.w a
  nonneg : ∀ a, c ≤ a → a < n → 0 ≤ d.w a

/-- The dense solver computes singular value decompositions of arrowhead-bidiagonal (raw) and of bidiagonal matrices. -/
def DenseOK (dense : Dense) : Prop := ∀ raw l k n alpha beta, 0 < n → l ≤ n → (raw = true → l ≤ k ∧ k < n) →
  ∃ d, dense raw l k n alpha beta = some d ∧ IsSvd l n (bent (if raw then k else l) alpha beta) d

/-- The first `c` triplets as left by the solver: orthonormal singular vectors, `A v_j = sigma_j u_j` up to left vectors with smaller index, the error estimate is the convergence test applied to
the norm of `A* u_j - sigma_j v_j` and is smaller than the tolerance. -/
structure Locked (A : E →ₗ[𝕜] F) (AT : F →ₗ[𝕜] E) (P : Params) (c : ℕ) (s : State E F) : Prop where
  onV : Insert.ON 𝕜 s.B.V c
  onU : Insert.ON 𝕜 s.B.U c
  nonneg : ∀ j < c, 0 ≤ s.sigma j
  right : ∀ j < c, A (s.B.V j) - (s.sigma j : 𝕜) • s.B.U j ∈ Biorth.spanOf 𝕜 s.B.U j
  est : ∀ j < c, s.err j = P.conv (s.sigma j) ‖AT (s.B.U j) - (s.sigma j : 𝕜) • s.B.V j‖
  acc : ∀ j < c, s.err j < P.tol

/-- The state of an iterating solver. -/
structure Good (A : E →ₗ[𝕜] F) (AT : F →ₗ[𝕜] E) (P : Params) (s : State E F) : Prop where
  kept : Kept A AT s.nconv (s.nconv + s.l) s.B
  locked : Locked A AT P s.nconv s
  same : ∀ j < s.nconv, s.B.alpha j = s.sigma j
  nsv : s.nconv < P.nsv
  room : s.nconv + s.l < min (s.nconv + P.mpd) P.ncv

end
end Verif.GKL
