import Verif.MFN.KrylovModel
import Mathlib.Analysis.InnerProductSpace.Basic
/-!
Model of the Krylov solver for Lyapunov equations, src/lme/impls/krylov/lmekrylov.c, in exact arithmetic, on top of the model
of `BVMatArnoldi`.

The dense Lyapunov solver (`LMEDenseHessLyapunovChol`, see `DenseModel.lean`) and the SVD (`LMEDenseRankSVD`) are parameters.
Arrays are functions of row and column.  Memory management, monitors and the output matrices are not modelled.
-/
set_option linter.all false
namespace Verif.LME
noncomputable section
open Verif.BV Verif.MFN
variable {𝕜 : Type} [RCLike 𝕜] {E : Type} [NormedAddCommGroup E] [InnerProductSpace 𝕜 E]

/-- `LMEDenseHessLyapunovChol` as called at lmekrylov.c:114, followed by the transposition of lmekrylov.c:123-128: given the
size, the matrix and the norm of the right-hand side, the lower triangular factor (`none` for an error). -/
abbrev Dense (𝕜 : Type) := Nat → (Nat → Nat → 𝕜) → ℝ → Option (Nat → Nat → 𝕜)

/-- `LMEDenseRankSVD`, lmedense.c:21-51: given the size and the matrix, `U*S`, `V'` and the numerical rank. -/
abbrev RankSVD (𝕜 : Type) := Nat → (Nat → Nat → 𝕜) → Option ((Nat → Nat → 𝕜) × (Nat → Nat → 𝕜) × Nat)

/-- Parameters of the solver: `ncv`, `max_it`, `tol`, and the number of iterations of the previous right-hand
sides (`*totalits`). -/
structure Lim where
  ncv : Nat
  maxIt : Nat
  tol : ℝ
  totalits : Nat

/-- The gluing of lmekrylov.c:84-91; `first` if there is no previous matrix. -/
def glueL (n m : Nat) (M G : Nat → Nat → 𝕜) (first : Bool) (beta : ℝ) : Nat → Nat → 𝕜 := fun i j =>
  if first = false ∧ j < n ∧ i ≤ n then G i j
  else if i = n + m ∧ j = n + m - 1 then (beta : 𝕜)
  else if n ≤ i ∧ i < n + m ∧ n ≤ j ∧ j < n + m then M (i - n) (j - n)
  else 0

/-- How the first pass ends. -/
inductive Stat (𝕜 : Type) where
  | running
  | conv (L : Nat → Nat → 𝕜)
  | fail
  | error

/-- The state of the first pass: `its`, `n`, `m`, arrays `H` and `G`, the buffer of the BV, column 0 of the basis,
the last estimate. -/
structure P0 (𝕜 E : Type) where
  its : Nat
  n : Nat
  m : Nat
  M : Nat → Nat → 𝕜
  G : Nat → Nat → 𝕜
  buf : Nat → Nat → 𝕜
  v0 : E
  errest : ℝ
  stat : Stat 𝕜

/-- The norm of the last row of `L L^*`, by which the estimate is multiplied, lmedense.c:265. -/
def lastRow (n : Nat) (L : Nat → Nat → 𝕜) : ℝ :=
  Real.sqrt (∑ j ∈ Finset.range n, ‖∑ k ∈ Finset.range n, L (n - 1) k * star (L j k)‖ ^ 2)

/-- One iteration of the restart loop in the first pass, lmekrylov.c:75-148. -/
def cycle0 (f : E →ₗ⋆[𝕜] E →ₗ[𝕜] 𝕜) (o : OrthOpts) (A : E →ₗ[𝕜] E) (N : Nat) (P : Lim) (dense : Dense 𝕜) (bnorm : ℝ)
    (s : P0 𝕜 E) : P0 𝕜 E :=
  let r := matArnoldi f o A N 0 0 s.m (P.ncv + 1) [mkSlot s.v0 1] s.buf s.M
  let G := glueL s.n r.m r.H s.G (decide (s.its = 0)) r.beta
  let n := s.n + r.m
  let t : P0 𝕜 E := { s with its := s.its + 1, n := n, m := r.m, M := r.H, G := G, buf := r.buf }
  match dense n G bnorm with
  | none => { t with stat := .error }
  | some L =>
    let e := ‖G n (n - 1)‖ * lastRow n L
    if e < P.tol then { t with errest := e, stat := .conv L }
    else if P.maxIt ≤ P.totalits + (s.its + 1) then { t with errest := e, stat := .fail }
    else { t with errest := e, v0 := (r.ss.map Slot.v).getD r.m 0 }

/-- The restart loop of the first pass; `fuel` bounds the number of iterations. -/
def pass0 (f : E →ₗ⋆[𝕜] E →ₗ[𝕜] 𝕜) (o : OrthOpts) (A : E →ₗ[𝕜] E) (N : Nat) (P : Lim) (dense : Dense 𝕜) (bnorm : ℝ) :
    Nat → P0 𝕜 E → P0 𝕜 E
  | 0, s => s
  | fuel + 1, s =>
    match s.stat with
    | .running => pass0 f o A N P dense bnorm fuel (cycle0 f o A N P dense bnorm s)
    | _ => s

/-- The state of the second pass: `its+1`, `m`, `H`, buffer, column 0, and the columns of the factor. -/
structure P1 (𝕜 E : Type) where
  its : Nat
  m : Nat
  M : Nat → Nat → 𝕜
  buf : Nat → Nat → 𝕜
  v0 : E
  Z : Nat → E

/-- One iteration in the second pass: `Z = Z + V(:,1:m)*(U(blk,1:rank)*L(1:rank,1:rank))`, lmekrylov.c:79-80, 96-105, 147. -/
def cycle1 (f : E →ₗ⋆[𝕜] E →ₗ[𝕜] 𝕜) (o : OrthOpts) (A : E →ₗ[𝕜] E) (N ncv : Nat) (US Vt : Nat → Nat → 𝕜) (rank : Nat)
    (s : P1 𝕜 E) : P1 𝕜 E :=
  let r := matArnoldi f o A N 0 0 s.m (ncv + 1) [mkSlot s.v0 1] s.buf s.M
  let Q : Nat → Nat → 𝕜 := fun l c => ∑ k ∈ Finset.range rank, US (s.its * r.m + l) k * Vt k c
  { its := s.its + 1, m := r.m, M := r.H, buf := r.buf, v0 := (r.ss.map Slot.v).getD r.m 0,
    Z := fun c => s.Z c + if c < rank then ∑ l ∈ Finset.range r.m, Q l c • (r.ss.map Slot.v).getD l 0 else 0 }

/-- What the solution for one right-hand side vector gives. -/
inductive VecOut (E : Type) where
  | zeroRhs
  | error
  | fail (its : Nat)
  | done (rank : Nat) (nouter : Nat) (errest : ℝ) (Z : Nat → E)

/-- `rank`, lmekrylov.c:133-137: `rrank` is the rank available if `X1` was set by the user. -/
def rankOf (rrank : Option Nat) (lrank : Nat) : Nat :=
  match rrank with
  | none => lrank
  | some r => min lrank r

/-- The initial state, lmekrylov.c:59-72. -/
def start0 (P : Lim) (bnorm : ℝ) (b : E) (buf : Nat → Nat → 𝕜) : P0 𝕜 E :=
  ⟨0, 0, P.ncv, fun _ _ => 0, fun _ _ => 0, buf, ((bnorm⁻¹ : ℝ) : 𝕜) • b, 0, .running⟩

/-- The second pass, given the state at the end of the first one. -/
def pass1 (f : E →ₗ⋆[𝕜] E →ₗ[𝕜] 𝕜) (o : OrthOpts) (A : E →ₗ[𝕜] E) (N ncv : Nat) (US Vt : Nat → Nat → 𝕜) (rank : Nat)
    (s : P0 𝕜 E) (v0 : E) : P1 𝕜 E :=
  (cycle1 f o A N ncv US Vt rank)^[s.its] ⟨0, s.m, s.M, s.buf, v0, fun _ => 0⟩

/-- `LMESolve_Krylov_Lyapunov_Vec`, lmekrylov.c:48-158; the columns of the factor that belong to this right-hand side are
`Z 0, ..., Z (rank-1)` (they are added to the columns of `X1`, which are zero initially). -/
def lyapVec (f : E →ₗ⋆[𝕜] E →ₗ[𝕜] 𝕜) (o : OrthOpts) (A : E →ₗ[𝕜] E) (N : Nat) (P : Lim) (dense : Dense 𝕜) (svd : RankSVD 𝕜)
    (rrank : Option Nat) (b : E) (buf : Nat → Nat → 𝕜) : VecOut E :=
  if ‖b‖ = 0 then .zeroRhs
  else
    let s := pass0 f o A N P dense ‖b‖ (P.maxIt + 1) (start0 P ‖b‖ b buf)
    match s.stat with
    | .running => .error
    | .error => .error
    | .fail => .fail (P.totalits + s.its + 1)
    | .conv L =>
      match svd s.n L with
      | none => .error
      | some q =>
        let rank := rankOf rrank q.2.2
        .done rank s.its s.errest (pass1 f o A N P.ncv q.1 q.2.1 rank s (((‖b‖⁻¹ : ℝ) : 𝕜) • b)).Z

end
end Verif.LME
