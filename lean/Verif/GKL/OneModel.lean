import Verif.GKL.Model
/-!
Model of the one-sided bidiagonalizations of SVDTRLANCZOS (`SVDOneSideTRLanczosMGS`, `SVDOneSideTRLanczosCGS`) and SVDLANCZOS (`SVDOneSideLanczos`), in exact arithmetic.  A division by zero
(vectors of NaN from there on) and the error raised by PetscCheck are outcomes of their own.
-/
set_option linter.all false
namespace Verif.GKL
noncomputable section
open Verif.BV Verif.BVB Classical
variable {𝕜 E F : Type} [RCLike 𝕜] [NormedAddCommGroup E] [InnerProductSpace 𝕜 E] [NormedAddCommGroup F] [InnerProductSpace 𝕜 F]

/-- The outcomes of a one-sided bidiagonalization: arrays computed, error raised, or NaN in the arrays without an error. -/
inductive Res (α : Type) where
  | ok (r : α)
  | error
  | nan

/-- The loop trlanczos.c:284-304, `fuel` being `n-i`. -/
def mgsLoop (o : Opts) (A : E →ₗ[𝕜] F) (AT : F →ₗ[𝕜] E) : ℕ → ℕ → Bid E F → Res (Bid E F)
  | 0, _, s => .ok s
  | fuel + 1, i, s =>
    let v := orthon 𝕜 o s.V i (AT (s.U (i - 1)))
    let w := A (v.1 i) - (v.2.1 : 𝕜) • s.U (i - 1)
    if ‖w‖ = 0 then .nan
    else mgsLoop o A AT fuel (i + 1) ⟨v.1, wr s.U i (((1 / ‖w‖ : ℝ) : 𝕜) • w), wr s.alpha i ‖w‖, wr s.beta (i - 1) v.2.1⟩

/-- The first left vector before normalization, trlanczos.c:270-279 and 365-374: `BVMultColumn` subtracts the kept columns `c..c+l-1`. -/
def firstU (A : E →ₗ[𝕜] F) (c l : ℕ) (s : Bid E F) : F :=
  if 0 < l then A (s.V (c + l)) - ∑ i ∈ Finset.range l, (s.beta (i + c) : 𝕜) • s.U (c + i) else A (s.V (c + l))

/-- trlanczos.c:263-314 SVDOneSideTRLanczosMGS. -/
def oneMgs (o : Opts) (A : E →ₗ[𝕜] F) (AT : F →ₗ[𝕜] E) (c l n : ℕ) (s : Bid E F) : Res (Bid E F) :=
  let w := firstU A c l s
  if ‖w‖ = 0 then .nan
  else match mgsLoop o A AT (n - (c + l + 1)) (c + l + 1) ⟨s.V, wr s.U (c + l) (((1 / ‖w‖ : ℝ) : 𝕜) • w), wr s.alpha (c + l) ‖w‖, s.beta⟩ with
  | .error => .error
  | .nan => .nan
  | .ok r =>
    let z := orthog 𝕜 o r.V n (AT (r.U (n - 1)))
    .ok { r with V := z.1, beta := wr r.beta (n - 1) z.2.1 }

variable (𝕜) in
/-- `BVDotColumn` followed by `BVMultColumn(V,-1.0,1.0,i,h)` with active columns from `l`: one pass of classical Gram-Schmidt. -/
def cgsPass (l : ℕ) (V : ℕ → E) (i : ℕ) (w : E) : E := w - ∑ m ∈ Finset.Ico l i, (inner 𝕜 (V m) w : 𝕜) • V m

/-- trlanczos.c:319-355 SVDOrthogonalizeCGS: `h` the coefficients of the first pass, `dot` the entry `h[i]`, `x` the column after the first pass; new column and norm. -/
def cgsNorm (ref : Refine) (eta : ℝ) (V : ℕ → E) (i : ℕ) (h : ℕ → 𝕜) (dot : 𝕜) (a : ℝ) (x : E) : E × ℝ :=
  match ref with
  | .never => (x, ‖x‖)
  | .always => (cgsPass 𝕜 0 V i x, ‖cgsPass 𝕜 0 V i x‖)
  | .ifneeded =>
    let onorm := Real.sqrt (RCLike.re dot) / a
    let sum := ∑ j ∈ Finset.range i, RCLike.re (h j * (starRingEnd 𝕜) (h j))
    let n2 := RCLike.re dot / (a * a) - sum
    let norm := if n2 > 0 then Real.sqrt n2 else ‖x‖
    if norm < eta * onorm then (cgsPass 𝕜 0 V i x, ‖cgsPass 𝕜 0 V i x‖) else (x, norm)

variable (𝕜) in
/-- trlanczos.c:384-402 and 426-443: the first pass for the column `v` (not yet divided by `a`), then SVDOrthogonalizeCGS. -/
def cgsStep (o : Opts) (V : ℕ → E) (i : ℕ) (v : E) (a : ℝ) : E × ℝ :=
  let h : ℕ → 𝕜 := fun j => (inner 𝕜 (V j) v : 𝕜) / (a : 𝕜)
  cgsNorm o.ref o.eta V i h (inner 𝕜 v v : 𝕜) a (((1 / a : ℝ) : 𝕜) • v - ∑ m ∈ Finset.range i, h m • V m)

/-- The loop trlanczos.c:377-417; column `i-1` of `U` is not yet normalized; `thr` is `10*PETSC_MACHINE_EPSILON`.  With `a=0` the column becomes NaN and so does `b`; the
comparison of line 404 is false and the error is raised. -/
def cgsLoop (thr : ℝ) (o : Opts) (A : E →ₗ[𝕜] F) (AT : F →ₗ[𝕜] E) : ℕ → ℕ → Bid E F → Res (Bid E F)
  | 0, _, s => .ok s
  | fuel + 1, i, s =>
    let a := ‖s.U (i - 1)‖
    let q := cgsStep 𝕜 o s.V i (AT (s.U (i - 1))) a
    let U1 := wr s.U (i - 1) (((1 / a : ℝ) : 𝕜) • s.U (i - 1))
    let V1 := wr s.V i (((1 / q.2 : ℝ) : 𝕜) • q.1)
    if a = 0 then .error
    else if |q.2| > thr then
      cgsLoop thr o A AT fuel (i + 1) ⟨V1, wr U1 i (A (V1 i) - (q.2 : 𝕜) • U1 (i - 1)), wr s.alpha (i - 1) a, wr s.beta (i - 1) q.2⟩
    else .error

/-- trlanczos.c:357-448 SVDOneSideTRLanczosCGS. -/
def oneCgs (thr : ℝ) (o : Opts) (A : E →ₗ[𝕜] F) (AT : F →ₗ[𝕜] E) (c l n : ℕ) (s : Bid E F) : Res (Bid E F) :=
  match cgsLoop thr o A AT (n - (c + l + 1)) (c + l + 1) { s with U := wr s.U (c + l) (firstU A c l s) } with
  | .error => .error
  | .nan => .nan
  | .ok r =>
    let a := ‖r.U (n - 1)‖
    let q := cgsStep 𝕜 o r.V n (AT (r.U (n - 1))) a
    if a = 0 then .nan
    else .ok ⟨wr r.V n q.1, wr r.U (n - 1) (((1 / a : ℝ) : 𝕜) • r.U (n - 1)), wr r.alpha (n - 1) a, wr r.beta (n - 1) q.2⟩

/-- The data of SVDOneSideLanczos: right basis, the current left vector, the arrays. -/
structure Cur (E F : Type) where
  V : ℕ → E
  u : F
  alpha : ℕ → ℝ
  beta : ℕ → ℝ

variable (𝕜) in
/-- gklanczos.c:128-139: both passes of Gram-Schmidt, with active columns from `l`. -/
def lStep (l : ℕ) (V : ℕ → E) (i : ℕ) (v : E) (a : ℝ) : E :=
  cgsPass 𝕜 l V i (((1 / a : ℝ) : 𝕜) • v - ((1 / a : ℝ) : 𝕜) • ∑ m ∈ Finset.Ico l i, (inner 𝕜 (V m) v : 𝕜) • V m)

/-- The loop gklanczos.c:124-152, with the check of line 140. -/
def lLoop (thr : ℝ) (A : E →ₗ[𝕜] F) (AT : F →ₗ[𝕜] E) : ℕ → ℕ → Cur E F → Res (Cur E F)
  | 0, _, s => .ok s
  | fuel + 1, i, s =>
    let a := ‖s.u‖
    let y := lStep 𝕜 0 s.V i (AT s.u) a
    let V1 := wr s.V i (((1 / ‖y‖ : ℝ) : 𝕜) • y)
    if a = 0 then .error
    else if |‖y‖| > thr then
      lLoop thr A AT fuel (i + 1) ⟨V1, A (V1 i) - (‖y‖ : 𝕜) • ((1 / a : ℝ) : 𝕜) • s.u, wr s.alpha (i - 1) a, wr s.beta (i - 1) ‖y‖⟩
    else .error

/-- gklanczos.c:112-173 SVDOneSideLanczos: the result has no left basis.  `bvl` is the number of leading columns excluded on entry; it matters only if the loop does not run, since
gklanczos.c:129 resets it. -/
def oneL (thr : ℝ) (A : E →ₗ[𝕜] F) (AT : F →ₗ[𝕜] E) (bvl k n : ℕ) (V : ℕ → E) (alpha beta : ℕ → ℝ) : Res ((ℕ → E) × (ℕ → ℝ) × (ℕ → ℝ)) :=
  match lLoop thr A AT (n - (k + 1)) (k + 1) ⟨V, A (V k), alpha, beta⟩ with
  | .error => .error
  | .nan => .nan
  | .ok r =>
    let a := ‖r.u‖
    let y := lStep 𝕜 (if k + 1 < n then 0 else bvl) r.V n (AT r.u) a
    if a = 0 then .nan else .ok (wr r.V n y, wr r.alpha (n - 1) a, wr r.beta (n - 1) ‖y‖)

end
end Verif.GKL
