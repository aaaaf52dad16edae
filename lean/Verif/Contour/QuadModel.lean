import Verif.RG.Model
import Mathlib.Algebra.BigOperators.Fin

/-!
Model of `RGComputeQuadrature` (src/sys/classes/rg) and of the rescaling of the eigenvalues obtained
by the Hankel extraction (`rescale_eig`, src/eps/impls/ciss/ciss.c).

Exact scalars.  Every definition gives entry `i` of the arrays of length `n`; `s` is `rg->sfactor`.
-/
set_option linter.all false

namespace Verif.Contour

open Verif.RG Finset

/-- `theta` of rgellipse.c:218, rginterval.c:258, rgring.c:305. -/
noncomputable def chebTheta (n i : ℕ) : ℝ := Real.pi * (i + 0.5) / n

/-- `zn[i]` of the Chebyshev rules, rgellipse.c:219, rginterval.c:259, rgring.c:306. -/
noncomputable def chebZn (n i : ℕ) : ℝ := Real.cos (chebTheta n i)

/-- `w[i]` of the Chebyshev rules, rgellipse.c:220, rginterval.c:260, rgring.c:307. -/
noncomputable def chebW (n i : ℕ) : ℝ := Real.cos (((n : ℝ) - 1) * chebTheta n i) / n

/-- `RGComputeQuadrature_Ellipse`, complex build, rgellipse.c:214-215: `zn[i]`. -/
noncomputable def ellZn (e : Ellipse) (n i : ℕ) : ℂ :=
  let theta := 2 * Real.pi * (i + 0.5) / n
  ⟨Real.cos theta, e.vscale * Real.sin theta⟩

/-- `RGComputeQuadrature_Ellipse`, complex build, rgellipse.c:216: `w[i]`. -/
noncomputable def ellW (e : Ellipse) (s : ℝ) (n i : ℕ) : ℂ :=
  let theta := 2 * Real.pi * (i + 0.5) / n
  (⟨e.vscale * Real.cos theta, Real.sin theta⟩ : ℂ) * e.radius * s / n

/-- `z[i]` for the ellipse, complex build: `RGComputeContour`, rgbasic.c:553-576 (not modified by
the quadrature routine). -/
noncomputable def ellZ (e : Ellipse) (s : ℝ) (n i : ℕ) : ℂ := s * contourEllipse e n i

/-- `z[i]` for the ellipse, real build, rgellipse.c:221. -/
noncomputable def ellZReal (e : Ellipse) (s : ℝ) (n i : ℕ) : ℝ :=
  s * (e.center.re + e.radius * chebZn n i)

/-- `z[i]` for the interval with the Chebyshev rule, rginterval.c:256-268; `none` is an error
return. -/
noncomputable def ivChebZ (r : Interval) (s : ℝ) (n i : ℕ) : Option ℂ :=
  if ¬ ((r.c = r.d ∧ r.c = 0) ∨ (r.a = r.b ∧ r.a = 0)) then none
  else if r.c = r.d then some ((((chebZn n i + 1) * (r.b - r.a) / 2 + r.a) * s : ℝ) : ℂ)
  else some ((((chebZn n i + 1) * (r.d - r.c) / 2 + r.c) * s : ℝ) * Complex.I)

/-- `z[i]` for the ring with the Chebyshev rule, rgring.c:308-309. -/
noncomputable def ringChebZ (g : Ring) (s : ℝ) (n i : ℕ) : ℂ :=
  let theta := (g.start_ang * 2 + (g.end_ang - g.start_ang) * (chebZn n i + 1)) * Real.pi
  s * (g.center + g.radius * (⟨Real.cos theta, g.vscale * Real.sin theta⟩ : ℂ))

/-- `tmp/tmp2` of the trapezoidal rules before the normalization, rginterval.c:279-284,
rgring.c:317-322. -/
noncomputable def trapRaw (z : ℕ → ℂ) (n i : ℕ) : ℂ :=
  (∏ j ∈ range n, z j) / ∏ j ∈ (range n).filter (fun j => j ≠ i), (z j - z i)

/-- `max_w`, rginterval.c:250,285, rgring.c:296,323. -/
noncomputable def trapMax (z : ℕ → ℂ) (n : ℕ) : ℝ :=
  (List.range n).foldl (fun m i => max ‖trapRaw z n i‖ m) 0

/-- `w[i]` of the trapezoidal rules, rginterval.c:284,287, rgring.c:322,325. -/
noncomputable def trapW (z : ℕ → ℂ) (n i : ℕ) : ℂ := trapRaw z n i / (trapMax z n : ℂ)

/-- `zn[i]` of the trapezoidal rule on an interval, complex build, rginterval.c:272-278; `z` is the
scaled contour point. -/
noncomputable def ivTrapZn (r : Interval) (s : ℝ) (z : ℂ) : ℂ :=
  let center := (⟨r.b + r.a, r.d + r.c⟩ : ℂ) * s / 2
  let radius := Real.sqrt ((s * (r.b - r.a) / 2) ^ 2 + (s * (r.d - r.c) / 2) ^ 2)
  (z - center) / radius

/-- `zn[i]` of the trapezoidal rule on a ring, rgring.c:316. -/
noncomputable def ringTrapZn (g : Ring) (s : ℝ) (z : ℂ) : ℂ :=
  (z - s * g.center) / (s * g.radius)

/-- `rescale_eig` with the Hankel extraction on an ellipse, ciss.c:174-176. -/
noncomputable def rescaleEllipse (e : Ellipse) (s : ℝ) (lam : ℂ) : ℂ :=
  s * (e.center + e.radius * lam)

/-- `rescale_eig` with the Hankel extraction on an interval, complex build, ciss.c:161-172 and
177-193. -/
noncomputable def rescaleInterval (cheb : Bool) (r : Interval) (s : ℝ) (lam : ℂ) : ℂ :=
  let lam := if r.c = r.d then ((lam.re : ℝ) : ℂ) else lam
  if cheb then
    let lam := if r.c = r.d then ((lam + 1) * ((r.b - r.a : ℝ) : ℂ) / 2 + r.a) * s else lam
    if r.a = r.b then ((lam + 1) * ((r.d - r.c : ℝ) : ℂ) / 2 + r.c) * s * Complex.I else lam
  else
    let center : ℂ := (((r.b + r.a) / 2 + (r.d + r.c) / 2 * Real.pi : ℝ) : ℂ)
    let radius := Real.sqrt (((r.b - r.a) / 2) ^ 2 + ((r.d - r.c) / 2) ^ 2)
    center + radius * lam

/-- `rescale_eig` with the Hankel extraction on a ring, ciss.c:194-205. -/
noncomputable def rescaleRing (cheb : Bool) (g : Ring) (s : ℝ) (lam : ℂ) : ℂ :=
  if cheb then
    let theta := (g.start_ang * 2 + (g.end_ang - g.start_ang) * (lam.re + 1)) * Real.pi
    s * g.center + ((s * g.radius + lam.im : ℝ) : ℂ) *
      (⟨Real.cos theta, g.vscale * Real.sin theta⟩ : ℂ)
  else s * (g.center + g.radius * lam)

end Verif.Contour
