import Mathlib.Analysis.SpecialFunctions.Trigonometric.Arctan
import Mathlib.Analysis.SpecialFunctions.Trigonometric.Basic
import Mathlib.Analysis.Complex.Basic

/-!
Model of the region objects RG (src/sys/classes/rg).

Scalars are exact reals; `PETSC_MAX_REAL` is a parameter `M`, `10*PETSC_MACHINE_EPSILON` a
parameter `eps`.  In the real build `ctx->center` is a real number and the point is `(ar[i],ai[i])`;
this is the same arithmetic as the complex build with a centre of zero imaginary part, so a single
model is used for the two builds wherever the C text agrees after this identification.  The one
place where the two texts differ (`RGComputeContour_Interval`) has a `realBuild` flag.
-/
set_option linter.all false

namespace Verif.RG

/-- `PetscSign` (PETSc macro used in rgellipse.c:241 and rgring.c:345,355). -/
noncomputable def psign (r : ℝ) : ℤ := if 0 ≤ r then (if r = 0 then 0 else 1) else -1

/-- The data of an interval region, rginterval.c:18-21. -/
structure Interval where
  (a b c d : ℝ)

/-- The data of an elliptic region, rgellipse.c:17-21. -/
structure Ellipse where
  center : ℂ
  radius : ℝ
  vscale : ℝ

/-- The data of a ring region, rgring.c:18-25. -/
structure Ring where
  center : ℂ
  radius : ℝ
  vscale : ℝ
  start_ang : ℝ
  end_ang : ℝ
  width : ℝ

/-- `RGIntervalSetEndpoints_Interval`, rginterval.c:23-41; `none` is an error return. -/
noncomputable def setEndpoints (realBuild : Bool) (a b c d : ℝ) : Option Interval :=
  if a = 0 ∧ b = 0 ∧ c = 0 ∧ d = 0 then none
  else if a = b ∧ a ≠ 0 then none
  else if ¬ a ≤ b then none
  else if c = d ∧ c ≠ 0 then none
  else if ¬ c ≤ d then none
  else if realBuild = true ∧ c ≠ -d then none
  else some ⟨a, b, c, d⟩

/-- First half of `RGCheckInside_Interval`, rginterval.c:297-299 (and the same tests of 301-303). -/
noncomputable def side (a b x : ℝ) : ℤ :=
  if a < x ∧ x < b then 1 else if x = a ∨ x = b then 0 else -1

/-- `RGCheckInside_Interval`, rginterval.c:292-306. -/
noncomputable def checkInterval (r : Interval) (dx dy : ℝ) : ℤ :=
  let inside := side r.a r.b dx
  if 0 ≤ inside then
    if r.c < dy ∧ dy < r.d then inside
    else if dy = r.c ∨ dy = r.d then 0
    else -1
  else inside

/-- `RGCheckInside_Ellipse`, rgellipse.c:227-243. -/
noncomputable def checkEllipse (e : Ellipse) (px py : ℝ) : ℤ :=
  let dx := (px - e.center.re) / e.radius
  let dy := (py - e.center.im) / e.radius
  psign (1 - dx * dx - (dy * dy) / (e.vscale * e.vscale))

/-- The angle computed in rgring.c:364-372, as a fraction of a turn (`-1` at the centre). -/
noncomputable def ringAngle (vscale dx dy : ℝ) : ℝ :=
  if dx = 0 then
    if dy = 0 then -1 else if 0 < dy then 0.25 else 0.75
  else if 0 < dx then
    if 0 ≤ dy then Real.arctan ((dy / vscale) / dx) / (2 * Real.pi)
    else Real.arctan ((dy / vscale) / dx) / (2 * Real.pi) + 1
  else Real.arctan ((dy / vscale) / dx) / (2 * Real.pi) + 0.5

/-- Angle test, rgring.c:373-377. -/
noncomputable def ringAngleTest (g : Ring) (r : ℝ) (inside : ℤ) : ℤ :=
  if g.end_ang < g.start_ang then
    if g.end_ang < r ∧ r < g.start_ang then -1 else inside
  else
    if r < g.start_ang ∨ g.end_ang < r then -1 else inside

/-- The outer ellipse test, rgring.c:336-345. -/
noncomputable def ringOuter (g : Ring) (px py : ℝ) : ℤ :=
  let dx := (px - g.center.re) / (g.radius + g.width / 2)
  let dy := (py - g.center.im) / (g.radius + g.width / 2)
  psign (1 - dx * dx - (dy * dy) / (g.vscale * g.vscale))

/-- The inner ellipse test, rgring.c:346-355 (for `radius ≠ width/2`, a division by zero
otherwise). -/
noncomputable def ringInner (g : Ring) (px py : ℝ) : ℤ :=
  let dx := (px - g.center.re) / (g.radius - g.width / 2)
  let dy := (py - g.center.im) / (g.radius - g.width / 2)
  psign (-1 + dx * dx + (dy * dy) / (g.vscale * g.vscale))

/-- `RGCheckInside_Ring`, rgring.c:330-380. -/
noncomputable def checkRing (g : Ring) (px py : ℝ) : ℤ :=
  let inside := ringOuter g px py * ringInner g px py
  if inside = 1 then
    ringAngleTest g (ringAngle g.vscale (px - g.center.re) (py - g.center.im)) inside
  else inside

/-- `RGRingSetParameters_Ring`, rgring.c:27-69, all arguments given explicitly (no
`PETSC_DETERMINE`/`PETSC_CURRENT`); `none` is an error return. -/
noncomputable def setRing (realBuild : Bool) (center : ℂ) (radius vscale s e width : ℝ) :
    Option Ring :=
  if ¬ 0 < radius then none
  else if ¬ 0 < vscale then none
  else if ¬ 0 ≤ s then none
  else if ¬ s ≤ 1 then none
  else if ¬ 0 ≤ e then none
  else if ¬ e ≤ 1 then none
  else if realBuild = true ∧ s + e ≠ 1 then none
  else if ¬ 0 < width then none
  else some ⟨center, radius, vscale, s, e, width⟩

/-- One pass of the loop of `RGCheckInside_Polygon`, rgpolygon.c:376-392, for the edge from
`(x,y)` to `(x',y')` (already translated, 366-374).  `none`: the function returned with
`*inout = 0` (line 389-390). -/
noncomputable def polyStep (eps x y x' y' : ℝ) (inout : ℤ) : Option ℤ :=
  let mx := decide (¬ x < 0)
  let nx := decide (¬ x' < 0)
  let my := decide (¬ y < 0)
  let ny := decide (¬ y' < 0)
  if !((my || ny) && (mx || nx)) || (mx && nx) then some inout
  else if (my && ny && (mx || nx)) && (!(mx && nx)) then some (-inout)
  else
    let val := (y * x' - x * y') / (x' - x)
    if |val| < eps then none
    else if 0 < val then some (-inout) else some inout

/-- The loop of rgpolygon.c:376-392 over the list of edges. -/
noncomputable def polyLoop (eps px py : ℝ) : List ((ℝ × ℝ) × (ℝ × ℝ)) → ℤ → ℤ
  | [], inout => inout
  | (p, q) :: rest, inout =>
    match polyStep eps (p.1 - px) (p.2 - py) (q.1 - px) (q.2 - py) inout with
    | none => 0
    | some io => polyLoop eps px py rest io

/-- The edges `(v_i, v_{(i+1) mod n})`, `i = 0..n-1`, in the order of rgpolygon.c:376-377. -/
def edges (v : List (ℝ × ℝ)) : List ((ℝ × ℝ) × (ℝ × ℝ)) := v.zip (v.rotate 1)

/-- `RGCheckInside_Polygon`, rgpolygon.c:358-394. -/
noncomputable def checkPolygon (eps : ℝ) (v : List (ℝ × ℝ)) (px py : ℝ) : ℤ :=
  polyLoop eps px py (edges v) (-1)

/-- The region types modelled. -/
inductive Shape where
  | interval (r : Interval)
  | ellipse (e : Ellipse)
  | ring (g : Ring)
  | polygon (v : List (ℝ × ℝ))

/-- `rg->ops->checkinside`. -/
noncomputable def checkShape (eps : ℝ) : Shape → ℝ → ℝ → ℤ
  | .interval r => checkInterval r
  | .ellipse e => checkEllipse e
  | .ring g => checkRing g
  | .polygon v => checkPolygon eps v

/-- The fields of `_p_RG` (include/slepc/private/rgimpl.h) that matter here. -/
structure RG where
  shape : Shape
  complement : Bool
  sfactor : ℝ
  osfactor : ℝ

/-- `RGCreate`/`RGSetType` initial values: `complement=FALSE`, `sfactor=1`, `osfactor=0`
(rgbasic.c:100-102). -/
def create (s : Shape) : RG := ⟨s, false, 1, 0⟩

/-- `RGCheckInside` for one point, rgbasic.c:431-445. -/
noncomputable def checkInside (eps : ℝ) (rg : RG) (x y : ℝ) : ℤ :=
  let px := if rg.sfactor ≠ 1 then x / rg.sfactor else x
  let py := if rg.sfactor ≠ 1 then y / rg.sfactor else y
  let v := checkShape eps rg.shape px py
  if rg.complement then -v else v

/-- `RGSetComplement`, rgbasic.c:676-683. -/
def setComplement (rg : RG) (f : Bool) : RG := { rg with complement := f }

/-- `RGSetScale`, rgbasic.c:727-736 (`PETSC_DEFAULT` not modelled); `none` is an error. -/
noncomputable def setScale (rg : RG) (s : ℝ) : Option RG :=
  if 0 < s then some { rg with sfactor := s } else none

/-- `RGPushScale`, rgbasic.c:782-792. -/
noncomputable def pushScale (rg : RG) (s : ℝ) : Option RG :=
  if ¬ 0 < s then none
  else if rg.osfactor ≠ 0 then none
  else some { rg with osfactor := rg.sfactor, sfactor := rg.sfactor * s }

/-- `RGPopScale`, rgbasic.c:806-814. -/
noncomputable def popScale (rg : RG) : Option RG :=
  if rg.osfactor = 0 then none
  else some { rg with sfactor := rg.osfactor, osfactor := 0 }

/-! ### Contours -/

/-- `RGComputeContour_Ellipse`, rgellipse.c:174-191, entry `i` of `n`. -/
noncomputable def contourEllipse (e : Ellipse) (n i : ℕ) : ℂ :=
  let theta := 2 * Real.pi * (i + 0.5) / n
  ⟨e.center.re + e.radius * Real.cos theta,
   e.center.im + e.radius * (e.vscale * Real.sin theta)⟩

/-- `RGComputeContour_Ring`, rgring.c:250-278, entry `i` of `n`. -/
noncomputable def contourRing (g : Ring) (n i : ℕ) : ℂ :=
  let n2 := n / 2
  let start := if g.end_ang < g.start_ang then g.start_ang - 1 else g.start_ang
  if i < n2 then
    let theta := ((g.end_ang - start) * i / n2 + start) * 2 * Real.pi
    ⟨g.center.re + (g.radius + g.width / 2) * Real.cos theta,
     g.center.im + (g.radius + g.width / 2) * (g.vscale * Real.sin theta)⟩
  else
    let theta := ((g.end_ang - start) * ((n - i : ℕ) : ℝ) / n2 + start) * 2 * Real.pi
    ⟨g.center.re + (g.radius - g.width / 2) * Real.cos theta,
     g.center.im + (g.radius - g.width / 2) * (g.vscale * Real.sin theta)⟩

/-- `Nv`, rginterval.c:192-196. -/
noncomputable def contourNv (r : Interval) (N : ℕ) : ℕ :=
  let t := ((r.d - r.c) / (r.d - r.c + r.b - r.a)) * N
  let nv := if t - ⌊t⌋ > 0.5 then ⌈t⌉.toNat else ⌊t⌋.toNat
  if nv = 0 then nv + 1 else if nv = N then nv - 1 else nv

/-- The array writes of the general branch of `RGComputeContour_Interval`, rginterval.c:190-230,
in program order, as (index, value). -/
noncomputable def contourWrites (realBuild : Bool) (r : Interval) (n : ℕ) : List (ℕ × ℂ) :=
  let N := n / 2
  let Nv := contourNv r N
  let Nh := N - Nv
  let hh := (r.b - r.a) / Nh
  let hv := (r.d - r.c) / Nv
  let k1 := Nv / 2 + 1
  let k0 := Nv - k1
  ((List.range' k1 (Nv - k1)).flatMap fun i =>
    [(i - k1, (⟨r.b, r.c + i * hv⟩ : ℂ)), (i - k1 + N, ⟨r.a, r.d - i * hv⟩)]) ++
  ((List.range Nh).flatMap fun i =>
    [(i + k0, (⟨r.b - i * hh, r.d⟩ : ℂ)), (i + k0 + N, ⟨r.a + i * hh, r.c⟩)]) ++
  ((List.range k1).flatMap fun i =>
    if realBuild then
      [(i + k0 + Nh, (⟨r.a, r.d + i * hv⟩ : ℂ)), (i + k0 + Nh + N, ⟨r.b, r.c - i * hv⟩)]
    else
      [(i + k0 + Nh, (⟨r.a, r.d - i * hv⟩ : ℂ)), (i + k0 + Nh + N, ⟨r.b, r.c + i * hv⟩)])

/-- The array writes of the degenerate branch, rginterval.c:179-189 (`n = 1` divides by zero). -/
noncomputable def contourLine (r : Interval) (n : ℕ) : List (ℕ × ℂ) :=
  let hv := if r.a = r.b then (r.d - r.c) / (n - 1) else 0
  let hh := if r.a = r.b then 0 else (r.b - r.a) / (n - 1)
  (List.range n).map fun i => (i, (⟨r.a + hh * i, r.c + hv * i⟩ : ℂ))

/-- `RGComputeContour_Interval`, rginterval.c:171-233: the sequence of array writes, `none` for
an error return. -/
noncomputable def contourInterval (M : ℝ) (realBuild : Bool) (r : Interval) (n : ℕ) :
    Option (List (ℕ × ℂ)) :=
  if ¬ (-M < r.a ∧ r.b < M ∧ -M < r.c ∧ r.d < M) then none
  else if r.a = r.b ∨ r.c = r.d then some (contourLine r n)
  else if ¬ 3 < n then none
  else some (contourWrites realBuild r n)

/-! ### Bounding boxes -/

/-- A box `[a,b] × [c,d]`. -/
structure Box where
  (a b c d : ℝ)

/-- `RGComputeBoundingBox_Polygon`, rgpolygon.c:332-356. -/
noncomputable def bboxPolygon (M : ℝ) (v : List (ℝ × ℝ)) : Box :=
  v.foldl (fun B p => ⟨min B.a p.1, max B.b p.1, min B.c p.2, max B.d p.2⟩) ⟨M, -M, M, -M⟩

/-- `rg->ops->computebbox`: rginterval.c:235-245, rgellipse.c:193-203, rgring.c:280-291,
rgpolygon.c:332-356. -/
noncomputable def bboxShape (M : ℝ) : Shape → Box
  | .interval r => ⟨r.a, r.b, r.c, r.d⟩
  | .ellipse e => ⟨e.center.re - e.radius, e.center.re + e.radius,
      e.center.im - e.radius * e.vscale, e.center.im + e.radius * e.vscale⟩
  | .ring g => ⟨g.center.re - (g.radius + g.width / 2), g.center.re + (g.radius + g.width / 2),
      g.center.im - (g.radius + g.width / 2) * g.vscale,
      g.center.im + (g.radius + g.width / 2) * g.vscale⟩
  | .polygon v => bboxPolygon M v

/-- `RGComputeBoundingBox`, rgbasic.c:597-616. -/
noncomputable def boundingBox (M : ℝ) (rg : RG) : Box :=
  if rg.complement then ⟨-M, M, -M, M⟩
  else
    let B := bboxShape M rg.shape
    ⟨if B.a ≠ -M then B.a * rg.sfactor else B.a,
     if B.b ≠ M then B.b * rg.sfactor else B.b,
     if B.c ≠ -M then B.c * rg.sfactor else B.c,
     if B.d ≠ M then B.d * rg.sfactor else B.d⟩

/-! ### Axisymmetry -/

/-- `RGIsAxisymmetric`, rgbasic.c:470-479 with rginterval.c:308-316, rgellipse.c:245-253,
rgring.c:382-390; polygons have no such method, so the answer is the default `FALSE`. -/
noncomputable def isAxisymmetric (rg : RG) (vertical : Bool) : Bool :=
  match rg.shape with
  | .interval r => if vertical then decide (r.a = -r.b) else decide (r.c = -r.d)
  | .ellipse e => if vertical then decide (e.center.re = 0) else decide (e.center.im = 0)
  | .ring g =>
    if vertical then decide (g.center.re = 0 ∧ |g.start_ang + g.end_ang - 1| = 0.5)
    else decide (g.center.im = 0 ∧ g.start_ang + g.end_ang = 1)
  | .polygon _ => false

/-- `RGCanUseConjugates`, rgbasic.c:505-527. -/
noncomputable def canUseConjugates (M : ℝ) (complexBuild : Bool) (rg : RG) (realmats : Bool) :
    Bool :=
  complexBuild && realmats && isAxisymmetric rg false &&
    decide ((boundingBox M rg).c ≠ (boundingBox M rg).d)

end Verif.RG
