import Mathlib.Analysis.Complex.ReImTopology
import Mathlib.Analysis.SpecialFunctions.Trigonometric.Basic

/-!
Specification of the regions as sets of complex numbers, taken from the manual pages of
`RGIntervalSetEndpoints`, `RGEllipseSetParameters`, `RGRingSetParameters` and `RGCheckInside`
("1=inside, 0=on the contour, -1=outside").  Nothing here refers to the model of the code.
-/
set_option linter.all false

namespace Verif.RG.Spec
open Complex

/-- `f` answers 1 in the interior, 0 on the (topological) boundary and -1 outside of `S`. -/
def Classifies (f : ℂ → ℤ) (S : Set ℂ) : Prop :=
  ∀ z, (f z = 1 ↔ z ∈ interior S) ∧ (f z = 0 ↔ z ∈ frontier S) ∧ (f z = -1 ↔ z ∉ closure S)

/-- The rectangle `[a,b] + i[c,d]`. -/
def rect (a b c d : ℝ) : Set ℂ := Set.Icc a b ×ℂ Set.Icc c d

/-- The point of polar coordinates `(ρ, θ)`, with `θ` in turns, stretched vertically by `v`. -/
noncomputable def polar (center : ℂ) (v ρ θ : ℝ) : ℂ :=
  ⟨center.re + ρ * Real.cos (2 * Real.pi * θ), center.im + v * (ρ * Real.sin (2 * Real.pi * θ))⟩

/-- The full ellipse with given centre, horizontal radius and vertical scale: image of the unit
disc. -/
def ellipse (center : ℂ) (radius v : ℝ) : Set ℂ :=
  {z | ∃ x y : ℝ, x ^ 2 + y ^ 2 ≤ 1 ∧ z = ⟨center.re + radius * x, center.im + radius * v * y⟩}

/-- The ellipse curve with given centre, horizontal radius and vertical scale. -/
def ellipseCurve (center : ℂ) (radius v : ℝ) : Set ℂ :=
  {z | ∃ x y : ℝ, x ^ 2 + y ^ 2 = 1 ∧ z = ⟨center.re + radius * x, center.im + radius * v * y⟩}

/-- Angles from `s` counterclockwise to `e` (crossing the zero angle when `s > e`). -/
def arc (s e : ℝ) : Set ℝ := if s ≤ e then Set.Icc s e else Set.Icc (s - 1) e

/-- The ring of the manual page: all points between the two concentric ellipses, with angle in
the given span. -/
def ring (center : ℂ) (radius v s e width : ℝ) : Set ℂ :=
  {z | ∃ ρ θ, |ρ - radius| ≤ width / 2 ∧ θ ∈ arc s e ∧ z = polar center v ρ θ}

/-- Points of the ring strictly between the two ellipses. -/
def ringOpen (center : ℂ) (radius v s e width : ℝ) : Set ℂ :=
  {z | ∃ ρ θ, |ρ - radius| < width / 2 ∧ θ ∈ arc s e ∧ z = polar center v ρ θ}

end Verif.RG.Spec
