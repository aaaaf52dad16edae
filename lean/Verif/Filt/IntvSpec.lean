import Verif.Filt.Model

/-! # Specification for the intervals of the FILTLAN filter -/

set_option linter.all false

namespace Verif.Filt

/-- The break points `x` of a filter for the wanted interval `[a1,b1]` inside `[a,b]`: ordered, with
the ends of the range at both ends; the base function is flat on the first interval and (mid-pass
filter, 6 points) on the third and the fifth, and the wanted interval lies strictly between the end
of the first interval and the beginning of the last one (mid-pass filter) or the end of the range. -/
structure IsPartition (a a1 b1 b : ℝ) (np : ℕ) (x : ℕ → ℝ) : Prop where
  num : np = if b = b1 then 4 else 6
  first : x 0 = a
  last : x (np - 1) = b
  left : a ≤ x 1 ∧ x 1 < a1
  mid : x 1 < x 2 ∧ x 2 < x 3
  right : b ≠ b1 → x 3 < x 4 ∧ b1 < x 4 ∧ x 4 ≤ b

/-- `gamma` is the smallest value of `F` at the ends of `[a1,b1]` and the grid points between. -/
def IsGridMin (a1 b1 gs : ℝ) (F : ℝ → ℝ) (gamma : ℝ) : Prop :=
  IsLeast {y | ∃ x, (x = a1 ∨ x = b1 ∨ ∃ k : ℕ, 1 ≤ k ∧ x = a1 + k * gs ∧ x < b1) ∧ y = F x} gamma

/-- Values `y k` at the grid points outside the wanted interval, numbered from its end `k = 0`, as
long as `ins k`: they decrease up to a first point `m - 1`, `m` is the first increase, and the
points beyond `m` exceed neither `lim` nor the value at the local minimum `m - 1`. -/
def RippleOk (y : ℕ → ℝ) (ins : ℕ → Prop) (lim : ℝ) : Prop :=
  ∃ m, 1 ≤ m ∧ (∀ j, 1 ≤ j → j < m → y j ≤ y (j - 1)) ∧ (ins m → y (m - 1) < y m) ∧
    ∀ j, m < j → ins j → y j ≤ max (y (m - 1)) lim

end Verif.Filt
