import Verif.Text.Thm
import Mathlib.Tactic.FieldSimp
import Mathlib.Tactic.LinearCombination
/-!
C203: the value at which the basis is evaluated in `PEPExtractVectors_TOAR`, when the transformed matrices are computed (`STSetTransform` with true).
-/
set_option linter.all false
namespace Verif.Text
noncomputable section

/-- `ST` of type shift or shift-and-invert with its shift. -/
inductive Tr
  | shift (sigma : ℂ)
  | sinvert (sigma : ℂ)

/-- `STBackTransform_Shift` (src/sys/classes/st/impls/shift/shift.c:103-112) and `STBackTransform_Sinvert` (src/sys/classes/st/impls/sinvert/sinvert.c:65-69), complex arithmetic. -/
def back : Tr → ℂ → ℂ
  | .shift s, z => z + s
  | .sinvert s, z => 1 / z + s

/-- `pep->eigr` after `PEPSolve` (ptoar.c:573-587 and pepsolve.c:128-130) for the value `theta` of the linearization of the transformed polynomial, without scaling (`sfactor` equal to one). -/
def stored (t : Tr) (theta : ℂ) : ℂ := back t theta

/-- `er[i]` (src/pep/impls/krylov/pepkrylov.c:40-46) for a stored value, `sfactor` equal to one. -/
def used (t : Tr) (lambda : ℂ) : ℂ := back t (1 * lambda)

/-- Shift of the transformation. -/
def Tr.sigma : Tr → ℂ
  | .shift s => s
  | .sinvert s => s

/-- Without shift the basis is evaluated at the value of the linearization, so that structured extraction returns the eigenvectors. -/
theorem C203_structured_partial {V : Type} [AddCommGroup V] [Module ℂ V] (t : Tr) (hs : t.sigma = 0) (phi : ℕ → ℂ → ℂ) (h0 : ∀ z, phi 0 z = 1) (deg : ℕ) (hd : 0 < deg)
    (l : List (Sol V)) (h : ∀ s ∈ l, Lin phi deg s.2.1 s.2.2 s.1) (hu : ∀ s ∈ l, s.1.th = used t (stored t s.2.1)) :
    extract phi deg .structured (l.map Prod.fst) = l.map fun s => s.2.2 := by
  refine C203_exact_partial phi h0 deg hd .structured l h (Or.inr ⟨rfl, fun s hs' => ?_⟩)
  rw [hu s hs']
  cases t with
  | shift g =>
    have g0 : g = 0 := hs
    show 1 * (s.2.1 + g) + g = s.2.1
    rw [g0, add_zero, add_zero, one_mul]
  | sinvert g =>
    have g0 : g = 0 := hs
    show 1 / (1 * (1 / s.2.1 + g)) + g = s.2.1
    rw [g0, add_zero, add_zero, one_mul, one_div_one_div]

/-- With a nonzero shift the basis is always evaluated at another value (type shift). -/
theorem C203_value_false (sigma theta : ℂ) (h : sigma ≠ 0) : used (.shift sigma) (stored (.shift sigma) theta) ≠ theta := by
  show 1 * (theta + sigma) + sigma ≠ theta
  intro e
  exact h (by linear_combination e / 2)

/-- C203 is false for structured extraction: quadratic problem in the monomial basis, shift -1, eigenvalue 0 (1 in the transformed problem): the vector returned is zero. -/
theorem C203_structured_false : Lin (fun j z => z ^ j) 2 (1 : ℂ) (1 : ℂ) (mono (used (.shift (-1)) (stored (.shift (-1)) 1)) 1) ∧
    extract (fun j z => z ^ j) 2 .structured [mono (used (.shift (-1)) (stored (.shift (-1)) 1)) 1] = [0] := by
  have e : used (.shift (-1)) (stored (.shift (-1)) 1) = -1 := by
    show 1 * ((1 : ℂ) + -1) + -1 = -1
    ring
  rw [e]
  exact C203_structured_value_needed

/-- Hypotheses of `C203_structured_partial`: shift-and-invert with shift 0, value 2 of the linearization. -/
example : ∀ s ∈ [((mono (used (.sinvert 0) (stored (.sinvert 0) 2)) 2, 2, 1) : Sol ℂ)],
    Lin (fun j z => z ^ j) 2 s.2.1 s.2.2 s.1 ∧ s.1.th = used (.sinvert 0) (stored (.sinvert 0) s.2.1) := by
  intro s hs
  have h := List.mem_singleton.mp hs
  subst h
  exact ⟨fun j _ => by show (2 : ℂ) ^ j = (2 : ℂ) ^ j • (1 : ℂ); rw [smul_eq_mul, mul_one], rfl⟩

end
end Verif.Text
