import Verif.Text.Value
import Mathlib.Algebra.Module.LinearMap.Basic
import Mathlib.Tactic.Module
/-!
C203: structured extraction of a conjugate pair in real arithmetic.
-/
set_option linter.all false
namespace Verif.Text
noncomputable section

variable {E V : Type} [AddCommGroup E] [Module ℝ E] [AddCommGroup V] [Module ℝ V]

/-- Structured extraction of a pair (src/pep/impls/krylov/pepkrylov.c:122-150, real arithmetic, `ei[i]` not zero): `X1`, `X2` are columns `i`, `i+1` of `X`, `S j` is block `j` of the tensor basis times `V`,
`z` is `er[i]+i*ei[i]`; `vals`, `ivals` are the real and imaginary parts of the values of the basis. The result is the pair of columns. -/
def structuredPair (phi : ℕ → ℂ → ℂ) (deg : ℕ) (S : ℕ → E →ₗ[ℝ] V) (X1 X2 : E) (z : ℂ) : V × V :=
  ((∑ j ∈ Finset.range deg, ‖phi j z‖ ^ 2)⁻¹ • ∑ j ∈ Finset.range deg, S j ((phi j z).re • X1 + (phi j z).im • X2),
   (∑ j ∈ Finset.range deg, ‖phi j z‖ ^ 2)⁻¹ • ∑ j ∈ Finset.range deg, S j ((phi j z).re • X2 + (-(phi j z).im) • X1))

/-- Value at which the basis is evaluated for a pair with value `theta` of the linearization (shift-and-invert, shift `sigma` real, `sfactor` one): the stored value is `back theta`; if `flipped`, the sign of its imaginary
part has been changed in the loop at the end of `PEPSolve` (src/pep/interface/pepsolve.c:137-141) before the vectors are computed; then `STBackTransform` (pepkrylov.c:46). -/
def usedPair (t : Tr) (flipped : Bool) (theta : ℂ) : ℂ :=
  used t (if flipped then (starRingEnd ℂ) (stored t theta) else stored t theta)

/-- Specification: block `j` of the Ritz vector `X1 + i X2` is `phi_j(theta) (x + i y)`. -/
def LinPair (phi : ℕ → ℂ → ℂ) (deg : ℕ) (S : ℕ → E →ₗ[ℝ] V) (X1 X2 : E) (theta : ℂ) (x y : V) : Prop :=
  ∀ j < deg, S j X1 = (phi j theta).re • x - (phi j theta).im • y ∧ S j X2 = (phi j theta).im • x + (phi j theta).re • y

/-- The pair returned is the eigenvector if the pair is not exchanged before the vectors are computed and there is no shift. -/
theorem C203_pair_partial (t : Tr) (hs : t.sigma = 0) (phi : ℕ → ℂ → ℂ) (h0 : ∀ z, phi 0 z = 1) (deg : ℕ) (hd : 0 < deg) (S : ℕ → E →ₗ[ℝ] V) (X1 X2 : E) (theta : ℂ) (x y : V)
    (h : LinPair phi deg S X1 X2 theta x y) : structuredPair phi deg S X1 X2 (usedPair t false theta) = (x, y) := by
  have hu : usedPair t false theta = theta := by
    cases t with
    | shift g =>
      have g0 : g = 0 := hs
      show 1 * (theta + g) + g = theta
      rw [g0, add_zero, add_zero, one_mul]
    | sinvert g =>
      have g0 : g = 0 := hs
      show 1 / (1 * (1 / theta + g)) + g = theta
      rw [g0, add_zero, add_zero, one_mul, one_div_one_div]
  rw [hu]
  have p : (0 : ℝ) < ∑ j ∈ Finset.range deg, ‖phi j theta‖ ^ 2 := by
    have h1 : ‖phi 0 theta‖ ^ 2 ≤ ∑ j ∈ Finset.range deg, ‖phi j theta‖ ^ 2 :=
      Finset.single_le_sum (f := fun j => ‖phi j theta‖ ^ 2) (fun j _ => sq_nonneg _) (Finset.mem_range.mpr hd)
    rw [h0, norm_one, one_pow] at h1
    exact lt_of_lt_of_le one_pos h1
  have n2 : ∀ j, ‖phi j theta‖ ^ 2 = (phi j theta).re * (phi j theta).re + (phi j theta).im * (phi j theta).im := fun j => by
    rw [← Complex.normSq_eq_norm_sq, Complex.normSq_apply]
  unfold structuredPair
  refine Prod.ext ?_ ?_
  · have e : ∑ j ∈ Finset.range deg, S j ((phi j theta).re • X1 + (phi j theta).im • X2) = (∑ j ∈ Finset.range deg, ‖phi j theta‖ ^ 2) • x := by
      rw [Finset.sum_smul]
      refine Finset.sum_congr rfl fun j hj => ?_
      obtain ⟨a, b⟩ := h j (Finset.mem_range.mp hj)
      rw [map_add, map_smul, map_smul, a, b, n2]
      module
    show _ • _ = x
    rw [e, smul_smul, inv_mul_cancel₀ p.ne', one_smul]
  · have e : ∑ j ∈ Finset.range deg, S j ((phi j theta).re • X2 + (-(phi j theta).im) • X1) = (∑ j ∈ Finset.range deg, ‖phi j theta‖ ^ 2) • y := by
      rw [Finset.sum_smul]
      refine Finset.sum_congr rfl fun j hj => ?_
      obtain ⟨a, b⟩ := h j (Finset.mem_range.mp hj)
      rw [map_add, map_smul, map_smul, a, b, n2]
      module
    show _ • _ = y
    rw [e, smul_smul, inv_mul_cancel₀ p.ne', one_smul]

/-- Blocks of an eigenvector of the linearization for the value `i` of a quadratic problem, eigenvector `1 + 0 i`: block 0 is `1`, block 1 is `i`. -/
def blk (j : ℕ) : ℝ × ℝ →ₗ[ℝ] ℝ :=
  if j = 0 then LinearMap.fst ℝ ℝ ℝ else -LinearMap.snd ℝ ℝ ℝ

/-- Hypotheses of `C203_pair_partial`. -/
theorem blk_lin : LinPair (fun j z => z ^ j) 2 blk (1, 0) (0, -1) Complex.I 1 0 := by
  intro j hj
  rcases (by omega : j = 0 ∨ j = 1) with h | h
  · subst h; simp [blk]
  · subst h; simp [blk]

/-- C203 is false for the pair exchanged before the vectors are computed: shift-and-invert with shift 0, value `i` of the linearization (eigenvalue `-i`, as in an undamped quadratic problem): both columns returned are zero. -/
theorem C203_pair_false : LinPair (fun j z => z ^ j) 2 blk (1, 0) (0, -1) Complex.I 1 0 ∧ (stored (.sinvert 0) Complex.I).im < 0 ∧
    structuredPair (fun j z => z ^ j) 2 blk (1, 0) (0, -1) (usedPair (.sinvert 0) true Complex.I) = (0, 0) := by
  have e : usedPair (.sinvert 0) true Complex.I = -Complex.I := by
    show 1 / (1 * (starRingEnd ℂ) (1 / Complex.I + 0)) + 0 = -Complex.I
    simp
  refine ⟨blk_lin, ?_, ?_⟩
  · show (1 / Complex.I + 0).im < 0
    simp
  · rw [e]
    unfold structuredPair
    refine Prod.ext ?_ ?_
    · simp [Finset.sum_range_succ, blk]
    · simp [Finset.sum_range_succ, blk]

end
end Verif.Text
