import Mathlib.Analysis.InnerProductSpace.PiL2
import Mathlib.Tactic

/-!
# Two-dimensional examples: vectors and operators
-/

set_option linter.all false

namespace Verif.Iter

/-- the plane -/
abbrev E2 := EuclideanSpace ℂ (Fin 2)

/-- a vector -/
noncomputable def vec2 (a b : ℂ) : E2 := !₂[a, b]

/-- the operator with matrix `[[a,b],[c,d]]` -/
noncomputable def op2 (a b c d : ℂ) : E2 →ₗ[ℂ] E2 where
  toFun x := vec2 (a * x 0 + b * x 1) (c * x 0 + d * x 1)
  map_add' x y := by
    ext i; fin_cases i <;> simp [vec2] <;> ring
  map_smul' r x := by
    ext i; fin_cases i <;> simp [vec2] <;> ring

theorem op2_vec (a b c d x y : ℂ) : op2 a b c d (vec2 x y) = vec2 (a * x + b * y) (c * x + d * y) := by
  show vec2 _ _ = _
  simp [vec2]

theorem inner2 (a b c d : ℂ) : inner ℂ (vec2 a b) (vec2 c d) = star a * c + star b * d := by
  simp [vec2, PiLp.inner_apply, Fin.sum_univ_two, mul_comm]

theorem smul2 (r a b : ℂ) : r • vec2 a b = vec2 (r * a) (r * b) := by
  ext i; fin_cases i <;> simp [vec2]

theorem add2 (a b c d : ℂ) : vec2 a b + vec2 c d = vec2 (a + c) (b + d) := by
  ext i; fin_cases i <;> simp [vec2]

theorem sub2 (a b c d : ℂ) : vec2 a b - vec2 c d = vec2 (a - c) (b - d) := by
  ext i; fin_cases i <;> simp [vec2]

theorem vec2_zero (a b : ℂ) (i : Fin 2) : vec2 a b i = if i = 0 then a else b := by
  fin_cases i <;> simp [vec2]

theorem vec2_inj {a b c d : ℂ} (h : vec2 a b = vec2 c d) : a = c ∧ b = d := by
  have h0 := congrArg (fun v : E2 => v 0) h
  have h1 := congrArg (fun v : E2 => v 1) h
  simpa [vec2] using And.intro h0 h1

theorem norm2_sq (a b : ℂ) : ‖vec2 a b‖ ^ 2 = ‖a‖ ^ 2 + ‖b‖ ^ 2 := by
  rw [EuclideanSpace.norm_sq_eq]; simp [vec2, Fin.sum_univ_two]

theorem norm2_of {a b : ℂ} {r : ℝ} (hr : 0 ≤ r) (h : ‖a‖ ^ 2 + ‖b‖ ^ 2 = r ^ 2) : ‖vec2 a b‖ = r := by
  have := norm2_sq a b
  rw [h] at this
  exact (sq_eq_sq₀ (norm_nonneg _) hr).mp this

/-- the first entry -/
noncomputable def fst2 : E2 →ₗ[ℂ] ℂ where
  toFun x := x 0
  map_add' x y := rfl
  map_smul' r x := rfl

theorem fst2_vec (a b : ℂ) : fst2 (vec2 a b) = a := by show (vec2 a b) 0 = a; simp [vec2]

end Verif.Iter
