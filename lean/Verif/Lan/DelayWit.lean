import Verif.Lan.DelayThm

/-! # C159: witnesses for delayed Arnoldi -/
set_option linter.all false

namespace Verif.Lan

open Finset Verif.Iter

abbrev E3 := EuclideanSpace ℂ (Fin 3)

noncomputable def vec3 (a b c : ℂ) : E3 := !₂[a, b, c]

/-- The operator `x ↦ (0, ε x0, x1)`. -/
noncomputable def shift3 (ε : ℂ) : E3 →ₗ[ℂ] E3 where
  toFun x := vec3 0 (ε * x 0) (x 1)
  map_add' x y := by ext i; fin_cases i <;> simp [vec3]; ring
  map_smul' r x := by ext i; fin_cases i <;> simp [vec3]; ring

theorem shift3_vec (ε a b c : ℂ) : shift3 ε (vec3 a b c) = vec3 0 (ε * a) b := by
  show vec3 _ _ _ = _
  simp [vec3]

theorem inner3 (a b c d e f : ℂ) : inner ℂ (vec3 a b c) (vec3 d e f) = star a * d + star b * e + star c * f := by
  simp [vec3, PiLp.inner_apply, Fin.sum_univ_three, mul_comm]

theorem ext3 (x : E3) : x = vec3 (x 0) (x 1) (x 2) := by
  ext i; fin_cases i <;> simp [vec3]

theorem ortho_one (v : E3) (h : inner ℂ v v = (1 : ℂ)) : OrthoN (fun _ => v) (0 + 1) := by
  intro i hi j hj
  have h1 : i = 0 := by omega
  have h2 : j = 0 := by omega
  subst h1; subst h2
  rw [if_pos rfl]; exact h

theorem run3 (ε : ℝ) (he : 0 < ε) (H : ℕ → ℕ → ℂ) : ∃ s, delayed1 (shift3 ε) 0 2 (fun _ => vec3 1 0 0) H = some s := by
  have hV : OrthoN (fun _ : ℕ => vec3 1 0 0) (0 + 1) := ortho_one _ (by rw [inner3]; simp)
  unfold delayed1
  obtain ⟨s1, e1⟩ : ∃ s1, d1step (shift3 ε) 0 { V := fun _ => vec3 1 0 0, H := H, beta := none } 0 = some s1 := by
    unfold d1step
    rw [if_neg (by omega)]
    exact ⟨_, rfl⟩
  have i1 := d1first hV H e1
  rw [show 2 - 0 = 0 + 1 + 1 by norm_num, d1loop, e1]
  show ∃ s, d1loop (shift3 ε) 0 (0 + 1) 1 s1 = some s
  rw [d1loop]
  have hne : s1.V 1 ≠ 0 := fun h0 => by
    have hl := i1.a.last
    unfold ArnLast at hl
    rw [show 0 + 1 - 1 = 0 from rfl, show 0 + 1 = 1 from rfl, h0, sum_range_one, i1.a.old 0 (le_refl _), shift3_vec] at hl
    have := congrArg (fun v : E3 => v 1) hl
    simp [vec3] at this
    exact he.ne' this
  unfold d1step
  rw [if_neg (fun hh => hne hh.2)]
  exact ⟨_, rfl⟩

/-- **C159 is false for the variant without reorthogonalization.** The returned residual norm can be as small
as one likes although the residual vector has norm one (so that Ritz values are accepted that have
not converged). -/
theorem C159_beta_false (ε : ℝ) (he : 0 < ε) (H : ℕ → ℕ → ℂ) :
    ∃ s, delayed1 (shift3 ε) 0 2 (fun _ => vec3 1 0 0) H = some s ∧ s.beta = some ε ∧ ‖s.V 2‖ = 1 := by
  obtain ⟨s, hs⟩ := run3 ε he H
  have hV : OrthoN (fun _ : ℕ => vec3 1 0 0) (0 + 1) := ortho_one _ (by rw [inner3]; simp)
  obtain ⟨o, pr, rel, last, old, be, _⟩ := C159_delayed1_partial (shift3 ε) 0 2 (by norm_num) _ hV H s hs
  obtain ⟨a0, r, r0, hr⟩ := rel 0 (le_refl _) (by norm_num)
  obtain ⟨b, hb, hb2⟩ := be (by norm_num)
  have v0 : s.V 0 = vec3 1 0 0 := old 0 (le_refl _)
  have hbr : b = r := by
    have : (b : ℂ) = r := by rw [← hb2, ← hr]
    exact_mod_cast this
  -- first column
  unfold Arn at a0
  rw [sum_range_one, v0, shift3_vec, hr] at a0
  have o01 := o 0 (by norm_num) 1 (by norm_num)
  have o11 := o 1 (by norm_num) 1 (by norm_num)
  rw [if_neg (by norm_num), v0, ext3 (s.V 1), inner3] at o01
  have x0 : s.V 1 0 = 0 := by simpa using o01
  have c1 := congrArg (fun v : E3 => v 1) a0
  have c2 := congrArg (fun v : E3 => v 2) a0
  have hrc : (r : ℂ) ≠ 0 := by exact_mod_cast r0.ne'
  have x2 : s.V 1 2 = 0 := by
    simp [vec3] at c2
    rcases c2 with h | h
    · exact absurd h r0.ne'
    · exact h
  have x1 : (ε : ℂ) = r * s.V 1 1 := by simpa [vec3] using c1
  rw [if_pos rfl, ext3 (s.V 1), inner3, x0, x2] at o11
  have n1 : star (s.V 1 1) * s.V 1 1 = 1 := by simpa using o11
  have n1' : ‖s.V 1 1‖ = 1 := by
    have := congrArg norm n1
    rw [norm_mul, norm_star, norm_one] at this
    nlinarith [norm_nonneg (s.V 1 1)]
  have hre : r = ε := by
    have := congrArg norm x1
    rw [norm_mul, n1', mul_one, Complex.norm_real, Complex.norm_real, Real.norm_eq_abs, Real.norm_eq_abs, abs_of_pos he, abs_of_pos r0] at this
    exact this.symm
  have y1 : s.V 1 1 = 1 := by
    rw [hre] at x1
    have hec : (ε : ℂ) ≠ 0 := by exact_mod_cast he.ne'
    have : (ε : ℂ) * (s.V 1 1) = ε * 1 := by rw [mul_one]; exact x1.symm
    exact mul_left_cancel₀ hec this
  have v1 : s.V 1 = vec3 0 1 0 := by rw [ext3 (s.V 1), x0, y1, x2]
  refine ⟨s, hs, by rw [hb, hbr, hre], ?_⟩
  unfold ArnLast at last
  rw [show 2 - 1 = 1 from rfl, show (1:ℕ) + 1 = 2 from rfl, sum_range_succ, sum_range_one, v0, v1, shift3_vec] at last
  have p0 := pr 0 (by norm_num)
  have p1 := pr 1 (by norm_num)
  rw [v0, ext3 (s.V 2), inner3] at p0
  rw [v1, ext3 (s.V 2), inner3] at p1
  have z0 : s.V 2 0 = 0 := by simpa using p0
  have z1 : s.V 2 1 = 0 := by simpa using p1
  have d2 := congrArg (fun v : E3 => v 2) last
  have z2 : s.V 2 2 = 1 := by
    simp [vec3] at d2
    exact d2.symm
  rw [ext3 (s.V 2), z0, z1, z2]
  have : ‖vec3 0 0 1‖ ^ 2 = 1 := by
    rw [EuclideanSpace.norm_sq_eq]; simp [vec3, Fin.sum_univ_three]
  nlinarith [norm_nonneg (vec3 0 0 1)]

/-- Beside `C159_delayed_partial`: with the same operator and two columns the factorization exists (the
Krylov space has dimension three). -/
example (H : ℕ → ℕ → ℂ) : ∃ W G beta, delayed (shift3 1) 0 2 (fun _ => vec3 1 0 0) H = .ok W G beta ∧
    Arnoldi (shift3 1) 0 2 (fun _ => vec3 1 0 0) W G beta := by
  have hV : OrthoN (fun _ : ℕ => vec3 1 0 0) (0 + 1) := ortho_one _ (by rw [inner3]; simp)
  rcases C159_delayed_partial (shift3 1) 0 2 (by norm_num) _ hV H with h | ⟨_, j, _, hj, W, G, _, old, rel, last⟩
  · exact h
  · exfalso
    have w0 := old 0 (le_refl _)
    have : j = 0 ∨ j = 1 := by omega
    rcases this with rfl | rfl
    · unfold ArnLast at last
      rw [sum_range_one, add_zero, w0, shift3_vec] at last
      have := congrArg (fun v : E3 => v 1) last
      simp [vec3] at this
    · have r0 := rel 0 (le_refl _) (by norm_num)
      unfold Arn at r0
      unfold ArnLast at last
      rw [sum_range_one, w0, shift3_vec] at r0
      rw [sum_range_succ, sum_range_one, add_zero, w0] at last
      have a1 := congrArg (fun v : E3 => v 1) r0
      have a2 := congrArg (fun v : E3 => v 2) r0
      have b2 := congrArg (fun v : E3 => v 2) last
      have sh : (shift3 1 (W 1)) 2 = W 1 1 := by
        rw [ext3 (W 1), shift3_vec]; simp [vec3]
      simp [vec3] at a1 a2 b2
      rw [sh] at b2
      rcases a2 with h | h
      · rw [h] at a1; simp at a1
      · rw [h] at b2
        simp at b2
        rw [b2] at a1
        simp at a1

end Verif.Lan
