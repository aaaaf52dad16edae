import Verif.Ts.RitzThm
import Verif.Iter.Two
import Verif.Lan.DelayWit

/-!
# C168, C170: instances

The left factorization finishes before the right one (C170), and a restart of a symmetric matrix of order three.
-/
set_option linter.all false

namespace Verif.Ts

open Finset Verif.Iter Verif.Lan

/-- start state with both start vectors equal to `v` -/
noncomputable def start {E : Type} (v : E) : TSt E := ⟨⟨fun _ => v, fun _ _ => 0⟩, ⟨fun _ => v, fun _ _ => 0⟩, fun _ _ => 0, 0, 0⟩

theorem start_reach {E : Type} [NormedAddCommGroup E] [InnerProductSpace ℂ E] (A At : E →ₗ[ℂ] E) {v : E} (h : ‖v‖ = 1) : Reach A At (start v) := Reach.init _ _ _ h h

/-- the matrix of the counterexample and its transpose -/
noncomputable def Ax : E2 →ₗ[ℂ] E2 := op2 2 0 1 1
noncomputable def Atx : E2 →ₗ[ℂ] E2 := op2 2 1 0 1

theorem adj_x : Adj Ax Atx := by
  intro x y
  have e : ∀ x : E2, x = vec2 (x 0) (x 1) := fun x => by ext i; fin_cases i <;> simp [vec2]
  unfold Ax Atx
  rw [e x, e y, op2_vec, op2_vec, inner2, inner2]
  simp only [star_add, star_mul', Complex.star_def, map_one, map_ofNat, map_zero]
  ring

theorem right_x : (rightOut Ax 2 (start (vec2 1 0))).m = 2 ∧ (rightOut Ax 2 (start (vec2 1 0))).beta = 0 ∧ (rightOut Ax 2 (start (vec2 1 0))).s.V 0 = vec2 1 0 ∧
    (rightOut Ax 2 (start (vec2 1 0))).s.V 1 = vec2 0 1 ∧ (rightOut Ax 2 (start (vec2 1 0))).s.H 0 0 = 2 := by
  obtain ⟨s, hs⟩ : ∃ s : Half E2, s = ⟨fun _ => vec2 1 0, fun _ _ => 0⟩ := ⟨_, rfl⟩
  have v0 : arnVec Ax s 0 = vec2 0 1 := by
    rw [hs]; unfold arnVec gsCol Ax; simp [op2_vec, inner2, smul2, sub2]
  have n01 : ‖vec2 0 1‖ = 1 := norm2_of (by norm_num) (by norm_num)
  have ne : vec2 0 1 ≠ 0 := fun h => by rw [h, norm_zero] at n01; exact zero_ne_one n01
  obtain ⟨s1, h1⟩ : ∃ s1, s1 = arnStep Ax s 0 := ⟨_, rfl⟩
  have a0 : s1.V 0 = vec2 1 0 := by rw [h1, hs]; simp [arnStep]
  have a1 : s1.V 1 = vec2 0 1 := by rw [h1]; simp [arnStep, v0, n01]
  have ah : s1.H 0 0 = 2 := by rw [h1, hs]; simp [arnStep, Ax, op2_vec, inner2]
  have v1 : arnVec Ax s1 1 = 0 := by
    unfold arnVec gsCol
    rw [sum_range_succ, sum_range_succ, sum_range_zero, zero_add, a0, a1]
    unfold Ax
    have z : vec2 0 0 = 0 := by ext i; fin_cases i <;> simp [vec2]
    simp [op2_vec, inner2, smul2, sub2, add2, n01, z]
  have he : rightOut Ax 2 (start (vec2 1 0)) = ⟨arnStep Ax s1 1, 2, 0, true⟩ := by
    show arnoldi Ax 2 0 ⟨fun _ => vec2 1 0, fun _ _ => 0⟩ = _
    rw [← hs, arnoldi, if_neg (by rw [v0]; exact ne), if_neg (by norm_num), ← h1, arnoldi, if_pos v1]
  rw [he]
  refine ⟨rfl, rfl, ?_, ?_, ?_⟩
  · show (arnStep Ax s1 1).V 0 = _
    simp [arnStep, a0]
  · show (arnStep Ax s1 1).V 1 = _
    simp [arnStep, a1]
  · show (arnStep Ax s1 1).H 0 0 = _
    simp [arnStep, ah]

theorem left_x : (leftOut Ax Atx 2 (start (vec2 1 0))).m = 1 ∧ (leftOut Ax Atx 2 (start (vec2 1 0))).beta = 0 ∧ (leftOut Ax Atx 2 (start (vec2 1 0))).s.V 0 = vec2 1 0 ∧
    (leftOut Ax Atx 2 (start (vec2 1 0))).s.V 1 = 0 ∧ (leftOut Ax Atx 2 (start (vec2 1 0))).s.H 0 0 = 2 := by
  obtain ⟨s, hs⟩ : ∃ s : Half E2, s = ⟨fun _ => vec2 1 0, fun _ _ => 0⟩ := ⟨_, rfl⟩
  have z : vec2 0 0 = 0 := by ext i; fin_cases i <;> simp [vec2]
  have v0 : arnVec Atx s 0 = 0 := by
    have n10 : ‖vec2 1 0‖ = 1 := norm2_of (by norm_num) (by norm_num)
    rw [hs]; unfold arnVec gsCol Atx; simp [op2_vec, inner2, smul2, sub2, z, n10]
  have he : leftOut Ax Atx 2 (start (vec2 1 0)) = ⟨arnStep Atx s 0, 1, 0, true⟩ := by
    unfold leftOut
    rw [right_x.1]
    show arnoldi Atx 2 0 ⟨fun _ => vec2 1 0, fun _ _ => 0⟩ = _
    rw [← hs, arnoldi, if_pos v0]
  rw [he]
  refine ⟨rfl, rfl, ?_, ?_, ?_⟩
  · show (arnStep Atx s 0).V 0 = _
    rw [hs]; simp [arnStep]
  · show (arnStep Atx s 0).V 1 = _
    simp [arnStep, v0]
  · show (arnStep Atx s 0).H 0 0 = _
    rw [hs]; simp [arnStep, Atx, op2_vec, inner2]

/-- **C170 is false** when the left factorization finishes earlier: for this matrix of order two and equal start vectors the common length is one, the error estimate of the only pair is zero
because the norm used is that of the longer right factorization, and the residual of the right Ritz vector has norm one (eigenvalue two). -/
theorem C170_false : ∃ (A At : E2 →ₗ[ℂ] E2) (st : TSt E2) (w y x z : ℕ → ℂ) (theta : ℂ), Adj A At ∧ Reach A At st ∧ st.nc = 0 ∧ st.p < 2 ∧ Solves A At 2 w y st ∧
    EigVec (mid A At 2 w y st).nv (mid A At 2 w y st).R.H theta x ∧ EigVec (mid A At 2 w y st).nv (mid A At 2 w y st).L.H (star theta) z ∧
    errEst (mid A At 2 w y st) x z = 0 ∧ ‖A (ritzVec (mid A At 2 w y st).nv (mid A At 2 w y st).R.V x) - theta • ritzVec (mid A At 2 w y st).nv (mid A At 2 w y st).R.V x‖ = 1 := by
  obtain ⟨r1, r2, r3, r4, r5⟩ := right_x
  obtain ⟨l1, l2, l3, l4, l5⟩ := left_x
  have n10 : ‖vec2 1 0‖ = 1 := norm2_of (by norm_num) (by norm_num)
  have n01 : ‖vec2 0 1‖ = 1 := norm2_of (by norm_num) (by norm_num)
  have len : lenOut Ax Atx 2 (start (vec2 1 0)) = 1 := by unfold lenOut; rw [r1, l1]; rfl
  obtain ⟨m, hm⟩ : ∃ m, m = mid Ax Atx 2 (fun _ => 0) (fun _ => 0) (start (vec2 1 0)) := ⟨_, rfl⟩
  have m1 : m.nv = 1 := by rw [hm]; exact len
  have m2 : m.R.H 0 0 = 2 := by
    rw [hm]
    simp [mid, fixHalf, fixH, r5]
  have m3 : m.L.H 0 0 = 2 := by
    rw [hm]
    simp [mid, fixHalf, fixH, l5]
  have m4 : m.R.V 0 = vec2 1 0 := by
    rw [hm]
    simp [mid, fixHalf, fixV, len, r3]
  have m5 : m.beta = 0 := by rw [hm]; exact r2
  have m6 : m.betat = 0 := by rw [hm]; exact l2
  refine ⟨Ax, Atx, start (vec2 1 0), fun _ => 0, fun _ => 0, fun _ => 1, fun _ => 1, 2, adj_x, start_reach _ _ n10, rfl, by show 0 < 2; norm_num, ?_, ?_⟩
  · constructor
    · intro i hi
      rw [len] at hi ⊢
      have : i = 0 := by omega
      subst this
      simp only [mul_zero, sum_const_zero]
      rw [l3, r4, inner2]; simp
    · intro i hi
      rw [len] at hi ⊢
      have : i = 0 := by omega
      subst this
      simp only [mul_zero, sum_const_zero]
      rw [l4, inner_zero_right]
  · rw [← hm]
    refine ⟨⟨?_, ?_⟩, ⟨?_, ?_⟩, ?_, ?_⟩
    · intro i hi
      rw [m1] at hi ⊢
      have : i = 0 := by omega
      subst this; simp [m2]
    · rw [m1]; simp
    · intro i hi
      rw [m1] at hi ⊢
      have : i = 0 := by omega
      subst this; simp [m3]
    · rw [m1]; simp
    · unfold errEst rightEst leftEst; rw [m5, m6]; simp
    · unfold ritzVec
      rw [m1, sum_range_one, m4, one_smul]
      unfold Ax
      rw [op2_vec, smul2, sub2]
      have : vec2 (2 * 1 + 0 * 0 - 2 * 1) (1 * 1 + 1 * 0 - 2 * 0) = vec2 0 1 := by norm_num
      rw [this, n01]

/-- a symmetric matrix of order three whose second projection has a rational Schur form -/
noncomputable def A3 : E3 →ₗ[ℂ] E3 where
  toFun x := vec3 (3 / 4 * x 0 + x 1) (x 0 + 4 / 3 * x 1 + x 2) (x 1)
  map_add' x y := by ext i; fin_cases i <;> simp [vec3] <;> ring
  map_smul' r x := by ext i; fin_cases i <;> simp [vec3] <;> ring

theorem A3_vec (a b c : ℂ) : A3 (vec3 a b c) = vec3 (3 / 4 * a + b) (a + 4 / 3 * b + c) b := by
  show vec3 _ _ _ = _
  simp [vec3]

theorem adj_3 : Adj A3 A3 := by
  intro x y
  rw [ext3 x, ext3 y, A3_vec, A3_vec, inner3, inner3]
  simp only [star_add, star_mul', Complex.star_def, map_div₀, map_ofNat, map_one]
  ring

theorem norm3 {a b c : ℂ} (h : star a * a + star b * b + star c * c = 1) : ‖vec3 a b c‖ = 1 := norm_of_inner_one (by rw [inner3, h])

theorem out_3 : ∃ s : Half E3, arnoldi A3 2 0 ⟨fun _ => vec3 1 0 0, fun _ _ => 0⟩ = ⟨s, 2, 1, false⟩ ∧ s.V 0 = vec3 1 0 0 ∧ s.V 1 = vec3 0 1 0 ∧ s.V 2 = vec3 0 0 1 ∧
    s.H 0 0 = 3 / 4 ∧ s.H 1 0 = 1 ∧ s.H 0 1 = 1 ∧ s.H 1 1 = 4 / 3 := by
  obtain ⟨s, hs⟩ : ∃ s : Half E3, s = ⟨fun _ => vec3 1 0 0, fun _ _ => 0⟩ := ⟨_, rfl⟩
  have sub3 : ∀ a b c d e f : ℂ, vec3 a b c - vec3 d e f = vec3 (a - d) (b - e) (c - f) := fun a b c d e f => by ext i; fin_cases i <;> simp [vec3]
  have add3 : ∀ a b c d e f : ℂ, vec3 a b c + vec3 d e f = vec3 (a + d) (b + e) (c + f) := fun a b c d e f => by ext i; fin_cases i <;> simp [vec3]
  have smul3 : ∀ r a b c : ℂ, r • vec3 a b c = vec3 (r * a) (r * b) (r * c) := fun r a b c => by ext i; fin_cases i <;> simp [vec3]
  have v0 : arnVec A3 s 0 = vec3 0 1 0 := by
    rw [hs]; unfold arnVec gsCol; simp [A3_vec, inner3, smul3, sub3]
  have n1 : ‖vec3 0 1 0‖ = 1 := norm3 (by simp)
  have n2 : ‖vec3 0 0 1‖ = 1 := norm3 (by simp)
  have e1 : vec3 0 1 0 ≠ 0 := fun h => by rw [h, norm_zero] at n1; exact zero_ne_one n1
  have e2 : vec3 0 0 1 ≠ 0 := fun h => by rw [h, norm_zero] at n2; exact zero_ne_one n2
  obtain ⟨s1, h1⟩ : ∃ s1, s1 = arnStep A3 s 0 := ⟨_, rfl⟩
  have a0 : s1.V 0 = vec3 1 0 0 := by rw [h1, hs]; simp [arnStep]
  have a1 : s1.V 1 = vec3 0 1 0 := by rw [h1]; simp [arnStep, v0, n1]
  have b0 : s1.H 0 0 = 3 / 4 := by rw [h1, hs]; simp [arnStep, A3_vec, inner3]
  have b1 : s1.H 1 0 = 1 := by rw [h1]; simp [arnStep, v0, n1]
  have v1 : arnVec A3 s1 1 = vec3 0 0 1 := by
    unfold arnVec gsCol
    rw [sum_range_succ, sum_range_succ, sum_range_zero, zero_add, a0, a1]
    simp [A3_vec, inner3, smul3, sub3, add3]
  refine ⟨arnStep A3 s1 1, ?_, ?_, ?_, ?_, ?_, ?_, ?_, ?_⟩
  · rw [← hs, arnoldi, if_neg (by rw [v0]; exact e1), if_neg (by norm_num), ← h1, arnoldi, if_neg (by rw [v1]; exact e2), if_pos rfl, v1, n2]
  · simp [arnStep, a0]
  · simp [arnStep, a1]
  · simp [arnStep, v1, n2]
  · simp [arnStep, b0]
  · simp [arnStep, b1]
  · simp [arnStep, a0, a1, A3_vec, inner3]
  · simp [arnStep, a0, a1, A3_vec, inner3]

/-- Schur vectors and form of the projected matrix -/
noncomputable def Q3 (i j : ℕ) : ℂ := if i = 0 then (if j = 0 then 3 / 5 else 4 / 5) else (if j = 0 then 4 / 5 else -3 / 5)
noncomputable def S3 (i j : ℕ) : ℂ := if i = 0 ∧ j = 0 then 25 / 12 else 0
noncomputable def x3 : Inp := ⟨fun _ => 0, fun _ => 0, Q3, Q3, S3, S3, 0, 1⟩

theorem mid_3 : ∃ m : Mid E3, m = mid A3 A3 2 (fun _ => 0) (fun _ => 0) (start (vec3 1 0 0)) ∧ m.nv = 2 ∧ m.bd = false ∧ m.beta = 1 ∧ (rightOut A3 2 (start (vec3 1 0 0))).m = (leftOut A3 A3 2 (start (vec3 1 0 0))).m ∧
    Solves A3 A3 2 (fun _ => 0) (fun _ => 0) (start (vec3 1 0 0)) ∧ m.R.H 0 0 = 3 / 4 ∧ m.R.H 1 0 = 1 ∧ m.R.H 0 1 = 1 ∧ m.R.H 1 1 = 4 / 3 ∧ m.L.H = m.R.H ∧ (∀ i < 2, ∀ j < 2, m.M i j = if i = j then 1 else 0) ∧ m.R.V 2 = vec3 0 0 1 := by
  obtain ⟨s, hs, c0, c1, c2, d0, d1, d2, d3⟩ := out_3
  have hr : rightOut A3 2 (start (vec3 1 0 0)) = ⟨s, 2, 1, false⟩ := hs
  have hl : leftOut A3 A3 2 (start (vec3 1 0 0)) = ⟨s, 2, 1, false⟩ := by
    unfold leftOut; rw [hr]; exact hs
  have len : lenOut A3 A3 2 (start (vec3 1 0 0)) = 2 := by unfold lenOut; rw [hr, hl]; rfl
  have hz : ∀ i j : ℕ, i < 2 → inner ℂ (s.V i) (s.V 2) = (0 : ℂ) := by
    intro i _ hi
    have : i = 0 ∨ i = 1 := by omega
    rcases this with h | h <;> subst h
    · rw [c0, c2, inner3]; simp
    · rw [c1, c2, inner3]; simp
  refine ⟨_, rfl, len, ?_, ?_, by rw [hr, hl], ⟨?_, ?_⟩, ?_, ?_, ?_, ?_, ?_, ?_, ?_⟩
  · show ((rightOut A3 2 (start (vec3 1 0 0))).bd || (leftOut A3 A3 2 (start (vec3 1 0 0))).bd) = false
    rw [hr, hl]; rfl
  · show (rightOut A3 2 (start (vec3 1 0 0))).beta = 1
    rw [hr]
  · intro i hi
    rw [len] at hi ⊢
    rw [hr, hl]
    simp only [mul_zero, sum_const_zero]
    exact (hz i 0 hi).symm
  · intro i hi
    rw [len] at hi ⊢
    rw [hr, hl]
    simp only [mul_zero, sum_const_zero]
    exact (hz i 0 hi).symm
  · simp [mid, fixHalf, fixH, hr, d0]
  · simp [mid, fixHalf, fixH, hr, d1]
  · simp [mid, fixHalf, fixH, hr, d2]
  · simp [mid, fixHalf, fixH, hr, d3]
  · show fixH _ _ _ _ = fixH _ _ _ _
    rw [hr, hl]
  · intro i hi j hj
    show project 0 (lenOut A3 A3 2 (start (vec3 1 0 0))) _ _ _ i j = _
    unfold project
    rw [len, if_pos ⟨hi, hj, Or.inl (Nat.zero_le _)⟩, hr, hl]
    have h1 : i = 0 ∨ i = 1 := by omega
    have h2 : j = 0 ∨ j = 1 := by omega
    rcases h1 with h | h <;> rcases h2 with h' | h' <;> subst h <;> subst h'
    · simp [c0, norm3 (a := 1) (b := 0) (c := 0) (by simp)]
    · simp [c0, c1, inner3]
    · simp [c0, c1, inner3]
    · simp [c1, norm3 (a := 0) (b := 1) (c := 0) (by simp)]
  · simp [mid, fixHalf, fixV, len, hr, c2]

theorem schur_3 {H : ℕ → ℕ → ℂ} (d0 : H 0 0 = 3 / 4) (d1 : H 1 0 = 1) (d2 : H 0 1 = 1) (d3 : H 1 1 = 4 / 3) : Schur 0 2 H S3 Q3 := by
  refine ⟨?_, fun i _ j _ h => by omega, ?_, fun i hi j _ h => by omega⟩
  · intro i _ hi j _ hj
    have h1 : i = 0 ∨ i = 1 := by omega
    have h2 : j = 0 ∨ j = 1 := by omega
    have e : Ico 0 2 = range 2 := by ext; simp
    rw [e, sum_range_succ, sum_range_one]
    rcases h1 with h | h <;> rcases h2 with h' | h' <;> subst h <;> subst h' <;> simp [Q3] <;> norm_num
  · intro i hi j hj
    have h1 : i = 0 ∨ i = 1 := by omega
    have h2 : j = 0 ∨ j = 1 := by omega
    rw [sum_range_succ, sum_range_one, sum_range_succ, sum_range_one]
    rcases h1 with h | h <;> rcases h2 with h' | h' <;> subst h <;> subst h' <;> simp [Q3, S3, d0, d1, d2, d3] <;> norm_num

/-- a case of C168: a run with a restart that keeps one of two columns -/
example : ∃ st : TSt E3, Reach A3 A3 st ∧ st.p = 1 ∧ st.nc = 0 ∧ Adj A3 A3 := by
  obtain ⟨m, hm, h1, h2, _, _, h4, d0, d1, d2, d3, hL, _, _⟩ := mid_3
  refine ⟨tnext x3 0 m, ?_, rfl, rfl, adj_3⟩
  rw [hm]
  refine Reach.step (start (vec3 1 0 0)) 2 x3 (start_reach _ _ (norm3 (by simp))) (by show 0 < 2; norm_num) h4 ?_ ?_ ?_
  · show (mid A3 A3 2 (fun _ => 0) (fun _ => 0) (start (vec3 1 0 0))).bd = false
    rw [← hm]; exact h2
  · show DsOk x3 0 (mid A3 A3 2 (fun _ => 0) (fun _ => 0) (start (vec3 1 0 0)))
    rw [← hm]
    have hS := schur_3 d0 d1 d2 d3
    have hc : ∀ i < 2, 1 ≤ i → ∀ j < 1, S3 i j = 0 := fun i _ h j _ => if_neg (by omega)
    exact ⟨by rw [h1]; exact hS, by rw [h1, hL]; exact hS, le_refl _, by show 0 ≤ 1; norm_num, by rw [h1]; exact hc, by rw [h1]; exact hc⟩
  · show 1 < (mid A3 A3 2 (fun _ => 0) (fun _ => 0) (start (vec3 1 0 0))).nv
    rw [← hm, h1]; norm_num

/-- a case of C169 and C170 (hypotheses of the theorems, with a nonsingular matrix of inner products) -/
example : ∃ m : Mid E3, m = mid A3 A3 2 (fun _ => 0) (fun _ => 0) (start (vec3 1 0 0)) ∧ (rightOut A3 2 (start (vec3 1 0 0))).m = (leftOut A3 A3 2 (start (vec3 1 0 0))).m ∧
    Solves A3 A3 2 (fun _ => 0) (fun _ => 0) (start (vec3 1 0 0)) ∧ (blk m.nv m.M).det ≠ 0 ∧ EigVec m.nv m.R.H (25 / 12) (fun i => Q3 i 0) := by
  obtain ⟨m, hm, h1, h2, _, h3, h4, d0, d1, d2, d3, hL, hM, _⟩ := mid_3
  refine ⟨m, hm, h3, h4, ?_, ?_, ?_⟩
  · have : blk m.nv m.M = 1 := by
      ext i j
      have hi : i.1 < 2 := lt_of_lt_of_eq i.2 h1
      have hj : j.1 < 2 := lt_of_lt_of_eq j.2 h1
      show m.M i j = _
      rw [hM i hi j hj, Matrix.one_apply]
      simp [Fin.ext_iff]
    rw [this, Matrix.det_one]; exact one_ne_zero
  · intro i hi
    rw [h1] at hi ⊢
    have h : i = 0 ∨ i = 1 := by omega
    rw [sum_range_succ, sum_range_one]
    rcases h with h | h <;> subst h <;> simp [Q3, d0, d1, d2, d3] <;> norm_num
  · rw [h1, sum_range_succ, sum_range_one]; simp [Q3]; norm_num

/-- a case of the theorem on restarts that keep all columns -/
example : ∃ (s : Half E3), Fixed A3 0 2 1 s ∧ Schur 0 2 s.H S3 Q3 ∧ (∑ p ∈ range 2, s.H 2 p * Q3 p 1) ≠ 0 ∧ s.V 2 ≠ 0 := by
  obtain ⟨m, hm, h1, h2, hb, h3, h4, d0, d1, d2, d3, hL, hM, hv⟩ := mid_3
  have hf := (mid_fixed (start_reach A3 A3 (norm3 (a := 1) (b := 0) (c := 0) (by simp))) (nv := 2) (by show 0 < 2; norm_num) (w := fun _ => 0) (y := fun _ => 0) h3).1
  rw [← hm, h1, hb] at hf
  have hf : Fixed A3 0 2 1 m.R := hf
  refine ⟨m.R, hf, schur_3 d0 d1 d2 d3, ?_, ?_⟩
  · have e1 : m.R.H 2 1 = ((1 : ℝ) : ℂ) := hf.last
    rw [sum_range_succ, sum_range_one, hf.row 0 (le_refl _) (by norm_num), e1]
    simp [Q3]
  · rw [hv]
    intro h
    have := norm3 (a := 0) (b := 0) (c := 1) (by simp)
    rw [h, norm_zero] at this; exact zero_ne_one this

end Verif.Ts
