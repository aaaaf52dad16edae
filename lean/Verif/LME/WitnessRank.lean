import Verif.LME.WitnessRestart
/-!
C88: the factor of the Lyapunov solver when the rank is fixed by the user.
-/
set_option linter.all false
namespace Verif.LME
noncomputable section
open Verif.BV Verif.MFN Matrix

/-- The operator of the example. -/
def A3 : E2 →ₗ[ℝ] E2 := Matrix.toEuclideanLin !![-17/2, -3; 41, -12]
/-- The factor of the projected solution. -/
def L3 : Nat → Nat → ℝ := fun i j => if i = 0 then (if j = 0 then 3 else 0) else (if j = 0 then 4 else 5)
/-- A dense solver that knows one equation. -/
def dense3 : Dense ℝ := fun n G c =>
  if n = 2 ∧ G 0 0 = -17/2 ∧ G 0 1 = -3 ∧ G 1 0 = 41 ∧ G 1 1 = -12 ∧ c = 15 then some L3 else none
/-- Left factor (times the singular values). -/
def US3 : Nat → Nat → ℝ := fun i j => (if i = 0 then 3 else (if j = 0 then 9 else -1)) / Real.sqrt 2
/-- Right factor. -/
def Vt3 : Nat → Nat → ℝ := fun i j => (if i = 0 then 1 else (if j = 0 then 1 else -1)) / Real.sqrt 2
/-- An SVD that knows one matrix. -/
def svd3 : RankSVD ℝ := fun n L =>
  if n = 2 ∧ L 0 0 = 3 ∧ L 0 1 = 0 ∧ L 1 0 = 4 ∧ L 1 1 = 5 then some (US3, Vt3, 2) else none

theorem dense3_ok : DenseOK dense3 := by
  intro n G c L h
  unfold dense3 at h
  by_cases h2 : n = 2 ∧ G 0 0 = -17/2 ∧ G 0 1 = -3 ∧ G 1 0 = 41 ∧ G 1 1 = -12 ∧ c = 15
  · rw [if_pos h2] at h
    obtain ⟨rfl, g1, g2, g3, g4, rfl⟩ := h2
    have := Option.some.inj h
    subst this
    ext i j
    fin_cases i <;> fin_cases j <;> simp [mat, L3, projRhs, Matrix.mul_apply, Fin.sum_univ_two, g1, g2, g3, g4] <;> norm_num
  · rw [if_neg h2] at h; cases h

theorem sq2 : Real.sqrt 2 * Real.sqrt 2 = 2 := Real.mul_self_sqrt (by norm_num)
theorem sq2_ne : Real.sqrt 2 ≠ 0 := by positivity

theorem svd3_ok : SvdOK svd3 := by
  intro n L US Vt rk h
  unfold svd3 at h
  by_cases h2 : n = 2 ∧ L 0 0 = 3 ∧ L 0 1 = 0 ∧ L 1 0 = 4 ∧ L 1 1 = 5
  · rw [if_pos h2] at h
    obtain ⟨rfl, g1, g2, g3, g4⟩ := h2
    have h3 := Option.some.inj h
    have e1 : US3 = US := congrArg Prod.fst h3
    have e2 : Vt3 = Vt := congrArg (fun q => q.2.1) h3
    have e3 : 2 = rk := congrArg (fun q => q.2.2) h3
    subst e1 e2 e3
    have hs := sq2
    have hn := sq2_ne
    refine ⟨le_rfl, ?_, ?_, ?_⟩
    · ext i j
      fin_cases i <;> fin_cases j <;> simp [mat, Vt3, Matrix.mul_apply, Fin.sum_univ_two] <;> field_simp <;> norm_num
    · intro _
      ext i j
      fin_cases i <;> fin_cases j <;> simp [mat, Vt3, US3, Matrix.mul_apply, Fin.sum_univ_two, g1, g2, g3, g4] <;> field_simp <;> norm_num
    · intro j l hjl hl
      obtain rfl : l = 1 := by omega
      obtain rfl : j = 0 := by omega
      constructor
      · simp [US3, Finset.sum_range_succ]; field_simp; norm_num
      · simp [US3, Finset.sum_range_succ, div_pow]; norm_num
  · rw [if_neg h2] at h; cases h

theorem A3_0 : A3 (ev 0) = (-17/2 : ℝ) • ev 0 + ((41 : ℝ) : ℝ) • ev 1 := by
  ext i; fin_cases i <;> simp [A3, ev, Matrix.toEuclideanLin_apply]
theorem A3_1 : A3 (ev 1) = (-3 : ℝ) • ev 0 + (-12 : ℝ) • ev 1 + ((0 : ℝ) : ℝ) • ev 0 := by
  ext i; fin_cases i <;> simp [A3, ev, Matrix.toEuclideanLin_apply]

/-- The parameters. -/
def P3w : Lim := ⟨2, 2, 1, 0⟩

theorem cyc_3 (s : P0 ℝ E2) (h1 : s.its = 0) (h2 : s.n = 0) (h3 : s.m = 2) (h4 : s.v0 = ev 0) (hM : ∀ i j, j + 1 < i → s.M i j = 0) :
    let t := cycle0 (ipForm ℝ E2) opt A3 (Module.finrank ℝ E2) P3w dense3 15 s
    t.its = 1 ∧ t.n = 2 ∧ t.m = 2 ∧ (∀ i j, j + 1 < i → t.M i j = 0) ∧ t.errest = 0 ∧ t.stat = .conv L3 := by
  obtain ⟨r1, r2, r3, _, r4, r5, r6, r7, r8, r9⟩ := two_step opt le_rfl A3 3 (ev 0) (ev 1) (ev 0) (ev_norm 0) (ev_norm 1) ev_orth (-17/2) (-3) (-12) 41 0
    (by norm_num) le_rfl (fun h => absurd h (lt_irrefl _)) A3_0 A3_1 s.buf s.M hM
  unfold cycle0
  dsimp only
  rw [h1, h2, h3, h4, show P3w.ncv + 1 = 3 from rfl]
  generalize matArnoldi (ipForm ℝ E2) opt A3 (Module.finrank ℝ E2) 0 0 2 3 [mkSlot (ev 0) 1] s.buf s.M = r at *
  have g0 : glueL 0 r.m r.H s.G (decide ((0:ℕ) = 0)) r.beta 0 0 = -17/2 := by simp [glueL, r1, r4]
  have g1 : glueL 0 r.m r.H s.G (decide ((0:ℕ) = 0)) r.beta 1 0 = 41 := by simp [glueL, r1]; exact r5
  have g2 : glueL 0 r.m r.H s.G (decide ((0:ℕ) = 0)) r.beta 0 1 = -3 := by simp [glueL, r1, r6]
  have g3 : glueL 0 r.m r.H s.G (decide ((0:ℕ) = 0)) r.beta 1 1 = -12 := by simp [glueL, r1, r7]
  have g4 : glueL 0 r.m r.H s.G (decide ((0:ℕ) = 0)) r.beta 2 1 = 0 := by simp [glueL, r1, r8]
  generalize glueL 0 r.m r.H s.G (decide ((0:ℕ) = 0)) r.beta = G at *
  have hd : dense3 (0 + r.m) G 15 = some L3 := by
    unfold dense3
    rw [if_pos ⟨by omega, g0, g2, g1, g3, rfl⟩]
  rw [hd]
  dsimp only
  have hl : ‖G (0 + r.m) (0 + r.m - 1)‖ * lastRow (0 + r.m) L3 = 0 := by
    rw [r1]
    simp [g4]
  rw [hl, if_pos (by norm_num [P3w]), r1]
  exact ⟨rfl, rfl, rfl, r9, rfl, rfl⟩

theorem run_3 (rrank : Option Nat) (buf : Nat → Nat → ℝ) :
    ∃ Z : Nat → E2, lyapVec (ipForm ℝ E2) opt A3 (Module.finrank ℝ E2) P3w dense3 svd3 rrank ((15 : ℝ) • ev 0) buf = .done (rankOf rrank 2) 1 0 Z ∧
      ∀ c, c < rankOf rrank 2 → Z c = (∑ k ∈ Finset.range (rankOf rrank 2), US3 0 k * Vt3 k c) • ev 0 + (∑ k ∈ Finset.range (rankOf rrank 2), US3 1 k * Vt3 k c) • ev 1 := by
  have hnb : ‖(15 : ℝ) • ev 0‖ = 15 := by rw [norm_smul, ev_norm]; norm_num
  have hv0 : ((‖(15 : ℝ) • ev 0‖⁻¹ : ℝ) : ℝ) • (15 : ℝ) • ev 0 = ev 0 := by
    rw [hnb, smul_smul]; norm_num
  obtain ⟨b1, b2, b3, b4, b5, b6⟩ := cyc_3 (start0 P3w ‖(15 : ℝ) • ev 0‖ ((15 : ℝ) • ev 0) buf) rfl rfl rfl hv0 (fun _ _ _ => rfl)
  have hp : pass0 (ipForm ℝ E2) opt A3 (Module.finrank ℝ E2) P3w dense3 ‖(15 : ℝ) • ev 0‖ (P3w.maxIt + 1)
      (start0 P3w ‖(15 : ℝ) • ev 0‖ ((15 : ℝ) • ev 0) buf) =
      cycle0 (ipForm ℝ E2) opt A3 (Module.finrank ℝ E2) P3w dense3 15 (start0 P3w ‖(15 : ℝ) • ev 0‖ ((15 : ℝ) • ev 0) buf) := by
    rw [show P3w.maxIt + 1 = 3 from rfl]
    unfold pass0
    rw [show (start0 P3w ‖(15 : ℝ) • ev 0‖ ((15 : ℝ) • ev 0) buf).stat = .running from rfl]
    dsimp only
    unfold pass0
    have e4 : cycle0 (ipForm ℝ E2) opt A3 (Module.finrank ℝ E2) P3w dense3 ‖(15 : ℝ) • ev 0‖
      (start0 P3w ‖(15 : ℝ) • ev 0‖ ((15 : ℝ) • ev 0) buf) = cycle0 (ipForm ℝ E2) opt A3 (Module.finrank ℝ E2) P3w dense3 15
      (start0 P3w ‖(15 : ℝ) • ev 0‖ ((15 : ℝ) • ev 0) buf) := by rw [show (‖(15 : ℝ) • ev 0‖ : ℝ) = 15 from hnb]
    rw [e4, b6]
  unfold lyapVec
  rw [if_neg (by rw [hnb]; norm_num)]
  dsimp only
  rw [hp]
  generalize cycle0 (ipForm ℝ E2) opt A3 (Module.finrank ℝ E2) P3w dense3 15
        (start0 P3w ‖(15 : ℝ) • ev 0‖ ((15 : ℝ) • ev 0) buf) = s at *
  rw [b6]
  dsimp only
  have hs : svd3 s.n L3 = some (US3, Vt3, 2) := by
    unfold svd3; rw [if_pos ⟨b2, by simp [L3]⟩]
  rw [hs]
  dsimp only
  refine ⟨_, by rw [b1, b5], ?_⟩
  intro c hc
  obtain ⟨r1, r2, r3, _, r4, r5, r6, r7, r8, r9⟩ := two_step opt le_rfl A3 3 (ev 0) (ev 1) (ev 0) (ev_norm 0) (ev_norm 1) ev_orth (-17/2) (-3) (-12) 41 0
    (by norm_num) le_rfl (fun h => absurd h (lt_irrefl _)) A3_0 A3_1 s.buf s.M b4
  unfold pass1
  rw [b1, b3]
  show (cycle1 (ipForm ℝ E2) opt A3 (Module.finrank ℝ E2) P3w.ncv US3 Vt3 (rankOf rrank 2) ⟨0, 2, s.M, s.buf, ((‖(15 : ℝ) • ev 0‖⁻¹ : ℝ) : ℝ) • (15 : ℝ) • ev 0, fun _ => 0⟩).Z c = _
  rw [hv0]
  unfold cycle1
  dsimp only
  rw [show P3w.ncv + 1 = 3 from rfl]
  generalize matArnoldi (ipForm ℝ E2) opt A3 (Module.finrank ℝ E2) 0 0 2 3 [mkSlot (ev 0) 1] s.buf s.M = r at *
  rw [if_pos hc, zero_add, r1, Finset.sum_range_succ, Finset.sum_range_one, r2, r3]

/-- The hypotheses of `C86_residual_partial`, `C86_frobenius` and `C88_solution_partial` are met by a run with full rank. -/
example (buf : Nat → Nat → ℝ) : DenseOK dense3 ∧ SvdOK svd3 ∧
    ∃ Z : Nat → E2, lyapVec (ipForm ℝ E2) opt A3 (Module.finrank ℝ E2) P3w dense3 svd3 none ((15 : ℝ) • ev 0) buf = .done 2 1 0 Z :=
  ⟨dense3_ok, svd3_ok, let ⟨Z, h, _⟩ := run_3 none buf; ⟨Z, h⟩⟩

/-- **C88 fails with a fixed rank.** For `A = [-17/2 -3; 41 -12]` and `b = 15 e_1` the solution is `X = [9 12; 12 41]`.  With rank
one, the solver returns a factor whose product differs from `X` by `45/2` in norm, although there is a rank-one matrix
`w w^*` at distance 5: the truncated `V'` (its leading 1 by 1 block) is not orthogonal. -/
theorem C88_false_fixed_rank (buf : Nat → Nat → ℝ) :
    DenseOK dense3 ∧ SvdOK svd3 ∧
    ∃ (Z : Nat → E2) (X : E2 →ₗ[ℝ] E2) (w z0 : E2),
      lyapVec (ipForm ℝ E2) opt A3 (Module.finrank ℝ E2) P3w dense3 svd3 (some 1) ((15 : ℝ) • ev 0) buf = .done 1 1 0 Z ∧
      (∀ z, resid A3 X ((15 : ℝ) • ev 0) z = 0) ∧
      (∀ z, ‖X z - lowRank ℝ 1 (fun _ => w) z‖ ≤ 5 * ‖z‖) ∧
      ‖z0‖ = 1 ∧ ‖X z0 - lowRank ℝ 1 Z z0‖ = 45 / 2 := by
  refine ⟨dense3_ok, svd3_ok, ?_⟩
  obtain ⟨Z, h, hZ⟩ := run_3 (some 1) buf
  have hs := sq2
  have hn := sq2_ne
  have h10 : Real.sqrt 10 ≠ 0 := by positivity
  have h10s : Real.sqrt 10 ^ 2 = 10 := Real.sq_sqrt (by norm_num)
  have hZ0 : Z 0 = (3/2 : ℝ) • ev 0 + (9/2 : ℝ) • ev 1 := by
    rw [hZ 0 (by simp [rankOf])]
    have e : rankOf (some 1) 2 = 1 := rfl
    rw [e, Finset.sum_range_one, Finset.sum_range_one]
    congr 2
    · simp [US3, Vt3]; field_simp; norm_num
    · simp [US3, Vt3]; field_simp; norm_num
  refine ⟨Z, Matrix.toEuclideanLin !![9, 12; 12, 41], (3 / Real.sqrt 2) • ev 0 + (9 / Real.sqrt 2) • ev 1,
    (1 / Real.sqrt 10) • ev 0 + (3 / Real.sqrt 10) • ev 1, h, ?_, ?_, ?_, ?_⟩
  · intro z
    have hadj : A3.adjoint = Matrix.toEuclideanLin !![-17/2, 41; -3, -12] := by
      unfold A3
      rw [← Matrix.toEuclideanLin_conjTranspose_eq_adjoint]
      congr 1
      ext i j; fin_cases i <;> fin_cases j <;> simp
    unfold resid
    rw [hadj]
    ext i
    fin_cases i <;> simp [A3, ev, Matrix.toEuclideanLin_apply, inner_smul_left, Matrix.mulVec, dotProduct, Fin.sum_univ_two, PiLp.inner_apply] <;> ring
  · intro z
    have e : Matrix.toEuclideanLin !![9, 12; 12, 41] z - lowRank ℝ 1 (fun _ => (3 / Real.sqrt 2) • ev 0 + (9 / Real.sqrt 2) • ev 1) z =
        ((3 * z 0 - z 1) / 2) • ((3 : ℝ) • ev 0 + (-1 : ℝ) • ev 1) := by
      unfold lowRank
      rw [Finset.sum_range_one]
      ext i
      fin_cases i <;> simp [ev, Matrix.toEuclideanLin_apply, inner_add_left, inner_smul_left, Matrix.mulVec, dotProduct, Fin.sum_univ_two, PiLp.inner_apply] <;> field_simp <;> rw [show Real.sqrt 2 ^ 2 = 2 from Real.sq_sqrt (by norm_num)] <;> ring
    rw [e, norm_smul]
    have n1 : ‖(3 : ℝ) • ev 0 + (-1 : ℝ) • ev 1‖ = Real.sqrt 10 := by
      rw [EuclideanSpace.norm_eq]; congr 1; simp [ev, Fin.sum_univ_two]; norm_num
    have n2 : ‖z‖ ^ 2 = z 0 ^ 2 + z 1 ^ 2 := by
      rw [EuclideanSpace.norm_sq_eq]; simp [Fin.sum_univ_two]
    rw [n1]
    refine abs_le_of_sq_le_sq' ?_ (by positivity) |>.2
    rw [mul_pow, mul_pow, n2, h10s, Real.norm_eq_abs, sq_abs]
    nlinarith [sq_nonneg (z 0 + 3 * z 1)]
  · rw [EuclideanSpace.norm_eq]
    rw [Real.sqrt_eq_one]
    simp [ev, Fin.sum_univ_two, div_pow]
    norm_num
  · have e : Matrix.toEuclideanLin !![9, 12; 12, 41] ((1 / Real.sqrt 10) • ev 0 + (3 / Real.sqrt 10) • ev 1) -
        lowRank ℝ 1 Z ((1 / Real.sqrt 10) • ev 0 + (3 / Real.sqrt 10) • ev 1) = (45/2 : ℝ) • ((1 / Real.sqrt 10) • ev 0 + (3 / Real.sqrt 10) • ev 1) := by
      unfold lowRank
      rw [Finset.sum_range_one, hZ0]
      ext i
      fin_cases i <;> simp [ev, Matrix.toEuclideanLin_apply, inner_add_left, inner_smul_left, Matrix.mulVec, dotProduct, Fin.sum_univ_two, PiLp.inner_apply] <;> field_simp <;> norm_num
    rw [e, norm_smul]
    have : ‖((1 / Real.sqrt 10) • ev 0 + (3 / Real.sqrt 10) • ev 1)‖ = 1 := by
      rw [EuclideanSpace.norm_eq]
      rw [Real.sqrt_eq_one]
      simp [ev, Fin.sum_univ_two, div_pow]
      norm_num
    rw [this]; norm_num

end
end Verif.LME
