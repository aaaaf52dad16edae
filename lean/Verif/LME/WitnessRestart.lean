import Verif.LME.WitnessLemmas
/-!
C86: the estimate of the Lyapunov solver after a restart.
-/
set_option linter.all false
namespace Verif.LME
noncomputable section
open Verif.BV Verif.MFN Matrix

abbrev E2 := EuclideanSpace ℝ (Fin 2)
/-- Unit vectors. -/
def ev (i : Fin 2) : E2 := EuclideanSpace.single i (1 : ℝ)
/-- The operator of the example. -/
def A1 : E2 →ₗ[ℝ] E2 := Matrix.toEuclideanLin !![-2, -2; 2, -2]
/-- A dense solver that knows two equations. -/
def dense1 : Dense ℝ := fun n G c =>
  if n = 1 ∧ G 0 0 = -2 ∧ c = 4 then some fun _ _ => 2
  else if n = 2 ∧ G 0 0 = -2 ∧ G 0 1 = 0 ∧ G 1 0 = 2 ∧ G 1 1 = -2 ∧ c = 4 then
    some fun i j => if i = 0 then (if j = 0 then 2 else 0) else 1
  else none

theorem dense1_ok : DenseOK dense1 := by
  intro n G c L h
  unfold dense1 at h
  by_cases h1 : n = 1 ∧ G 0 0 = -2 ∧ c = 4
  · rw [if_pos h1] at h
    obtain ⟨rfl, g, rfl⟩ := h1
    have := Option.some.inj h
    subst this
    ext i j
    fin_cases i; fin_cases j
    simp [mat, projRhs, Matrix.mul_apply, g]
    norm_num
  · rw [if_neg h1] at h
    by_cases h2 : n = 2 ∧ G 0 0 = -2 ∧ G 0 1 = 0 ∧ G 1 0 = 2 ∧ G 1 1 = -2 ∧ c = 4
    · rw [if_pos h2] at h
      obtain ⟨rfl, g1, g2, g3, g4, rfl⟩ := h2
      have := Option.some.inj h
      subst this
      ext i j
      fin_cases i <;> fin_cases j <;> simp [mat, projRhs, Matrix.mul_apply, Fin.sum_univ_two, g1, g2, g3, g4] <;> norm_num
    · rw [if_neg h2] at h; cases h

theorem ev_norm (i : Fin 2) : ‖ev i‖ = 1 := by simp [ev]
theorem ev_orth : inner ℝ (ev 0) (ev 1) = 0 := by simp [ev, EuclideanSpace.inner_single_left]
theorem A1_0 : A1 (ev 0) = (-2 : ℝ) • ev 0 + ((2 : ℝ) : ℝ) • ev 1 := by
  ext i; fin_cases i <;> simp [A1, ev, Matrix.toEuclideanLin_apply]
theorem A1_1 : A1 (ev 1) = (-2 : ℝ) • ev 1 + ((2 : ℝ) : ℝ) • (-ev 0) := by
  ext i; fin_cases i <;> simp [A1, ev, Matrix.toEuclideanLin_apply]

/-- The parameters. -/
def P1w : Lim := ⟨1, 2, 6, 0⟩
/-- Orthogonalization options. -/
def opt : OrthOpts := ⟨true, 1, .never⟩

theorem cyc_a (s : P0 ℝ E2) (h1 : s.its = 0) (h2 : s.n = 0) (h3 : s.m = 1) (h4 : s.v0 = ev 0) (hM : ∀ i j, j + 1 < i → s.M i j = 0)
    (hst : s.stat = .running) :
    let t := cycle0 (ipForm ℝ E2) opt A1 (Module.finrank ℝ E2) P1w dense1 4 s
    t.its = 1 ∧ t.n = 1 ∧ t.m = 1 ∧ t.v0 = ev 1 ∧ (∀ i j, j + 1 < i → t.M i j = 0) ∧ t.G 0 0 = -2 ∧ t.G 1 0 = 2 ∧ t.stat = .running := by
  obtain ⟨r1, r2, r3, r4, r5, r6⟩ := one_step opt le_rfl A1 2 (ev 0) (ev 1) (ev_norm 0) (ev_norm 1) ev_orth (-2) 2 (by norm_num) A1_0 s.buf s.M hM
  unfold cycle0
  dsimp only
  rw [h1, h2, h3, h4, show P1w.ncv + 1 = 2 from rfl]
  generalize matArnoldi (ipForm ℝ E2) opt A1 (Module.finrank ℝ E2) 0 0 1 2 [mkSlot (ev 0) 1] s.buf s.M = r at *
  have g0 : glueL 0 r.m r.H s.G (decide ((0:ℕ) = 0)) r.beta 0 0 = -2 := by simp [glueL, r1, r4]
  have g1 : glueL 0 r.m r.H s.G (decide ((0:ℕ) = 0)) r.beta 1 0 = 2 := by simp [glueL, r1, r5]
  generalize glueL 0 r.m r.H s.G (decide ((0:ℕ) = 0)) r.beta = G at *
  have hd : dense1 (0 + r.m) G 4 = some fun _ _ => 2 := by
    unfold dense1
    rw [if_pos ⟨by omega, g0, rfl⟩]
  rw [hd]
  dsimp only
  have hl : ‖G (0 + r.m) (0 + r.m - 1)‖ * lastRow (0 + r.m) (fun _ _ => (2:ℝ)) = 8 := by
    rw [r1]
    simp [g1, lastRow]
    norm_num
  rw [hl, if_neg (by norm_num [P1w]), if_neg (by norm_num [P1w]), r1]
  exact ⟨rfl, rfl, rfl, r3, r6, g0, g1, hst⟩

theorem cyc_b (s : P0 ℝ E2) (h1 : s.its = 1) (h2 : s.n = 1) (h3 : s.m = 1) (h4 : s.v0 = ev 1) (hM : ∀ i j, j + 1 < i → s.M i j = 0)
    (hg0 : s.G 0 0 = -2) (hg1 : s.G 1 0 = 2) :
    let t := cycle0 (ipForm ℝ E2) opt A1 (Module.finrank ℝ E2) P1w dense1 4 s
    t.its = 2 ∧ t.n = 2 ∧ t.m = 1 ∧ (∀ i j, j + 1 < i → t.M i j = 0) ∧ t.errest = 2 * Real.sqrt 8 ∧
      t.stat = .conv (fun i j => if i = 0 then (if j = 0 then 2 else 0) else 1) := by
  obtain ⟨r1, r2, r3, r4, r5, r6⟩ := one_step opt le_rfl A1 2 (ev 1) (-ev 0) (ev_norm 1) (by rw [norm_neg]; exact ev_norm 0) (by rw [inner_neg_right, inner_eq_zero_symm.1 ev_orth, neg_zero]) (-2) 2 (by norm_num) A1_1 s.buf s.M hM
  unfold cycle0
  dsimp only
  rw [h1, h2, h3, h4, show P1w.ncv + 1 = 2 from rfl]
  generalize matArnoldi (ipForm ℝ E2) opt A1 (Module.finrank ℝ E2) 0 0 1 2 [mkSlot (ev 1) 1] s.buf s.M = r at *
  have g0 : glueL 1 r.m r.H s.G (decide ((1:ℕ) = 0)) r.beta 0 0 = -2 := by simp [glueL, r1, hg0]
  have g1 : glueL 1 r.m r.H s.G (decide ((1:ℕ) = 0)) r.beta 1 0 = 2 := by simp [glueL, r1, hg1]
  have g2 : glueL 1 r.m r.H s.G (decide ((1:ℕ) = 0)) r.beta 0 1 = 0 := by simp [glueL, r1]
  have g3 : glueL 1 r.m r.H s.G (decide ((1:ℕ) = 0)) r.beta 1 1 = -2 := by simp [glueL, r1, r4]
  have g4 : glueL 1 r.m r.H s.G (decide ((1:ℕ) = 0)) r.beta 2 1 = 2 := by simp [glueL, r1, r5]
  generalize glueL 1 r.m r.H s.G (decide ((1:ℕ) = 0)) r.beta = G at *
  have hd : dense1 (1 + r.m) G 4 = some (fun i j => if i = 0 then (if j = 0 then 2 else 0) else 1) := by
    unfold dense1
    rw [if_neg (by omega), if_pos ⟨by omega, g0, g2, g1, g3, rfl⟩]
  rw [hd]
  dsimp only
  have hl : ‖G (1 + r.m) (1 + r.m - 1)‖ * lastRow (1 + r.m) (fun i j => if i = 0 then (if j = 0 then 2 else 0) else (1:ℝ)) = 2 * Real.sqrt 8 := by
    rw [r1]
    simp [g4, lastRow, Finset.sum_range_succ]
    norm_num
    rw [show (8:ℝ) = 2 ^ 2 * 2 by norm_num, Real.sqrt_mul (by norm_num), Real.sqrt_sq (by norm_num)]
    ring
  have h8 : 2 * Real.sqrt 8 < P1w.tol := by
    have : Real.sqrt 8 < 3 := by rw [Real.sqrt_lt' (by norm_num)]; norm_num
    norm_num [P1w]; linarith
  rw [hl, if_pos h8, r1]
  exact ⟨rfl, rfl, rfl, r6, rfl, rfl⟩

/-- **C86 fails as stated after a restart.** For `A = [-2 -2; 2 -2]`, `b = 4 e_1`, one column per cycle and tolerance 6, and any SVD
that finds full rank, the solver declares convergence in the second cycle with an estimate below the tolerance, but the
norm of the residual of the solution returned is larger than the tolerance. -/
theorem C86_false_restart (svd : RankSVD ℝ) (hsv : SvdOK svd) (hfull : ∀ L, ∃ US Vt, svd 2 L = some (US, Vt, 2)) (buf : Nat → Nat → ℝ) :
    ∃ errest Z, lyapVec (ipForm ℝ E2) opt A1 (Module.finrank ℝ E2) P1w dense1 svd none ((4 : ℝ) • ev 0) buf = .done 2 2 errest Z ∧
      DenseOK dense1 ∧ errest < P1w.tol ∧ ∃ z : E2, ‖z‖ = 1 ∧ P1w.tol < ‖resid A1 (lowRank ℝ 2 Z) ((4 : ℝ) • ev 0) z‖ := by
  have hnb : ‖(4 : ℝ) • ev 0‖ = 4 := by rw [norm_smul, ev_norm]; norm_num
  have hv0 : ((‖(4 : ℝ) • ev 0‖⁻¹ : ℝ) : ℝ) • (4 : ℝ) • ev 0 = ev 0 := by
    rw [hnb, smul_smul]; norm_num
  unfold lyapVec
  rw [if_neg (by rw [hnb]; norm_num)]
  dsimp only
  have hv0' : (((‖(4 : ℝ) • ev 0‖⁻¹ : ℝ)) : ℝ) • (4 : ℝ) • ev 0 = ev 0 := hv0
  obtain ⟨a1, a2, a3, a4, a5, a6, a7, a8⟩ := cyc_a (start0 P1w ‖(4 : ℝ) • ev 0‖ ((4 : ℝ) • ev 0) buf) rfl rfl rfl hv0 (fun _ _ _ => rfl) rfl
  have hp : pass0 (ipForm ℝ E2) opt A1 (Module.finrank ℝ E2) P1w dense1 ‖(4 : ℝ) • ev 0‖ (P1w.maxIt + 1)
      (start0 P1w ‖(4 : ℝ) • ev 0‖ ((4 : ℝ) • ev 0) buf) =
      cycle0 (ipForm ℝ E2) opt A1 (Module.finrank ℝ E2) P1w dense1 4 (cycle0 (ipForm ℝ E2) opt A1 (Module.finrank ℝ E2) P1w dense1 4
        (start0 P1w ‖(4 : ℝ) • ev 0‖ ((4 : ℝ) • ev 0) buf)) := by
    obtain ⟨b1, b2, b3, b4, b5, b6⟩ := cyc_b _ a1 a2 a3 a4 a5 a6 a7
    rw [show P1w.maxIt + 1 = 3 from rfl]
    unfold pass0
    rw [show (start0 P1w ‖(4 : ℝ) • ev 0‖ ((4 : ℝ) • ev 0) buf).stat = .running from rfl]
    dsimp only
    unfold pass0
    have e4 : cycle0 (ipForm ℝ E2) opt A1 (Module.finrank ℝ E2) P1w dense1 ‖(4 : ℝ) • ev 0‖
      (start0 P1w ‖(4 : ℝ) • ev 0‖ ((4 : ℝ) • ev 0) buf) = cycle0 (ipForm ℝ E2) opt A1 (Module.finrank ℝ E2) P1w dense1 4
      (start0 P1w ‖(4 : ℝ) • ev 0‖ ((4 : ℝ) • ev 0) buf) := by rw [show (‖(4 : ℝ) • ev 0‖ : ℝ) = 4 from hnb]
    rw [e4, a8]
    dsimp only
    have e5 : cycle0 (ipForm ℝ E2) opt A1 (Module.finrank ℝ E2) P1w dense1 ‖(4 : ℝ) • ev 0‖ (cycle0 (ipForm ℝ E2) opt A1 (Module.finrank ℝ E2) P1w dense1 4
      (start0 P1w ‖(4 : ℝ) • ev 0‖ ((4 : ℝ) • ev 0) buf)) = cycle0 (ipForm ℝ E2) opt A1 (Module.finrank ℝ E2) P1w dense1 4 (cycle0 (ipForm ℝ E2) opt A1 (Module.finrank ℝ E2) P1w dense1 4
      (start0 P1w ‖(4 : ℝ) • ev 0‖ ((4 : ℝ) • ev 0) buf)) := by rw [show (‖(4 : ℝ) • ev 0‖ : ℝ) = 4 from hnb]
    rw [e5]
    unfold pass0
    rw [b6]
  rw [hp]
  obtain ⟨b1, b2, b3, b4, b5, b6⟩ := cyc_b _ a1 a2 a3 a4 a5 a6 a7
  generalize cycle0 (ipForm ℝ E2) opt A1 (Module.finrank ℝ E2) P1w dense1 4 (cycle0 (ipForm ℝ E2) opt A1 (Module.finrank ℝ E2) P1w dense1 4
        (start0 P1w ‖(4 : ℝ) • ev 0‖ ((4 : ℝ) • ev 0) buf)) = s at *
  rw [b6]
  dsimp only
  obtain ⟨US, Vt, hs⟩ := hfull (fun i j => if i = 0 then (if j = 0 then 2 else 0) else 1)
  rw [b2, hs]
  dsimp only
  have hprod := (hsv _ _ _ _ _ hs).2.2.1 rfl
  have hL : ∀ i c : Nat, i < 2 → c < 2 → ∑ k ∈ Finset.range 2, US i k * Vt k c = if i = 0 then (if c = 0 then 2 else 0) else 1 := by
    intro i c hi hc
    have := congrFun (congrFun hprod ⟨i, hi⟩) ⟨c, hc⟩
    rw [Matrix.mul_apply, Fin.sum_univ_two] at this
    rw [Finset.sum_range_succ, Finset.sum_range_one]
    exact this
  refine ⟨s.errest, _, by rw [b1]; rfl, dense1_ok, ?_, ev 0, ev_norm 0, ?_⟩
  · rw [b5]
    have : Real.sqrt 8 < 3 := by rw [Real.sqrt_lt' (by norm_num)]; norm_num
    norm_num [P1w]; linarith
  · -- the factor
    have hr : rankOf (none : Option Nat) 2 = 2 := rfl
    have hZ : ∀ c, c < 2 → (pass1 (ipForm ℝ E2) opt A1 (Module.finrank ℝ E2) P1w.ncv US Vt (rankOf (none : Option Nat) 2) s
        (((‖(4 : ℝ) • ev 0‖⁻¹ : ℝ) : ℝ) • (4 : ℝ) • ev 0)).Z c = (if c = 0 then (2:ℝ) else 0) • ev 0 + (1 : ℝ) • ev 1 := by
      intro c hc
      obtain ⟨r1, r2, r3, r4, r5, r6⟩ := one_step opt le_rfl A1 2 (ev 0) (ev 1) (ev_norm 0) (ev_norm 1) ev_orth (-2) 2 (by norm_num) A1_0 s.buf s.M b4
      unfold pass1
      rw [b1, b3, hr]
      rw [show ((cycle1 (ipForm ℝ E2) opt A1 (Module.finrank ℝ E2) P1w.ncv US Vt 2)^[2] ⟨0, 1, s.M, s.buf, _, fun _ => 0⟩) =
        cycle1 (ipForm ℝ E2) opt A1 (Module.finrank ℝ E2) P1w.ncv US Vt 2 (cycle1 (ipForm ℝ E2) opt A1 (Module.finrank ℝ E2) P1w.ncv US Vt 2
          ⟨0, 1, s.M, s.buf, (((‖(4 : ℝ) • ev 0‖⁻¹ : ℝ) : ℝ) • (4 : ℝ) • ev 0), fun _ => 0⟩) from rfl]
      have c1 : ∃ M' buf' Z', cycle1 (ipForm ℝ E2) opt A1 (Module.finrank ℝ E2) P1w.ncv US Vt 2
          ⟨0, 1, s.M, s.buf, (((‖(4 : ℝ) • ev 0‖⁻¹ : ℝ) : ℝ) • (4 : ℝ) • ev 0), fun _ => 0⟩ = ⟨1, 1, M', buf', ev 1, Z'⟩ ∧
          (∀ i j, j + 1 < i → M' i j = 0) ∧ ∀ c, c < 2 → Z' c = (if c = 0 then (2:ℝ) else 0) • ev 0 := by
        rw [hv0]
        unfold cycle1
        dsimp only
        rw [show P1w.ncv + 1 = 2 from rfl]
        generalize matArnoldi (ipForm ℝ E2) opt A1 (Module.finrank ℝ E2) 0 0 1 2 [mkSlot (ev 0) 1] s.buf s.M = r at *
        refine ⟨r.H, r.buf, _, by rw [r1, r3], r6, ?_⟩
        intro c hc
        rw [if_pos hc, zero_add, Finset.sum_range_one, r2, zero_mul, zero_add, hL 0 c (by omega) hc, if_pos rfl]
      obtain ⟨M', buf', Z', e, hM', hZ'⟩ := c1
      rw [e]
      obtain ⟨q1, q2, q3, q4, q5, q6⟩ := one_step opt le_rfl A1 2 (ev 1) (-ev 0) (ev_norm 1) (by rw [norm_neg]; exact ev_norm 0) (by rw [inner_neg_right, inner_eq_zero_symm.1 ev_orth, neg_zero]) (-2) 2 (by norm_num) A1_1 buf' M' hM'
      unfold cycle1
      dsimp only
      rw [show P1w.ncv + 1 = 2 from rfl]
      generalize matArnoldi (ipForm ℝ E2) opt A1 (Module.finrank ℝ E2) 0 0 1 2 [mkSlot (ev 1) 1] buf' M' = r at *
      rw [if_pos hc, hZ' c hc, q1, Finset.sum_range_one, q2, hL _ c (by omega) hc, if_neg (show ¬ (1 * 1 + 0 = 0) by omega)]
    rw [hr] at hZ ⊢
    have hX : ∀ z : E2, lowRank ℝ 2 (pass1 (ipForm ℝ E2) opt A1 (Module.finrank ℝ E2) P1w.ncv US Vt 2 s
        (((‖(4 : ℝ) • ev 0‖⁻¹ : ℝ) : ℝ) • (4 : ℝ) • ev 0)).Z z = Matrix.toEuclideanLin !![4, 2; 2, 2] z := by
      intro z
      unfold lowRank
      rw [Finset.sum_range_succ, Finset.sum_range_one, hZ 0 (by omega), hZ 1 (by omega)]
      ext i
      fin_cases i <;> simp [ev, Matrix.toEuclideanLin_apply, inner_add_left, inner_smul_left, PiLp.inner_apply, Fin.sum_univ_two,
        Matrix.mulVec, dotProduct] <;> ring
    have hadj : A1.adjoint = Matrix.toEuclideanLin !![-2, 2; -2, -2] := by
      unfold A1
      rw [← Matrix.toEuclideanLin_conjTranspose_eq_adjoint]
      congr 1
      ext i j; fin_cases i <;> fin_cases j <;> simp
    have hres : resid A1 (lowRank ℝ 2 (pass1 (ipForm ℝ E2) opt A1 (Module.finrank ℝ E2) P1w.ncv US Vt 2 s
        (((‖(4 : ℝ) • ev 0‖⁻¹ : ℝ) : ℝ) • (4 : ℝ) • ev 0)).Z) ((4 : ℝ) • ev 0) (ev 0) = (-8 : ℝ) • ev 0 + (-4 : ℝ) • ev 1 := by
      unfold resid
      rw [hX, hX, hadj]
      ext i
      fin_cases i <;> simp [A1, ev, Matrix.toEuclideanLin_apply, inner_smul_left, Matrix.mulVec, dotProduct, Fin.sum_univ_two] <;> norm_num
    refine lt_of_lt_of_eq ?_ (congrArg norm hres).symm
    have : ‖(-8 : ℝ) • ev 0 + (-4 : ℝ) • ev 1‖ = Real.sqrt 80 := by
      rw [EuclideanSpace.norm_eq]
      congr 1
      simp [ev, Fin.sum_univ_two]
      norm_num
    rw [this, show P1w.tol = 6 from rfl, Real.lt_sqrt (by norm_num)]
    norm_num

end
end Verif.LME
