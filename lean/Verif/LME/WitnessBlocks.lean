import Verif.LME.WitnessRestart
/-!
C88: the factor of the Lyapunov solver when the last cycle breaks down.
-/
set_option linter.all false
namespace Verif.LME
noncomputable section
open Verif.BV Verif.MFN Matrix

abbrev E3 := EuclideanSpace ℝ (Fin 3)
/-- Unit vectors. -/
def ew (i : Fin 3) : E3 := EuclideanSpace.single i (1 : ℝ)
/-- The operator of the example. -/
def A2 : E3 →ₗ[ℝ] E3 := Matrix.toEuclideanLin !![-2, 0, 0; 2, -2, 0; 0, 2, -2]
/-- The factor of the projected solution, in all cycles. -/
def L2 : Nat → Nat → ℝ := fun i j =>
  if i = 0 then (if j = 0 then 4 else 0) else if i = 1 then (if j = 0 then 2 else if j = 1 then 2 else 0)
  else (if j = 0 then 1 else if j = 1 then 2 else 1)
/-- A dense solver that knows two equations. -/
def dense2 : Dense ℝ := fun n G c =>
  if n = 2 ∧ G 0 0 = -2 ∧ G 0 1 = 0 ∧ G 1 0 = 2 ∧ G 1 1 = -2 ∧ c = 8 then some L2
  else if n = 3 ∧ G 0 0 = -2 ∧ G 0 1 = 0 ∧ G 1 0 = 2 ∧ G 1 1 = -2 ∧ G 0 2 = 0 ∧ G 1 2 = 0 ∧ G 2 0 = 0 ∧ G 2 1 = 2 ∧ G 2 2 = -2 ∧ c = 8 then some L2
  else none

theorem dense2_ok : DenseOK dense2 := by
  intro n G c L h
  unfold dense2 at h
  by_cases h1 : n = 2 ∧ G 0 0 = -2 ∧ G 0 1 = 0 ∧ G 1 0 = 2 ∧ G 1 1 = -2 ∧ c = 8
  · rw [if_pos h1] at h
    obtain ⟨rfl, g1, g2, g3, g4, rfl⟩ := h1
    have := Option.some.inj h
    subst this
    ext i j
    fin_cases i <;> fin_cases j <;> simp [mat, L2, projRhs, Matrix.mul_apply, Fin.sum_univ_two, g1, g2, g3, g4] <;> norm_num
  · rw [if_neg h1] at h
    by_cases h2 : n = 3 ∧ G 0 0 = -2 ∧ G 0 1 = 0 ∧ G 1 0 = 2 ∧ G 1 1 = -2 ∧ G 0 2 = 0 ∧ G 1 2 = 0 ∧ G 2 0 = 0 ∧ G 2 1 = 2 ∧ G 2 2 = -2 ∧ c = 8
    · rw [if_pos h2] at h
      obtain ⟨rfl, g1, g2, g3, g4, g5, g6, g7, g8, g9, rfl⟩ := h2
      have := Option.some.inj h
      subst this
      ext i j
      fin_cases i <;> fin_cases j <;> simp [mat, L2, projRhs, Matrix.mul_apply, Fin.sum_univ_succ, g1, g2, g3, g4, g5, g6, g7, g8, g9] <;> norm_num
    · rw [if_neg h2] at h; cases h

theorem ew_norm (i : Fin 3) : ‖ew i‖ = 1 := by simp [ew]
theorem ew_orth (i j : Fin 3) (h : i ≠ j) : inner ℝ (ew i) (ew j) = 0 := by simp [ew, EuclideanSpace.inner_single_left, h]
theorem A2_0 : A2 (ew 0) = (-2 : ℝ) • ew 0 + ((2 : ℝ) : ℝ) • ew 1 := by
  ext i; fin_cases i <;> simp [A2, ew, Matrix.toEuclideanLin_apply]
theorem A2_1 : A2 (ew 1) = (0 : ℝ) • ew 0 + (-2 : ℝ) • ew 1 + ((2 : ℝ) : ℝ) • ew 2 := by
  ext i; fin_cases i <;> simp [A2, ew, Matrix.toEuclideanLin_apply]
theorem A2_1' : A2 (ew 1) = (-2 : ℝ) • ew 1 + ((2 : ℝ) : ℝ) • ew 2 := by
  rw [A2_1, zero_smul, zero_add]
theorem A2_2 : A2 (ew 2) = (-2 : ℝ) • ew 2 := by
  ext i; fin_cases i <;> simp [A2, ew, Matrix.toEuclideanLin_apply]

/-- The parameters. -/
def P2w : Lim := ⟨2, 2, 1, 0⟩

theorem cyc_2a (s : P0 ℝ E3) (h1 : s.its = 0) (h2 : s.n = 0) (h3 : s.m = 2) (h4 : s.v0 = ew 0) (hM : ∀ i j, j + 1 < i → s.M i j = 0)
    (hst : s.stat = .running) :
    let t := cycle0 (ipForm ℝ E3) opt A2 (Module.finrank ℝ E3) P2w dense2 8 s
    t.its = 1 ∧ t.n = 2 ∧ t.m = 2 ∧ t.v0 = ew 2 ∧ (∀ i j, j + 1 < i → t.M i j = 0) ∧
      (t.G 0 0 = -2 ∧ t.G 1 0 = 2 ∧ t.G 0 1 = 0 ∧ t.G 1 1 = -2 ∧ t.G 2 0 = 0 ∧ t.G 2 1 = 2) ∧ t.stat = .running := by
  obtain ⟨r1, r2, r3, r10, r4, r5, r6, r7, r8, r9⟩ := two_step opt le_rfl A2 3 (ew 0) (ew 1) (ew 2) (ew_norm 0) (ew_norm 1) (ew_orth 0 1 (by decide)) (-2) 0 (-2) 2 2
    (by norm_num) (by norm_num) (fun _ => ⟨ew_norm 2, ew_orth 0 2 (by decide), ew_orth 1 2 (by decide)⟩) A2_0 A2_1 s.buf s.M hM
  unfold cycle0
  dsimp only
  rw [h1, h2, h3, h4, show P2w.ncv + 1 = 3 from rfl]
  generalize matArnoldi (ipForm ℝ E3) opt A2 (Module.finrank ℝ E3) 0 0 2 3 [mkSlot (ew 0) 1] s.buf s.M = r at *
  have g0 : glueL 0 r.m r.H s.G (decide ((0:ℕ) = 0)) r.beta 0 0 = -2 := by simp [glueL, r1, r4]
  have g1 : glueL 0 r.m r.H s.G (decide ((0:ℕ) = 0)) r.beta 1 0 = 2 := by simp [glueL, r1]; exact r5
  have g2 : glueL 0 r.m r.H s.G (decide ((0:ℕ) = 0)) r.beta 0 1 = 0 := by simp [glueL, r1, r6]
  have g3 : glueL 0 r.m r.H s.G (decide ((0:ℕ) = 0)) r.beta 1 1 = -2 := by simp [glueL, r1, r7]
  have g4 : glueL 0 r.m r.H s.G (decide ((0:ℕ) = 0)) r.beta 2 1 = 2 := by simp [glueL, r1, r8]
  have g5 : glueL 0 r.m r.H s.G (decide ((0:ℕ) = 0)) r.beta 2 0 = 0 := by simp [glueL, r1]
  generalize glueL 0 r.m r.H s.G (decide ((0:ℕ) = 0)) r.beta = G at *
  have hd : dense2 (0 + r.m) G 8 = some L2 := by
    unfold dense2
    rw [if_pos ⟨by omega, g0, g2, g1, g3, rfl⟩]
  rw [hd]
  dsimp only
  have hl : ‖G (0 + r.m) (0 + r.m - 1)‖ * lastRow (0 + r.m) L2 = 2 * Real.sqrt 128 := by
    rw [r1, show 0 + 2 = 2 from rfl, show 2 - 1 = 1 from rfl, g4]
    rw [Real.norm_eq_abs, abs_of_pos (by norm_num)]
    unfold lastRow
    congr 2
    simp [L2, Finset.sum_range_succ]
    norm_num
  have h1' : (1:ℝ) ≤ Real.sqrt 128 := by rw [Real.one_le_sqrt]; norm_num
  rw [hl, if_neg (by norm_num [P2w]; linarith), if_neg (by norm_num [P2w]), r1]
  exact ⟨rfl, rfl, rfl, r10 (by norm_num), r9, ⟨g0, g1, g2, g3, g5, g4⟩, hst⟩

theorem cyc_2b (s : P0 ℝ E3) (h1 : s.its = 1) (h2 : s.n = 2) (h3 : s.m = 2) (h4 : s.v0 = ew 2) (hM : ∀ i j, j + 1 < i → s.M i j = 0)
    (hG : s.G 0 0 = -2 ∧ s.G 1 0 = 2 ∧ s.G 0 1 = 0 ∧ s.G 1 1 = -2 ∧ s.G 2 0 = 0 ∧ s.G 2 1 = 2) :
    let t := cycle0 (ipForm ℝ E3) opt A2 (Module.finrank ℝ E3) P2w dense2 8 s
    t.its = 2 ∧ t.n = 3 ∧ t.m = 1 ∧ (∀ i j, j + 1 < i → t.M i j = 0) ∧ t.errest = 0 ∧ t.stat = .conv L2 := by
  obtain ⟨r1, r2, r4, r5, r6⟩ := dep_step opt le_rfl A2 2 3 two_pos (ew 2) (ew_norm 2) (-2) A2_2 s.buf s.M hM
  obtain ⟨k0, k1, k2, k3, k4, k5⟩ := hG
  unfold cycle0
  dsimp only
  rw [h1, h2, h3, h4, show P2w.ncv + 1 = 3 from rfl]
  generalize matArnoldi (ipForm ℝ E3) opt A2 (Module.finrank ℝ E3) 0 0 2 3 [mkSlot (ew 2) 1] s.buf s.M = r at *
  have g0 : glueL 2 r.m r.H s.G (decide ((1:ℕ) = 0)) r.beta 0 0 = -2 := by simp [glueL, r1, k0]
  have g1 : glueL 2 r.m r.H s.G (decide ((1:ℕ) = 0)) r.beta 1 0 = 2 := by simp [glueL, r1, k1]
  have g2 : glueL 2 r.m r.H s.G (decide ((1:ℕ) = 0)) r.beta 0 1 = 0 := by simp [glueL, r1, k2]
  have g3 : glueL 2 r.m r.H s.G (decide ((1:ℕ) = 0)) r.beta 1 1 = -2 := by simp [glueL, r1, k3]
  have g4 : glueL 2 r.m r.H s.G (decide ((1:ℕ) = 0)) r.beta 2 0 = 0 := by simp [glueL, r1, k4]
  have g5 : glueL 2 r.m r.H s.G (decide ((1:ℕ) = 0)) r.beta 2 1 = 2 := by simp [glueL, r1, k5]
  have g6 : glueL 2 r.m r.H s.G (decide ((1:ℕ) = 0)) r.beta 0 2 = 0 := by simp [glueL, r1]
  have g7 : glueL 2 r.m r.H s.G (decide ((1:ℕ) = 0)) r.beta 1 2 = 0 := by simp [glueL, r1]
  have g8 : glueL 2 r.m r.H s.G (decide ((1:ℕ) = 0)) r.beta 2 2 = -2 := by simp [glueL, r1, r4]
  have g9 : glueL 2 r.m r.H s.G (decide ((1:ℕ) = 0)) r.beta 3 2 = 0 := by simp [glueL, r1, r5]
  generalize glueL 2 r.m r.H s.G (decide ((1:ℕ) = 0)) r.beta = G at *
  have hd : dense2 (2 + r.m) G 8 = some L2 := by
    unfold dense2
    rw [if_neg (by omega), if_pos ⟨by omega, g0, g2, g1, g3, g6, g7, g4, g5, g8, rfl⟩]
  rw [hd]
  dsimp only
  have hl : ‖G (2 + r.m) (2 + r.m - 1)‖ * lastRow (2 + r.m) L2 = 0 := by
    rw [r1]; simp [g9]
  rw [hl, if_pos (by norm_num [P2w]), r1]
  exact ⟨rfl, rfl, rfl, r6, rfl, rfl⟩

/-- **C88 fails when the last cycle is shorter.** For `A` lower bidiagonal with diagonal -2 and subdiagonal 2, `b = 8 e_1` and cycles of two columns, the
second cycle breaks down after one column and the solver declares convergence with estimate zero; the equation has the solution
`X` with `X(3,3) = 6`.  But in the second pass both cycles have one column, so that, whatever the SVD returns, no
column of the factor has a third component. -/
theorem C88_false_short_cycle (svd : RankSVD ℝ) (US Vt : Nat → Nat → ℝ) (rk : Nat) (hs : svd 3 L2 = some (US, Vt, rk)) (rrank : Option Nat) (buf : Nat → Nat → ℝ) :
    DenseOK dense2 ∧
    (∃ Z, lyapVec (ipForm ℝ E3) opt A2 (Module.finrank ℝ E3) P2w dense2 svd rrank ((8 : ℝ) • ew 0) buf = .done (rankOf rrank rk) 2 0 Z ∧
      ∀ z, (lowRank ℝ (rankOf rrank rk) Z z) 2 = 0) ∧
    ∃ X : E3 →ₗ[ℝ] E3, (∀ z, resid A2 X ((8 : ℝ) • ew 0) z = 0) ∧ (X (ew 2)) 2 = 6 := by
  refine ⟨dense2_ok, ?_, Matrix.toEuclideanLin !![16, 8, 4; 8, 8, 6; 4, 6, 6], ?_, ?_⟩
  · have hnb : ‖(8 : ℝ) • ew 0‖ = 8 := by rw [norm_smul, ew_norm]; norm_num
    have hv0 : ((‖(8 : ℝ) • ew 0‖⁻¹ : ℝ) : ℝ) • (8 : ℝ) • ew 0 = ew 0 := by
      rw [hnb, smul_smul]; norm_num
    obtain ⟨a1, a2, a3, a4, a5, a6, a7⟩ := cyc_2a (start0 P2w ‖(8 : ℝ) • ew 0‖ ((8 : ℝ) • ew 0) buf) rfl rfl rfl hv0 (fun _ _ _ => rfl) rfl
    obtain ⟨b1, b2, b3, b4, b5, b6⟩ := cyc_2b _ a1 a2 a3 a4 a5 a6
    have hp : pass0 (ipForm ℝ E3) opt A2 (Module.finrank ℝ E3) P2w dense2 ‖(8 : ℝ) • ew 0‖ (P2w.maxIt + 1)
        (start0 P2w ‖(8 : ℝ) • ew 0‖ ((8 : ℝ) • ew 0) buf) =
        cycle0 (ipForm ℝ E3) opt A2 (Module.finrank ℝ E3) P2w dense2 8 (cycle0 (ipForm ℝ E3) opt A2 (Module.finrank ℝ E3) P2w dense2 8
          (start0 P2w ‖(8 : ℝ) • ew 0‖ ((8 : ℝ) • ew 0) buf)) := by
      rw [show P2w.maxIt + 1 = 3 from rfl]
      unfold pass0
      rw [show (start0 P2w ‖(8 : ℝ) • ew 0‖ ((8 : ℝ) • ew 0) buf).stat = .running from rfl]
      dsimp only
      unfold pass0
      have e4 : cycle0 (ipForm ℝ E3) opt A2 (Module.finrank ℝ E3) P2w dense2 ‖(8 : ℝ) • ew 0‖
        (start0 P2w ‖(8 : ℝ) • ew 0‖ ((8 : ℝ) • ew 0) buf) = cycle0 (ipForm ℝ E3) opt A2 (Module.finrank ℝ E3) P2w dense2 8
        (start0 P2w ‖(8 : ℝ) • ew 0‖ ((8 : ℝ) • ew 0) buf) := by rw [show (‖(8 : ℝ) • ew 0‖ : ℝ) = 8 from hnb]
      rw [e4, a7]
      dsimp only
      have e5 : cycle0 (ipForm ℝ E3) opt A2 (Module.finrank ℝ E3) P2w dense2 ‖(8 : ℝ) • ew 0‖ (cycle0 (ipForm ℝ E3) opt A2 (Module.finrank ℝ E3) P2w dense2 8
        (start0 P2w ‖(8 : ℝ) • ew 0‖ ((8 : ℝ) • ew 0) buf)) = cycle0 (ipForm ℝ E3) opt A2 (Module.finrank ℝ E3) P2w dense2 8 (cycle0 (ipForm ℝ E3) opt A2 (Module.finrank ℝ E3) P2w dense2 8
        (start0 P2w ‖(8 : ℝ) • ew 0‖ ((8 : ℝ) • ew 0) buf)) := by rw [show (‖(8 : ℝ) • ew 0‖ : ℝ) = 8 from hnb]
      rw [e5]
      unfold pass0
      rw [b6]
    unfold lyapVec
    rw [if_neg (by rw [hnb]; norm_num)]
    dsimp only
    rw [hp]
    generalize cycle0 (ipForm ℝ E3) opt A2 (Module.finrank ℝ E3) P2w dense2 8 (cycle0 (ipForm ℝ E3) opt A2 (Module.finrank ℝ E3) P2w dense2 8
          (start0 P2w ‖(8 : ℝ) • ew 0‖ ((8 : ℝ) • ew 0) buf)) = s at *
    rw [b6]
    dsimp only
    rw [b2, hs]
    dsimp only
    refine ⟨_, by rw [b1, b5], ?_⟩
    generalize rankOf rrank rk = rank
    have hZ : ∀ c, c < rank → ((pass1 (ipForm ℝ E3) opt A2 (Module.finrank ℝ E3) P2w.ncv US Vt rank s
        (((‖(8 : ℝ) • ew 0‖⁻¹ : ℝ) : ℝ) • (8 : ℝ) • ew 0)).Z c) 2 = 0 := by
      intro c hc
      obtain ⟨r1, r2, r3, r4, r5, r6⟩ := one_step opt le_rfl A2 3 (ew 0) (ew 1) (ew_norm 0) (ew_norm 1) (ew_orth 0 1 (by decide)) (-2) 2 (by norm_num) A2_0 s.buf s.M b4
      unfold pass1
      rw [b1, b3]
      rw [show ((cycle1 (ipForm ℝ E3) opt A2 (Module.finrank ℝ E3) P2w.ncv US Vt rank)^[2] ⟨0, 1, s.M, s.buf, _, fun _ => 0⟩) =
        cycle1 (ipForm ℝ E3) opt A2 (Module.finrank ℝ E3) P2w.ncv US Vt rank (cycle1 (ipForm ℝ E3) opt A2 (Module.finrank ℝ E3) P2w.ncv US Vt rank
          ⟨0, 1, s.M, s.buf, (((‖(8 : ℝ) • ew 0‖⁻¹ : ℝ) : ℝ) • (8 : ℝ) • ew 0), fun _ => 0⟩) from rfl]
      have c1 : ∃ (M' buf' : Nat → Nat → ℝ) (Z' : Nat → E3) (q : Nat → ℝ), cycle1 (ipForm ℝ E3) opt A2 (Module.finrank ℝ E3) P2w.ncv US Vt rank
          ⟨0, 1, s.M, s.buf, (((‖(8 : ℝ) • ew 0‖⁻¹ : ℝ) : ℝ) • (8 : ℝ) • ew 0), fun _ => 0⟩ = ⟨1, 1, M', buf', ew 1, Z'⟩ ∧
          (∀ i j, j + 1 < i → M' i j = 0) ∧ ∀ c, c < rank → Z' c = q c • ew 0 := by
        rw [hv0]
        unfold cycle1
        dsimp only
        rw [show P2w.ncv + 1 = 3 from rfl]
        generalize matArnoldi (ipForm ℝ E3) opt A2 (Module.finrank ℝ E3) 0 0 1 3 [mkSlot (ew 0) 1] s.buf s.M = r at *
        refine ⟨r.H, r.buf, _, fun c => ∑ k ∈ Finset.range rank, US (0 * r.m + 0) k * Vt k c, by rw [r1, r3], r6, ?_⟩
        intro c hc
        rw [if_pos hc, zero_add, Finset.sum_range_one, r2, r1]
      obtain ⟨M', buf', Z', q, e, hM', hZ'⟩ := c1
      rw [e]
      obtain ⟨q1, q2, q3, q4, q5, q6⟩ := one_step opt le_rfl A2 3 (ew 1) (ew 2) (ew_norm 1) (ew_norm 2) (ew_orth 1 2 (by decide)) (-2) 2 (by norm_num) A2_1' buf' M' hM'
      unfold cycle1
      dsimp only
      rw [show P2w.ncv + 1 = 3 from rfl]
      generalize matArnoldi (ipForm ℝ E3) opt A2 (Module.finrank ℝ E3) 0 0 1 3 [mkSlot (ew 1) 1] buf' M' = r at *
      rw [if_pos hc, hZ' c hc, q1, Finset.sum_range_one, q2]
      simp [ew]
    intro z
    unfold lowRank
    rw [WithLp.ofLp_sum, Finset.sum_apply]
    refine Finset.sum_eq_zero fun c hc => ?_
    rw [WithLp.ofLp_smul, Pi.smul_apply]
    exact smul_eq_zero_of_right _ (hZ c (Finset.mem_range.1 hc))
  · intro z
    have hadj : A2.adjoint = Matrix.toEuclideanLin !![-2, 2, 0; 0, -2, 2; 0, 0, -2] := by
      unfold A2
      rw [← Matrix.toEuclideanLin_conjTranspose_eq_adjoint]
      congr 1
      ext i j; fin_cases i <;> fin_cases j <;> simp
    unfold resid
    rw [hadj]
    ext i
    fin_cases i <;> simp [A2, ew, Matrix.toEuclideanLin_apply, inner_smul_left, Matrix.mulVec, dotProduct, Fin.sum_univ_succ, PiLp.inner_apply] <;> ring
  · simp [ew, Matrix.toEuclideanLin_apply, Matrix.mulVec, dotProduct, Fin.sum_univ_succ]

end
end Verif.LME
