import Verif.Pscl.Thm
import Verif.Pscl.Thm2
/-!
Witness for C190 and examples for C190 to C196.
-/
set_option linter.all false
namespace Verif.Pscl
noncomputable section
open Classical

/-- A symmetric quadratic polynomial with eigenvalue 2 and eigenvector (1,2). -/
def wA : ℕ → Matrix (Fin 2) (Fin 2) ℝ
  | 0 => !![0, 2; 2, 3]
  | 1 => 0
  | _ => !![-1, 0; 0, -1]

theorem wM : buildM 3 wA 1 1 = fun i j => (!![1, 4; 4, 10] : Matrix (Fin 2) (Fin 2) ℝ) i j := by
  funext i j
  fin_cases i <;> fin_cases j <;> simp [buildM, wA, Finset.sum_range_succ, weight] <;> norm_num

theorem wReg : Regular 3 wA := by
  refine ⟨0, ?_⟩
  simp [Finset.sum_range_succ, wA, Matrix.det_fin_two]

/-- With one iteration the solver computes the right diagonal (1/2, 1/4). -/
theorem wDr : ∃ b stop, build 3 wA 1 1 1 = some (b, stop) ∧ b.Dr 0 = 1 / 2 ∧ b.Dr 1 = 1 / 4 := by
  obtain ⟨b0, hb0⟩ : ∃ b0 : Bal 2, b0 = { M := buildM 3 wA 1 1, Dl := fun _ => 1, Dr := fun _ => 1 } := ⟨_, rfl⟩
  have g : Good b0.M := by rw [hb0]; exact regular_good 3 wA 1 1 one_pos one_pos wReg
  have hs := sweep_good b0 g
  have c0 : csum b0.M 0 = 5 := by
    rw [hb0]; simp only [wM, csum, Fin.sum_univ_two]; norm_num
  have c1 : csum b0.M 1 = 14 := by
    rw [hb0]; simp only [wM, csum, Fin.sum_univ_two]; norm_num
  have e0 : expo (csum b0.M 0) = -1 := by rw [c0]; exact expo_eq 1 (by norm_num) (by norm_num) (by norm_num)
  have e1 : expo (csum b0.M 1) = -2 := by rw [c1]; exact expo_eq 2 (by norm_num) (by norm_num) (by norm_num)
  have hl : ∃ stop, build 3 wA 1 1 1 = some (rowScale (colScale b0), stop) := by
    unfold build
    rw [← hb0]
    by_cases h : emax b0 ≤ emin b0 + 2
    · exact ⟨true, by simp only [loop, hs, if_pos h]⟩
    · exact ⟨false, by simp only [loop, hs, if_neg h]⟩
  obtain ⟨stop, hl⟩ := hl
  refine ⟨_, stop, hl, ?_, ?_⟩
  · show b0.Dr 0 * (2:ℝ) ^ expo (csum b0.M 0) = 1 / 2
    rw [e0, hb0]; norm_num
  · show b0.Dr 1 * (2:ℝ) ^ expo (csum b0.M 1) = 1 / 4
    rw [e1, hb0]; norm_num

theorem w_not (x : Fin 2 → ℝ) (lam : ℝ) (hl : lam = 2) (h : x 1 ≠ 2 * x 0) : ¬ PolyEig 2 (fun k => (wA k).mulVecLin) lam x := by
  rintro ⟨-, h2⟩
  have h3 := congrFun h2 0
  apply h
  rw [hl] at h3
  simp [Finset.sum_range_succ, wA, Matrix.mulVec, dotProduct, Fin.sum_univ_two] at h3
  linarith

/-- C190 is false with the diagonals that the solver computes itself: for STOAR and LINEAR with diagonal scaling, and for TOAR and QARNOLDI when it has been selected in
an earlier solve and is not any more, an exact eigenvector of the operator gives a wrong eigenvector of this symmetric quadratic problem. -/
theorem C190_false (s : Solver) : ∃ b stop, build 3 wA 1 1 1 = some (b, stop) ∧
    ∃ ss : List Scale, ss = (if s = .toar ∨ s = .qarnoldi then [.diagonal, .off] else [.diagonal]) ∧
    ∃ theta v, BlockEig 2 (blockOp s (history b.Dr 1 ss) 2 (fun k => (wA k).mulVecLin) (-LinearMap.id)) theta v ∧
      ¬ PolyEig 2 (fun k => (wA k).mulVecLin) (retVal (history b.Dr 1 ss) theta) (retVec (history b.Dr 1 ss) (v 0)) := by
  obtain ⟨b, stop, hb, d0, d1⟩ := wDr
  have hsel : (s = .toar ∨ s = .qarnoldi) ↔ usesDr s = true := by cases s <;> decide
  refine ⟨b, stop, hb, _, rfl, 2, ?_⟩
  simp only [hsel]
  by_cases hs : usesDr s = true
  · rw [if_pos hs]
    have hw : workDr s (history b.Dr 1 [.diagonal, .off]) = some b.Dr := by
      unfold workDr; rw [if_pos hs]; rfl
    refine ⟨fun j => (2:ℝ) ^ j • ![2, 8], ⟨⟨0, by norm_num, ?_⟩, ?_⟩, ?_⟩
    · intro h; have := congrFun h 0; simp at this
    · intro j hj
      unfold blockOp
      by_cases hj' : j + 1 < 2
      · rw [if_pos hj']
        show (2:ℝ) ^ (j + 1) • _ = (2:ℝ) • ((2:ℝ) ^ j • _)
        rw [smul_smul, pow_succ']
      · rw [if_neg hj']
        have : j = 1 := by omega
        subst this
        unfold lastBlock
        rw [hw]
        funext i
        fin_cases i <;>
          simp [divDr, mulDr, d0, d1, history, useScale, Finset.sum_range_succ, wA, Matrix.mulVec, dotProduct, Fin.sum_univ_two] <;> norm_num
    · apply w_not
      · simp [retVal, history, useScale]
      · simp [retVec, history, useScale, Scale.isDiag]; norm_num
  · rw [if_neg hs]
    have hw : workDr s (history b.Dr 1 [.diagonal]) = none := by
      unfold workDr; rw [if_neg hs]
    refine ⟨fun j => (2:ℝ) ^ j • ![1, 2], ⟨⟨0, by norm_num, ?_⟩, ?_⟩, ?_⟩
    · intro h; have := congrFun h 0; simp at this
    · intro j hj
      unfold blockOp
      by_cases hj' : j + 1 < 2
      · rw [if_pos hj']
        show (2:ℝ) ^ (j + 1) • _ = (2:ℝ) • ((2:ℝ) ^ j • _)
        rw [smul_smul, pow_succ']
      · rw [if_neg hj']
        have : j = 1 := by omega
        subst this
        unfold lastBlock
        rw [hw]
        funext i
        fin_cases i <;>
          simp [divDr, mulDr, history, useScale, Finset.sum_range_succ, wA, Matrix.mulVec, dotProduct, Fin.sum_univ_two] <;> norm_num
    · apply w_not
      · simp [retVal, history, useScale]
      · simp [retVec, history, useScale, Scale.isDiag, mulDr, d0, d1]; norm_num

/-- C190: the right cases are not empty: TOAR with diagonal scaling finds the eigenvector of the same problem. -/
example : ∃ b stop, build 3 wA 1 1 1 = some (b, stop) ∧ ∃ theta v,
    BlockEig 2 (blockOp .toar (history b.Dr 1 ([] ++ [.diagonal])) 2 (fun k => (wA k).mulVecLin) (-LinearMap.id)) theta v ∧
    retVal (history b.Dr 1 ([] ++ [.diagonal])) theta = 2 ∧ retVec (history b.Dr 1 ([] ++ [.diagonal])) (v 0) = ![1, 2] := by
  obtain ⟨b, stop, hb, d0, d1⟩ := wDr
  refine ⟨b, stop, hb, ?_⟩
  refine C190_complete .toar _ 2 _ _ (by norm_num) (by rw [history_sf]; norm_num) ?_ ?_ ?_ 2 ![1, 2] ⟨?_, ?_⟩
  · intro D hD i
    rw [history_Dr, if_pos ⟨.diagonal, by simp, rfl⟩] at hD
    cases hD
    fin_cases i
    · show b.Dr 0 ≠ 0
      rw [d0]; norm_num
    · show b.Dr 1 ≠ 0
      rw [d1]; norm_num
  · intro x
    funext i
    fin_cases i <;> simp [wA, Matrix.mulVec, dotProduct, Fin.sum_univ_two]
  · intro _
    rw [history_scale]; rfl
  · intro h; have := congrFun h 0; simp at this
  · funext i
    fin_cases i <;> simp [Finset.sum_range_succ, wA, Matrix.mulVec, dotProduct, Fin.sum_univ_two] <;> norm_num

/-- C190_history_partial: QARNOLDI, scalar scaling first and both strategies later. -/
example (d : ℕ) (A : ℕ → (Fin 2 → ℝ) →ₗ[ℝ] (Fin 2 → ℝ)) (solve : (Fin 2 → ℝ) →ₗ[ℝ] (Fin 2 → ℝ)) (hd : 0 < d) (hsolve : ∀ x, A d (solve x) = x)
    (theta : ℝ) (v : ℕ → Fin 2 → ℝ)
    (h : BlockEig d (blockOp .qarnoldi (history (fun _ => 2) 3 ([.scalar, .off] ++ [.both])) d A solve) theta v) :
    PolyEig d A (retVal (history (fun _ : Fin 2 => (2:ℝ)) 3 ([.scalar, .off] ++ [.both])) theta) (retVec (history (fun _ => 2) 3 ([.scalar, .off] ++ [.both])) (v 0)) :=
  C190_history_partial .qarnoldi _ (by intro i; norm_num) 3 (by norm_num) _ _ (by simp [usesDr, Scale.isDiag]) d A solve hd hsolve theta v h

/-- C191: hypotheses met by the polynomial above. -/
example : ∃ b stop, build 3 wA 1 1 5 = some (b, stop) ∧ (∀ i, PowTwo (b.Dl i)) := by
  obtain ⟨b, stop, h1, h2, -⟩ := C191_partial 3 wA wReg 1 1 one_pos one_pos 5 (by norm_num)
  exact ⟨b, stop, h1, h2⟩

/-- C191_singular: a polynomial with a zero column. -/
example : build 3 (fun k => (!![1, 0; 1, 0] : Matrix (Fin 2) (Fin 2) ℝ)) 1 1 5 = none :=
  C191_singular 3 _ 1 1 one_pos one_pos 5 (by norm_num) 1 (by intro k i _; fin_cases i <;> rfl)

/-- C193_false: the diagonals of src/pep/tests/test3.c (0.95) are overwritten. -/
example (x : Mem 2) (h : x.vec 1 0 = 0.95) : ∃ y, setupDiag .both 3 wA 1 (1/10) 5 (provide x 0 1) = some y ∧ y.vec 1 ≠ x.vec 1 := by
  have hj : ¬ PowTwo (x.vec 1 0) := by
    rintro ⟨k, hk⟩
    rw [h] at hk
    rcases le_or_gt 0 k with h1 | h1
    · have := one_le_zpow₀ (a := (2:ℝ)) (by norm_num) h1
      rw [← hk] at this; norm_num at this
    · have : (2:ℝ) ^ k ≤ 2 ^ (-1:ℤ) := zpow_le_zpow_right₀ (by norm_num) (by omega)
      rw [← hk] at this; norm_num at this
  obtain ⟨y, h1, -, h2, -⟩ := C193_false .both rfl 3 wA wReg 1 (1/10) one_pos (by norm_num) 5 (by norm_num) x 0 1 (by norm_num) 0 hj
  exact ⟨y, h1, h2⟩

/-- C194: a parallel run; a distribution with nonzero entries. -/
example : (addLoop true true 4 3 1 .uninit).isSome = true := C194_partial true true (Or.inl rfl) 4 3 1 .uninit
example : (scanSafe 4 0 2 [(0, 1), (3, 2), (1, 1), (3, 5)]).isSome = true :=
  C194_cols_partial 4 0 2 (by norm_num) (by norm_num) _ (by simp)

/-- C195: norms 8, 3, 2. -/
example (p : Settings) (hs : p.scale.isScalar = true) (hp : p.set = false) :
    (computeFactor 3 (fun k => if k = 0 then 8 else if k = 1 then 3 else 2) p).sfactor ^ 2 * 2 = 8 := by
  have := (C195_partial 3 le_rfl (fun k => if k = 0 then 8 else if k = 1 then 3 else 2) (by intro k; split_ifs <;> norm_num) (by norm_num) (by norm_num) p hs hp).2.1
  simpa using this

/-- C196: an earlier call with factor 3, option on the iterations. -/
example : fromOptions ⟨.both, 3, 1, true, 5, 1⟩ ⟨none, none, some 7, none⟩ = some ⟨.both, 3, 1, true, 7, 1⟩ :=
  C196_partial _ _ rfl rfl (by norm_num) (by norm_num) (by norm_num) (by norm_num) (by simp) (by simp) (by simp)

end
end Verif.Pscl
