import Verif.Bse.GrThm
import Verif.Bse.Wit

/-! A case that meets the hypotheses of C173. -/
set_option linter.all false

namespace Verif.Bse

open Finset Matrix

/-- Start vector with both components 1. -/
noncomputable def sg1 : Gz 2 := ⟨fun _ => ![1, 1], fun _ => 0, fun _ => 0, fun _ => 0, fun _ => 0, fun _ => 0⟩

/-- A complete factorization exists for the blocks `R = diag(3,8)`, `C = 0`. -/
example : ∃ s, IsBse (Be 1) ∧ Definite (Be 1) ∧ sg1.U 0 ≠ 0 ∧ RunG (applyShift (Be 1)) 1 sg1 0 s := by
  have hB := Be_bse 1
  have hd := Be_def 1 one_pos
  have hP := pair_shift (Be 1) hB.herm hB.symm
  have hne : sg1.U 0 ≠ 0 := by intro h; have := congrFun h 0; simp [sg1] at this
  obtain ⟨g1, g2, g3⟩ := invG_start (app := applyShift (Be 1)) (P := applyShift (Be 1) 1) (M := applyShift (Be 1) (-1)) rfl hP
    (pos_shift _ hd) sg1 hne
  obtain ⟨s, hs⟩ : ∃ s, s = normG0 (applyShift (Be 1)) sg1 := ⟨_, rfl⟩
  rw [← hs] at g3
  have gv := gamV_eq (app := applyShift (Be 1)) (M := applyShift (Be 1) (-1)) rfl 0 0 s
  obtain ⟨v1, v2⟩ := form_nn hP.M0 (pos_neg _ hd) (newV 0 0 s)
  have hg : 0 ≤ gamV (applyShift (Be 1)) 0 0 s := by rw [gv]; linarith
  have hb : Real.sqrt (gamV (applyShift (Be 1)) 0 0 s) ≠ 0 := by
    intro hc
    have := (Real.sqrt_eq_zero hg).1 hc
    exact newV_ne hP le_rfl g3 (v2 (by rw [gv] at this; linarith))
  have hi := invV rfl hP le_rfl g3 hg hb
  obtain ⟨u1, u2⟩ := form_nn hP.P0 (pos_shift _ hd) (newU 0 (stepV (applyShift (Be 1)) 0 0 s))
  have gu := gamU_eq (app := applyShift (Be 1)) (P := applyShift (Be 1) 1) rfl 0 (stepV (applyShift (Be 1)) 0 0 s)
  have hg2 : 0 ≤ gamU (applyShift (Be 1)) 0 (stepV (applyShift (Be 1)) 0 0 s) := by rw [gu]; linarith
  have hb2 : Real.sqrt (gamU (applyShift (Be 1)) 0 (stepV (applyShift (Be 1)) 0 0 s)) ≠ 0 := by
    intro hc
    have h0 := u2 (by have := (Real.sqrt_eq_zero hg2).1 hc; rw [gu] at this; linarith)
    obtain ⟨f0, _, _⟩ := newU_facts hP le_rfl hi
    rw [h0] at f0
    obtain ⟨g, hgd⟩ : ∃ g, g = 1 / Real.sqrt (gamG0 (applyShift (Be 1)) sg1) := ⟨_, rfl⟩
    have hgne : g ≠ 0 := by rw [hgd]; exact one_div_ne_zero g2
    obtain ⟨c, hcd⟩ : ∃ c, c = 1 / Real.sqrt (gamV (applyShift (Be 1)) 0 0 s) := ⟨_, rfl⟩
    have hcne : c ≠ 0 := by rw [hcd]; exact one_div_ne_zero hb
    have hU0 : (stepV (applyShift (Be 1)) 0 0 s).U 0 = ![(g : ℂ), (g : ℂ)] := by
      show s.U 0 = _
      rw [hs]; unfold normG0; simp only []
      rw [Function.update_self, ← hgd]
      funext i; fin_cases i <;> simp [sg1]
    have hN : newV 0 0 s = ![((3 * g : ℝ) : ℂ), ((8 * g : ℝ) : ℂ)] := by
      unfold newV
      simp only [if_true, Finset.Ico_self, Finset.sum_empty, sub_zero]
      rw [hs]; unfold normG0; simp only []
      rw [Function.update_self, ← hgd]
      have : sg1.U 0 = ![(1 : ℂ), 1] := rfl
      rw [this, Be_pos]
      funext i; fin_cases i <;> simp [mul_comm]
    have hV0 : (stepV (applyShift (Be 1)) 0 0 s).V 0 = ![((c * (3 * g) : ℝ) : ℂ), ((c * (8 * g) : ℝ) : ℂ)] := by
      unfold stepV; simp only []
      rw [Function.update_self, if_neg hb, ← hcd, hN]
      funext i; fin_cases i <;> simp
    rw [hV0, Be_neg, hU0] at f0
    obtain ⟨b, hbb⟩ : ∃ b, b = (stepV (applyShift (Be 1)) 0 0 s).b1 0 := ⟨_, rfl⟩
    rw [← hbb] at f0
    have e0 := congrArg Complex.re (congrFun f0 0)
    have e1 := congrArg Complex.re (congrFun f0 1)
    simp at e0 e1
    have : c * g = 0 := by nlinarith
    rcases mul_eq_zero.1 this with h | h
    · exact hcne h
    · exact hgne h
  refine ⟨_, hB, hd, hne, RunG.first (stepU (applyShift (Be 1)) 0 (stepV (applyShift (Be 1)) 0 0 s)) ?_⟩
  unfold gruning0
  rw [if_neg g1, if_neg g2, ← hs]
  unfold lanczosG
  rw [if_neg (not_lt.2 hg), if_neg hb, if_neg (not_lt.2 hg2), if_neg hb2]
  rfl

end Verif.Bse
