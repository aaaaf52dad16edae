import Verif.MFN.ExpokitLemmas
import Mathlib.Analysis.Normed.Algebra.Exponential
import Mathlib.Analysis.Normed.Operator.NormedSpace
/-!
C84: the time stepping of the Expokit solver.

The hypotheses `Ok` collect what holds in every call of `MFNSolve` with MFNEXPOKIT: a positive tolerance and maximum number of
iterations, a nonzero scale factor (`tout` is its absolute value), norms; and at least two columns in the basis.
-/
set_option linter.all false
namespace Verif.MFN.Expokit
noncomputable section

/-- Valid data. -/
structure Ok {E : Type} (P : Par E) : Prop where
  m : 1 < P.m
  tol : 0 < P.tol
  mx : 0 < P.mxstep
  tout : 0 < P.tout
  anorm : 0 ≤ P.anorm
  p1 : ∀ t x, 0 ≤ P.p1 t x
  p2 : ∀ t x, 0 ≤ P.p2 t x

/-- **C84, rejected steps.** A step that is rejected is retried with a smaller, positive one: whatever the error
estimates, rounding the new step up to two digits does not undo its reduction. -/
theorem C84_retry {E : Type} (P : Par E) (h : Ok P) (x : E) (t : ℝ) (ht : 0 < t)
    (hrej : ¬ (estimate P t x).1 ≤ 12 / 10 * t * P.tol) :
    0 < scaleStep P.tol t (estimate P t x).1 (estimate P t x).2 ∧ scaleStep P.tol t (estimate P t x).1 (estimate P t x).2 < t :=
  ⟨scaleStep_pos _ _ _ _ h.tol ht (lt_trans (by have := h.tol; positivity) (not_le.1 hrej)),
    scaleStep_lt _ _ _ _ h.tol ht (not_le.1 hrej) (estimate_xm P h.m t x)⟩

/-- A rejected step exists: the hypotheses of `C84_retry` are met. -/
example : let P : Par ℝ := ⟨2, 100, 1 / 10, 1, 1, fun t x => x + t, fun _ => false, fun _ _ => 1, fun _ _ => 1⟩
    Ok P ∧ ¬ (estimate P 1 0).1 ≤ 12 / 10 * 1 * P.tol := by
  refine ⟨⟨by norm_num, by norm_num, by norm_num, by norm_num, by norm_num, fun _ _ => by norm_num, fun _ _ => by norm_num⟩, ?_⟩
  unfold estimate
  norm_num

/-- **C84, partial.** The solver terminates with a definite reason after as many steps as iterations, the final vector is
the composition of the steps applied, all of them positive. Provided that no iteration runs out of rejections, the steps
never add up to more than the requested time, if convergence is reported they add up to exactly
the requested time, and if they do then convergence is reported unless the limit of iterations was reached.
Missing: `C84_exhausted_false`, `C84_last_false`. -/
theorem C84_steps_partial {E : Type} (P : Par E) (h : Ok P) (beta : ℝ) (hb : 0 < beta) (b : E) :
    let s := solve P beta b
    s.reason ≠ .iterating ∧ s.x = s.applied.foldr P.step b ∧ (∀ t ∈ s.applied, 0 < t) ∧ s.applied.length = s.its ∧
      s.its ≤ P.mxstep ∧
      (s.exhausted = false → s.applied.sum ≤ P.tout ∧ (s.reason = .tol → s.applied.sum = P.tout) ∧
        (s.applied.sum = P.tout → s.reason = .tol ∨ s.its = P.mxstep)) := by
  obtain ⟨hg, hr⟩ := loop_good P h.m h.tol h.p1 h.p2 b P.mxstep (start P beta b)
    (start_good P h.tol h.tout h.anorm h.mx beta hb b) (fun _ => by simp [start]) (Or.inl h.mx)
  intro s
  have hs : loop P P.mxstep (start P beta b) = s := rfl
  rw [hs] at hg hr
  refine ⟨hr, hg.x, hg.pos, hg.cnt, ?_, ?_⟩
  · have key : ∀ (fuel : Nat) (s : St E), s.its + fuel ≤ P.mxstep → (loop P fuel s).its ≤ P.mxstep := by
      intro fuel
      induction fuel with
      | zero => intro s hh; simpa [loop] using hh
      | succ n ih =>
        intro s hh
        unfold loop
        by_cases hc : s.reason = .iterating
        · rw [if_pos hc]
          refine ih _ ?_
          have : (iter P s).its = s.its + 1 := by
            unfold iter; split_ifs <;> rfl
          omega
        · rw [if_neg hc]; omega
    exact key _ _ (by simp [start])
  · intro he
    have hsum := hg.sum he
    rw [hsum]
    exact ⟨hg.le, hg.tol, hg.done⟩

/-- **C84, exponential.** If every step is exact, and convergence is reported without having run out of rejections,
the result is `exp(t A) b`, whatever steps were chosen; it is then scaled by the output factor. -/
theorem C84_exponential {𝕜 E : Type} [RCLike 𝕜] [NormedAddCommGroup E] [NormedSpace 𝕜 E] [CompleteSpace E] (A : E →L[𝕜] E) (t sg : 𝕜)
    (hsg : sgn t = some sg) (P : Par E) (h : Ok P) (hP : P.tout = ‖t‖)
    (hS : ∀ τ x, P.step τ x = (NormedSpace.exp ((sg * ((τ : ℝ) : 𝕜)) • A)) x) (beta : ℝ) (hb : 0 < beta) (b : E)
    (hr : (solve P beta b).reason = .tol) (he : (solve P beta b).exhausted = false) :
    (solve P beta b).x = (NormedSpace.exp (t • A)) b := by
  obtain ⟨_, hx, _, _, _, hsum⟩ := C84_steps_partial P h beta hb b
  have h1 := (hsum he).2.1 hr
  have key : ∀ l : List ℝ, l.foldr P.step b = (NormedSpace.exp ((sg * ((l.sum : ℝ) : 𝕜)) • A)) b := by
    intro l
    induction l with
    | nil => simp [NormedSpace.exp_zero]
    | cons a l ih =>
      rw [List.foldr_cons, ih, hS, ← ContinuousLinearMap.mul_apply, List.sum_cons]
      letI : NormedAlgebra ℚ 𝕜 := NormedAlgebra.restrictScalars ℚ ℝ 𝕜
      letI : NormedAlgebra ℚ (E →L[𝕜] E) := NormedAlgebra.restrictScalars ℚ 𝕜 (E →L[𝕜] E)
      rw [← NormedSpace.exp_add_of_commute]
      · rw [← add_smul, ← mul_add, ← RCLike.ofReal_add]
      · exact ((Commute.refl A).smul_left _).smul_right _
  rw [hx, key, h1, hP]
  unfold sgn at hsg
  by_cases ht : t = 0
  · rw [if_pos ht] at hsg; cases hsg
  · rw [if_neg ht] at hsg
    obtain rfl := Option.some.inj hsg
    have hn : ((‖t‖ : ℝ) : 𝕜) ≠ 0 := by
      rw [Ne, RCLike.ofReal_eq_zero]; exact norm_ne_zero_iff.2 ht
    rw [div_mul_cancel₀ _ hn]

/-- Convergence is reached: a first step with breakdown. -/
example (A : ℝ →L[ℝ] ℝ) : let P : Par ℝ := ⟨2, 100, 1 / 10, 3, 1, fun τ x => (NormedSpace.exp (((1 : ℝ) * τ) • A)) x, fun _ => true,
      fun _ _ => 1, fun _ _ => 1⟩
    Ok P ∧ sgn (3 : ℝ) = some 1 ∧ (solve P 1 1).reason = .tol ∧ (solve P 1 1).exhausted = false := by
  refine ⟨⟨by norm_num, by norm_num, by norm_num, by norm_num, by norm_num, fun _ _ => by norm_num, fun _ _ => by norm_num⟩, ?_, ?_⟩
  · simp [sgn]
  · have : ∀ k s, s.reason ≠ Reason.iterating → loop (⟨2, 100, 1 / 10, 3, 1, fun τ x => (NormedSpace.exp (((1 : ℝ) * τ) • A)) x, fun _ => true,
        fun _ _ => 1, fun _ _ => 1⟩ : Par ℝ) k s = s := by
      intro k s hs
      cases k with
      | zero => rfl
      | succ k => unfold loop; rw [if_neg hs]
    unfold solve
    dsimp only
    rw [show (100 : Nat) = 99 + 1 from rfl, loop, if_pos (by rfl), this]
    · simp [iter, finish, start]
    · simp [iter, finish, start]

/-- **C84 is false of the code (rejections).** If the error estimate is still too large after ten reductions
of the step, the vector is advanced with the last step that was rejected, while the time is advanced only by the smaller step that
would be tried next. The steps applied then add up to more than the requested time, and convergence is reported. -/
theorem C84_exhausted_false : ∃ (P : Par ℝ) (b beta : ℝ), Ok P ∧ 0 < beta ∧ (∀ s t x, P.step s (P.step t x) = P.step (s + t) x) ∧
    (solve P beta b).reason = .tol ∧ P.tout < (solve P beta b).applied.sum ∧ (solve P beta b).x ≠ P.step P.tout b := by
  let P : Par ℝ := ⟨2, 100, 1 / 10, 1, 0, fun t x => x + t, fun x => decide (x ≠ 0), fun _ _ => 1, fun _ _ => 1⟩
  have hOk : Ok P := ⟨by norm_num [P], by norm_num [P], by norm_num [P], by norm_num [P], le_rfl, fun _ _ => zero_le_one, fun _ _ => zero_le_one⟩
  have hest : ∀ t x, estimate P t x = (1, 1) := by
    intro t x; unfold estimate; norm_num [P]
  have hin : ∀ n t, 0 < t → t ≤ 1 → (inner P 0 n t).ok = false := by
    intro n
    induction n with
    | zero =>
      intro t h0 h1
      unfold inner
      dsimp only
      rw [hest, if_neg]
      show ¬ (1 : ℝ) ≤ 12 / 10 * t * (1 / 10)
      linarith
    | succ n ih =>
      intro t h0 h1
      have hr : ¬ (estimate P t 0).1 ≤ 12 / 10 * t * P.tol := by
        rw [hest]
        show ¬ (1 : ℝ) ≤ 12 / 10 * t * (1 / 10)
        linarith
      unfold inner
      dsimp only
      rw [if_neg hr]
      obtain ⟨c1, c2⟩ := C84_retry P hOk 0 t h0 hr
      exact ih _ c1 (by linarith)
  refine ⟨P, 0, 1, hOk, zero_lt_one, fun s t x => by show x + t + s = x + (s + t); ring, ?_⟩
  obtain ⟨a1, a2, a3, a4, a5⟩ := inner_ok P hOk.m hOk.tol 0 10 1 zero_lt_one
  have a6 := a5 (hin 10 1 zero_lt_one le_rfl)
  have hfix : ∀ k s, s.reason ≠ Reason.iterating → loop P k s = s := by
    intro k s hs
    cases k with
    | zero => rfl
    | succ k => unfold loop; rw [if_neg hs]
  have hst : stepLen P (start P 1 0) = 1 := by
    unfold stepLen start firstStep
    simp [P]
  have hi1 : iter P (start P 1 0) = finish P (start P 1 0) (inner P 0 10 1) := by
    unfold iter
    rw [if_neg (show ¬ P.bd (start P 1 0).x = true by simp [P, start]), hst]
    rfl
  generalize inner P 0 10 1 = r at *
  have hlt : ¬ (0 + r.t ≥ 1) := by have := a6.1; linarith
  have e1 : (finish P (start P 1 0) r).reason = .iterating := by
    unfold finish start
    dsimp only
    rw [show decide ((0 : ℝ) + r.t ≥ P.tout) = false from decide_eq_false hlt, if_neg (by norm_num [P])]
    rfl
  have e2 : (finish P (start P 1 0) r).x = 0 + r.kt := rfl
  have e3 : (finish P (start P 1 0) r).tnow = 0 + r.t := rfl
  have e4 : (finish P (start P 1 0) r).applied = [r.kt] := rfl
  have e5 : (finish P (start P 1 0) r).its = 1 := rfl
  have hs : solve P 1 0 = iter P (finish P (start P 1 0) r) := by
    unfold solve
    rw [show P.mxstep = 98 + 1 + 1 from rfl, loop, if_pos (by rfl), hi1, loop, if_pos e1, hfix]
    unfold iter
    rw [e2, if_pos (show P.bd (0 + r.kt) = true from decide_eq_true (by rw [zero_add]; exact (lt_trans a1 a6.1).ne'))]
    unfold finish
    dsimp only
    rw [if_neg (by rw [show (start P 1 0).its = 0 from rfl]; norm_num [P])]
    rw [show decide ((start P 1 0).tnow + r.t + (P.tout - ((start P 1 0).tnow + r.t)) ≥ P.tout) = true from decide_eq_true (by linarith)]
    intro hh; cases hh
  have hs2 : iter P (finish P (start P 1 0) r) = finish P (finish P (start P 1 0) r) ⟨1 - (0 + r.t), 1 - (0 + r.t), P.tol, 1 / (P.m : ℝ), true⟩ := by
    unfold iter
    rw [e2, if_pos (show P.bd (0 + r.kt) = true from decide_eq_true (by rw [zero_add]; exact (lt_trans a1 a6.1).ne')), e3]
  rw [hs, hs2]
  refine ⟨?_, ?_, ?_⟩
  · unfold finish
    dsimp only
    rw [if_neg (by rw [show (start P 1 0).its = 0 from rfl]; norm_num [P])]
    rw [if_pos]
    refine decide_eq_true ?_
    show (0 : ℝ) + r.t + (1 - (0 + r.t)) ≥ 1
    linarith
  · show (1 : ℝ) < (1 - (0 + r.t)) + (r.kt + 0)
    have := a6.1
    linarith
  · show (0 : ℝ) + r.kt + (1 - (0 + r.t)) ≠ 0 + 1
    have := a6.1
    intro hh; linarith

/-- **C84 is false of the code (last iteration).** If the requested time is reached in the last permitted iteration, the result
is right but the reason reported is that the maximum number of iterations was reached. -/
theorem C84_last_false : ∃ (P : Par ℝ) (b beta : ℝ), Ok P ∧ 0 < beta ∧ (solve P beta b).applied.sum = P.tout ∧
    (solve P beta b).x = P.step P.tout b ∧ (solve P beta b).reason = .its := by
  refine ⟨⟨2, 1, 1 / 10, 1, 0, fun t x => x + t, fun _ => true, fun _ _ => 1, fun _ _ => 1⟩, 0, 1,
    ⟨by norm_num, by norm_num, by norm_num, by norm_num, le_rfl, fun _ _ => zero_le_one, fun _ _ => zero_le_one⟩, zero_lt_one, ?_⟩
  simp [solve, loop, iter, finish, start]

/-- **C84 is false of the code (zero time).** With a scale factor of zero the sign of the steps is not a number. -/
theorem C84_zero_false : sgn (0 : ℝ) = none := by simp [sgn]

end
end Verif.MFN.Expokit
