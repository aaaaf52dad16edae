import Verif.NDef.StopModel

/-!
# C147 and C148: how the outer loops end
-/

set_option linter.all false

namespace Verif.NDef.Stop

/-- invariant of the loop -/
def Inv (P : Par) (s : St) : Prop :=
  (s.reason = .iterating → s.nconv < P.nev) ∧ (s.reason = .tol → s.nconv = P.nev) ∧
    (s.reason ≠ .iterating → s.reason ≠ .tol → s.nconv < P.nev)

theorem stopping_cases (P : Par) (its : ℤ) (m : ℕ) :
    (stopping P its m = .tol ∧ P.nev ≤ m) ∨ (stopping P its m = .its ∧ m < P.nev ∧ P.maxIt ≤ its) ∨ (stopping P its m = .iterating ∧ m < P.nev ∧ its < P.maxIt) := by
  unfold stopping
  by_cases h : m ≥ P.nev
  · rw [if_pos h]; exact Or.inl ⟨rfl, h⟩
  · rw [if_neg h]
    by_cases h2 : its ≥ P.maxIt
    · rw [if_pos h2]; exact Or.inr (Or.inl ⟨rfl, by omega, h2⟩)
    · rw [if_neg h2]; exact Or.inr (Or.inr ⟨rfl, by omega, by omega⟩)

theorem step_inv (S : Solver) (P : Par) (e : Ev) (s : St) (h : Inv P s) (hr : s.reason = .iterating) : Inv P (step S P e s) := by
  have hn := h.1 hr
  cases S
  · show Inv P (stepRII P e s)
    unfold stepRII
    dsimp only
    by_cases hl : s.cur + 1 > 1 ∧ e.lock = true
    · rw [if_pos hl]
      rcases stopping_cases P (s.done + (s.cur + 1) + (s.cur + 1)) (s.nconv + 1) with ⟨q, q2⟩ | ⟨q, q2⟩ | ⟨q, q2⟩ <;> simp [Inv, q] <;> omega
    · rw [if_neg hl]
      rcases stopping_cases P (s.done + (s.cur + 1)) s.nconv with ⟨q, q2⟩ | ⟨q, q2⟩ | ⟨q, q2⟩
      · omega
      · simp [Inv, q]; omega
      · cases hf : e.fail <;> simp [Inv, q, hf] <;> omega
  · show Inv P (stepSLP P e s)
    unfold stepSLP
    dsimp only
    by_cases hl : e.lock = true
    · rw [if_pos hl]
      rcases stopping_cases P (s.done + 1) (s.nconv + 1) with ⟨q, q2⟩ | ⟨q, q2⟩ | ⟨q, q2⟩ <;> simp [Inv, q] <;> omega
    · rw [if_neg hl]
      rcases stopping_cases P (s.done + 1) s.nconv with ⟨q, q2⟩ | ⟨q, q2⟩ | ⟨q, q2⟩
      · omega
      · simp [Inv, q]; omega
      · cases hf : e.fail <;> simp [Inv, q, hf] <;> omega
  · show Inv P (stepNA P e s)
    unfold stepNA
    dsimp only
    by_cases hl : e.lock = true
    · rw [if_pos hl]
      rcases stopping_cases P (s.done + 1) (s.nconv + 1) with ⟨q, q2⟩ | ⟨q, q2⟩ | ⟨q, q2⟩ <;> simp [Inv, q] <;> omega
    · rw [if_neg hl]
      rcases stopping_cases P (s.done + 1) s.nconv with ⟨q, q2⟩ | ⟨q, q2⟩ | ⟨q, q2⟩
      · omega
      · simp [Inv, q]; omega
      · rw [if_pos q]
        by_cases a : s.n ≥ P.ncv
        · rw [if_pos a]; simp [Inv]; omega
        · rw [if_neg a]
          cases hf : e.fail <;> cases hb : e.brk <;> simp [Inv, q] <;> omega

theorem loop_inv (S : Solver) (P : Par) (es : List Ev) (s : St) (h : Inv P s) : Inv P (loop S P es s) := by
  induction es generalizing s with
  | nil => exact h
  | cons e es ih =>
      unfold loop
      by_cases hr : s.reason = .iterating
      · rw [if_pos hr]; exact ih _ (step_inv S P e s h hr)
      · rw [if_neg hr]; exact h

/-- **C147** (partial).  For all events and parameters, when the loop has ended, `NEPSolve` returns normally exactly when the requested number of eigenpairs has converged, and then with exactly this
    number.  Partial: `C147_false`. -/
theorem C147_partial (S : Solver) (P : Par) (hP : 0 < P.nev) (n : ℕ) (es : List Ev) (hend : (loop S P es (init n)).reason ≠ .iterating) :
    finish P (loop S P es (init n)) = .ok .tol P.nev ↔ (loop S P es (init n)).reason = .tol := by
  have h : Inv P (loop S P es (init n)) := loop_inv S P es _ ⟨fun _ => hP, by simp [init], by simp [init]⟩
  generalize loop S P es (init n) = s at h hend
  constructor
  · intro hf
    by_contra hc
    have := h.2.2 hend hc
    unfold finish at hf
    dsimp only at hf
    by_cases a : s.nconv = 0
    · rw [if_pos a] at hf; simp at hf
    · rw [if_neg a, if_pos (by omega)] at hf; simp at hf
  · intro hr
    have hn := h.2.1 hr
    unfold finish
    dsimp only
    rw [if_neg (by omega), if_neg (by omega), hr, hn]

/-- **C147** (negation, all executions).  Whenever one of these solvers stops for any other reason, `NEPSolve` ends with an error, whatever has converged. -/
theorem C147_false (S : Solver) (P : Par) (hP : 0 < P.nev) (n : ℕ) (es : List Ev) (hend : (loop S P es (init n)).reason ≠ .iterating) (hr : (loop S P es (init n)).reason ≠ .tol) :
    finish P (loop S P es (init n)) = .error := by
  have h : Inv P (loop S P es (init n)) := loop_inv S P es _ ⟨fun _ => hP, by simp [init], by simp [init]⟩
  have := h.2.2 hend hr
  unfold finish
  dsimp only
  by_cases a : (loop S P es (init n)).nconv = 0
  · rw [if_pos a]
  · rw [if_neg a, if_pos (by omega)]

/-- the hypotheses of `C147_false` are met after one eigenpair has converged: two requested, the linear solve of the third pass fails -/
example : (loop .na ⟨2, 10, 20⟩ [⟨true, false, false⟩, ⟨false, false, false⟩, ⟨false, true, false⟩] (init 1)).reason = .linear ∧
    (loop .na ⟨2, 10, 20⟩ [⟨true, false, false⟩, ⟨false, false, false⟩, ⟨false, true, false⟩] (init 1)).nconv = 1 ∧
    (loop .slp ⟨2, 10, 20⟩ [⟨true, false, false⟩, ⟨true, false, false⟩] (init 1)).reason = .tol := by decide

/-! ## C148: iteration counts -/

/-- bounds on the counters of NEPSLP and NEPNARNOLDI -/
def Cnt (P : Par) (s : St) : Prop :=
  (s.reason = .iterating → s.done + s.nconv = s.passes ∧ (s.passes = 0 ∨ s.done < P.maxIt)) ∧ (s.reason ≠ .iterating → s.done ≤ s.passes ∧ (s.passes : ℤ) ≤ s.done + s.nconv) ∧
    (s.reason = .its → P.maxIt ≤ s.done)

theorem step_cnt (S : Solver) (hS : S ≠ .rii) (P : Par) (e : Ev) (s : St) (h : Cnt P s) (hr : s.reason = .iterating) : Cnt P (step S P e s) := by
  have hn := h.1 hr
  cases S
  · exact absurd rfl hS
  · show Cnt P (stepSLP P e s)
    unfold stepSLP
    dsimp only
    by_cases hl : e.lock = true
    · rw [if_pos hl]
      rcases stopping_cases P (s.done + 1) (s.nconv + 1) with ⟨q, q2⟩ | ⟨q, q2⟩ | ⟨q, q2⟩ <;> simp [Cnt, q] <;> omega
    · rw [if_neg hl]
      rcases stopping_cases P (s.done + 1) s.nconv with ⟨q, q2⟩ | ⟨q, q2⟩ | ⟨q, q2⟩ <;> cases hf : e.fail <;> simp [Cnt, q, hf] <;> omega
  · show Cnt P (stepNA P e s)
    unfold stepNA
    dsimp only
    by_cases hl : e.lock = true
    · rw [if_pos hl]
      rcases stopping_cases P (s.done + 1) (s.nconv + 1) with ⟨q, q2⟩ | ⟨q, q2⟩ | ⟨q, q2⟩ <;> simp [Cnt, q] <;> omega
    · rw [if_neg hl]
      rcases stopping_cases P (s.done + 1) s.nconv with ⟨q, q2⟩ | ⟨q, q2⟩ | ⟨q, q2⟩
      · simp [Cnt, q]; omega
      · simp [Cnt, q]; omega
      · rw [if_pos q]
        by_cases a : s.n ≥ P.ncv
        · rw [if_pos a]; simp [Cnt]; omega
        · rw [if_neg a]
          cases hf : e.fail <;> cases hb : e.brk <;> simp [Cnt, q] <;> omega

theorem loop_cnt (S : Solver) (hS : S ≠ .rii) (P : Par) (es : List Ev) (s : St) (h : Cnt P s) : Cnt P (loop S P es s) := by
  induction es generalizing s with
  | nil => exact h
  | cons e es ih =>
      unfold loop
      by_cases hr : s.reason = .iterating
      · rw [if_pos hr]; exact ih _ (step_cnt S hS P e s h hr)
      · rw [if_neg hr]; exact h

/-- the length of a loop that is still running -/
theorem loop_passes (S : Solver) (P : Par) (es : List Ev) (s : St) (h : (loop S P es s).reason = .iterating) : (loop S P es s).passes = s.passes + es.length := by
  induction es generalizing s with
  | nil => rfl
  | cons e es ih =>
      unfold loop at h ⊢
      by_cases hr : s.reason = .iterating
      · rw [if_pos hr] at h ⊢
        rw [ih _ h]
        have : (step S P e s).passes = s.passes + 1 := by
          cases S
          · show (stepRII P e s).passes = _
            unfold stepRII; dsimp only; split_ifs <;> rfl
          · show (stepSLP P e s).passes = _
            unfold stepSLP; dsimp only; split_ifs <;> rfl
          · show (stepNA P e s).passes = _
            unfold stepNA; dsimp only; split_ifs <;> rfl
        rw [this]; simp; omega
      · rw [if_neg hr] at h; exact absurd h hr

/-- **C148** (NEPSLP and NEPNARNOLDI).  The loops end, whatever happens in the passes, after at most the maximum number of iterations plus the number of requested eigenvalues; the number of iterations reported is
    the number of passes up to the number of converged eigenpairs; the reason "too many iterations" is given only after as many iterations as allowed. -/
theorem C148_count (S : Solver) (hS : S ≠ .rii) (P : Par) (hP : 0 < P.nev) (hm : 0 < P.maxIt) (n : ℕ) (es : List Ev) :
    (P.maxIt + P.nev ≤ es.length → (loop S P es (init n)).reason ≠ .iterating) ∧
    ((loop S P es (init n)).reason ≠ .iterating → (loop S P es (init n)).done ≤ (loop S P es (init n)).passes ∧
      ((loop S P es (init n)).passes : ℤ) ≤ (loop S P es (init n)).done + (loop S P es (init n)).nconv) ∧
    ((loop S P es (init n)).reason = .its → P.maxIt ≤ (loop S P es (init n)).done) := by
  have h := loop_cnt S hS P es (init n) ⟨fun _ => ⟨by simp [init], Or.inl rfl⟩, by simp [init], by simp [init]⟩
  have hi : Inv P (loop S P es (init n)) := loop_inv S P es _ ⟨fun _ => hP, by simp [init], by simp [init]⟩
  refine ⟨fun hl hc => ?_, h.2.1, h.2.2⟩
  have h1 := h.1 hc
  have h2 := hi.1 hc
  have h3 := loop_passes S P es (init n) hc
  have h4 : (init n).passes = 0 := rfl
  omega

/-- bound on the counters of NEPRII -/
def CntR (P : Par) (s : St) : Prop :=
  s.reason = .iterating → s.done + s.cur + s.nconv = s.passes ∧ (s.passes = 0 ∨ s.done + s.cur < P.maxIt) ∧ -1 ≤ s.cur

theorem loop_cntR (P : Par) (es : List Ev) (s : St) (h : CntR P s) : CntR P (loop .rii P es s) := by
  induction es generalizing s with
  | nil => exact h
  | cons e es ih =>
      unfold loop
      by_cases hr : s.reason = .iterating
      · rw [if_pos hr]
        apply ih
        have hn := h hr
        show CntR P (stepRII P e s)
        unfold stepRII
        dsimp only
        by_cases hl : s.cur + 1 > 1 ∧ e.lock = true
        · rw [if_pos hl]
          rcases stopping_cases P (s.done + (s.cur + 1) + (s.cur + 1)) (s.nconv + 1) with ⟨q, q2⟩ | ⟨q, q2⟩ | ⟨q, q2⟩ <;> simp [CntR, q] <;> omega
        · rw [if_neg hl]
          rcases stopping_cases P (s.done + (s.cur + 1)) s.nconv with ⟨q, q2⟩ | ⟨q, q2⟩ | ⟨q, q2⟩
          · simp [CntR, q]
          · simp [CntR, q]
          · cases hf : e.fail <;> simp [CntR, q, hf] <;> omega
      · rw [if_neg hr]; exact h

/-- **C148** (NEPRII, partial).  The loop ends as well after at most the maximum number of iterations plus the number of requested eigenvalues.  Partial: `C148_rii_false`. -/
theorem C148_rii_partial (P : Par) (hP : 0 < P.nev) (hm : 0 < P.maxIt) (n : ℕ) (es : List Ev) (hl : P.maxIt + P.nev ≤ es.length) :
    (loop .rii P es (init n)).reason ≠ .iterating := by
  intro hc
  have h1 := loop_cntR P es (init n) (fun _ => ⟨by simp [init], Or.inl rfl, by simp [init]⟩) hc
  have h2 := (loop_inv .rii P es (init n) ⟨fun _ => hP, by simp [init], by simp [init]⟩).1 hc
  have h3 := loop_passes .rii P es (init n) hc
  have h4 : (init n).passes = 0 := rfl
  omega

theorem loop_done (S : Solver) (P : Par) (es : List Ev) (s : St) (h : s.reason ≠ .iterating) : loop S P es s = s := by
  cases es with
  | nil => rfl
  | cons e es => unfold loop; rw [if_neg h]

theorem loop_append (S : Solver) (P : Par) (a b : List Ev) (s : St) : loop S P (a ++ b) s = loop S P b (loop S P a s) := by
  induction a generalizing s with
  | nil => rfl
  | cons e a ih =>
      by_cases hr : s.reason = .iterating
      · rw [List.cons_append, loop, if_pos hr, ih, loop, if_pos hr]
      · rw [loop_done S P _ s hr, loop_done S P _ s hr, loop_done S P _ s hr]

/-- **C148** (NEPRII, negation).  For every even limit of at least four there is an execution of NEPRII that stops with "too many iterations" after half of them: when a pair is accepted its
    iterations are counted twice in the stopping test. -/
theorem C148_rii_false (m : ℕ) (hm : 1 < m) :
    let es : List Ev := List.replicate (m - 1) ⟨false, false, false⟩ ++ [⟨true, false, false⟩]
    let s := loop .rii ⟨2, 2 * m, 10⟩ es (init 1)
    s.reason = .its ∧ s.passes = m ∧ s.nconv = 1 := by
  have key : ∀ j : ℕ, j < m → loop .rii ⟨2, 2 * m, 10⟩ (List.replicate j ⟨false, false, false⟩) (init 1) = ⟨0, j, 0, 1, .iterating, j⟩ := by
    intro j
    induction j with
    | zero => intro _; rfl
    | succ j ih =>
        intro hj
        rw [List.replicate_succ', loop_append, ih (by omega)]
        show loop _ _ [_] _ = _
        rw [loop, if_pos rfl, loop]
        show stepRII _ _ _ = _
        unfold stepRII
        dsimp only
        rw [if_neg (by simp)]
        have : stopping ⟨2, 2 * m, 10⟩ (0 + ((j : ℤ) + 1)) 0 = .iterating := by
          unfold stopping
          rw [if_neg (by simp), if_neg (by show ¬ ((0 : ℤ) + (j + 1) ≥ 2 * m); omega)]
        rw [this]
        simp
  intro es s
  have hs : s = loop .rii ⟨2, 2 * m, 10⟩ [⟨true, false, false⟩] ⟨0, ((m - 1 : ℕ) : ℤ), 0, 1, .iterating, m - 1⟩ := by
    show loop _ _ (_ ++ _) _ = _
    rw [loop_append, key _ (by omega)]
  rw [hs, loop, if_pos rfl, loop]
  show (stepRII _ _ _).reason = _ ∧ (stepRII _ _ _).passes = _ ∧ (stepRII _ _ _).nconv = _
  unfold stepRII
  dsimp only
  rw [if_pos ⟨by omega, rfl⟩]
  refine ⟨?_, by show m - 1 + 1 = m; omega, rfl⟩
  dsimp only
  unfold stopping
  rw [if_neg (by simp), if_pos (by show (0 : ℤ) + (((m - 1 : ℕ) : ℤ) + 1) + (((m - 1 : ℕ) : ℤ) + 1) ≥ 2 * m; omega)]

end Verif.NDef.Stop
