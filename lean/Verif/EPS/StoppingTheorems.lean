import Verif.EPS.StoppingModel
import Mathlib.Tactic.NormNum
import Mathlib.Tactic.Linarith

/-!
# C35: stopping tests report the right reason
-/
set_option linter.all false

namespace Verif.EPS

open Classical

/-- **C35, basic test of EPS, PEP and NEP.** -/
theorem C35_basic (its maxIt nconv nev : Nat) :
    (stoppingBasic its maxIt nconv nev = .tol ↔ nev ≤ nconv) ∧
    (stoppingBasic its maxIt nconv nev = .divergedIts ↔ nconv < nev ∧ maxIt ≤ its) ∧
    (stoppingBasic its maxIt nconv nev = .iterating ↔ nconv < nev ∧ its < maxIt) := by
  unfold stoppingBasic
  split_ifs <;> simp <;> omega

example : stoppingBasic 100 100 2 3 = .divergedIts ∧ stoppingBasic 100 100 3 3 = .tol := by decide

/-- **C35, basic test of SVD**: with the "maximum iterations" criterion the solver performs all iterations and
never reports divergence. -/
theorem C35_svd_basic (cm : Bool) (its maxIt nconv nsv : Nat) :
    (svdStoppingBasic cm its maxIt nconv nsv = .tol ↔ nsv ≤ nconv ∧ cm = false) ∧
    (svdStoppingBasic cm its maxIt nconv nsv = .divergedIts ↔ nconv < nsv ∧ maxIt ≤ its ∧ cm = false) ∧
    (svdStoppingBasic cm its maxIt nconv nsv = .maxit ↔ maxIt ≤ its ∧ cm = true) ∧
    (svdStoppingBasic cm its maxIt nconv nsv = .iterating ↔ its < maxIt ∧ (nconv < nsv ∨ cm = true)) := by
  unfold svdStoppingBasic
  cases cm <;> simp <;> split_ifs <;> simp <;> omega

/-- Independent reading of "the next approximation is beyond the threshold", the error estimate taken into account
(EPSSetThreshold manual page): `z` is the next approximation, `z0` the first eigenvalue. -/
def Past (S : Settings) (z0 z : ℂ) (e : ℝ) : Prop :=
  match S.which with
  | .largestMag => ‖z‖ + e < S.thres * (if S.rel then ‖z0‖ else 1)
  | .smallestMag => S.thres < ‖z‖ - e
  | .largestReal => z.re + e < S.thres
  | .smallestReal => S.thres < z.re - e
  | .targetMag => if S.rel then (1 < S.thres ∧ S.thres * z0.re < z.re - e) ∨ (S.thres < 1 ∧ z.re + e < S.thres * z0.re)
      else S.thres < z.re - e
  | .other => False

/-- There is a first non-converged approximation and it is beyond the threshold. -/
def NextPast (S : Settings) (o : Obs) : Prop := 1 ≤ o.k ∧ o.k < o.n ∧ Past S (o.eig 0) (o.eig o.k) (o.err o.k)

theorem epsBeyond_iff (S : Settings) (o : Obs) (h1 : 1 ≤ o.k) (h2 : o.k < o.n) : epsBeyond S o ↔ NextPast S o := by
  obtain ⟨w, rel, t, nev, mx⟩ := S
  unfold epsBeyond NextPast Past
  simp only [h1, h2, true_and]
  cases w <;> cases rel <;> simp [firstnc, firstev, repr, h2]

/-- Observations are possible: at most `n` of `n` approximations have converged. -/
def Valid (obs : Nat → Obs) : Prop := ∀ i, (obs i).k ≤ (obs i).n

theorem epsStep_cases (S : Settings) (its : Nat) (w : Int) (o : Obs) (hv : o.k ≤ o.n) :
    (o.k = 0 ∧ epsStep S its w o = (if its ≥ S.maxIt then .divergedIts else .iterating, w)) ∨
    (1 ≤ o.k ∧ o.k = o.n ∧ epsStep S its w o = (.tol, w)) ∨
    (NextPast S o ∧ epsStep S its w o = (if (its : Int) = w + 1 then (.tol, w) else (.iterating, (its : Int)))) ∨
    (1 ≤ o.k ∧ o.k < o.n ∧ ¬ NextPast S o ∧ S.nev ≠ 0 ∧ S.nev ≤ o.k ∧ epsStep S its w o = (.tol, w)) ∨
    (1 ≤ o.k ∧ o.k < o.n ∧ ¬ NextPast S o ∧ ¬ (S.nev ≠ 0 ∧ S.nev ≤ o.k) ∧
      epsStep S its w o = (if its ≥ S.maxIt then .divergedIts else .iterating, w)) := by
  unfold epsStep thresholdStep
  by_cases h0 : o.k = 0
  · left; refine ⟨h0, ?_⟩; rw [if_pos h0]
  · rw [if_neg h0]
    by_cases h1 : o.k = o.n
    · right; left; refine ⟨by omega, h1, ?_⟩; rw [if_pos h1]
    · rw [if_neg h1]
      have hb := epsBeyond_iff S o (by omega) (by omega)
      by_cases h2 : epsBeyond S o
      · right; right; left
        refine ⟨hb.1 h2, ?_⟩
        rw [if_pos h2]
      · rw [if_neg h2]
        have h2' : ¬ NextPast S o := fun hh => h2 (hb.2 hh)
        by_cases h3 : S.nev ≠ 0 ∧ o.k ≥ S.nev
        · right; right; right; left
          refine ⟨by omega, by omega, h2', h3.1, h3.2, ?_⟩
          rw [if_pos h3]
        · right; right; right; right
          refine ⟨by omega, by omega, h2', h3, ?_⟩
          rw [if_neg h3]

/-- `ctx->its` never exceeds the iteration number, and equals it only if this iteration saw a value beyond. -/
theorem waitAt_le (S : Settings) (obs : Nat → Obs) (hv : Valid obs) :
    ∀ i : Nat, waitAt S obs (-1) i ≤ i ∧ (waitAt S obs (-1) i = i → 1 ≤ i ∧ NextPast S (obs i)) := by
  intro i
  induction i with
  | zero => constructor <;> simp [waitAt]
  | succ i ih =>
    have hw : waitAt S obs (-1) (i + 1) = (epsStep S (i + 1) (waitAt S obs (-1) i) (obs (i + 1))).2 := rfl
    have key : (waitAt S obs (-1) (i + 1) = waitAt S obs (-1) i) ∨
        (waitAt S obs (-1) (i + 1) = ((i + 1 : Nat) : Int) ∧ NextPast S (obs (i + 1))) := by
      rw [hw]
      rcases epsStep_cases S (i + 1) (waitAt S obs (-1) i) (obs (i + 1)) (hv _) with h | h | h | h | h
      · left; rw [h.2]
      · left; rw [h.2.2]
      · rw [h.2]
        split_ifs
        · left; rfl
        · right; exact ⟨rfl, h.1⟩
      · left; rw [h.2.2.2.2.2]
      · left; rw [h.2.2.2.2]
    rcases key with h | h
    · rw [h]
      constructor
      · have := ih.1; push_cast; omega
      · intro hh; have := ih.1; push_cast at hh; omega
    · rw [h.1]
      exact ⟨le_refl _, fun _ => ⟨by omega, h.2⟩⟩

/-- **C35, threshold test: success is justified.** If iteration `i+1` reports convergence then some value has
converged and: all available approximations have converged, or the wanted number has, or the next approximation was
beyond the threshold in this iteration and in the previous one. -/
theorem C35_threshold_tol (S : Settings) (obs : Nat → Obs) (hv : Valid obs) (i : Nat)
    (h : reasonAt S obs (-1) i = .tol) :
    1 ≤ (obs (i + 1)).k ∧ ((obs (i + 1)).k = (obs (i + 1)).n ∨ (S.nev ≠ 0 ∧ S.nev ≤ (obs (i + 1)).k) ∨
      (1 ≤ i ∧ NextPast S (obs i) ∧ NextPast S (obs (i + 1)))) := by
  unfold reasonAt at h
  rcases epsStep_cases S (i + 1) (waitAt S obs (-1) i) (obs (i + 1)) (hv _) with c | c | c | c | c
  · rw [c.2] at h; split_ifs at h
  · exact ⟨c.1, Or.inl c.2.1⟩
  · refine ⟨c.1.1, Or.inr (Or.inr ?_)⟩
    rw [c.2] at h
    split_ifs at h with hw
    have := (waitAt_le S obs hv i).2 (by push_cast at hw; omega)
    exact ⟨this.1, this.2, c.1⟩
  · exact ⟨c.1, Or.inr (Or.inl ⟨c.2.2.2.1, c.2.2.2.2.1⟩)⟩
  · rw [c.2.2.2.2] at h; split_ifs at h

/-- **C35, threshold test: success is reported** as soon as one of these situations occurs, if the solver has not
stopped before. -/
theorem C35_threshold_stops (S : Settings) (obs : Nat → Obs) (hv : Valid obs) (i : Nat) :
    (1 ≤ (obs (i + 1)).k → (obs (i + 1)).k = (obs (i + 1)).n → reasonAt S obs (-1) i = .tol) ∧
    (1 ≤ i → NextPast S (obs i) → reasonAt S obs (-1) (i - 1) = .iterating → NextPast S (obs (i + 1)) →
      reasonAt S obs (-1) i = .tol) ∧
    (1 ≤ (obs (i + 1)).k → S.nev ≠ 0 → S.nev ≤ (obs (i + 1)).k → ¬ NextPast S (obs (i + 1)) →
      reasonAt S obs (-1) i = .tol) := by
  refine ⟨?_, ?_, ?_⟩
  · intro h1 h2
    unfold reasonAt
    rcases epsStep_cases S (i + 1) (waitAt S obs (-1) i) (obs (i + 1)) (hv _) with c | c | c | c | c
    · omega
    · rw [c.2.2]
    · have := c.1.2.1; omega
    · omega
    · omega
  · intro h1 h2 h3 h4
    obtain ⟨j, rfl⟩ : ∃ j, i = j + 1 := ⟨i - 1, by omega⟩
    have hw : waitAt S obs (-1) (j + 1) = ((j + 1 : Nat) : Int) := by
      show (epsStep S (j + 1) (waitAt S obs (-1) j) (obs (j + 1))).2 = _
      unfold reasonAt at h3
      simp only [Nat.add_sub_cancel] at h3
      rcases epsStep_cases S (j + 1) (waitAt S obs (-1) j) (obs (j + 1)) (hv _) with c | c | c | c | c
      · have := h2.1; omega
      · have := h2.2.1; omega
      · rw [c.2] at h3 ⊢
        by_cases hh : ((j + 1 : Nat) : Int) = waitAt S obs (-1) j + 1
        · rw [if_pos hh] at h3; cases h3
        · rw [if_neg hh]
      · exact absurd h2 c.2.2.1
      · exact absurd h2 c.2.2.1
    unfold reasonAt
    rcases epsStep_cases S (j + 1 + 1) (waitAt S obs (-1) (j + 1)) (obs (j + 1 + 1)) (hv _) with c | c | c | c | c
    · have := h4.1; omega
    · rw [c.2.2]
    · rw [c.2, if_pos (by rw [hw]; push_cast; ring)]
    · exact absurd h4 c.2.2.1
    · exact absurd h4 c.2.2.1
  · intro h1 h2 h3 h4
    unfold reasonAt
    rcases epsStep_cases S (i + 1) (waitAt S obs (-1) i) (obs (i + 1)) (hv _) with c | c | c | c | c
    · omega
    · rw [c.2.2]
    · exact absurd c.1 h4
    · rw [c.2.2.2.2.2]
    · exact absurd ⟨h2, h3⟩ c.2.2.2.1

/-- **C35, threshold test: divergence** is reported exactly at the limit without any of the success situations. -/
theorem C35_threshold_diverged (S : Settings) (obs : Nat → Obs) (hv : Valid obs) (i : Nat) :
    reasonAt S obs (-1) i = .divergedIts ↔ S.maxIt ≤ i + 1 ∧ ((obs (i + 1)).k = 0 ∨
      ((obs (i + 1)).k < (obs (i + 1)).n ∧ ¬ NextPast S (obs (i + 1)) ∧ ¬ (S.nev ≠ 0 ∧ S.nev ≤ (obs (i + 1)).k))) := by
  unfold reasonAt
  rcases epsStep_cases S (i + 1) (waitAt S obs (-1) i) (obs (i + 1)) (hv _) with c | c | c | c | c
  · rw [c.2]; simp only; split_ifs with hh <;> simp [c.1, hh] <;> omega
  · rw [c.2.2]; simp only; constructor
    · intro hh; cases hh
    · rintro ⟨_, hh | hh⟩ <;> omega
  · rw [c.2]
    constructor
    · intro hh; split_ifs at hh
    · rintro ⟨_, hh | hh⟩
      · have := c.1.1; omega
      · exact absurd c.1 hh.2.1
  · rw [c.2.2.2.2.2]; simp only; constructor
    · intro hh; cases hh
    · rintro ⟨_, hh | hh⟩
      · omega
      · exact absurd ⟨c.2.2.2.1, c.2.2.2.2.1⟩ hh.2.2
  · rw [c.2.2.2.2]; simp only; constructor
    · intro hh
      split_ifs at hh with h5
      exact ⟨by omega, Or.inr ⟨c.2.1, c.2.2.1, c.2.2.2.1⟩⟩
    · rintro ⟨hh, _⟩
      rw [if_pos (by omega)]

/-- **C35, iteration limit**: the threshold test lets at most one iteration pass beyond the limit. -/
theorem C35_threshold_limit_partial (S : Settings) (obs : Nat → Obs) (hv : Valid obs) (i : Nat) (hi : S.maxIt ≤ i + 1) :
    reasonAt S obs (-1) i ≠ .iterating ∨ reasonAt S obs (-1) (i + 1) ≠ .iterating := by
  by_contra hcon
  push Not at hcon
  obtain ⟨h1, h2⟩ := hcon
  have key : ∀ j, S.maxIt ≤ j + 1 → reasonAt S obs (-1) j = .iterating → NextPast S (obs (j + 1)) := by
    intro j hj hr
    unfold reasonAt at hr
    rcases epsStep_cases S (j + 1) (waitAt S obs (-1) j) (obs (j + 1)) (hv _) with c | c | c | c | c
    · rw [c.2, if_pos (by omega)] at hr; cases hr
    · rw [c.2.2] at hr; cases hr
    · exact c.1
    · rw [c.2.2.2.2.2] at hr; cases hr
    · rw [c.2.2.2.2, if_pos (by omega)] at hr; cases hr
  have a := key i hi h1
  have b := key (i + 1) (by omega) h2
  have := (C35_threshold_stops S obs hv (i + 1)).2.1 (by omega) a (by simpa using h1) b
  rw [this] at h2
  cases h2

/-- **C35 fails for the iteration limit**: when the value beyond the threshold is first seen in the last allowed
iteration, the solver goes on. -/
theorem C35_threshold_limit_false : ¬ ∀ (S : Settings) (obs : Nat → Obs) (i : Nat), Valid obs → S.maxIt ≤ i + 1 →
    reasonAt S obs (-1) i ≠ .iterating := by
  intro h
  refine h ⟨.smallestReal, false, 0, 0, 1⟩ (fun _ => ⟨1, 2, fun _ => 1, fun _ => 0⟩) 0 (fun _ => Nat.le_of_ble_eq_true rfl) (by decide) ?_
  simp [reasonAt, epsStep, thresholdStep, epsBeyond, firstnc, repr, waitAt]

/-- **C35 fails for "everything is computed"**: the test stops with success when all approximations currently
available in the subspace have converged, even if every one is within the threshold (more eigenvalues may remain). -/
theorem C35_all_converged_false : ¬ ∀ (S : Settings) (obs : Nat → Obs) (i : Nat), Valid obs → S.nev = 0 →
    reasonAt S obs (-1) i = .tol → ∃ z e, Past S ((obs (i + 1)).eig 0) z e ∧ ∃ j, z = (obs (i + 1)).eig j ∧ e = (obs (i + 1)).err j := by
  intro h
  obtain ⟨z, e, h1, j, rfl, rfl⟩ := h ⟨.smallestReal, false, 5, 0, 100⟩ (fun _ => ⟨2, 2, fun _ => 1, fun _ => 0⟩) 0
    (fun _ => Nat.le_of_ble_eq_true rfl) rfl (by simp [reasonAt, epsStep, thresholdStep])
  unfold Past at h1
  norm_num at h1

/-- a value beyond the threshold is met in iterations 1 and 2: the solver stops in iteration 2 -/
example : Valid (fun _ => ⟨1, 2, fun _ => 1, fun _ => 0⟩ : Nat → Obs) ∧
    reasonAt ⟨.smallestReal, false, 0, 0, 100⟩ (fun _ => ⟨1, 2, fun _ => 1, fun _ => 0⟩) (-1) 1 = .tol := by
  refine ⟨fun _ => Nat.le_of_ble_eq_true rfl, ?_⟩
  simp [reasonAt, epsStep, thresholdStep, epsBeyond, firstnc, repr, waitAt]

/-- **C35, threshold test of SVD**, one call: which reason is reported. -/
theorem C35_svd_threshold (cm largest rel : Bool) (thres : ℝ) (maxIt nsv its k n : Nat) (sigma err : Nat → ℝ) (wait : Int)
    (hk : k ≤ n) :
    let past : Prop := 1 ≤ k ∧ k < n ∧ (if largest then sigma k + err k < thres * (if rel then sigma 0 else 1)
      else thres < sigma k - err k)
    let r := thresholdStep (svdBeyond largest rel thres k n sigma err) (if cm then .maxit else .divergedIts) maxIt nsv its k n wait
    (r.1 = .tol ↔ 1 ≤ k ∧ (k = n ∨ (past ∧ (its : Int) = wait + 1) ∨ (¬ past ∧ nsv ≠ 0 ∧ nsv ≤ k))) ∧
    (r.2 = if past ∧ (its : Int) ≠ wait + 1 then (its : Int) else wait) ∧
    (r.1 = .divergedIts → maxIt ≤ its ∧ cm = false ∧ ¬ past) ∧
    (r.1 = .maxit → maxIt ≤ its ∧ cm = true ∧ ¬ past) ∧
    (r.1 = .iterating → its < maxIt ∨ (past ∧ (its : Int) ≠ wait + 1)) := by
  intro past r
  by_cases h0 : k = 0
  · have hr : r = (if its ≥ maxIt then (if cm then .maxit else .divergedIts) else .iterating, wait) := by
      show thresholdStep _ _ _ _ _ _ _ _ = _
      unfold thresholdStep
      rw [if_pos h0]
    have hp : ¬ past := fun hp => by have := hp.1; omega
    rw [hr]
    refine ⟨?_, ?_, ?_, ?_, ?_⟩
    · constructor
      · intro hh; simp only at hh; cases cm <;> simp at hh <;> split_ifs at hh
      · rintro ⟨hh, _⟩; omega
    · simp [hp]
    · intro hh; simp only at hh; cases cm <;> (simp only [if_true, if_false, Bool.false_eq_true] at hh; split_ifs at hh with h5 <;> exact ⟨h5, rfl, hp⟩)
    · intro hh; simp only at hh; cases cm <;> (simp only [if_true, if_false, Bool.false_eq_true] at hh; split_ifs at hh with h5 <;> exact ⟨h5, rfl, hp⟩)
    · intro hh; simp only at hh
      split_ifs at hh with h3
      · left; omega
  · by_cases h1 : k = n
    · have hr : r = (.tol, wait) := by
        show thresholdStep _ _ _ _ _ _ _ _ = _
        unfold thresholdStep
        rw [if_neg h0, if_pos h1]
      have hp : ¬ past := fun hp => by have := hp.2.1; omega
      rw [hr]
      refine ⟨?_, by simp [hp], (by intro hh; cases hh), (by intro hh; cases hh), (by intro hh; cases hh)⟩
      constructor
      · intro _; exact ⟨by omega, Or.inl h1⟩
      · intro _; rfl
    · have hb : svdBeyond largest rel thres k n sigma err ↔ past := by
        show _ ↔ (1 ≤ k ∧ k < n ∧ _)
        have e1 : 1 ≤ k := by omega
        have e2 : k < n := by omega
        unfold svdBeyond
        cases largest <;> cases rel <;> simp [e1, e2]
      by_cases h2 : past
      · have hr : r = if (its : Int) = wait + 1 then (.tol, wait) else (.iterating, (its : Int)) := by
          show thresholdStep _ _ _ _ _ _ _ _ = _
          unfold thresholdStep
          rw [if_neg h0, if_neg h1, if_pos (hb.2 h2)]
        rw [hr]
        by_cases h3 : (its : Int) = wait + 1
        · rw [if_pos h3]
          refine ⟨?_, by simp [h3], (by intro hh; cases hh), (by intro hh; cases hh), (by intro hh; cases hh)⟩
          constructor
          · intro _; exact ⟨by omega, Or.inr (Or.inl ⟨h2, h3⟩)⟩
          · intro _; rfl
        · rw [if_neg h3]
          refine ⟨?_, by rw [if_pos ⟨h2, h3⟩], (by intro hh; cases hh), (by intro hh; cases hh), fun _ => Or.inr ⟨h2, h3⟩⟩
          constructor
          · intro hh; cases hh
          · rintro ⟨_, hh | hh | hh⟩
            · omega
            · exact absurd hh.2 h3
            · exact absurd h2 hh.1
      · by_cases h3 : nsv ≠ 0 ∧ k ≥ nsv
        · have hr : r = (.tol, wait) := by
            show thresholdStep _ _ _ _ _ _ _ _ = _
            unfold thresholdStep
            rw [if_neg h0, if_neg h1, if_neg (fun hh => h2 (hb.1 hh)), if_pos h3]
          rw [hr]
          refine ⟨?_, by simp [h2], (by intro hh; cases hh), (by intro hh; cases hh), (by intro hh; cases hh)⟩
          constructor
          · intro _; exact ⟨by omega, Or.inr (Or.inr ⟨h2, h3.1, h3.2⟩)⟩
          · intro _; rfl
        · have hr : r = (if its ≥ maxIt then (if cm then .maxit else .divergedIts) else .iterating, wait) := by
            show thresholdStep _ _ _ _ _ _ _ _ = _
            unfold thresholdStep
            rw [if_neg h0, if_neg h1, if_neg (fun hh => h2 (hb.1 hh)), if_neg h3]
          rw [hr]
          refine ⟨?_, ?_, ?_, ?_, ?_⟩
          · constructor
            · intro hh; simp only at hh; cases cm <;> simp at hh <;> split_ifs at hh
            · rintro ⟨_, hh | hh | hh⟩
              · omega
              · exact absurd hh.1 h2
              · exact absurd ⟨hh.2.1, hh.2.2⟩ h3
          · simp [h2]
          · intro hh; simp only at hh; cases cm <;> (simp only [if_true, if_false, Bool.false_eq_true] at hh; split_ifs at hh with h5 <;> exact ⟨h5, rfl, h2⟩)
          · intro hh; simp only at hh; cases cm <;> (simp only [if_true, if_false, Bool.false_eq_true] at hh; split_ifs at hh with h5 <;> exact ⟨h5, rfl, h2⟩)
          · intro hh; simp only at hh
            split_ifs at hh with h4
            · left; omega

end Verif.EPS
