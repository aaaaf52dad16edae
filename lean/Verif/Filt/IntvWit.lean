import Verif.Filt.IntvThm

/-! # Witnesses for the choice of the intervals -/

set_option linter.all false

namespace Verif.Filt

open Classical

theorem gStep_ok (I : GIn) (s t : GSt) (l r : Bool) (h : gStep I s l r = some t) : t.ok = s.ok := by
  rw [gStep] at h
  by_cases h0 : s.lMet = true ∧ (¬ I.two = true ∨ s.rMet = true)
  · rw [if_pos h0] at h; cases h
  rw [if_neg h0] at h
  dsimp only at h
  generalize (if s.rMet = true ∧ (if s.lMet = true ∧ l = true then (false, true) else (l, r)).2 = true then (true, false)
    else if s.lMet = true ∧ l = true then (false, true) else (l, r)) = p at h
  have ht := Option.some.inj h
  rw [← ht]
  by_cases h1 : p.1 = true <;> by_cases h2 : p.2 = true <;> by_cases h3 : I.two = true <;> simp [h1, h2, h3]

theorem gIter_ok (I : GIn) (pe : ℕ → Arr → ℝ → ℝ) (s : GSt) (h : s.ok ≠ 0 ∨ ((gEval I fun x => 1 - pe I.np (gIntv I pe (gClamp I s)) x).stepL = false ∧
    (gEval I fun x => 1 - pe I.np (gIntv I pe (gClamp I s)) x).stepR = false)) : (gIter I pe s).1.ok ≠ 0 := by
  have hc : (gClamp I s).ok = s.ok := by
    rw [gClamp]
    by_cases h1 : s.z1 ≤ I.a
    · simp only [if_pos h1]
      by_cases h2 : I.two = true ∧ I.b ≤ s.z2 <;> simp [h2]
    · simp only [if_neg h1]
      by_cases h2 : I.two = true ∧ I.b ≤ s.z2 <;> simp [h2]
  have step : ∀ (u : GSt) (l r : Bool), u.ok ≠ 0 → (match gStep I u l r with | none => (u, false) | some t => (t, true)).1.ok ≠ 0 := by
    intro u l r hu
    cases hg : gStep I u l r with
    | none => exact hu
    | some t => show t.ok ≠ 0; rw [gStep_ok I u t l r hg]; exact hu
  rw [gIter]
  generalize gClamp I s = t at hc h
  dsimp only
  generalize gIntv I pe t = iv at h
  by_cases h1 : ((gEval I fun x => 1 - pe I.np iv x).stepL || (gEval I fun x => 1 - pe I.np iv x).stepR) = true
  · rw [if_pos h1]
    rcases h with h | h
    · exact step _ _ _ (by rw [hc]; exact h)
    · rw [h.1, h.2] at h1; cases h1
  rw [if_neg h1]
  generalize (1 - ((gEval I fun x => 1 - pe I.np iv x).lo - (gEval I fun x => 1 - pe I.np iv x).bottom) /
    ((gEval I fun x => 1 - pe I.np iv x).hi - (gEval I fun x => 1 - pe I.np iv x).bottom)) = q
  by_cases h2 : t.ok = 0 ∨ t.q < q
  · rw [if_pos h2]
    exact step _ _ _ (by simp)
  rw [if_neg h2]
  have h3 : t.ok ≠ 0 := fun h => h2 (Or.inl h)
  by_cases h4 : t.more + 1 = 4
  · rw [if_pos h4]; simp
  · rw [if_neg h4]; exact step _ _ _ h3

theorem gLoop_ok (I : GIn) (pe : ℕ → Arr → ℝ → ℝ) : ∀ (n : ℕ) (s : GSt), s.ok ≠ 0 → (gLoop I pe n s).ok ≠ 0 := by
  intro n
  induction n with
  | zero => intro s h; exact h
  | succ n ih =>
    intro s h
    rw [gLoop]
    have hi := gIter_ok I pe s (Or.inl h)
    by_cases h1 : (gIter I pe s).2 = true
    · simp only [if_pos h1]; exact ih _ hi
    · simp only [if_neg h1]; exact hi

/-- If the filter needs no step whatever the break points, the choice of the intervals succeeds. -/
theorem getIntervals_some (F : ℝ → ℝ) (a a1 b1 b : ℝ) (grid : ℕ) (h1 : a < a1) (h2 : a1 < b1) (h3 : b1 ≤ b)
    (hl : (gEval { a := a, a1 := a1, b1 := b1, b := b, N := max grid (gridNeed a a1 b1 b), two := decide (b ≠ b1) } F).stepL = false)
    (hr : (gEval { a := a, a1 := a1, b1 := b1, b := b, N := max grid (gridNeed a a1 b1 b), two := decide (b ≠ b1) } F).stepR = false) :
    ∃ np x gamma, getIntervals (fun _ _ x => 1 - F x) a a1 b1 b grid = some (np, x, gamma) := by
  rw [getIntervals, if_neg (by rw [not_not]; exact ⟨h1.le, h2.le, h3⟩), if_neg h2.ne, if_neg h1.ne]
  dsimp only
  generalize ({ a := a, a1 := a1, b1 := b1, b := b, N := max grid (gridNeed a a1 b1 b), two := decide (b ≠ b1) } : GIn) = I at hl hr
  have hF : (fun x => 1 - (1 - F x)) = F := by ext x; ring
  have h4 : (gLoop I (fun _ _ x => 1 - F x) 50 (gInit I)).ok ≠ 0 := by
    show (gLoop I (fun _ _ x => 1 - F x) (49 + 1) (gInit I)).ok ≠ 0
    rw [gLoop]
    have hi := gIter_ok I (fun _ _ x => 1 - F x) (gInit I) (Or.inr (by rw [hF]; exact ⟨hl, hr⟩))
    by_cases h1 : (gIter I (fun _ _ x => 1 - F x) (gInit I)).2 = true
    · simp only [if_pos h1]; exact gLoop_ok _ _ _ _ hi
    · simp only [if_neg h1]; exact hi
  rw [if_neg h4]
  exact ⟨_, _, _, rfl⟩

theorem phase2_quiet (y : ℕ → ℝ) (ins : ℕ → Prop) (lim : ℝ) : ∀ (n k : ℕ) (top bot : ℝ), (∀ j, k < j → y j ≤ top) →
    (phase2 y ins lim n k top bot).1 = false := by
  intro n
  induction n with
  | zero => intro k top bot _; rfl
  | succ n ih =>
    intro k top bot h
    rw [phase2]
    by_cases h1 : ins (k + 1)
    · rw [if_pos h1, if_neg (not_lt.2 (h (k + 1) (by omega)))]
      exact ih _ _ _ fun j hj => h j (by omega)
    · rw [if_neg h1]

/-- A filter with value one on the wanted interval and zero outside. -/
theorem box_noStep (I : GIn) (hI : I.Ok) (F : ℝ → ℝ) (h1 : ∀ x, I.a1 ≤ x → x ≤ I.b1 → F x = 1)
    (hL : (sideScan (fun k => F (I.a1 - k * I.gs)) (fun k => I.a ≤ I.a1 - k * I.gs) (4 / 5) 1 (I.N + 1)).1 = false)
    (hR : (sideScan (fun k => F (I.b1 + k * I.gs)) (fun k => I.b1 + k * I.gs ≤ I.b) (4 / 5) 1 (I.N + 1)).1 = false) :
    (gEval I F).stepL = false ∧ (gEval I F).stepR = false ∧ (gEval I F).lo = 1 := by
  have e2 := hI.mid; have e4 := hI.gs_pos
  have hcast : ∀ i j : ℕ, i ≤ j → (i : ℝ) * I.gs ≤ j * I.gs := fun i j h =>
    mul_le_mul_of_nonneg_right (by exact_mod_cast h) e4.le
  have fa := h1 I.a1 le_rfl e2.le
  have fb := h1 I.b1 e2.le le_rfl
  obtain ⟨-, m2, -⟩ := minScan_spec (fun k => F (I.a1 + k * I.gs)) (fun k => I.a1 + k * I.gs < I.b1)
    (fun i j h h' => lt_of_le_of_lt (by linarith [hcast i j h]) h') I.N 0 (if F I.a1 < F I.b1 then F I.a1 else F I.b1) (if F I.a1 > F I.b1 then F I.a1 else F I.b1)
  have hlo : (gEval I F).lo = 1 := by
    show (minScan (fun k => F (I.a1 + k * I.gs)) (fun k => I.a1 + k * I.gs < I.b1) I.N 0 (if F I.a1 < F I.b1 then F I.a1 else F I.b1) (if F I.a1 > F I.b1 then F I.a1 else F I.b1)).1 = 1
    rcases m2 with m | ⟨j, j1, j2, j3⟩
    · rw [m, fa, fb]; simp
    · rw [j3]
      have : (0 : ℝ) ≤ j * I.gs := by positivity
      exact h1 _ (by linarith) j2.le
  have hlo' : (minScan (fun k => F (I.a1 + k * I.gs)) (fun k => I.a1 + k * I.gs < I.b1) I.N 0 (if F I.a1 < F I.b1 then F I.a1 else F I.b1) (if F I.a1 > F I.b1 then F I.a1 else F I.b1)).1 = 1 := hlo
  refine ⟨?_, ?_, hlo⟩
  · rw [gEval]
    simp only [hlo']; simp only [fa, fb]
    rw [if_neg (by norm_num), one_mul, hL]
    simp
  · rw [gEval]
    simp only [hlo']; simp only [fa, fb]
    rw [if_neg (by norm_num), one_mul, hR]
    simp

/-- A filter for the tests below: one on `[1,2]`, nine tenths at `0.98`, zero elsewhere. -/
noncomputable def bumpF (x : ℝ) : ℝ := if 1 ≤ x ∧ x ≤ 2 then 1 else if x = 98 / 100 then 9 / 10 else 0

/-- **C134** The part of the statement that is false: there are outcomes of the evaluations for which
a filter is accepted though it has, beyond its first local minimum outside the wanted interval, a
grid point inside the range where it exceeds the allowed fraction of the threshold. -/
theorem C134_ripple_false : ∃ np x gamma, getIntervals (fun _ _ x => 1 - bumpF x) 0 1 2 2 200 = some (np, x, gamma) ∧
    gamma = 1 ∧ (2 - 0 : ℝ) / max 200 (gridNeed 0 1 2 2) = 1 / 100 ∧ bumpF (1 - 1 * (1 / 100)) < bumpF 1 ∧
    bumpF (1 - 1 * (1 / 100)) < bumpF (1 - 2 * (1 / 100)) ∧ gamma * (4 / 5) < bumpF (1 - 2 * (1 / 100)) := by
  have hneed : gridNeed 0 1 2 2 = 80 := by
    rw [gridNeed, show (2 * (2 - 0) / (1 / 2 * (2 - 1) * (1 / 10)) : ℝ) = (80 : ℕ) by norm_num]
    exact Nat.floor_natCast 80
  have hN : max 200 (gridNeed 0 1 2 2) = 200 := by rw [hneed]; norm_num
  obtain ⟨I, hI⟩ : ∃ I : GIn, I = { a := 0, a1 := 1, b1 := 2, b := 2, N := max 200 (gridNeed 0 1 2 2), two := decide ((2 : ℝ) ≠ 2) } := ⟨_, rfl⟩
  have hgs : I.gs = 1 / 100 := by rw [GIn.gs, hI]; simp only [hN]; norm_num
  have hok : I.Ok := by
    subst hI
    exact ⟨by norm_num, by norm_num, by norm_num, by simp, by simp only [hN]; norm_num⟩
  have hIN : I.N = 200 := by rw [hI]; exact hN
  have b1 : bumpF (1 - ((0 + 1 : ℕ) : ℝ) * (1 / 100)) = 0 := by rw [bumpF]; norm_num
  have b2 : bumpF (1 - ((0 + 1 + 1 : ℕ) : ℝ) * (1 / 100)) = 9 / 10 := by rw [bumpF]; norm_num
  have hl : (sideScan (fun k => bumpF (I.a1 - k * I.gs)) (fun k => I.a ≤ I.a1 - k * I.gs) (4 / 5) 1 (I.N + 1)).1 = false := by
    rw [hgs, hIN]
    have ea : I.a1 = 1 := by rw [hI]
    have eb : I.a = 0 := by rw [hI]
    simp only [ea, eb]
    have hp : phase1 (fun k => bumpF (1 - k * (1 / 100))) (fun k => (0 : ℝ) ≤ 1 - k * (1 / 100)) (199 + 1 + 1) 0 1 = (2, 0) := by
      rw [phase1, if_pos (by norm_num), b1, if_pos (by norm_num), phase1, if_pos (by norm_num), b2, if_neg (by norm_num), if_pos (by norm_num)]
    rw [sideScan, show 200 + 1 = 199 + 1 + 1 by norm_num, hp]
    refine phase2_quiet _ _ _ _ _ _ _ fun j hj => ?_
    have hj' : (3 : ℝ) ≤ j := by exact_mod_cast hj
    rw [bumpF, if_neg (by intro h; linarith [h.1]), if_neg (by intro h; linarith)]
  have hr : (sideScan (fun k => bumpF (I.b1 + k * I.gs)) (fun k => I.b1 + k * I.gs ≤ I.b) (4 / 5) 1 (I.N + 1)).1 = false := by
    have ea : I.b1 = 2 := by rw [hI]
    have eb : I.b = 2 := by rw [hI]
    rw [hgs, hIN]
    simp only [ea, eb]
    have hp : phase1 (fun k => bumpF (2 + k * (1 / 100))) (fun k => 2 + (k : ℝ) * (1 / 100) ≤ 2) (200 + 1) 0 1 = (1, 1) := by
      rw [phase1, if_neg (by norm_num)]
    rw [sideScan, hp]
    refine phase2_quiet _ _ _ _ _ _ _ fun j hj => ?_
    rw [bumpF]
    split_ifs <;> norm_num
  obtain ⟨s1, s2, s3⟩ := box_noStep I hok bumpF (fun x h1 h2 => by
    rw [bumpF, if_pos]; rw [hI] at h1 h2; exact ⟨h1, h2⟩) hl hr
  obtain ⟨np, x, gamma, hh⟩ := getIntervals_some bumpF 0 1 2 2 200 (by norm_num) (by norm_num) le_rfl (by rw [hI] at s1; exact s1) (by rw [hI] at s2; exact s2)
  have hgamma : gamma = 1 := by
    obtain ⟨-, -, -, h4, -⟩ := C134_partial _ 0 1 2 2 200 np (by norm_num) x gamma _ rfl hh
    have e1 : bumpF 1 = 1 := by rw [bumpF, if_pos (by norm_num)]
    have e2 : bumpF 2 = 1 := by rw [bumpF, if_pos (by norm_num)]
    rcases h4 with h | h
    · rw [h, e1]; norm_num
    · rw [h, e2]; norm_num
  refine ⟨np, x, gamma, hh, hgamma, ?_, ?_, ?_, ?_⟩
  · rw [hN]; norm_num
  · norm_num [bumpF]
  · norm_num [bumpF]
  · rw [hgamma]; norm_num [bumpF]

/-- The hypotheses of C134 for a mid-pass filter: range `[0,3]`, wanted interval `[1,2]`. -/
example : ∃ np x gamma, getIntervals (fun _ _ x => 1 - (if 1 ≤ x ∧ x ≤ 2 then 1 else 0)) 0 1 2 3 200 = some (np, x, gamma) := by
  obtain ⟨I, hI⟩ : ∃ I : GIn, I = { a := 0, a1 := 1, b1 := 2, b := 3, N := max 200 (gridNeed 0 1 2 3), two := decide ((3 : ℝ) ≠ 2) } := ⟨_, rfl⟩
  have hok : I.Ok := by
    subst hI
    exact ⟨by norm_num, by norm_num, by norm_num, by simp, le_trans (by norm_num) (le_max_left _ _)⟩
  have hg := hok.gs_pos
  have e1 : I.a1 = 1 := by rw [hI]
  have e2 : I.b1 = 2 := by rw [hI]
  have zero : ∀ (y : ℕ → ℝ) (ins : ℕ → Prop) (n : ℕ), (∀ k, 1 ≤ k → y k = 0) → (sideScan y ins (4 / 5) 1 n).1 = false := by
    intro y ins n hy
    have hb : ∀ (m k : ℕ) (bot : ℝ), 0 ≤ bot → 0 ≤ (phase1 y ins m k bot).2 := by
      intro m
      induction m with
      | zero => intro k bot h; exact h
      | succ m ih =>
        intro k bot h
        rw [phase1]
        by_cases h1 : ins (k + 1)
        · rw [if_pos h1]
          by_cases h2 : y (k + 1) < bot
          · rw [if_pos h2]; exact ih _ _ (by rw [hy _ (by omega)])
          · rw [if_neg h2]
            by_cases h3 : y (k + 1) > bot
            · rw [if_pos h3]; exact h
            · rw [if_neg h3]; exact ih _ _ h
        · rw [if_neg h1]; exact h
    rw [sideScan]
    refine phase2_quiet _ _ _ _ _ _ _ fun j hj => ?_
    rw [hy j (by omega)]
    exact hb _ _ _ (by norm_num)
  obtain ⟨s1, s2, -⟩ := box_noStep I hok (fun x => if 1 ≤ x ∧ x ≤ 2 then 1 else 0) (fun x h1 h2 => by rw [e1] at h1; rw [e2] at h2; exact if_pos ⟨h1, h2⟩)
    (zero _ _ _ fun k hk => by
      have : (1 : ℝ) ≤ k := by exact_mod_cast hk
      have : 0 < (k : ℝ) * I.gs := by positivity
      rw [e1]; exact if_neg fun h => by linarith [h.1])
    (zero _ _ _ fun k hk => by
      have : (1 : ℝ) ≤ k := by exact_mod_cast hk
      have : 0 < (k : ℝ) * I.gs := by positivity
      rw [e2]; exact if_neg fun h => by linarith [h.2])
  exact getIntervals_some (fun x => if 1 ≤ x ∧ x ≤ 2 then 1 else 0) 0 1 2 3 200 (by norm_num) (by norm_num) (by norm_num) (by rw [hI] at s1; exact s1) (by rw [hI] at s2; exact s2)

end Verif.Filt
