import Verif.MFN.ExpokitModel
/-! Lemmas on the time stepping of Expokit. -/
set_option linter.all false
namespace Verif.MFN.Expokit
noncomputable section

theorem round2_bounds (t : ℝ) (ht : 0 < t) : t ≤ round2 t ∧ round2 t < 11 / 10 * t := by
  unfold round2
  dsimp only
  have hs : 0 < (10 : ℝ) ^ (⌊Real.logb 10 t⌋ - 1) := by positivity
  have hle : (10 : ℝ) ^ (⌊Real.logb 10 t⌋ - 1) ≤ t / 10 := by
    rw [zpow_sub_one₀ (by norm_num), div_eq_mul_inv]
    refine mul_le_mul_of_nonneg_right ?_ (by norm_num)
    have h1 : (⌊Real.logb 10 t⌋ : ℝ) ≤ Real.logb 10 t := Int.floor_le _
    rw [Real.le_logb_iff_rpow_le (by norm_num) ht, Real.rpow_intCast] at h1
    exact h1
  generalize (10 : ℝ) ^ (⌊Real.logb 10 t⌋ - 1) = s at *
  constructor
  · have := Int.le_ceil (t / s)
    rwa [div_le_iff₀ hs] at this
  · have h1 := Int.ceil_lt_add_one (t / s)
    have h2 := mul_lt_mul_of_pos_right h1 hs
    rw [add_mul, div_mul_cancel₀ _ hs.ne', one_mul] at h2
    linarith

theorem round2_pos (t : ℝ) (ht : 0 < t) : 0 < round2 t := lt_of_lt_of_le ht (round2_bounds t ht).1

theorem scaleStep_pos (tol t err xm : ℝ) (h1 : 0 < tol) (h2 : 0 < t) (h3 : 0 < err) : 0 < scaleStep tol t err xm := by
  unfold scaleStep
  refine round2_pos _ ?_
  have : 0 < (t * tol / err) ^ xm := Real.rpow_pos_of_pos (by positivity) _
  positivity

theorem scaleStep_lt (tol t err xm : ℝ) (h1 : 0 < tol) (h2 : 0 < t) (h4 : 12 / 10 * t * tol < err) (hx : 0 ≤ xm) :
    scaleStep tol t err xm < t := by
  have h3 : 0 < err := lt_trans (by positivity) h4
  unfold scaleStep
  have hp : 0 < (t * tol / err) ^ xm := Real.rpow_pos_of_pos (by positivity) _
  have hle : (t * tol / err) ^ xm ≤ 1 := by
    refine Real.rpow_le_one (by positivity) ?_ hx
    rw [div_le_one h3]
    nlinarith [mul_pos h2 h1]
  have := (round2_bounds (9 / 10 * t * (t * tol / err) ^ xm) (by positivity)).2
  nlinarith

theorem estimate_xm {E : Type} (P : Par E) (hm : 1 < P.m) (t : ℝ) (x : E) : 0 ≤ (estimate P t x).2 := by
  have : (1 : ℝ) < P.m := by exact_mod_cast hm
  unfold estimate
  dsimp only
  split_ifs <;> (dsimp only; apply div_nonneg <;> linarith)

/-- The inner loop. -/
theorem inner_ok {E : Type} (P : Par E) (hm : 1 < P.m) (htol : 0 < P.tol) (x : E) :
    ∀ (n : Nat) (t : ℝ), 0 < t →
      let r := inner P x n t
      0 < r.t ∧ r.t ≤ r.kt ∧ r.kt ≤ t ∧ (r.ok = true → r.kt = r.t ∧ r.err ≤ 12 / 10 * r.t * P.tol) ∧
        (r.ok = false → r.t < r.kt ∧ 12 / 10 * r.kt * P.tol < r.err) := by
  intro n
  induction n with
  | zero =>
    intro t ht
    unfold inner
    dsimp only
    by_cases hc : (estimate P t x).1 ≤ 12 / 10 * t * P.tol
    · rw [if_pos hc]; exact ⟨ht, le_rfl, le_rfl, fun _ => ⟨rfl, hc⟩, fun h => by cases h⟩
    · rw [if_neg hc]
      have hc' := not_le.1 hc
      have hlt := scaleStep_lt P.tol t _ _ htol ht hc' (estimate_xm P hm t x)
      have hpos := scaleStep_pos P.tol t (estimate P t x).1 (estimate P t x).2 htol ht (lt_trans (by positivity) hc')
      exact ⟨hpos, hlt.le, le_rfl, (by intro h; cases h), fun _ => ⟨hlt, hc'⟩⟩
  | succ n ih =>
    intro t ht
    unfold inner
    dsimp only
    by_cases hc : (estimate P t x).1 ≤ 12 / 10 * t * P.tol
    · rw [if_pos hc]; exact ⟨ht, le_rfl, le_rfl, fun _ => ⟨rfl, hc⟩, fun h => by cases h⟩
    · rw [if_neg hc]
      have hc' := not_le.1 hc
      have hlt := scaleStep_lt P.tol t _ _ htol ht hc' (estimate_xm P hm t x)
      have hpos := scaleStep_pos P.tol t (estimate P t x).1 (estimate P t x).2 htol ht (lt_trans (by positivity) hc')
      obtain ⟨a, b, c, d, e⟩ := ih _ hpos
      exact ⟨a, b, c.trans hlt.le, d, e⟩

/-- Invariant of the outer loop. -/
structure Good {E : Type} (P : Par E) (b : E) (s : St E) : Prop where
  x : s.x = s.applied.foldr P.step b
  pos : ∀ t ∈ s.applied, 0 < t
  le : s.tnow ≤ P.tout
  lt : s.reason = .iterating → s.tnow < P.tout
  tnew : ∀ t, s.tnew = some t → 0 < t
  sum : s.exhausted = false → s.applied.sum = s.tnow
  sumge : s.tnow ≤ s.applied.sum
  over : s.exhausted = true → s.tnow < s.applied.sum
  tol : s.reason = .tol → s.tnow = P.tout
  its : s.reason = .its → s.its = P.mxstep
  done : s.tnow = P.tout → s.reason = .tol ∨ s.its = P.mxstep
  cnt : s.applied.length = s.its

theorem finish_good {E : Type} (P : Par E) (htol : 0 < P.tol) (b : E) (s : St E) (h : Good P b s) (hr : s.reason = .iterating) (r : Inner)
    (h1 : 0 < r.t) (h2 : r.t ≤ r.kt) (h3 : r.kt ≤ P.tout - s.tnow) (h4 : r.ok = true → r.kt = r.t) (h5 : r.ok = false → r.t < r.kt)
    (h6 : 0 ≤ r.err) : Good P b (finish P s r) := by
  have hk : 0 < r.kt := lt_of_lt_of_le h1 h2
  unfold finish
  dsimp only
  refine ⟨?_, ?_, ?_, ?_, ?_, ?_, ?_, ?_, ?_, ?_, ?_, ?_⟩ <;> dsimp only
  · rw [List.foldr_cons, ← h.x]
  · intro t ht
    rcases List.mem_cons.1 ht with rfl | ht
    · exact hk
    · exact h.pos t ht
  · linarith
  · intro hh
    by_contra hc
    rw [show decide (s.tnow + r.t ≥ P.tout) = true from decide_eq_true (not_lt.1 hc), if_pos rfl] at hh
    by_cases hm : s.its + 1 = P.mxstep
    · rw [if_pos hm] at hh; cases hh
    · rw [if_neg hm] at hh; cases hh
  · intro t ht
    by_cases hc : decide (s.tnow + r.t ≥ P.tout) = true
    · rw [if_pos hc] at ht; exact h.tnew t ht
    · rw [if_neg hc] at ht
      by_cases he : r.err = 0
      · rw [if_pos he] at ht; cases ht
      · rw [if_neg he] at ht
        obtain rfl := Option.some.inj ht
        exact scaleStep_pos _ _ _ _ htol h1 (lt_of_le_of_ne h6 (Ne.symm he))
  · intro he
    rw [Bool.or_eq_false_iff] at he
    have hok : r.ok = true := by simpa using he.2
    rw [List.sum_cons, h.sum he.1, h4 hok]; ring
  · rw [List.sum_cons]; have := h.sumge; linarith
  · intro he
    rw [List.sum_cons]
    have h0 := h.sumge
    rw [Bool.or_eq_true] at he
    rcases he with he | he
    · have := h.over he; linarith
    · have := h5 (by simpa using he); linarith
  · intro hh
    have hc : s.tnow + r.t ≥ P.tout := by
      by_contra hc
      rw [show decide (s.tnow + r.t ≥ P.tout) = false from decide_eq_false hc] at hh
      by_cases hm : s.its + 1 = P.mxstep
      · rw [if_pos hm] at hh; cases hh
      · rw [if_neg hm] at hh; cases hh
    linarith
  · intro hh
    by_contra hm
    rw [if_neg hm] at hh
    by_cases hc : decide (s.tnow + r.t ≥ P.tout) = true
    · rw [if_pos hc] at hh; cases hh
    · rw [if_neg hc] at hh; cases hh
  · intro hh
    by_cases hm : s.its + 1 = P.mxstep
    · exact Or.inr hm
    · left
      rw [if_neg hm, if_pos (decide_eq_true (by linarith))]
  · rw [List.length_cons, h.cnt]

theorem inner_err {E : Type} (P : Par E) (hm : 1 < P.m) (hp1 : ∀ t x, 0 ≤ P.p1 t x) (hp2 : ∀ t x, 0 ≤ P.p2 t x) (x : E) (n : Nat) (t : ℝ) :
    0 ≤ (inner P x n t).err := by
  have hest : ∀ t, 0 ≤ (estimate P t x).1 := by
    intro t
    unfold estimate
    dsimp only
    split_ifs with h1 h2
    · exact hp2 _ _
    · exact div_nonneg (mul_nonneg (hp1 _ _) (hp2 _ _)) (by linarith)
    · exact hp1 _ _
  induction n generalizing t with
  | zero => unfold inner; dsimp only; split_ifs <;> exact hest t
  | succ n ih =>
    unfold inner; dsimp only
    split_ifs
    · exact hest t
    · exact ih _

theorem iter_good {E : Type} (P : Par E) (hm : 1 < P.m) (htol : 0 < P.tol) (hp1 : ∀ t x, 0 ≤ P.p1 t x) (hp2 : ∀ t x, 0 ≤ P.p2 t x)
    (b : E) (s : St E) (h : Good P b s) (hr : s.reason = .iterating) : Good P b (iter P s) ∧ (iter P s).its = s.its + 1 := by
  have hlt := h.lt hr
  unfold iter
  by_cases hb : P.bd s.x = true
  · rw [if_pos hb]
    exact ⟨finish_good P htol b s h hr _ (by dsimp only; linarith) le_rfl le_rfl (fun _ => rfl) (fun h => by cases h) htol.le, rfl⟩
  · rw [if_neg hb]
    have ht0 : ∃ t0, stepLen P s = t0 ∧ 0 < t0 ∧ t0 ≤ P.tout - s.tnow := by
      refine ⟨_, rfl, ?_⟩
      unfold stepLen
      cases hn : s.tnew with
      | none => dsimp only; constructor <;> linarith
      | some t => exact ⟨lt_min (by linarith) (h.tnew t hn), min_le_left _ _⟩
    obtain ⟨t0, e, h1, h2⟩ := ht0
    rw [e]
    obtain ⟨a, b', c, d, e⟩ := inner_ok P hm htol s.x 10 t0 h1
    exact ⟨finish_good P htol b s h hr _ a b' (c.trans h2) (fun hh => (d hh).1) (fun hh => (e hh).1) (inner_err P hm hp1 hp2 _ _ _), rfl⟩

theorem loop_good {E : Type} (P : Par E) (hm : 1 < P.m) (htol : 0 < P.tol) (hp1 : ∀ t x, 0 ≤ P.p1 t x) (hp2 : ∀ t x, 0 ≤ P.p2 t x)
    (b : E) : ∀ (fuel : Nat) (s : St E), Good P b s → (s.reason = .iterating → s.its + fuel = P.mxstep) → (0 < fuel ∨ s.reason ≠ .iterating) →
      Good P b (loop P fuel s) ∧ (loop P fuel s).reason ≠ .iterating := by
  intro fuel
  induction fuel with
  | zero =>
    intro s h _ h2
    rcases h2 with h2 | h2
    · omega
    · exact ⟨h, h2⟩
  | succ fuel ih =>
    intro s h hf _
    unfold loop
    by_cases hr : s.reason = .iterating
    · rw [if_pos hr]
      obtain ⟨hg, hi⟩ := iter_good P hm htol hp1 hp2 b s h hr
      refine ih _ hg (fun _ => by rw [hi]; have := hf hr; omega) ?_
      by_cases hz : 0 < fuel
      · exact Or.inl hz
      · right
        have hlast : s.its + 1 = P.mxstep := by have := hf hr; omega
        unfold iter
        by_cases hb : P.bd s.x = true
        · rw [if_pos hb]; unfold finish; dsimp only; rw [if_pos hlast]; intro hh; cases hh
        · rw [if_neg hb]; unfold finish; dsimp only; rw [if_pos hlast]; intro hh; cases hh
    · rw [if_neg hr]; exact ⟨h, hr⟩

theorem start_good {E : Type} (P : Par E) (htol : 0 < P.tol) (ht : 0 < P.tout) (hA : 0 ≤ P.anorm) (hx : 0 < P.mxstep) (beta : ℝ) (hb : 0 < beta)
    (b : E) : Good P b (start P beta b) := by
  refine ⟨rfl, by intro t h; simp [start] at h, ht.le, fun _ => ht, ?_, fun _ => by simp [start], by simp [start], (by intro h; cases h),
    (by intro h; cases h), (by intro h; cases h), (by intro h; exact absurd h ht.ne), rfl⟩
  intro t h
  change firstStep P beta = some t at h
  unfold firstStep at h
  by_cases hz : P.anorm = 0
  · rw [if_pos hz] at h; cases h
  · rw [if_neg hz] at h
    obtain rfl := Option.some.inj h
    have ha : 0 < P.anorm := lt_of_le_of_ne hA (Ne.symm hz)
    refine round2_pos _ (mul_pos (by positivity) (Real.rpow_pos_of_pos ?_ _))
    have : (0 : ℝ) < (P.m : ℝ) + 1 := by positivity
    positivity

end
end Verif.MFN.Expokit
