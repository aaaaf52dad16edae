import Verif.GKL.SolveLem
/-! Locked triplets are not changed (C126). -/
set_option linter.all false
namespace Verif.GKL
open Verif.BV Verif.BVB Finset
variable {𝕜 E F : Type} [RCLike 𝕜] [NormedAddCommGroup E] [InnerProductSpace 𝕜 E] [NormedAddCommGroup F] [InnerProductSpace 𝕜 F]

theorem orthon_other (o : Opts) (col : ℕ → E) (j : ℕ) (w : E) {m : ℕ} (h : m ≠ j) : (orthon 𝕜 o col j w).1 m = col m := Biorth.wr_other _ _ _ h
theorem orthog_other (o : Opts) (col : ℕ → E) (j : ℕ) (w : E) {m : ℕ} (h : m ≠ j) : (orthog 𝕜 o col j w).1 m = col m := Biorth.wr_other _ _ _ h

theorem twoLoop_frame (o : Opts) (A : E →ₗ[𝕜] F) (AT : F →ₗ[𝕜] E) (fuel i : ℕ) (s : Bid E F) :
    i ≤ (twoLoop o A AT fuel i s).2.1 ∧ (twoLoop o A AT fuel i s).2.1 ≤ i + fuel ∧ (∀ j < i, (twoLoop o A AT fuel i s).1.V j = s.V j) ∧ (∀ j < i, (twoLoop o A AT fuel i s).1.U j = s.U j) := by
  induction fuel generalizing i s with
  | zero => exact ⟨le_rfl, le_rfl, fun _ _ => rfl, fun _ _ => rfl⟩
  | succ f ih =>
    rw [twoLoop_succ]
    obtain ⟨v, hv⟩ : ∃ v, v = orthon 𝕜 o s.V i (AT (s.U (i - 1))) := ⟨_, rfl⟩
    have ev : ∀ j < i, v.1 j = s.V j := fun j hj => by rw [hv]; exact orthon_other _ _ _ _ (by omega)
    rw [← hv]
    by_cases h1 : v.2.2 = true
    · rw [if_pos h1]
      exact ⟨le_rfl, Nat.le_add_right _ _, ev, fun _ _ => rfl⟩
    · rw [if_neg h1]
      obtain ⟨u, hu⟩ : ∃ u, u = orthon 𝕜 o s.U i (A (v.1 i)) := ⟨_, rfl⟩
      have eu : ∀ j < i, u.1 j = s.U j := fun j hj => by rw [hu]; exact orthon_other _ _ _ _ (by omega)
      rw [← hu]
      by_cases h2 : u.2.2 = true
      · rw [if_pos h2]
        exact ⟨le_rfl, Nat.le_add_right _ _, ev, eu⟩
      · rw [if_neg h2]
        obtain ⟨g1, g2, g3, g4⟩ := ih (i + 1) ⟨v.1, u.1, wr s.alpha i u.2.1, wr s.beta (i - 1) v.2.1⟩
        exact ⟨le_trans (Nat.le_succ i) g1, le_trans g2 (by omega), fun j hj => (g3 j (by omega)).trans (ev j hj), fun j hj => (g4 j (by omega)).trans (eu j hj)⟩

/-- Columns before the first new one are not changed. -/
theorem twoSide_frame (o : Opts) (A : E →ₗ[𝕜] F) (AT : F →ₗ[𝕜] E) {p n : ℕ} (hpn : p ≤ n) (s : Bid E F) :
    p ≤ (twoSide o A AT p n s).2.1 ∧ (twoSide o A AT p n s).2.1 ≤ n ∧ (∀ j < p, (twoSide o A AT p n s).1.V j = s.V j) ∧ (∀ j < p, (twoSide o A AT p n s).1.U j = s.U j) := by
  unfold twoSide
  obtain ⟨u, hu⟩ : ∃ u, u = orthon 𝕜 o s.U p (A (s.V p)) := ⟨_, rfl⟩
  have eu : ∀ j < p, u.1 j = s.U j := fun j hj => by rw [hu]; exact orthon_other _ _ _ _ (by omega)
  rw [← hu]
  dsimp only
  by_cases h1 : u.2.2 = true
  · rw [if_pos h1]
    exact ⟨le_rfl, hpn, fun _ _ => rfl, eu⟩
  · rw [if_neg h1]
    obtain ⟨g1, g2, g3, g4⟩ := twoLoop_frame o A AT (n - (p + 1)) (p + 1) ⟨s.V, u.1, wr s.alpha p u.2.1, s.beta⟩
    obtain ⟨r, hr⟩ : ∃ r, r = twoLoop o A AT (n - (p + 1)) (p + 1) ⟨s.V, u.1, wr s.alpha p u.2.1, s.beta⟩ := ⟨_, rfl⟩
    rw [← hr] at g1 g2 g3 g4 ⊢
    have e3 : ∀ j < p, r.1.V j = s.V j := fun j hj => g3 j (by omega)
    have e4 : ∀ j < p, r.1.U j = s.U j := fun j hj => (g4 j (by omega)).trans (eu j hj)
    by_cases h2 : r.2.2 = true
    · rw [if_pos h2]
      refine ⟨le_trans (Nat.le_succ p) g1, ?_, e3, e4⟩
      by_cases hp : p < n
      · exact le_trans g2 (by omega)
      · have : n - (p + 1) = 0 := by omega
        rw [this] at hr
        rw [hr] at h2; cases h2
    · rw [if_neg h2]
      exact ⟨hpn, le_rfl, fun j hj => (orthog_other _ _ _ _ (by omega)).trans (e3 j hj), e4⟩

/-- What is kept from one state to a later one: the number of converged triplets does not decrease and these triplets are the same. -/
structure Keeps (s s' : State E F) : Prop where
  le : s.nconv ≤ s'.nconv
  V : ∀ j < s.nconv, s'.B.V j = s.B.V j
  U : ∀ j < s.nconv, s'.B.U j = s.B.U j
  sigma : ∀ j < s.nconv, s'.sigma j = s.sigma j
  err : ∀ j < s.nconv, s'.err j = s.err j

theorem Keeps.refl (s : State E F) : Keeps s s := ⟨le_rfl, fun _ _ => rfl, fun _ _ => rfl, fun _ _ => rfl, fun _ _ => rfl⟩
theorem Keeps.trans {s s' s'' : State E F} (h : Keeps s s') (h' : Keeps s' s'') : Keeps s s'' :=
  have := h.le
  ⟨le_trans h.le h'.le, fun j hj => (h'.V j (by omega)).trans (h.V j hj), fun j hj => (h'.U j (by omega)).trans (h.U j hj),
    fun j hj => (h'.sigma j (by omega)).trans (h.sigma j hj), fun j hj => (h'.err j (by omega)).trans (h.err j hj)⟩

theorem rotate_low {X : Type} [NormedAddCommGroup X] [InnerProductSpace 𝕜 X] (n s e : ℕ) (Q : ℕ → ℕ → ℝ) (V : ℕ → X) {j : ℕ} (h : j < s) : rotate 𝕜 n s e Q V j = V j := by
  unfold rotate; rw [if_neg (by omega)]
theorem rotate_high {X : Type} [NormedAddCommGroup X] [InnerProductSpace 𝕜 X] (n s e : ℕ) (Q : ℕ → ℕ → ℝ) (V : ℕ → X) {j : ℕ} (h : e ≤ j) : rotate 𝕜 n s e Q V j = V j := by
  unfold rotate; rw [if_neg (by omega)]
theorem rotate_mid {X : Type} [NormedAddCommGroup X] [InnerProductSpace 𝕜 X] (n s e : ℕ) (Q : ℕ → ℕ → ℝ) (V : ℕ → X) {j : ℕ} (h : s ≤ j) (h' : j < e) :
    rotate 𝕜 n s e Q V j = ∑ i ∈ Ico s n, (Q i j : 𝕜) • V i := by
  unfold rotate; rw [if_pos ⟨h, h'⟩]

theorem l_le {keep : ℝ} (hk : keep ≤ 1) {m : ℕ} (hm : 0 < m) : max 1 (Nat.floor ((m : ℝ) * keep)) ≤ m := by
  refine max_le hm ?_
  have : Nat.floor ((m : ℝ) * keep) ≤ Nat.floor (m : ℝ) := Nat.floor_le_floor (by nlinarith [Nat.cast_nonneg (α := ℝ) m])
  rwa [Nat.floor_natCast] at this

theorem l_lt {keep : ℝ} (hk : keep < 1) {m : ℕ} (hm : 2 ≤ m) : max 1 (Nat.floor ((m : ℝ) * keep)) < m := by
  refine max_lt (by omega) ?_
  rw [Nat.floor_lt']
  · have : (2 : ℝ) ≤ m := by exact_mod_cast hm
    nlinarith
  · omega

theorem trCycle_keeps (o : Opts) (A : E →ₗ[𝕜] F) (AT : F →ₗ[𝕜] E) (P : Params) (dense : Dense) (x : E) (s : State E F) (hlock : P.lock = true) (hkeep : P.keep ≤ 1)
    (hroom : s.nconv + s.l ≤ min (s.nconv + P.mpd) P.ncv) :
    Keeps s (trCycle o A AT P dense x s) ∧
    (trCycle o A AT P dense x s).nconv + (trCycle o A AT P dense x s).l ≤ min ((trCycle o A AT P dense x s).nconv + P.mpd) P.ncv := by
  unfold trCycle
  obtain ⟨f1, f2, f3, f4⟩ := twoSide_frame o A AT hroom s.B
  obtain ⟨t, ht⟩ : ∃ t, t = twoSide o A AT (s.nconv + s.l) (min (s.nconv + P.mpd) P.ncv) s.B := ⟨_, rfl⟩
  rw [← ht] at f1 f2 f3 f4
  dsimp only
  rw [← ht]
  by_cases h0 : t.2.1 = 0
  · rw [if_pos h0]
    exact ⟨⟨le_rfl, fun _ _ => rfl, fun _ _ => rfl, fun _ _ => rfl, fun _ _ => rfl⟩, hroom⟩
  · rw [if_neg h0]
    cases hd : dense (decide (0 < s.l)) s.nconv (s.nconv + s.l) t.2.1 t.1.alpha t.1.beta with
    | none => exact ⟨⟨le_rfl, fun _ _ => rfl, fun _ _ => rfl, fun _ _ => rfl, fun _ _ => rfl⟩, hroom⟩
    | some d =>
      have hl : ∀ q : Prop, ¬ (P.lock = false ∧ q) := fun q h => by rw [hlock] at h; cases h.1
      simp only [if_neg (hl _)]
      obtain ⟨k1, k2, k3, k4, k5⟩ := converge_spec P (c := s.nconv) (nv := t.2.1) (by omega) (fun i => if s.nconv ≤ i ∧ i < t.2.1 then d.w i else s.sigma i) (betaNew t.2.1 d t.1.beta) s.err
      obtain ⟨r, hr⟩ : ∃ r, r = converge P s.nconv t.2.1 (fun i => if s.nconv ≤ i ∧ i < t.2.1 then d.w i else s.sigma i) (betaNew t.2.1 d t.1.beta) s.err := ⟨_, rfl⟩
      rw [← hr] at k1 k2 k3 k4 k5
      rw [← hr]
      obtain ⟨l, hl1⟩ : ∃ l, l = if stopping P (s.its + 1) r.1 ≠ .iterating ∨ t.2.2 = true ∨ r.1 = t.2.1 then 0 else max 1 (Nat.floor (((t.2.1 - r.1 : ℕ) : ℝ) * P.keep)) := ⟨_, rfl⟩
      have hln : r.1 + l ≤ t.2.1 := by
        rw [hl1]
        split_ifs with hh
        · exact k2
        · have hne : r.1 ≠ t.2.1 := fun e => hh (Or.inr (Or.inr e))
          have := l_le hkeep (m := t.2.1 - r.1) (by omega)
          omega
      rw [← hl1]
      obtain ⟨q, hq⟩ : ∃ q, q = orthon 𝕜 o (wr t.1.V t.2.1 (((1 / t.1.beta (t.2.1 - 1) : ℝ) : 𝕜) • t.1.V t.2.1)) r.1 x := ⟨_, rfl⟩
      rw [← hq]
      refine ⟨⟨k1, fun j hj => ?_, fun j hj => ?_, fun j hj => ?_, fun j hj => k3 j hj⟩, le_trans hln (le_trans f2 ?_)⟩
      · dsimp only at hj ⊢
        have e1 : ∀ W : ℕ → E, (∀ i < s.nconv, W i = s.B.V i) → rotate 𝕜 t.2.1 s.nconv (r.1 + l) d.Q W j = s.B.V j := fun W hW => by
          rw [rotate_low _ _ _ _ _ hj]; exact hW j hj
        have e2 : ∀ i < s.nconv, wr t.1.V t.2.1 (((1 / t.1.beta (t.2.1 - 1) : ℝ) : 𝕜) • t.1.V t.2.1) i = s.B.V i := fun i hi => by
          rw [Biorth.wr_other _ _ _ (by omega)]; exact f3 i (by omega)
        have e3 : ∀ i < s.nconv, q.1 i = s.B.V i := fun i hi => by
          rw [hq, orthon_other _ _ _ _ (by omega)]; exact e2 i hi
        have e4 : ∀ i < s.nconv, (if stopping P (s.its + 1) r.1 = .iterating ∧ (t.2.2 = true ∨ r.1 = t.2.1) ∧ r.1 < P.nsv then q.1
            else wr t.1.V t.2.1 (((1 / t.1.beta (t.2.1 - 1) : ℝ) : 𝕜) • t.1.V t.2.1)) i = s.B.V i := by
          intro i hi
          split_ifs with hh
          · exact e3 i hi
          · exact e2 i hi
        have e5 := e1 _ e4
        split_ifs at e5 ⊢
        all_goals first
          | exact e5
          | (rw [Biorth.wr_other _ _ _ (by omega)]; exact e5)
      · dsimp only at hj ⊢
        rw [rotate_low _ _ _ _ _ hj]; exact f4 j (by omega)
      · dsimp only at hj ⊢
        rw [if_neg (by omega)]
      · exact min_le_min (by omega) le_rfl

/-- **C126 (SVDTRLANCZOS).**  In the locking variant, for every matrix, every dense solver and any number of further iterations: the number of converged triplets does not decrease, and the
singular values, vectors and error estimates of the triplets converged so far are the same later. -/
theorem C126_tr_partial (o : Opts) (A : E →ₗ[𝕜] F) (AT : F →ₗ[𝕜] E) (P : Params) (dense : Dense) (x : ℕ → E) (hlock : P.lock = true) (hkeep : P.keep ≤ 1) (m : ℕ) (s : State E F)
    (hroom : s.nconv + s.l ≤ min (s.nconv + P.mpd) P.ncv) :
    Keeps s (trRun o A AT P dense x m s) := by
  induction m generalizing s with
  | zero => exact Keeps.refl s
  | succ m ih =>
    unfold trRun
    split_ifs with h
    · obtain ⟨h1, h2⟩ := trCycle_keeps o A AT P dense (x s.its) s hlock hkeep hroom
      exact h1.trans (ih _ h2)
    · exact Keeps.refl s

theorem lCycle_keeps (o : Opts) (A : E →ₗ[𝕜] F) (AT : F →ₗ[𝕜] E) (P : Params) (dense : Dense) (x : (ℕ → E) → ℕ → E) (s : State E F) (hroom : s.nconv ≤ P.ncv) :
    Keeps s (lCycle o A AT P dense x s) ∧ (lCycle o A AT P dense x s).nconv ≤ P.ncv := by
  unfold lCycle
  have hroom' : s.nconv ≤ min (s.nconv + P.mpd) P.ncv := le_min (Nat.le_add_right _ _) hroom
  obtain ⟨f1, f2, f3, f4⟩ := twoSide_frame o A AT hroom' s.B
  obtain ⟨t, ht⟩ : ∃ t, t = twoSide o A AT s.nconv (min (s.nconv + P.mpd) P.ncv) s.B := ⟨_, rfl⟩
  rw [← ht] at f1 f2 f3 f4
  dsimp only
  rw [← ht]
  by_cases h0 : t.2.1 = 0
  · rw [if_pos h0]
    exact ⟨⟨le_rfl, fun _ _ => rfl, fun _ _ => rfl, fun _ _ => rfl, fun _ _ => rfl⟩, hroom⟩
  · rw [if_neg h0]
    cases hd : dense false s.nconv 0 t.2.1 t.1.alpha t.1.beta with
    | none => exact ⟨⟨le_rfl, fun _ _ => rfl, fun _ _ => rfl, fun _ _ => rfl, fun _ _ => rfl⟩, hroom⟩
    | some d =>
      dsimp only
      obtain ⟨k1, k2, k3, k4, k5⟩ := converge_spec P (c := s.nconv) (nv := t.2.1) (by omega) (fun i => if s.nconv ≤ i ∧ i < t.2.1 then d.w i else s.sigma i) (betaNew t.2.1 d t.1.beta) s.err
      obtain ⟨r, hr⟩ : ∃ r, r = converge P s.nconv t.2.1 (fun i => if s.nconv ≤ i ∧ i < t.2.1 then d.w i else s.sigma i) (betaNew t.2.1 d t.1.beta) s.err := ⟨_, rfl⟩
      rw [← hr] at k1 k2 k3 k4 k5
      rw [← hr]
      refine ⟨⟨k1, fun j hj => ?_, fun j hj => ?_, fun j hj => ?_, fun j hj => k3 j hj⟩, le_trans k2 (le_trans f2 (min_le_right _ _))⟩
      · dsimp only at hj ⊢
        have e0 : ∀ i < s.nconv, t.1.V i = s.B.V i := f3
        have e1 : ∀ W : ℕ → E, (∀ i < s.nconv, W i = s.B.V i) → rotate 𝕜 t.2.1 s.nconv r.1 d.Q W j = s.B.V j := fun W hW => by
          rw [rotate_low _ _ _ _ _ hj]; exact hW j hj
        have e4 : ∀ i < s.nconv, (if stopping P (s.its + 1) r.1 = .iterating then
            (if r.1 < t.2.1 then wr t.1.V t.2.1 (∑ j ∈ Ico s.nconv t.2.1, (d.Q j r.1 : 𝕜) • t.1.V j) else (orthon 𝕜 o t.1.V t.2.1 (x t.1.V t.2.1)).1) else t.1.V) i = s.B.V i := by
          intro i hi
          split_ifs
          · rw [Biorth.wr_other _ _ _ (by omega)]; exact e0 i hi
          · rw [orthon_other _ _ _ _ (by omega)]; exact e0 i hi
          · exact e0 i hi
        have e5 := e1 _ e4
        by_cases hs : stopping P (s.its + 1) r.1 = .iterating
        · rw [if_pos hs, Biorth.wr_other _ _ _ (by omega)]; exact e5
        · rw [if_neg hs]; exact e5
      · dsimp only at hj ⊢
        rw [rotate_low _ _ _ _ _ hj]; exact f4 j (by omega)
      · dsimp only at hj ⊢
        rw [if_neg (by omega)]

/-- **C126 (SVDLANCZOS).** -/
theorem C126_l_partial (o : Opts) (A : E →ₗ[𝕜] F) (AT : F →ₗ[𝕜] E) (P : Params) (dense : Dense) (x : ℕ → (ℕ → E) → ℕ → E) (m : ℕ) (s : State E F) (hroom : s.nconv ≤ P.ncv) :
    Keeps s (lRun o A AT P dense x m s) := by
  induction m generalizing s with
  | zero => exact Keeps.refl s
  | succ m ih =>
    unfold lRun
    split_ifs with h
    · obtain ⟨h1, h2⟩ := lCycle_keeps o A AT P dense (x s.its) s hroom
      exact h1.trans (ih _ h2)
    · exact Keeps.refl s

end Verif.GKL
