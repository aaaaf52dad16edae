import Verif.GKL.TrThm
/-! SVDLANCZOS with explicit restart (C125, C128). -/
set_option linter.all false
namespace Verif.GKL
open Verif.BV Verif.BVB Finset
variable {𝕜 E F : Type} [RCLike 𝕜] [NormedAddCommGroup E] [InnerProductSpace 𝕜 E] [NormedAddCommGroup F] [InnerProductSpace 𝕜 F]

/-- The state of SVDLANCZOS at the top of the loop: converged triplets, and a start vector that is a unit vector orthogonal to the converged right vectors. -/
structure LGood (A : E →ₗ[𝕜] F) (AT : F →ₗ[𝕜] E) (P : Params) (s : State E F) : Prop where
  locked : Locked A AT P s.nconv s
  same : ∀ j < s.nconv, s.B.alpha j = s.sigma j
  unit : ‖s.B.V s.nconv‖ = 1
  orth : ∀ j < s.nconv, inner 𝕜 (s.B.V j) (s.B.V s.nconv) = 0
  nsv : s.nconv < P.nsv
  l : s.l = 0

/-- The result of an iteration; the error (an illegal size given to DSSVDSetDimensions) happens only if nothing has converged and the start vector is in the null space of `A`. -/
structure LResult (A : E →ₗ[𝕜] F) (AT : F →ₗ[𝕜] E) (P : Params) (s : State E F) : Prop where
  locked : Locked A AT P s.nconv s
  iterating : s.status = .iterating → LGood A AT P s
  tol : s.status = .tol → P.nsv ≤ s.nconv
  its : s.status = .divergedIts → P.maxIt ≤ s.its
  error : s.status = .error → s.nconv = 0 ∧ A (s.B.V 0) = 0
  reasons : s.status ≠ .breakdown ∧ s.status ≠ .nan

theorem LGood.kept {A : E →ₗ[𝕜] F} {AT : F →ₗ[𝕜] E} {P : Params} {s : State E F} (h : LGood A AT P s) : Kept A AT s.nconv s.nconv s.B := by
  refine ⟨le_rfl, ?_, h.locked.onU, fun j hj => ?_, fun j h1 h2 => absurd h2 (not_lt.mpr h1)⟩
  · have h1 := Insert.on_step h.locked.onV h.orth h.unit
    refine on_congr h1 (fun i hi => ?_)
    by_cases e : i = s.nconv
    · rw [e, Biorth.wr_same]
    · rw [Biorth.wr_other _ _ _ e]
  · rw [min_eq_left hj.le, h.same j hj]
    exact h.locked.right j hj

theorem on_unit {V : ℕ → E} {n j : ℕ} (h : Insert.ON 𝕜 V n) (hj : j < n) : ‖V j‖ = 1 := by
  have h2 := h j hj j hj
  rw [if_pos rfl, inner_self_eq_norm_sq_to_K] at h2
  have h3 : ‖V j‖ ^ 2 = 1 := by exact_mod_cast h2
  nlinarith [norm_nonneg (V j)]

theorem lCycle_ok (o : Opts) (he : o.eta ≤ 1) {A : E →ₗ[𝕜] F} {AT : F →ₗ[𝕜] E} (hadj : Adj A AT) (P : Params) (hncv : P.nsv ≤ P.ncv) (hmpd : 0 < P.mpd)
    (dense : Dense) (hd : DenseOK dense) (x : (ℕ → E) → ℕ → E) (hx : ∀ V n, n < P.nsv → x V n ∉ Biorth.spanOf 𝕜 V n) (s : State E F) (hs : LGood A AT P s) :
    LResult A AT P (lCycle o A AT P dense x s) ∧ (lCycle o A AT P dense x s).its = s.its + 1 ∧
    ((lCycle o A AT P dense x s).status = .iterating → s.its + 1 < P.maxIt) := by
  have hnsv := hs.nsv
  have hroom : s.nconv < min (s.nconv + P.mpd) P.ncv := by omega
  obtain ⟨t1, nv, bd, e0, v1, v2, v3, v4, hcase⟩ := twoSide_ok o he hadj s.B hs.kept hroom
  have tV : ∀ j < s.nconv, t1.V j = s.B.V j := fun j hj => v1 j (by omega)
  have tU : ∀ j < s.nconv, t1.U j = s.B.U j := fun j hj => v2 j (by omega)
  unfold lCycle
  dsimp only
  rw [e0]
  dsimp only
  by_cases h0 : nv = 0
  · rw [if_pos h0]
    rcases hcase with ⟨c1, c2, c3⟩ | ⟨c1, c2, c3⟩
    · have hn0 : s.nconv = 0 := by omega
      refine ⟨⟨⟨hs.locked.onV, hs.locked.onU, hs.locked.nonneg, hs.locked.right, hs.locked.est, hs.locked.acc⟩, (fun h => by cases h), (fun h => by cases h), (fun h => by cases h), fun _ => ⟨hn0, ?_⟩, (fun h => by cases h), (fun h => by cases h)⟩, rfl,
        (fun h => by cases h)⟩
      rw [hn0] at c3
      have : Biorth.spanOf 𝕜 s.B.U 0 = ⊥ := by
        unfold Biorth.spanOf
        rw [Submodule.span_eq_bot]
        rintro y ⟨i, hi, rfl⟩; exact absurd hi (Nat.not_lt_zero _)
      rw [this] at c3
      exact (Submodule.mem_bot 𝕜).mp c3
    · omega
  · rw [if_neg h0]
    have hcnle : s.nconv ≤ nv := by
      rcases hcase with ⟨c1, c2, c3⟩ | ⟨c1, c2, c3⟩ <;> omega
    obtain ⟨d, hd1, hd2⟩ := hd false s.nconv 0 nv t1.alpha t1.beta (by omega) hcnle (fun h => by cases h)
    have S : IsSvd s.nconv nv (bent s.nconv t1.alpha t1.beta) d := by simpa using hd2
    rw [hd1]
    dsimp only
    obtain ⟨w1, w2, w3, w4, w5⟩ := converge_spec P (c := s.nconv) (nv := nv) hcnle (fun i => if s.nconv ≤ i ∧ i < nv then d.w i else s.sigma i) (betaNew nv d t1.beta) s.err
    obtain ⟨R, hR⟩ : ∃ r, r = converge P s.nconv nv (fun i => if s.nconv ≤ i ∧ i < nv then d.w i else s.sigma i) (betaNew nv d t1.beta) s.err := ⟨_, rfl⟩
    rw [← hR] at w1 w2 w3 w4 w5
    rw [← hR]
    have sm : ∀ j, s.nconv ≤ j → j < nv → (if s.nconv ≤ j ∧ j < nv then d.w j else s.sigma j) = d.w j := fun j h1 h2 => if_pos ⟨h1, h2⟩
    have bm : ∀ j < nv, betaNew nv d t1.beta j = t1.beta (nv - 1) * d.P (nv - 1) j := fun j hj => by unfold betaNew; rw [if_pos hj]
    have em : ∀ j, s.nconv ≤ j → j < R.1 → R.2 j = P.conv (d.w j) |t1.beta (nv - 1) * d.P (nv - 1) j| ∧ P.conv (d.w j) |t1.beta (nv - 1) * d.P (nv - 1) j| < P.tol := by
      intro j h1 h2
      have h3 := w4 j h1 h2
      rw [sm j h1 (by omega), bm j (by omega)] at h3
      exact h3
    have onV : Insert.ON 𝕜 t1.V nv ∧ Insert.ON 𝕜 t1.U nv := by
      rcases hcase with ⟨c1, c2, c3⟩ | ⟨c1, c2, y, D, c4⟩
      · rw [c2]
        exact ⟨on_congr hs.locked.onV tV, on_congr hs.locked.onU tU⟩
      · exact ⟨D.onV, D.onU⟩
    -- the converged triplets
    have hlk : ∀ (V' : ℕ → E) (al : ℕ → ℝ) (st : Status), (∀ j < s.nconv, V' j = t1.V j) →
        (∀ j, s.nconv ≤ j → j < R.1 → V' j = ∑ i ∈ Ico s.nconv nv, (d.Q i j : 𝕜) • t1.V i) →
        Locked A AT P R.1 (⟨s.its + 1, R.1, 0, ⟨V', rotate 𝕜 nv s.nconv R.1 d.P t1.U, al, betaNew nv d t1.beta⟩,
          (fun i => if s.nconv ≤ i ∧ i < nv then d.w i else s.sigma i), R.2, st⟩ : State E F) := by
      intro V' al st h1 h2
      by_cases hcn : s.nconv < nv
      · rcases hcase with ⟨c1, c2, c3⟩ | ⟨c1, c2, y, D, c4⟩
        · omega
        · exact locked_next hs.locked D S hcn w1 w2 tV tU h1 h2 (fun j hj => rotate_low _ _ _ _ _ hj) (fun j hj hj' => rotate_mid _ _ _ _ _ hj hj')
            (fun j hj => if_neg (by omega)) (fun j hj hj' => sm j hj (by omega)) w3 em
      · have hk : R.1 = s.nconv := by omega
        rw [hk]
        have vl : ∀ j < s.nconv, V' j = s.B.V j := fun j hj => (h1 j hj).trans (tV j hj)
        have ul : ∀ j < s.nconv, rotate 𝕜 nv s.nconv s.nconv d.P t1.U j = s.B.U j := fun j hj => (rotate_low _ _ _ _ _ hj).trans (tU j hj)
        have sl : ∀ j < s.nconv, (if s.nconv ≤ j ∧ j < nv then d.w j else s.sigma j) = s.sigma j := fun j hj => if_neg (by omega)
        refine ⟨on_congr hs.locked.onV vl, on_congr hs.locked.onU ul, ?_, ?_, ?_, ?_⟩
        · intro j hj
          show 0 ≤ if s.nconv ≤ j ∧ j < nv then d.w j else s.sigma j
          rw [sl j hj]; exact hs.locked.nonneg j hj
        · intro j hj
          show A (V' j) - ((if s.nconv ≤ j ∧ j < nv then d.w j else s.sigma j : ℝ) : 𝕜) • rotate 𝕜 nv s.nconv s.nconv d.P t1.U j ∈ Biorth.spanOf 𝕜 (rotate 𝕜 nv s.nconv s.nconv d.P t1.U) j
          rw [sl j hj, vl j hj, ul j hj, Biorth.spanOf_congr (fun i hi => ul i (by omega))]
          exact hs.locked.right j hj
        · intro j hj
          show R.2 j = P.conv (if s.nconv ≤ j ∧ j < nv then d.w j else s.sigma j)
            ‖AT (rotate 𝕜 nv s.nconv s.nconv d.P t1.U j) - ((if s.nconv ≤ j ∧ j < nv then d.w j else s.sigma j : ℝ) : 𝕜) • V' j‖
          rw [sl j hj, vl j hj, ul j hj, w3 j hj]
          exact hs.locked.est j hj
        · intro j hj
          show R.2 j < P.tol
          rw [w3 j hj]; exact hs.locked.acc j hj
    have rotV : ∀ (W : ℕ → E), (∀ j < nv, W j = t1.V j) → (∀ j < s.nconv, rotate 𝕜 nv s.nconv R.1 d.Q W j = t1.V j) ∧
        (∀ j, s.nconv ≤ j → j < R.1 → rotate 𝕜 nv s.nconv R.1 d.Q W j = ∑ i ∈ Ico s.nconv nv, (d.Q i j : 𝕜) • t1.V i) := by
      intro W hW
      refine ⟨fun j hj => (rotate_low _ _ _ _ _ hj).trans (hW j (by omega)), fun j h1 h2 => (rotate_mid _ _ _ _ _ h1 h2).trans ?_⟩
      exact sum_congr rfl fun i hi => by rw [hW i (mem_Ico.mp hi).2]
    rcases stopping_cases P (s.its + 1) R.1 with ⟨st, hst⟩ | ⟨st, hst⟩ | ⟨st, hst, hst'⟩
    · have c1 : ¬ Status.tol = Status.iterating := fun h => by cases h
      rw [st, if_neg c1, if_neg c1]
      have h1 := rotV t1.V (fun _ _ => rfl)
      exact ⟨⟨hlk _ _ _ h1.1 h1.2, (fun h => by cases h), fun _ => hst, (fun h => by cases h), (fun h => by cases h), (fun h => by cases h), (fun h => by cases h)⟩, rfl, (fun h => by cases h)⟩
    · have c1 : ¬ Status.divergedIts = Status.iterating := fun h => by cases h
      rw [st, if_neg c1, if_neg c1]
      have h1 := rotV t1.V (fun _ _ => rfl)
      exact ⟨⟨hlk _ _ _ h1.1 h1.2, (fun h => by cases h), (fun h => by cases h), fun _ => hst, (fun h => by cases h), (fun h => by cases h), (fun h => by cases h)⟩, rfl, (fun h => by cases h)⟩
    · rw [st, if_pos rfl, if_pos rfl]
      obtain ⟨W, hW⟩ : ∃ W, W = if R.1 < nv then wr t1.V nv (∑ j ∈ Ico s.nconv nv, (d.Q j R.1 : 𝕜) • t1.V j) else (orthon 𝕜 o t1.V nv (x t1.V nv)).1 := ⟨_, rfl⟩
      rw [← hW]
      have hWl : ∀ j < nv, W j = t1.V j := by
        intro j hj
        rw [hW]
        by_cases hk : R.1 < nv
        · rw [if_pos hk, Biorth.wr_other _ _ _ (by omega)]
        · rw [if_neg hk, orthon_other _ _ _ _ (by omega)]
      have h1 := rotV W hWl
      obtain ⟨V3, hV3⟩ : ∃ V3, V3 = wr (rotate 𝕜 nv s.nconv R.1 d.Q W) R.1 (rotate 𝕜 nv s.nconv R.1 d.Q W nv) := ⟨_, rfl⟩
      have g1 : ∀ j < s.nconv, V3 j = t1.V j := fun j hj => by rw [hV3, Biorth.wr_other _ _ _ (by omega)]; exact h1.1 j hj
      have g2 : ∀ j, s.nconv ≤ j → j < R.1 → V3 j = ∑ i ∈ Ico s.nconv nv, (d.Q i j : 𝕜) • t1.V i := fun j hj hj' => by
        rw [hV3, Biorth.wr_other _ _ _ (by omega)]; exact h1.2 j hj hj'
      have g3 : V3 R.1 = W nv := by rw [hV3, Biorth.wr_same, rotate_high _ _ _ _ _ w2]
      rw [← hV3]
      have hLk := hlk V3 (alphaNew s.nconv nv d t1.alpha) .iterating g1 g2
      -- the new start vector
      have hon : Insert.ON 𝕜 V3 (R.1 + 1) := by
        by_cases hk : R.1 < nv
        · have hWn : W nv = ∑ j ∈ Ico s.nconv nv, (d.Q j R.1 : 𝕜) • t1.V j := by rw [hW, if_pos hk, Biorth.wr_same]
          refine on_rot onV.1 hcnle (by omega) S.onQ g1 (fun j hj hj' => ?_)
          by_cases e : j = R.1
          · rw [e, g3, hWn]
          · exact g2 j hj (by omega)
        · have hkn : R.1 = nv := by omega
          obtain ⟨f1, f2, f3, f4, f5, f6⟩ := orthon_facts (𝕜 := 𝕜) o he t1.V nv onV.1 (x t1.V nv)
          have hWn : W = (orthon 𝕜 o t1.V nv (x t1.V nv)).1 := by rw [hW, if_neg hk]
          have hf : (orthon 𝕜 o t1.V nv (x t1.V nv)).2.2 = false := by
            cases hq : (orthon 𝕜 o t1.V nv (x t1.V nv)).2.2 with
            | false => rfl
            | true => exact absurd (f4.mp hq) (hx _ _ (by omega))
          have onq := f6 hf
          rw [← hWn] at onq
          refine on_rot_add (V := t1.V) onV.1 hcnle w1 w2 S.onQ g1 g2 (fun j hj => ?_) ?_
          · rw [g3, ← hWl j hj, onq j (by omega) nv (by omega), if_neg (by omega)]
          · rw [g3]; exact on_unit onq (by omega)
      refine ⟨⟨hLk, fun _ => ⟨hLk, ?_, ?_, ?_, hst, rfl⟩, (fun h => by cases h), (fun h => by cases h), (fun h => by cases h), (fun h => by cases h), (fun h => by cases h)⟩, rfl, fun _ => hst'⟩
      · intro j hj
        show alphaNew s.nconv nv d t1.alpha j = if s.nconv ≤ j ∧ j < nv then d.w j else s.sigma j
        unfold alphaNew
        by_cases hjc : s.nconv ≤ j ∧ j < nv
        · rw [if_pos hjc, if_pos hjc]
        · have hj' : j < R.1 := hj
          rw [if_neg hjc, if_neg hjc, v3 j (by omega)]; exact hs.same j (by omega)
      · exact on_unit (j := R.1) hon (Nat.lt_succ_self _)
      · intro j hj
        have hj' : j < R.1 := hj
        show inner 𝕜 (V3 j) (V3 R.1) = 0
        rw [hon j (by omega) R.1 (Nat.lt_succ_self _), if_neg (by omega)]

/-- **C128, C125 (SVDLANCZOS).**  For every matrix (of any rank), all parameters with `nsv ≤ ncv`, and a random generator that gives vectors outside of the span of the converged ones: after any number
of iterations the start vector is a unit vector orthogonal to the converged right vectors, and the converged triplets satisfy `Locked`; the only error is that of a first start vector in the null space. -/
theorem C128_partial (o : Opts) (he : o.eta ≤ 1) {A : E →ₗ[𝕜] F} {AT : F →ₗ[𝕜] E} (hadj : Adj A AT) (P : Params) (hncv : P.nsv ≤ P.ncv) (hmpd : 0 < P.mpd)
    (dense : Dense) (hd : DenseOK dense) (x : ℕ → (ℕ → E) → ℕ → E) (hx : ∀ i V n, n < P.nsv → x i V n ∉ Biorth.spanOf 𝕜 V n) (m : ℕ) (s : State E F) (hs : LResult A AT P s) :
    LResult A AT P (lRun o A AT P dense x m s) := by
  induction m generalizing s with
  | zero => exact hs
  | succ m ih =>
    unfold lRun
    by_cases h : s.status = .iterating
    · rw [if_pos h]
      exact ih _ (lCycle_ok o he hadj P hncv hmpd dense hd (x s.its) (hx s.its) s (hs.iterating h)).1
    · rw [if_neg h]; exact hs

/-- **C128 (start).** -/
theorem C128_start {A : E →ₗ[𝕜] F} {AT : F →ₗ[𝕜] E} (P : Params) (hnsv : 0 < P.nsv) (B : Bid E F) (h : ‖B.V 0‖ = 1) (sigma err : ℕ → ℝ) :
    LResult A AT P ⟨0, 0, 0, B, sigma, err, .iterating⟩ := by
  have hl : Locked A AT P 0 (⟨0, 0, 0, B, sigma, err, .iterating⟩ : State E F) :=
    ⟨fun i hi => absurd hi (Nat.not_lt_zero _), fun i hi => absurd hi (Nat.not_lt_zero _), fun i hi => absurd hi (Nat.not_lt_zero _), fun i hi => absurd hi (Nat.not_lt_zero _),
      fun i hi => absurd hi (Nat.not_lt_zero _), fun i hi => absurd hi (Nat.not_lt_zero _)⟩
  exact ⟨hl, fun _ => ⟨hl, fun i hi => absurd hi (Nat.not_lt_zero _), h, fun i hi => absurd hi (Nat.not_lt_zero _), hnsv, rfl⟩, (fun h => by cases h), (fun h => by cases h), (fun h => by cases h),
    (fun h => by cases h), (fun h => by cases h)⟩

/-- **C128 (which vector).**  If the solver goes on, the new start vector is the first right Ritz vector that has not converged (a combination of the basis with a column of the matrix of
right singular vectors of the projected matrix), or, if all have converged, the normalized component of the random vector orthogonal to the converged ones. -/
theorem C128_which (o : Opts) (he : o.eta ≤ 1) {A : E →ₗ[𝕜] F} {AT : F →ₗ[𝕜] E} (hadj : Adj A AT) (P : Params) (hncv : P.nsv ≤ P.ncv) (hmpd : 0 < P.mpd)
    (dense : Dense) (x : (ℕ → E) → ℕ → E) (s : State E F) (hs : LGood A AT P s) (hi : (lCycle o A AT P dense x s).status = .iterating) :
    ∃ t nv bd d, twoSide o A AT s.nconv (min (s.nconv + P.mpd) P.ncv) s.B = (t, nv, bd) ∧ dense false s.nconv 0 nv t.alpha t.beta = some d ∧
      (((lCycle o A AT P dense x s).nconv < nv ∧ (lCycle o A AT P dense x s).B.V (lCycle o A AT P dense x s).nconv =
          ∑ j ∈ Ico s.nconv nv, (d.Q j (lCycle o A AT P dense x s).nconv : 𝕜) • t.V j) ∨
       ((lCycle o A AT P dense x s).nconv = nv ∧ ∃ a : ℝ, 0 ≤ a ∧
          x t.V nv - (a : 𝕜) • (lCycle o A AT P dense x s).B.V nv ∈ Biorth.spanOf 𝕜 t.V nv)) := by
  have hnsv := hs.nsv
  have hroom : s.nconv < min (s.nconv + P.mpd) P.ncv := by omega
  obtain ⟨t1, nv, bd, e0, v1, v2, v3, v4, hcase⟩ := twoSide_ok o he hadj s.B hs.kept hroom
  have tV : ∀ j < s.nconv, t1.V j = s.B.V j := fun j hj => v1 j (by omega)
  have onV : Insert.ON 𝕜 t1.V nv := by
    rcases hcase with ⟨c1, c2, c3⟩ | ⟨c1, c2, y, D, c4⟩
    · rw [c2]; exact on_congr hs.locked.onV tV
    · exact D.onV
  have hcnle : s.nconv ≤ nv := by
    rcases hcase with ⟨c1, c2, c3⟩ | ⟨c1, c2, c3⟩ <;> omega
  unfold lCycle at hi ⊢
  dsimp only at hi ⊢
  rw [e0] at hi ⊢
  dsimp only at hi ⊢
  by_cases h0 : nv = 0
  · rw [if_pos h0] at hi; cases hi
  · rw [if_neg h0] at hi ⊢
    cases hd : dense false s.nconv 0 nv t1.alpha t1.beta with
    | none => rw [hd] at hi; cases hi
    | some d =>
      rw [hd] at hi
      dsimp only at hi ⊢
      obtain ⟨w1, w2, w3, w4, w5⟩ := converge_spec P (c := s.nconv) (nv := nv) hcnle (fun i => if s.nconv ≤ i ∧ i < nv then d.w i else s.sigma i) (betaNew nv d t1.beta) s.err
      obtain ⟨R, hR⟩ : ∃ r, r = converge P s.nconv nv (fun i => if s.nconv ≤ i ∧ i < nv then d.w i else s.sigma i) (betaNew nv d t1.beta) s.err := ⟨_, rfl⟩
      rw [← hR] at w1 w2 w3 w4 w5 hi ⊢
      rw [hi, if_pos rfl, if_pos rfl]
      refine ⟨t1, nv, bd, d, rfl, hd, ?_⟩
      by_cases hk : R.1 < nv
      · refine Or.inl ⟨hk, ?_⟩
        rw [if_pos hk, Biorth.wr_same, rotate_high _ _ _ _ _ w2, Biorth.wr_same]
      · have hkn : R.1 = nv := by omega
        refine Or.inr ⟨hkn, ?_⟩
        obtain ⟨f1, f2, f3, f4, f5, f6⟩ := orthon_facts (𝕜 := 𝕜) o he t1.V nv onV (x t1.V nv)
        refine ⟨_, f2, ?_⟩
        rw [if_neg hk, hkn, Biorth.wr_same, rotate_high _ _ _ _ _ le_rfl]
        have : x t1.V nv - ((orthon 𝕜 o t1.V nv (x t1.V nv)).2.1 : 𝕜) • (orthon 𝕜 o t1.V nv (x t1.V nv)).1 nv = ∑ m ∈ range nv, inner 𝕜 (t1.V m) (x t1.V nv) • t1.V m := by
          rw [sub_eq_iff_eq_add]; exact f3
        rw [this]
        exact sum_mem_span _ (fun m hm => mem_range.mp hm) _

end Verif.GKL
