import Verif.GKL.Frame
/-! SVDTRLANCZOS with thick restart: invariant and converged triplets (C124, C125). -/
set_option linter.all false
namespace Verif.GKL
open Verif.BV Verif.BVB Finset
variable {𝕜 E F : Type} [RCLike 𝕜] [NormedAddCommGroup E] [InnerProductSpace 𝕜 E] [NormedAddCommGroup F] [InnerProductSpace 𝕜 F]

/-- Parameters for which the theorems hold: locking variant, restart parameter below one, more columns than requested values, at least two columns per projected problem. -/
structure Valid (P : Params) : Prop where
  lock : P.lock = true
  keep : P.keep < 1
  ncv : P.nsv < P.ncv
  mpd : 2 ≤ P.mpd

/-- The result of an iteration: the solver goes on with the invariant, or it has finished with one of the documented reasons. -/
structure Result (A : E →ₗ[𝕜] F) (AT : F →ₗ[𝕜] E) (P : Params) (s : State E F) : Prop where
  locked : Locked A AT P s.nconv s
  iterating : s.status = .iterating → Good A AT P s
  tol : s.status = .tol → P.nsv ≤ s.nconv
  its : s.status = .divergedIts → P.maxIt ≤ s.its
  noerror : s.status ≠ .error ∧ s.status ≠ .nan

theorem stopping_cases (P : Params) (its k : ℕ) :
    (stopping P its k = .tol ∧ P.nsv ≤ k) ∨ (stopping P its k = .divergedIts ∧ P.maxIt ≤ its) ∨ (stopping P its k = .iterating ∧ k < P.nsv ∧ its < P.maxIt) := by
  unfold stopping
  by_cases h1 : k ≥ P.nsv
  · rw [if_pos h1]; exact Or.inl ⟨rfl, h1⟩
  · rw [if_neg h1]
    by_cases h2 : its ≥ P.maxIt
    · rw [if_pos h2]; exact Or.inr (Or.inl ⟨rfl, h2⟩)
    · rw [if_neg h2]; exact Or.inr (Or.inr ⟨rfl, by omega, by omega⟩)

theorem trCycle_ok (o : Opts) (he : o.eta ≤ 1) {A : E →ₗ[𝕜] F} {AT : F →ₗ[𝕜] E} (hadj : Adj A AT) (hinj : Function.Injective A) (P : Params) (hP : Valid P)
    (hconv : ∀ σ, 0 < σ → P.conv σ 0 < P.tol) (dense : Dense) (hd : DenseOK dense) (x : E) (s : State E F) (hs : Good A AT P s) :
    Result A AT P (trCycle o A AT P dense x s) ∧ (trCycle o A AT P dense x s).its = s.its + 1 ∧
    ((trCycle o A AT P dense x s).status = .iterating → s.its + 1 < P.maxIt) := by
  obtain ⟨t1, nv, bd, r, e0, e1, e2, D, e4, e5, v1, v2, v3, v4⟩ := twoSide_injective o he hadj hinj s.B hs.kept hs.room
  obtain ⟨k1, k2, k3⟩ := hs.kept.start
  obtain ⟨hlock, hkeep, hncv, hmpd⟩ := hP
  have hroom := hs.room
  have hnsv := hs.nsv
  have hlow : ∀ j < s.nconv, A (t1.V j) ∈ Biorth.spanOf 𝕜 t1.U (j + 1) := fun j hj => by
    rw [v1 j (by omega), Biorth.spanOf_congr (fun i hi => v2 i (by omega))]; exact k1 j hj
  unfold trCycle
  dsimp only
  rw [e0]
  dsimp only
  rw [if_neg (by omega : ¬ nv = 0)]
  obtain ⟨d, hd1, hd2⟩ := hd (decide (0 < s.l)) s.nconv (s.nconv + s.l) nv t1.alpha t1.beta (by omega) (by omega) (fun _ => ⟨by omega, e1⟩)
  have S : IsSvd s.nconv nv (bent (s.nconv + s.l) t1.alpha t1.beta) d := by
    by_cases h : 0 < s.l
    · rw [if_pos (decide_eq_true h)] at hd2; exact hd2
    · have : s.l = 0 := by omega
      rw [this] at hd2 ⊢
      simpa using hd2
  rw [hd1]
  have hl : ∀ q : Prop, ¬ (P.lock = false ∧ q) := fun q h => by rw [hlock] at h; cases h.1
  simp only [if_neg (hl _)]
  obtain ⟨w1, w2, w3, w4, w5⟩ := converge_spec P (c := s.nconv) (nv := nv) (by omega) (fun i => if s.nconv ≤ i ∧ i < nv then d.w i else s.sigma i) (betaNew nv d t1.beta) s.err
  obtain ⟨R, hR⟩ : ∃ r, r = converge P s.nconv nv (fun i => if s.nconv ≤ i ∧ i < nv then d.w i else s.sigma i) (betaNew nv d t1.beta) s.err := ⟨_, rfl⟩
  rw [← hR] at w1 w2 w3 w4 w5
  rw [← hR]
  have hcn : s.nconv < nv := by omega
  have sm : ∀ j, s.nconv ≤ j → j < nv → (if s.nconv ≤ j ∧ j < nv then d.w j else s.sigma j) = d.w j := fun j h1 h2 => if_pos ⟨h1, h2⟩
  have bm : ∀ j < nv, betaNew nv d t1.beta j = t1.beta (nv - 1) * d.P (nv - 1) j := fun j hj => by unfold betaNew; rw [if_pos hj]
  have em : ∀ j, s.nconv ≤ j → j < R.1 → R.2 j = P.conv (d.w j) |t1.beta (nv - 1) * d.P (nv - 1) j| ∧ P.conv (d.w j) |t1.beta (nv - 1) * d.P (nv - 1) j| < P.tol := by
    intro j h1 h2
    have h3 := w4 j h1 h2
    rw [sm j h1 (by omega), bm j (by omega)] at h3
    exact h3
  have tV : ∀ j < s.nconv, t1.V j = s.B.V j := fun j hj => v1 j (by omega)
  have tU : ∀ j < s.nconv, t1.U j = s.B.U j := fun j hj => v2 j (by omega)
  -- a breakdown means that everything has converged
  have hbd : bd = true → R.1 = nv := by
    intro hb
    by_contra hne
    have h1 := w5 (by omega)
    rw [sm R.1 w1 (by omega), bm R.1 (by omega), ← D.norm hcn, e5 hb, norm_zero, zero_mul, abs_zero] at h1
    exact absurd (hconv _ (sigma_pos hinj D S hlow w1 (by omega))) (not_lt.mpr h1)
  -- what all outcomes have in common
  have hlk : ∀ (V' : ℕ → E) (l : ℕ) (al : ℕ → ℝ) (st : Status), R.1 + l ≤ nv → (∀ j < s.nconv, V' j = t1.V j) →
      (∀ j, s.nconv ≤ j → j < R.1 → V' j = ∑ i ∈ Ico s.nconv nv, (d.Q i j : 𝕜) • t1.V i) →
      Locked A AT P R.1 (⟨s.its + 1, R.1, l, ⟨V', rotate 𝕜 nv s.nconv (R.1 + l) d.P t1.U, al, betaNew nv d t1.beta⟩,
        (fun i => if s.nconv ≤ i ∧ i < nv then d.w i else s.sigma i), R.2, st⟩ : State E F) := by
    intro V' l al st hln h1 h2
    refine locked_next hs.locked D S hcn w1 w2 tV tU h1 h2 (fun j hj => rotate_low _ _ _ _ _ hj) (fun j hj hj' => rotate_mid _ _ _ _ _ hj (by omega))
      (fun j hj => if_neg (by omega)) (fun j hj hj' => sm j hj (by omega)) w3 em
  have rotV : ∀ (W : ℕ → E) (e : ℕ), (∀ j < nv, W j = t1.V j) → (∀ j < s.nconv, rotate 𝕜 nv s.nconv e d.Q W j = t1.V j) ∧
      (∀ j, s.nconv ≤ j → j < e → rotate 𝕜 nv s.nconv e d.Q W j = ∑ i ∈ Ico s.nconv nv, (d.Q i j : 𝕜) • t1.V i) := by
    intro W e hW
    refine ⟨fun j hj => (rotate_low _ _ _ _ _ hj).trans (hW j (by omega)), fun j h1 h2 => (rotate_mid _ _ _ _ _ h1 h2).trans ?_⟩
    exact sum_congr rfl fun i hi => by rw [hW i (mem_Ico.mp hi).2]
  obtain ⟨V0, hV0⟩ : ∃ V0, V0 = wr t1.V nv (((1 / t1.beta (nv - 1) : ℝ) : 𝕜) • t1.V nv) := ⟨_, rfl⟩
  have hV0l : ∀ j < nv, V0 j = t1.V j := fun j hj => by rw [hV0]; exact Biorth.wr_other _ _ _ (by omega)
  rw [← hV0]
  rcases stopping_cases P (s.its + 1) R.1 with ⟨st, hst⟩ | ⟨st, hst⟩ | ⟨st, hst, hst'⟩
  · -- finished, converged
    rw [st]
    have c1 : ∀ q : Prop, (Status.tol ≠ Status.iterating ∨ q) := fun q => Or.inl (by decide)
    have c2 : ¬ (Status.tol = Status.iterating ∧ (bd = true ∨ R.1 = nv) ∧ R.1 < P.nsv) := fun h => by cases h.1
    have c3 : ∀ q : Prop, ¬ ((Status.tol = Status.iterating ∧ (bd = true ∨ R.1 = nv) ∧ R.1 < P.nsv) ∧ q) := fun q h => by cases h.1.1
    have c4 : ¬ (Status.tol = Status.iterating ∧ bd = false) := fun h => by cases h.1
    have c5 : ∀ q : Prop, ¬ ((Status.tol = Status.iterating ∧ bd = false) ∧ q) := fun q h => by cases h.1.1
    rw [if_pos (c1 _), if_neg c2, if_neg c2, if_neg (c3 _), if_neg c4, if_neg (c5 _)]
    have h1 := rotV V0 R.1 hV0l
    refine ⟨⟨hlk _ 0 _ _ w2 h1.1 h1.2, (fun h => by cases h), fun _ => hst, (fun h => by cases h), (fun h => by cases h), (fun h => by cases h)⟩, trivial, (fun h => by cases h)⟩
  · -- finished, maximum number of iterations
    rw [st]
    have c1 : ∀ q : Prop, (Status.divergedIts ≠ Status.iterating ∨ q) := fun q => Or.inl (by decide)
    have c2 : ¬ (Status.divergedIts = Status.iterating ∧ (bd = true ∨ R.1 = nv) ∧ R.1 < P.nsv) := fun h => by cases h.1
    have c3 : ∀ q : Prop, ¬ ((Status.divergedIts = Status.iterating ∧ (bd = true ∨ R.1 = nv) ∧ R.1 < P.nsv) ∧ q) := fun q h => by cases h.1.1
    have c4 : ¬ (Status.divergedIts = Status.iterating ∧ bd = false) := fun h => by cases h.1
    have c5 : ∀ q : Prop, ¬ ((Status.divergedIts = Status.iterating ∧ bd = false) ∧ q) := fun q h => by cases h.1.1
    rw [if_pos (c1 _), if_neg c2, if_neg c2, if_neg (c3 _), if_neg c4, if_neg (c5 _)]
    have h1 := rotV V0 R.1 hV0l
    refine ⟨⟨hlk _ 0 _ _ w2 h1.1 h1.2, (fun h => by cases h), (fun h => by cases h), fun _ => hst, (fun h => by cases h), (fun h => by cases h)⟩, trivial, (fun h => by cases h)⟩
  · rw [st]
    by_cases hkn : R.1 = nv
    · -- new start vector
      have c1 : (Status.iterating ≠ Status.iterating ∨ bd = true ∨ R.1 = nv) := Or.inr (Or.inr hkn)
      have c2 : (Status.iterating = Status.iterating ∧ (bd = true ∨ R.1 = nv) ∧ R.1 < P.nsv) := ⟨rfl, Or.inr hkn, hst⟩
      rw [if_pos c1, if_pos c2, if_pos c2]
      obtain ⟨f1, f2, f3, f4, f5, f6⟩ := orthon_facts (𝕜 := 𝕜) o he V0 R.1 (on_congr (Insert_ON_mono D.onV (by omega)) (fun j hj => hV0l j (by omega))) x
      obtain ⟨q, hq⟩ : ∃ q, q = orthon 𝕜 o V0 R.1 x := ⟨_, rfl⟩
      rw [← hq] at f1 f2 f3 f4 f5 f6
      rw [← hq]
      have hql : ∀ j < nv, q.1 j = t1.V j := fun j hj => (f1 j (by omega)).trans (hV0l j hj)
      have h1 := rotV q.1 R.1 hql
      by_cases hqd : q.2.2 = true
      · have c3 : (Status.iterating = Status.iterating ∧ (bd = true ∨ R.1 = nv) ∧ R.1 < P.nsv) ∧ q.2.2 = true := ⟨c2, hqd⟩
        have c4 : ∀ q : Prop, ¬ (Status.breakdown = Status.iterating ∧ q) := fun q h => by cases h.1
        have c5 : ∀ q' : Prop, ¬ ((Status.breakdown = Status.iterating ∧ q.2.2 = false) ∧ q') := fun q h => by cases h.1.1
        rw [if_pos c3, if_neg (c4 _), if_neg (c5 _)]
        refine ⟨⟨hlk _ 0 _ _ w2 h1.1 h1.2, (fun h => by cases h), (fun h => by cases h), (fun h => by cases h), (fun h => by cases h), (fun h => by cases h)⟩, trivial, (fun h => by cases h)⟩
      · have hqf : q.2.2 = false := by cases hq' : q.2.2 with
          | false => rfl
          | true => exact absurd hq' hqd
        have c3 : ¬ ((Status.iterating = Status.iterating ∧ (bd = true ∨ R.1 = nv) ∧ R.1 < P.nsv) ∧ q.2.2 = true) := fun h => hqd h.2
        have c4 : (Status.iterating = Status.iterating ∧ q.2.2 = false) := ⟨rfl, hqf⟩
        have c5 : ¬ ((Status.iterating = Status.iterating ∧ q.2.2 = false) ∧ t1.beta (nv - 1) = 0 ∧ R.1 + 0 ≠ nv) := fun h => h.2.2 hkn
        rw [if_neg c3, if_pos c4, if_neg c5]
        simp only [Nat.add_zero]
        obtain ⟨V3, hV3⟩ : ∃ V3, V3 = wr (rotate 𝕜 nv s.nconv R.1 d.Q q.1) R.1 (rotate 𝕜 nv s.nconv R.1 d.Q q.1 nv) := ⟨_, rfl⟩
        have g1 : ∀ j < s.nconv, V3 j = t1.V j := fun j hj => by rw [hV3, Biorth.wr_other _ _ _ (by omega)]; exact h1.1 j hj
        have g2 : ∀ j, s.nconv ≤ j → j < R.1 → V3 j = ∑ i ∈ Ico s.nconv nv, (d.Q i j : 𝕜) • t1.V i := fun j hj hj' => by
          rw [hV3, Biorth.wr_other _ _ _ (by omega)]; exact h1.2 j hj hj'
        have g3 : V3 R.1 = q.1 R.1 := by rw [hV3, Biorth.wr_same, rotate_high _ _ _ _ _ (by omega), hkn]
        rw [← hV3]
        have hLk := hlk V3 0 (alphaNew s.nconv nv d t1.alpha) .iterating w2 g1 g2
        have onq := f6 hqf
        have hvon : Insert.ON 𝕜 V3 (R.1 + 1) := by
          refine on_rot_add (V := t1.V) D.onV hcn.le w1 w2 S.onQ g1 g2 (fun j hj => ?_) ?_
          · rw [g3, ← hql j hj, onq j (by omega) R.1 (by omega), if_neg (by omega)]
          · rw [g3]
            have h2 := onq R.1 (by omega) R.1 (by omega)
            rw [if_pos rfl, inner_self_eq_norm_sq_to_K] at h2
            have h3 : ‖q.1 R.1‖ ^ 2 = 1 := by exact_mod_cast h2
            nlinarith [norm_nonneg (q.1 R.1)]
        refine ⟨⟨hLk, fun _ => ⟨?_, hLk, ?_, hst, ?_⟩, (fun h => by cases h), (fun h => by cases h), (fun h => by cases h), (fun h => by cases h)⟩, trivial, fun _ => hst'⟩
        · refine kept_next hs.kept D S hcn w1 le_rfl w2 tV tU g1 g2 (fun j hj => rotate_low _ _ _ _ _ hj) (fun j hj hj' => rotate_mid _ _ _ _ _ hj hj') (fun j hj => ?_) (fun j hj hj' => ?_)
            (fun j hj hj' => absurd hj' (not_lt.mpr hj)) hvon
          · show alphaNew s.nconv nv d t1.alpha j = _
            unfold alphaNew; rw [if_neg (by omega)]; exact v3 j (by omega)
          · show alphaNew s.nconv nv d t1.alpha j = _
            unfold alphaNew; rw [if_pos ⟨hj, lt_of_lt_of_le hj' w2⟩]
        · intro j hj
          show alphaNew s.nconv nv d t1.alpha j = if s.nconv ≤ j ∧ j < nv then d.w j else s.sigma j
          unfold alphaNew
          by_cases hjc : s.nconv ≤ j ∧ j < nv
          · rw [if_pos hjc, if_pos hjc]
          · have hj' : j < R.1 := hj
            rw [if_neg hjc, if_neg hjc, v3 j (by omega)]; exact hs.same j (by omega)
        · show R.1 + 0 < min (R.1 + P.mpd) P.ncv
          omega
    · -- thick restart
      have hbf : bd = false := by cases hb : bd with
        | false => rfl
        | true => exact absurd (hbd hb) hkn
      obtain ⟨q1, q2, q3⟩ := e4 hbf
      have c1 : ¬ (Status.iterating ≠ Status.iterating ∨ bd = true ∨ R.1 = nv) := by
        rintro (h | h | h)
        · exact h rfl
        · rw [hbf] at h; cases h
        · exact hkn h
      have c2 : ¬ (Status.iterating = Status.iterating ∧ (bd = true ∨ R.1 = nv) ∧ R.1 < P.nsv) := by
        rintro ⟨-, h | h, -⟩
        · rw [hbf] at h; cases h
        · exact hkn h
      have c3 : ∀ q : Prop, ¬ ((Status.iterating = Status.iterating ∧ (bd = true ∨ R.1 = nv) ∧ R.1 < P.nsv) ∧ q) := fun q h => c2 h.1
      have c4 : Status.iterating = Status.iterating ∧ bd = false := ⟨rfl, hbf⟩
      have hb0 : t1.beta (nv - 1) ≠ 0 := by
        rw [← D.norm hcn]; exact norm_ne_zero_iff.mpr q2
      have c5 : ∀ q : Prop, ¬ ((Status.iterating = Status.iterating ∧ bd = false) ∧ t1.beta (nv - 1) = 0 ∧ q) := fun q h => hb0 h.2.1
      rw [if_neg c1, if_neg c2, if_neg c2, if_neg (c3 _), if_pos c4, if_neg (c5 _)]
      obtain ⟨l, hl1⟩ : ∃ l, l = max 1 (Nat.floor (((nv - R.1 : ℕ) : ℝ) * P.keep)) := ⟨_, rfl⟩
      rw [← hl1]
      have hle1 := l_le hkeep.le (m := nv - R.1) (by omega)
      rw [← hl1] at hle1
      have hln : R.1 + l ≤ nv := by omega
      have hl1' : 1 ≤ l := by rw [hl1]; exact le_max_left _ _
      have h1 := rotV V0 (R.1 + l) hV0l
      obtain ⟨V3, hV3⟩ : ∃ V3, V3 = wr (rotate 𝕜 nv s.nconv (R.1 + l) d.Q V0) (R.1 + l) (rotate 𝕜 nv s.nconv (R.1 + l) d.Q V0 nv) := ⟨_, rfl⟩
      have g1 : ∀ j < s.nconv, V3 j = t1.V j := fun j hj => by rw [hV3, Biorth.wr_other _ _ _ (by omega)]; exact h1.1 j hj
      have g2 : ∀ j, s.nconv ≤ j → j < R.1 + l → V3 j = ∑ i ∈ Ico s.nconv nv, (d.Q i j : 𝕜) • t1.V i := fun j hj hj' => by
        rw [hV3, Biorth.wr_other _ _ _ (by omega)]; exact h1.2 j hj hj'
      have g3 : V3 (R.1 + l) = ((1 / t1.beta (nv - 1) : ℝ) : 𝕜) • r := by
        rw [hV3, Biorth.wr_same, rotate_high _ _ _ _ _ hln, hV0, Biorth.wr_same, q1, q3]
      rw [← hV3]
      have hLk := hlk V3 l (alphaNew s.nconv nv d t1.alpha) .iterating hln g1 (fun j hj hj' => g2 j hj (by omega))
      have hr : r = (t1.beta (nv - 1) : 𝕜) • V3 (R.1 + l) := by
        rw [g3, smul_smul, ← RCLike.ofReal_mul, mul_one_div_cancel hb0, RCLike.ofReal_one, one_smul]
      have hvon : Insert.ON 𝕜 V3 (R.1 + l + 1) := by
        refine on_rot_add (V := t1.V) D.onV hcn.le (by omega) hln S.onQ g1 g2 (fun j hj => ?_) ?_
        · rw [g3, inner_smul_right, D.orth j hj, mul_zero]
        · rw [g3, norm_smul, RCLike.norm_ofReal, D.norm hcn, abs_of_nonneg, one_div, inv_mul_cancel₀ hb0]
          rw [one_div, inv_nonneg, ← D.norm hcn]; exact norm_nonneg _
      refine ⟨⟨hLk, fun _ => ⟨?_, hLk, ?_, hst, ?_⟩, (fun h => by cases h), (fun h => by cases h), (fun h => by cases h), (fun h => by cases h)⟩, trivial, fun _ => hst'⟩
      · refine kept_next hs.kept D S hcn w1 (Nat.le_add_right _ _) hln tV tU g1 g2 (fun j hj => rotate_low _ _ _ _ _ hj) (fun j hj hj' => rotate_mid _ _ _ _ _ hj hj') (fun j hj => ?_)
          (fun j hj hj' => ?_) (fun j hj hj' => ⟨hr, bm j (lt_of_lt_of_le hj' hln)⟩) hvon
        · show alphaNew s.nconv nv d t1.alpha j = _
          unfold alphaNew; rw [if_neg (by omega)]; exact v3 j (by omega)
        · show alphaNew s.nconv nv d t1.alpha j = _
          unfold alphaNew; rw [if_pos ⟨hj, lt_of_lt_of_le hj' hln⟩]
      · intro j hj
        show alphaNew s.nconv nv d t1.alpha j = if s.nconv ≤ j ∧ j < nv then d.w j else s.sigma j
        unfold alphaNew
        by_cases hjc : s.nconv ≤ j ∧ j < nv
        · rw [if_pos hjc, if_pos hjc]
        · have hj' : j < R.1 := hj
          rw [if_neg hjc, if_neg hjc, v3 j (by omega)]; exact hs.same j (by omega)
      · show R.1 + l < min (R.1 + P.mpd) P.ncv
        by_cases h2 : 2 ≤ nv - R.1
        · have := l_lt hkeep h2
          rw [← hl1] at this
          omega
        · omega

/-- **C124, C125 (SVDTRLANCZOS).**  For a matrix of full column rank, the two-sided locking variant with `nsv < ncv` and `mpd` at least two, and a dense solver that computes singular value decompositions:
after any number of iterations the solver is iterating with exact kept relations (`Good`), or has finished; in every case all converged triplets satisfy `Locked`; it never ends
with an error, and ends with SVD_CONVERGED_TOL only if `nsv` triplets have converged. -/
theorem C124_partial (o : Opts) (he : o.eta ≤ 1) {A : E →ₗ[𝕜] F} {AT : F →ₗ[𝕜] E} (hadj : Adj A AT) (hinj : Function.Injective A) (P : Params) (hP : Valid P)
    (hconv : ∀ σ, 0 < σ → P.conv σ 0 < P.tol) (dense : Dense) (hd : DenseOK dense) (x : ℕ → E) (m : ℕ) (s : State E F) (hs : Result A AT P s) :
    Result A AT P (trRun o A AT P dense x m s) := by
  induction m generalizing s with
  | zero => exact hs
  | succ m ih =>
    unfold trRun
    by_cases h : s.status = .iterating
    · rw [if_pos h]
      exact ih _ (trCycle_ok o he hadj hinj P hP hconv dense hd (x s.its) s (hs.iterating h)).1
    · rw [if_neg h]; exact hs

/-- **C124 (start).**  The state with a unit start vector satisfies the invariant. -/
theorem C124_start {A : E →ₗ[𝕜] F} {AT : F →ₗ[𝕜] E} (P : Params) (hnsv : 0 < P.nsv) (hncv : 0 < P.ncv) (hmpd : 0 < P.mpd) (B : Bid E F) (h : ‖B.V 0‖ = 1) (sigma err : ℕ → ℝ) :
    Result A AT P ⟨0, 0, 0, B, sigma, err, .iterating⟩ := by
  have hl : Locked A AT P 0 (⟨0, 0, 0, B, sigma, err, .iterating⟩ : State E F) :=
    ⟨fun i hi => absurd hi (Nat.not_lt_zero _), fun i hi => absurd hi (Nat.not_lt_zero _), fun i hi => absurd hi (Nat.not_lt_zero _), fun i hi => absurd hi (Nat.not_lt_zero _),
      fun i hi => absurd hi (Nat.not_lt_zero _), fun i hi => absurd hi (Nat.not_lt_zero _)⟩
  refine ⟨hl, fun _ => ⟨⟨le_rfl, ?_, fun i hi => absurd hi (Nat.not_lt_zero _), fun i hi => absurd hi (Nat.not_lt_zero _), fun i _ hi => absurd hi (Nat.not_lt_zero _)⟩, hl,
    fun i hi => absurd hi (Nat.not_lt_zero _), hnsv, ?_⟩, (fun h => by cases h), (fun h => by cases h), (fun h => by cases h), (fun h => by cases h)⟩
  · intro i hi j hj
    have hi' : i = 0 := by have : i < 0 + 0 + 1 := hi; omega
    have hj' : j = 0 := by have : j < 0 + 0 + 1 := hj; omega
    subst hi'; subst hj'
    rw [if_pos rfl, inner_self_eq_norm_sq_to_K]
    have : ‖B.V 0‖ = 1 := h
    rw [this]; simp
  · show 0 + 0 < min (0 + P.mpd) P.ncv
    omega

/-- **C124 (termination).**  The loop ends within `max_it` iterations. -/
theorem C124_ends (o : Opts) (he : o.eta ≤ 1) {A : E →ₗ[𝕜] F} {AT : F →ₗ[𝕜] E} (hadj : Adj A AT) (hinj : Function.Injective A) (P : Params) (hP : Valid P)
    (hconv : ∀ σ, 0 < σ → P.conv σ 0 < P.tol) (dense : Dense) (hd : DenseOK dense) (x : ℕ → E) (s : State E F) (hs : Result A AT P s) (hm : 0 < P.maxIt) :
    (trRun o A AT P dense x P.maxIt s).status ≠ .iterating := by
  have key : ∀ m (s : State E F), Result A AT P s → P.maxIt ≤ s.its + m → 0 < m → (trRun o A AT P dense x m s).status ≠ .iterating := by
    intro m
    induction m with
    | zero => intro s _ _ h; exact absurd h (lt_irrefl _)
    | succ m ih =>
      intro s hs hle _
      unfold trRun
      by_cases h : s.status = .iterating
      · rw [if_pos h]
        obtain ⟨c1, c2, c3⟩ := trCycle_ok o he hadj hinj P hP hconv dense hd (x s.its) s (hs.iterating h)
        by_cases hm0 : 0 < m
        · exact ih _ c1 (by omega) hm0
        · have : m = 0 := by omega
          subst this
          show (trCycle o A AT P dense (x s.its) s).status ≠ .iterating
          intro hi
          have := c3 hi
          omega
      · rw [if_neg h]; exact h
  exact key P.maxIt s hs (by omega) hm

/-- **C125.**  What `Locked` says about residuals: the error estimate comes from the exact norm of `A* u - sigma v`, and `|A v - sigma u|^2` is at most the sum of the squares of the residual norms
`|A* u_i - sigma_i v_i|` of the triplets with smaller index. -/
theorem C125_residual {A : E →ₗ[𝕜] F} {AT : F →ₗ[𝕜] E} (hadj : Adj A AT) {P : Params} {c : ℕ} {s : State E F} (h : Locked A AT P c s) (j : ℕ) (hj : j < c) :
    ‖s.B.V j‖ = 1 ∧ ‖s.B.U j‖ = 1 ∧ (∀ i < c, i ≠ j → inner 𝕜 (s.B.V i) (s.B.V j) = 0 ∧ inner 𝕜 (s.B.U i) (s.B.U j) = 0) ∧
    P.conv (s.sigma j) ‖AT (s.B.U j) - (s.sigma j : 𝕜) • s.B.V j‖ < P.tol ∧
    ‖A (s.B.V j) - (s.sigma j : 𝕜) • s.B.U j‖ ^ 2 ≤ ∑ i ∈ range j, ‖AT (s.B.U i) - (s.sigma i : 𝕜) • s.B.V i‖ ^ 2 := by
  have unit : ∀ {X : Type} [NormedAddCommGroup X] [InnerProductSpace 𝕜 X] (V : ℕ → X), Insert.ON 𝕜 V c → ‖V j‖ = 1 := by
    intro X _ _ V hV
    have h2 := hV j hj j hj
    rw [if_pos rfl, inner_self_eq_norm_sq_to_K] at h2
    have h3 : ‖V j‖ ^ 2 = 1 := by exact_mod_cast h2
    nlinarith [norm_nonneg (V j)]
  have hV1 : ∀ i, i < c → ‖s.B.V i‖ = 1 := by
    intro i hi
    have h2 := h.onV i hi i hi
    rw [if_pos rfl, inner_self_eq_norm_sq_to_K] at h2
    have h3 : ‖s.B.V i‖ ^ 2 = 1 := by exact_mod_cast h2
    nlinarith [norm_nonneg (s.B.V i)]
  refine ⟨unit _ h.onV, unit _ h.onU, fun i hi hne => ⟨?_, ?_⟩, ?_, ?_⟩
  · rw [h.onV i hi j hj, if_neg hne]
  · rw [h.onU i hi j hj, if_neg hne]
  · rw [← h.est j hj]; exact h.acc j hj
  · have hON := Insert_ON_mono h.onU (k := j) (by omega)
    have e := expand hON (h.right j hj) (add_zero _).symm (fun m _ => inner_zero_right _)
    obtain ⟨z, hz⟩ : ∃ z, z = A (s.B.V j) - (s.sigma j : 𝕜) • s.B.U j := ⟨_, rfl⟩
    rw [← hz] at e ⊢
    have hc : ∀ i < j, ‖inner 𝕜 (s.B.U i) z‖ ≤ ‖AT (s.B.U i) - (s.sigma i : 𝕜) • s.B.V i‖ := by
      intro i hi
      have h1 : inner 𝕜 (s.B.U i) z = (starRingEnd 𝕜) (inner 𝕜 (s.B.V j) (AT (s.B.U i) - (s.sigma i : 𝕜) • s.B.V i)) := by
        rw [hz, inner_sub_right, inner_smul_right, h.onU i (by omega) j hj, if_neg (by omega), mul_zero, sub_zero, inner_sub_right, inner_smul_right, h.onV j hj i (by omega), if_neg (by omega),
          mul_zero, sub_zero, ← hadj, inner_conj_symm]
      rw [h1, RCLike.norm_conj]
      refine (norm_inner_le_norm _ _).trans ?_
      rw [hV1 j hj, one_mul]
    have hn : ‖z‖ ^ 2 = ∑ i ∈ range j, ‖inner 𝕜 (s.B.U i) z‖ ^ 2 := by
      have h1 : inner 𝕜 z z = ((∑ i ∈ range j, ‖inner 𝕜 (s.B.U i) z‖ ^ 2 : ℝ) : 𝕜) := by
        conv_lhs => rw [e]
        rw [sum_inner, RCLike.ofReal_sum]
        refine sum_congr rfl fun i hi => ?_
        rw [inner_smul_left, ← e, RCLike.conj_mul]
        push_cast
        rfl
      rw [inner_self_eq_norm_sq_to_K] at h1
      exact_mod_cast h1
    rw [hn]
    refine sum_le_sum fun i hi => ?_
    exact pow_le_pow_left₀ (norm_nonneg _) (hc i (mem_range.mp hi)) 2

end Verif.GKL
