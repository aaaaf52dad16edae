import Verif.GKL.OneStep
/-! C127: the one-sided bidiagonalizations compute the same as the two-sided one. -/
set_option linter.all false
namespace Verif.GKL
open Verif.BV Verif.BVB Finset
variable {𝕜 E F : Type} [RCLike 𝕜] [NormedAddCommGroup E] [InnerProductSpace 𝕜 E] [NormedAddCommGroup F] [InnerProductSpace 𝕜 F]

theorem wr_wr {X : Type} (f : ℕ → X) (i : ℕ) (x y : X) : wr (wr f i x) i y = wr f i y := by
  funext m
  by_cases h : m = i
  · subst h; rw [Biorth.wr_same, Biorth.wr_same]
  · rw [Biorth.wr_other _ _ _ h, Biorth.wr_other _ _ _ h, Biorth.wr_other _ _ _ h]

theorem wr_self {X : Type} (f : ℕ → X) (i : ℕ) : wr f i (f i) = f := by
  funext m
  by_cases h : m = i
  · subst h; rw [Biorth.wr_same]
  · rw [Biorth.wr_other _ _ _ h]

theorem mgsLoop_succ (o : Opts) (A : E →ₗ[𝕜] F) (AT : F →ₗ[𝕜] E) (f i : ℕ) (s : Bid E F) :
    mgsLoop o A AT (f + 1) i s =
      if ‖A ((orthon 𝕜 o s.V i (AT (s.U (i - 1)))).1 i) - (((orthon 𝕜 o s.V i (AT (s.U (i - 1)))).2.1 : ℝ) : 𝕜) • s.U (i - 1)‖ = 0 then .nan
      else mgsLoop o A AT f (i + 1) ⟨(orthon 𝕜 o s.V i (AT (s.U (i - 1)))).1,
        wr s.U i (unit 𝕜 (A ((orthon 𝕜 o s.V i (AT (s.U (i - 1)))).1 i) - (((orthon 𝕜 o s.V i (AT (s.U (i - 1)))).2.1 : ℝ) : 𝕜) • s.U (i - 1))),
        wr s.alpha i ‖A ((orthon 𝕜 o s.V i (AT (s.U (i - 1)))).1 i) - (((orthon 𝕜 o s.V i (AT (s.U (i - 1)))).2.1 : ℝ) : 𝕜) • s.U (i - 1)‖,
        wr s.beta (i - 1) (orthon 𝕜 o s.V i (AT (s.U (i - 1)))).2.1⟩ := rfl

theorem mgsLoop_eq (o : Opts) (he : o.eta ≤ 1) {A : E →ₗ[𝕜] F} {AT : F →ₗ[𝕜] E} (hadj : Adj A AT) {c p : ℕ} (f : ℕ) : ∀ (i : ℕ) (s : Bid E F), p < i → Run A AT c p i s → Exact AT c s →
    ((twoLoop o A AT f i s).2.2 = true → mgsLoop o A AT f i s = .nan) ∧ ((twoLoop o A AT f i s).2.2 = false → mgsLoop o A AT f i s = .ok (twoLoop o A AT f i s).1) := by
  induction f with
  | zero => intro i s _ _ _; exact ⟨(fun e => by cases e), fun _ => rfl⟩
  | succ f ih =>
    intro i s hp h hex
    obtain ⟨t1, t2, t3⟩ := two_step o he hadj h hp hex f
    obtain ⟨v1, v2, v3⟩ := orthon_eq (𝕜 := 𝕜) o he s.V i h.onV (AT (s.U (i - 1)))
    have v1' : (orthon 𝕜 o s.V i (AT (s.U (i - 1)))).1 = wr s.V i (unit 𝕜 (ry AT i s)) := v1
    have v2' : (orthon 𝕜 o s.V i (AT (s.U (i - 1)))).2.1 = ‖ry AT i s‖ := v2
    rw [mgsLoop_succ, v1', v2', Biorth.wr_same]
    change ((twoLoop o A AT (f + 1) i s).2.2 = true → (if ‖rw' A AT i s‖ = 0 then .nan else mgsLoop o A AT f (i + 1) (next A AT i s)) = .nan) ∧
      ((twoLoop o A AT (f + 1) i s).2.2 = false → (if ‖rw' A AT i s‖ = 0 then .nan else mgsLoop o A AT f (i + 1) (next A AT i s)) = .ok (twoLoop o A AT (f + 1) i s).1)
    by_cases h0 : rw' A AT i s = 0
    · have hb : (twoLoop o A AT (f + 1) i s).2.2 = true := by
        by_cases hy : ry AT i s = 0
        · rw [t1 hy]
        · rw [t2 hy h0]
      rw [if_pos (norm_eq_zero.mpr h0)]
      exact ⟨fun _ => rfl, fun e => by rw [hb] at e; cases e⟩
    · rw [if_neg (fun e => h0 (norm_eq_zero.mp e))]
      have hy : ry AT i s ≠ 0 := by
        intro hy
        apply h0
        unfold rw'
        rw [hy, norm_zero, RCLike.ofReal_zero, zero_smul, sub_zero]
        unfold unit
        rw [smul_zero, map_zero]
      obtain ⟨e, r, _, x⟩ := t3 hy h0
      rw [e]
      exact ih (i + 1) _ (by omega) r x

/-- C127: the modified Gram-Schmidt variant gives the bases and arrays of the two-sided bidiagonalization if that one reaches size `n`; otherwise there are NaN in the bases. -/
theorem C127_mgs (o : Opts) (he : o.eta ≤ 1) {A : E →ₗ[𝕜] F} {AT : F →ₗ[𝕜] E} (hadj : Adj A AT) {c l n : ℕ} (s : Bid E F) (h : Kept A AT c (c + l) s) (hex : Exact AT c s)
    (hn : c + l < n) :
    ((twoSide o A AT (c + l) n s).2.1 = n → oneMgs o A AT c l n s = .ok (twoSide o A AT (c + l) n s).1) ∧
    ((twoSide o A AT (c + l) n s).2.1 ≠ n → oneMgs o A AT c l n s = .nan) := by
  obtain ⟨a1, a2⟩ := two_start o he hadj h hex hn
  unfold oneMgs
  dsimp only
  by_cases h0 : firstU A c l s = 0
  · rw [if_pos (norm_eq_zero.mpr h0), a1 h0]
    exact ⟨fun e => absurd e (by show c + l ≠ n; omega), fun _ => rfl⟩
  · rw [if_neg (fun e => h0 (norm_eq_zero.mp e))]
    obtain ⟨s1, hs, hr, hx, b1, b2⟩ := a2 h0
    obtain ⟨m1, m2⟩ := mgsLoop_eq o he hadj (n - (c + l + 1)) (c + l + 1) s1 (by omega) hr hx
    unfold unit at hs
    rw [← hs]
    cases hb : (twoLoop o A AT (n - (c + l + 1)) (c + l + 1) s1).2.2 with
    | true =>
      rw [m1 hb, (b1 hb).1]
      have := (b1 hb).2
      exact ⟨fun e => by omega, fun _ => rfl⟩
    | false =>
      obtain ⟨r, hre, hrr, c1, c2⟩ := b2 hb
      rw [m2 hb, ← hre, c1, c2]
      obtain ⟨w1, w2, w3⟩ := orthog_eq (𝕜 := 𝕜) o he r.V n hrr.onV (AT (r.U (n - 1)))
      dsimp only
      rw [w1, w2]
      exact ⟨fun _ => rfl, fun e => absurd rfl e⟩

/-- The state of the classical Gram-Schmidt variant before step `i`, against that of the two-sided one: the last left vector is not normalized, its norm not stored. -/
structure Pre (𝕜 : Type) [RCLike 𝕜] {E F : Type} [NormedAddCommGroup E] [InnerProductSpace 𝕜 E] [NormedAddCommGroup F] [InnerProductSpace 𝕜 F] (i : ℕ) (s t : Bid E F) : Prop where
  V : t.V = s.V
  U : t.U = wr s.U (i - 1) ((s.alpha (i - 1) : 𝕜) • s.U (i - 1))
  alpha : wr t.alpha (i - 1) (s.alpha (i - 1)) = s.alpha
  beta : t.beta = s.beta
  pos : 0 < s.alpha (i - 1)

/-- One orthogonalization with the state `t`. -/
theorem Pre.step {AT : F →ₗ[𝕜] E} (o : Opts) {i : ℕ} {s t : Bid E F} (h : Pre 𝕜 i s t) (hu : ‖s.U (i - 1)‖ = 1) (hV : Insert.ON 𝕜 s.V i) :
    ‖t.U (i - 1)‖ = s.alpha (i - 1) ∧ cgsStep 𝕜 o t.V i (AT (t.U (i - 1))) ‖t.U (i - 1)‖ = (ry AT i s, ‖ry AT i s‖) ∧
    wr t.U (i - 1) (((1 / ‖t.U (i - 1)‖ : ℝ) : 𝕜) • t.U (i - 1)) = s.U := by
  have e : t.U (i - 1) = (s.alpha (i - 1) : 𝕜) • s.U (i - 1) := by rw [h.U, Biorth.wr_same]
  have ha : ‖t.U (i - 1)‖ = s.alpha (i - 1) := by rw [e, norm_smul, hu, mul_one, RCLike.norm_ofReal, abs_of_pos h.pos]
  have hc : ((1 / s.alpha (i - 1) : ℝ) : 𝕜) * (s.alpha (i - 1) : 𝕜) = 1 := by
    rw [← RCLike.ofReal_mul, one_div, inv_mul_cancel₀ h.pos.ne', RCLike.ofReal_one]
  refine ⟨ha, ?_, ?_⟩
  · rw [ha, h.V, cgsStep_eq o hV _ h.pos, e, map_smul, pass_smul, smul_smul, hc, one_smul]
    rfl
  · rw [ha, e, smul_smul, hc, one_smul, h.U, wr_wr, wr_self]

theorem cgsLoop_zero (thr : ℝ) (o : Opts) (A : E →ₗ[𝕜] F) (AT : F →ₗ[𝕜] E) (f i : ℕ) (t : Bid E F) (h : t.U (i - 1) = 0) : cgsLoop thr o A AT (f + 1) i t = .error := by
  unfold cgsLoop
  dsimp only
  rw [h, norm_zero, if_pos rfl]

theorem cgsLoop_ok {thr : ℝ} (hthr : 0 ≤ thr) (o : Opts) (he : o.eta ≤ 1) {A : E →ₗ[𝕜] F} {AT : F →ₗ[𝕜] E} (hadj : Adj A AT) {c p : ℕ} (f : ℕ) :
    ∀ (i : ℕ) (s t : Bid E F), p < i → Run A AT c p i s → Exact AT c s → Pre 𝕜 i s t →
    ((twoLoop o A AT f i s).2.2 = false → (∀ j, i ≤ j + 1 → j + 1 < i + f → thr < (twoLoop o A AT f i s).1.beta j) →
      ∃ t', cgsLoop thr o A AT f i t = .ok t' ∧ Pre 𝕜 (i + f) (twoLoop o A AT f i s).1 t') ∧
    (∀ t', cgsLoop thr o A AT f i t = .ok t' → ((twoLoop o A AT f i s).2.2 = false ∧ Pre 𝕜 (i + f) (twoLoop o A AT f i s).1 t') ∨ t'.U (i + f - 1) = 0) := by
  induction f with
  | zero =>
    intro i s t _ _ _ hpre
    refine ⟨fun _ _ => ⟨t, rfl, hpre⟩, fun t' e => Or.inl ⟨rfl, ?_⟩⟩
    have : t = t' := by
      have e' : (Res.ok t : Res (Bid E F)) = .ok t' := e
      injection e'
    rw [← this]; exact hpre
  | succ f ih =>
    intro i s t hp h hex hpre
    have hle := h.le
    obtain ⟨t1, t2, t3⟩ := two_step o he hadj h hp hex f
    have hu : ‖s.U (i - 1)‖ = 1 := by
      have := h.onU (i - 1) (by omega) (i - 1) (by omega)
      rw [if_pos rfl, inner_self_eq_norm_sq_to_K] at this
      have h2 : ((‖s.U (i - 1)‖ ^ 2 : ℝ) : 𝕜) = ((1 : ℝ) : 𝕜) := by push_cast; exact this
      have h3 := RCLike.ofReal_injective h2
      nlinarith [norm_nonneg (s.U (i - 1))]
    obtain ⟨q1, q2, q3⟩ := hpre.step (AT := AT) o hu h.onV
    have hstep : cgsLoop thr o A AT (f + 1) i t = if ‖ry AT i s‖ > thr then
        cgsLoop thr o A AT f (i + 1) ⟨wr s.V i (unit 𝕜 (ry AT i s)), wr s.U i (rw' A AT i s), s.alpha, wr s.beta (i - 1) ‖ry AT i s‖⟩ else .error := by
      conv_lhs => unfold cgsLoop
      dsimp only
      rw [q3, q2]
      dsimp only
      rw [if_neg (by rw [q1]; exact hpre.pos.ne'), abs_of_nonneg (norm_nonneg _), q1, hpre.alpha, hpre.V, hpre.beta, Biorth.wr_same]
      rfl
    have hsame : (twoLoop o A AT (f + 1) i s).1.beta (i - 1) = ‖ry AT i s‖ ∨ (twoLoop o A AT (f + 1) i s).2.2 = true := by
      by_cases hy : ry AT i s = 0
      · right; rw [t1 hy]
      · by_cases hw : rw' A AT i s = 0
        · right; rw [t2 hy hw]
        · left
          obtain ⟨e, r, _, x⟩ := t3 hy hw
          have hs := (twoLoop_ok o he hadj f (i + 1) _ (by omega) r).1
          rw [e, hs.2.2.2 (i - 1) (by omega)]
          exact Biorth.wr_same _ _ _
    have hP : rw' A AT i s ≠ 0 → Pre 𝕜 (i + 1) (next A AT i s) ⟨wr s.V i (unit 𝕜 (ry AT i s)), wr s.U i (rw' A AT i s), s.alpha, wr s.beta (i - 1) ‖ry AT i s‖⟩ := by
      intro hw
      refine ⟨rfl, ?_, ?_, rfl, ?_⟩
      · show wr s.U i (rw' A AT i s) = wr (wr s.U i (unit 𝕜 (rw' A AT i s))) i (((wr s.alpha i ‖rw' A AT i s‖ i : ℝ) : 𝕜) • wr s.U i (unit 𝕜 (rw' A AT i s)) i)
        rw [wr_wr, Biorth.wr_same, Biorth.wr_same, unit_smul]
      · show wr s.alpha i (wr s.alpha i ‖rw' A AT i s‖ i) = wr s.alpha i ‖rw' A AT i s‖
        rw [Biorth.wr_same]
      · show 0 < wr s.alpha i ‖rw' A AT i s‖ i
        rw [Biorth.wr_same]; exact norm_pos_iff.mpr hw
    rw [hstep]
    constructor
    · intro hb hbeta
      have hthr' : ‖ry AT i s‖ > thr := by
        rcases hsame with e | e
        · rw [← e]; exact hbeta (i - 1) (by omega) (by omega)
        · rw [hb] at e; cases e
      have hy : ry AT i s ≠ 0 := norm_pos_iff.mp (lt_of_le_of_lt hthr hthr')
      have hw : rw' A AT i s ≠ 0 := fun e => by rw [t2 hy e] at hb; cases hb
      obtain ⟨e, r, _, x⟩ := t3 hy hw
      rw [e] at hb hbeta ⊢
      rw [if_pos hthr']
      obtain ⟨t', k1, k2⟩ := (ih (i + 1) _ _ (by omega) r x (hP hw)).1 hb (fun j h1 h2 => hbeta j (by omega) (by omega))
      exact ⟨t', k1, by rw [show i + (f + 1) = i + 1 + f by omega]; exact k2⟩
    · intro t' ht
      by_cases hthr' : ‖ry AT i s‖ > thr
      · rw [if_pos hthr'] at ht
        have hy : ry AT i s ≠ 0 := norm_pos_iff.mp (lt_of_le_of_lt hthr hthr')
        by_cases hw : rw' A AT i s = 0
        · right
          cases f with
          | zero =>
            have e' : (Res.ok _ : Res (Bid E F)) = .ok t' := ht
            injection e' with e'
            rw [← e']
            show wr s.U i (rw' A AT i s) i = 0
            rw [Biorth.wr_same, hw]
          | succ f =>
            rw [cgsLoop_zero thr o A AT f (i + 1) _ (by show wr s.U i (rw' A AT i s) i = 0; rw [Biorth.wr_same, hw])] at ht
            cases ht
        · obtain ⟨e, r, _, x⟩ := t3 hy hw
          rw [e]
          have := (ih (i + 1) _ _ (by omega) r x (hP hw)).2 t' ht
          rwa [show i + (f + 1) = i + 1 + f by omega]
      · rw [if_neg hthr'] at ht
        cases ht

/-- C127: the classical Gram-Schmidt variant, for all refinement types: arrays are only computed without error or NaN if the two-sided bidiagonalization reaches size `n`, and they are
the same; if all `beta` inside are larger than the threshold there is no error. -/
theorem C127_cgs {thr : ℝ} (hthr : 0 ≤ thr) (o : Opts) (he : o.eta ≤ 1) {A : E →ₗ[𝕜] F} {AT : F →ₗ[𝕜] E} (hadj : Adj A AT) {c l n : ℕ} (s : Bid E F)
    (h : Kept A AT c (c + l) s) (hex : Exact AT c s) (hn : c + l < n) :
    (∀ r, oneCgs thr o A AT c l n s = .ok r → (twoSide o A AT (c + l) n s).2.1 = n ∧ r = (twoSide o A AT (c + l) n s).1) ∧
    ((twoSide o A AT (c + l) n s).2.1 = n → (∀ j, c + l ≤ j → j + 1 < n → thr < (twoSide o A AT (c + l) n s).1.beta j) →
      oneCgs thr o A AT c l n s = .ok (twoSide o A AT (c + l) n s).1) := by
  obtain ⟨a1, a2⟩ := two_start o he hadj h hex hn
  have hne : n - 1 + 1 = n := by omega
  by_cases h0 : firstU A c l s = 0
  · have hz : wr s.U (c + l) (firstU A c l s) (c + l) = 0 := by rw [Biorth.wr_same, h0]
    refine ⟨fun r hr => ?_, fun e => ?_⟩
    · exfalso
      unfold oneCgs at hr
      obtain ⟨f, hf⟩ : ∃ f, f = n - (c + l + 1) := ⟨_, rfl⟩
      rw [← hf] at hr
      cases f with
      | zero =>
        have hn1 : n - 1 = c + l := by omega
        simp only [cgsLoop, hn1, hz, norm_zero, if_true] at hr
        cases hr
      | succ f =>
        rw [cgsLoop_zero thr o A AT f (c + l + 1) _ hz] at hr
        cases hr
    · rw [a1 h0] at e
      have : c + l = n := e
      omega
  · obtain ⟨s1, hs, hr, hx, b1, b2⟩ := a2 h0
    have hpre : Pre 𝕜 (c + l + 1) s1 { s with U := wr s.U (c + l) (firstU A c l s) } := by
      rw [hs]
      refine ⟨rfl, ?_, ?_, rfl, ?_⟩
      · show wr s.U (c + l) (firstU A c l s) = wr (wr s.U (c + l) (unit 𝕜 (firstU A c l s))) (c + l) (((wr s.alpha (c + l) ‖firstU A c l s‖ (c + l) : ℝ) : 𝕜) • wr s.U (c + l) (unit 𝕜 (firstU A c l s)) (c + l))
        rw [wr_wr, Biorth.wr_same, Biorth.wr_same, unit_smul]
      · show wr s.alpha (c + l) (wr s.alpha (c + l) ‖firstU A c l s‖ (c + l)) = wr s.alpha (c + l) ‖firstU A c l s‖
        rw [Biorth.wr_same]
      · show 0 < wr s.alpha (c + l) ‖firstU A c l s‖ (c + l)
        rw [Biorth.wr_same]; exact norm_pos_iff.mpr h0
    obtain ⟨m1, m2⟩ := cgsLoop_ok hthr o he hadj (n - (c + l + 1)) (c + l + 1) s1 _ (by omega) hr hx hpre
    rw [show c + l + 1 + (n - (c + l + 1)) = n by omega] at m1 m2
    -- the last step
    have hlast : ∀ t', (twoLoop o A AT (n - (c + l + 1)) (c + l + 1) s1).2.2 = false → Pre 𝕜 n (twoLoop o A AT (n - (c + l + 1)) (c + l + 1) s1).1 t' →
        cgsLoop thr o A AT (n - (c + l + 1)) (c + l + 1) { s with U := wr s.U (c + l) (firstU A c l s) } = .ok t' →
        oneCgs thr o A AT c l n s = .ok (twoSide o A AT (c + l) n s).1 ∧ (twoSide o A AT (c + l) n s).2.1 = n := by
      intro t' hb hp ht
      obtain ⟨r, hre, hrr, c1, c2⟩ := b2 hb
      rw [← hre] at hp
      have hu : ‖r.U (n - 1)‖ = 1 := by
        have := hrr.onU (n - 1) (by omega) (n - 1) (by omega)
        rw [if_pos rfl, inner_self_eq_norm_sq_to_K] at this
        have h2 : ((‖r.U (n - 1)‖ ^ 2 : ℝ) : 𝕜) = ((1 : ℝ) : 𝕜) := by push_cast; exact this
        have h3 := RCLike.ofReal_injective h2
        nlinarith [norm_nonneg (r.U (n - 1))]
      obtain ⟨q1, q2, q3⟩ := hp.step (AT := AT) o hu hrr.onV
      refine ⟨?_, c1⟩
      unfold oneCgs
      rw [ht]
      dsimp only
      rw [q2, q3, if_neg (by rw [q1]; exact hp.pos.ne'), c2, q1, hp.alpha, hp.V, hp.beta]
    constructor
    · intro r hr'
      cases hl : cgsLoop thr o A AT (n - (c + l + 1)) (c + l + 1) { s with U := wr s.U (c + l) (firstU A c l s) } with
      | error => unfold oneCgs at hr'; rw [hl] at hr'; cases hr'
      | nan => unfold oneCgs at hr'; rw [hl] at hr'; cases hr'
      | ok t' =>
        rcases m2 t' hl with ⟨hb, hp⟩ | hz
        · obtain ⟨k1, k2⟩ := hlast t' hb hp hl
          rw [k1] at hr'
          injection hr' with hr'
          exact ⟨k2, hr'.symm⟩
        · unfold oneCgs at hr'
          rw [hl] at hr'
          dsimp only at hr'
          rw [if_pos (by rw [hz, norm_zero])] at hr'
          cases hr'
    · intro hN hbeta
      cases hb : (twoLoop o A AT (n - (c + l + 1)) (c + l + 1) s1).2.2 with
      | true =>
        exfalso
        obtain ⟨e1, e2⟩ := b1 hb
        rw [e1] at hN
        omega
      | false =>
        obtain ⟨r, hre, hrr, c1, c2⟩ := b2 hb
        obtain ⟨t', ht, hp⟩ := m1 hb (fun j h1 h2 => by
          have := hbeta j (by omega) h2
          rw [c2] at this
          have h3 : thr < wr r.beta (n - 1) ‖ry AT n r‖ j := this
          rw [Biorth.wr_other _ _ _ (by omega)] at h3
          rw [← hre]; exact h3)
        exact (hlast t' hb hp ht).1

/-! ### SVDLANCZOS -/

/-- The part of an outcome that SVDLANCZOS keeps. -/
def Res.map {α β : Type} (f : α → β) : Res α → Res β
  | .ok r => .ok (f r)
  | .error => .error
  | .nan => .nan

theorem lStep_cgs (eta : ℝ) (mgs : Bool) (V : ℕ → E) (i : ℕ) (v : E) (a : ℝ) :
    cgsStep 𝕜 ⟨mgs, .always, eta⟩ V i v a = (lStep 𝕜 0 V i v a, ‖lStep 𝕜 0 V i v a‖) := by
  have e : ((1 / a : ℝ) : 𝕜) • v - ∑ m ∈ range i, ((inner 𝕜 (V m) v : 𝕜) / (a : 𝕜)) • V m =
      ((1 / a : ℝ) : 𝕜) • v - ((1 / a : ℝ) : 𝕜) • ∑ m ∈ Ico 0 i, (inner 𝕜 (V m) v : 𝕜) • V m := by
    rw [← range_eq_Ico, smul_sum]
    congr 1
    refine sum_congr rfl fun m _ => ?_
    rw [smul_smul]
    congr 1
    push_cast
    rw [div_eq_inv_mul, one_div]
  unfold cgsStep cgsNorm lStep
  dsimp only
  rw [e]

theorem lLoop_cgs (thr : ℝ) (eta : ℝ) (mgs : Bool) (A : E →ₗ[𝕜] F) (AT : F →ₗ[𝕜] E) (f : ℕ) : ∀ (i : ℕ) (t : Bid E F), 0 < i →
    lLoop thr A AT f i ⟨t.V, t.U (i - 1), t.alpha, t.beta⟩ = (cgsLoop thr ⟨mgs, .always, eta⟩ A AT f i t).map fun r => ⟨r.V, r.U (i + f - 1), r.alpha, r.beta⟩ := by
  induction f with
  | zero => intro i t _; rfl
  | succ f ih =>
    intro i t hi
    unfold lLoop cgsLoop
    dsimp only
    rw [lStep_cgs]
    dsimp only
    by_cases h0 : ‖t.U (i - 1)‖ = 0
    · rw [if_pos h0, if_pos h0]; rfl
    · rw [if_neg h0, if_neg h0]
      by_cases h1 : |‖lStep 𝕜 0 t.V i (AT (t.U (i - 1))) ‖t.U (i - 1)‖‖| > thr
      · rw [if_pos h1, if_pos h1]
        have := ih (i + 1) ⟨wr t.V i (((1 / ‖lStep 𝕜 0 t.V i (AT (t.U (i - 1))) ‖t.U (i - 1)‖‖ : ℝ) : 𝕜) • lStep 𝕜 0 t.V i (AT (t.U (i - 1))) ‖t.U (i - 1)‖),
          wr (wr t.U (i - 1) (((1 / ‖t.U (i - 1)‖ : ℝ) : 𝕜) • t.U (i - 1))) i
            (A (wr t.V i (((1 / ‖lStep 𝕜 0 t.V i (AT (t.U (i - 1))) ‖t.U (i - 1)‖‖ : ℝ) : 𝕜) • lStep 𝕜 0 t.V i (AT (t.U (i - 1))) ‖t.U (i - 1)‖) i)
              - ((‖lStep 𝕜 0 t.V i (AT (t.U (i - 1))) ‖t.U (i - 1)‖‖ : ℝ) : 𝕜) • wr t.U (i - 1) (((1 / ‖t.U (i - 1)‖ : ℝ) : 𝕜) • t.U (i - 1)) (i - 1)),
          wr t.alpha (i - 1) ‖t.U (i - 1)‖, wr t.beta (i - 1) ‖lStep 𝕜 0 t.V i (AT (t.U (i - 1))) ‖t.U (i - 1)‖‖⟩ (by omega)
        dsimp only at this
        rw [Nat.add_sub_cancel i 1, Biorth.wr_same (wr t.U (i - 1) _) i, Biorth.wr_same t.U (i - 1)] at this
        rw [this, show i + 1 + f - 1 = i + (f + 1) - 1 by omega, Biorth.wr_same t.U (i - 1)]
      · rw [if_neg h1, if_neg h1]; rfl

/-- Excluding leading columns orthogonal to the vector makes no difference. -/
theorem lStep_skip {l n : ℕ} {V : ℕ → E} {v : E} (hl : ∀ m < l, inner 𝕜 (V m) v = 0) (a : ℝ) (hV : Insert.ON 𝕜 V n) (hln : l ≤ n) :
    lStep 𝕜 l V n v a = lStep 𝕜 0 V n v a := by
  have e : ∑ m ∈ Ico l n, (inner 𝕜 (V m) v : 𝕜) • V m = ∑ m ∈ Ico 0 n, (inner 𝕜 (V m) v : 𝕜) • V m := by
    have e0 : ∑ m ∈ range l, (inner 𝕜 (V m) v : 𝕜) • V m = 0 := sum_eq_zero fun m hm => by rw [hl m (mem_range.mp hm), zero_smul]
    rw [← range_eq_Ico, ← Finset.sum_range_add_sum_Ico _ hln, e0, zero_add]
  unfold lStep
  rw [e]
  have hx : ((1 / a : ℝ) : 𝕜) • v - ((1 / a : ℝ) : 𝕜) • ∑ m ∈ Ico 0 n, (inner 𝕜 (V m) v : 𝕜) • V m = ((1 / a : ℝ) : 𝕜) • cgsPass 𝕜 0 V n v := by
    rw [← smul_sub]; rfl
  rw [hx]
  have ho : ∀ m < n, inner 𝕜 (V m) (((1 / a : ℝ) : 𝕜) • cgsPass 𝕜 0 V n v) = 0 := fun m hm => by rw [inner_smul_right, pass_orth hV v hm, mul_zero]
  rw [pass_fix ho, pass_fix ho]

/-- SVDOneSideLanczos is the classical Gram-Schmidt variant with the refinement always done, without the left basis. -/
theorem oneL_cgs (thr : ℝ) (eta : ℝ) (mgs : Bool) {A : E →ₗ[𝕜] F} {AT : F →ₗ[𝕜] E} (hadj : Adj A AT) {c n bvl : ℕ} (s : Bid E F) (h : Kept A AT c c s) (hex : Exact AT c s) (hn : c < n)
    (hb : bvl ≤ c) :
    oneL thr A AT bvl c n s.V s.alpha s.beta = (oneCgs thr ⟨mgs, .always, eta⟩ A AT c 0 n s).map fun r => (r.V, r.alpha, r.beta) := by
  have hf : firstU A c 0 s = A (s.V c) := by unfold firstU; rw [if_neg (by omega)]; rfl
  have hlp := lLoop_cgs thr eta mgs A AT (n - (c + 1)) (c + 1) { s with U := wr s.U c (A (s.V c)) } (by omega)
  dsimp only at hlp
  rw [Nat.add_sub_cancel c 1, Biorth.wr_same, show c + 1 + (n - (c + 1)) - 1 = n - 1 by omega] at hlp
  unfold oneL oneCgs
  rw [hlp, hf, Nat.add_zero]
  have hstart : ∀ m < bvl, inner 𝕜 (s.V m) (AT (A (s.V c))) = 0 := by
    intro m hm
    rw [← hadj]
    refine inner_span (n := c) ?_ (Insert.spanOf_mono (by omega) ((h.start).1 m (by omega)))
    intro q hq
    rw [← inner_conj_symm, hadj, hex q hq, inner_smul_right, h.onV c (by omega) q (by omega), if_neg (by omega), mul_zero, map_zero]
  have hskip : ∀ t', cgsLoop thr ⟨mgs, .always, eta⟩ A AT (n - (c + 1)) (c + 1) { s with U := wr s.U c (A (s.V c)) } = .ok t' →
      lStep 𝕜 (if c + 1 < n then 0 else bvl) t'.V n (AT (t'.U (n - 1))) ‖t'.U (n - 1)‖ = lStep 𝕜 0 t'.V n (AT (t'.U (n - 1))) ‖t'.U (n - 1)‖ := by
    intro t' ht
    by_cases hc : c + 1 < n
    · rw [if_pos hc]
    · rw [if_neg hc]
      have hz : n - (c + 1) = 0 := by omega
      rw [hz] at ht
      have e' : (Res.ok _ : Res (Bid E F)) = .ok t' := ht
      injection e' with e'
      have hnc : n = c + 1 := by omega
      rw [← e', hnc]
      refine lStep_skip ?_ _ h.onV (by omega)
      intro m hm
      show inner 𝕜 (s.V m) (AT (wr s.U c (A (s.V c)) c)) = 0
      rw [Biorth.wr_same]; exact hstart m hm
  cases hl : cgsLoop thr ⟨mgs, .always, eta⟩ A AT (n - (c + 1)) (c + 1) { s with U := wr s.U c (A (s.V c)) } with
  | error => rfl
  | nan => rfl
  | ok t' =>
    have hs := hskip t' hl
    unfold Res.map
    dsimp only
    rw [hs, lStep_cgs]
    dsimp only
    by_cases h0 : ‖t'.U (n - 1)‖ = 0
    · rw [if_pos h0, if_pos h0]
    · rw [if_neg h0, if_neg h0]

/-- C127 for SVDLANCZOS: the right basis and the arrays of the two-sided bidiagonalization. -/
theorem C127_l {thr : ℝ} (hthr : 0 ≤ thr) (o : Opts) (he : o.eta ≤ 1) {A : E →ₗ[𝕜] F} {AT : F →ₗ[𝕜] E} (hadj : Adj A AT) {c n bvl : ℕ} (s : Bid E F)
    (h : Kept A AT c c s) (hex : Exact AT c s) (hn : c < n) (hb : bvl ≤ c) :
    (∀ r, oneL thr A AT bvl c n s.V s.alpha s.beta = .ok r → (twoSide o A AT c n s).2.1 = n ∧
      r = ((twoSide o A AT c n s).1.V, (twoSide o A AT c n s).1.alpha, (twoSide o A AT c n s).1.beta)) ∧
    ((twoSide o A AT c n s).2.1 = n → (∀ j, c ≤ j → j + 1 < n → thr < (twoSide o A AT c n s).1.beta j) →
      oneL thr A AT bvl c n s.V s.alpha s.beta = .ok ((twoSide o A AT c n s).1.V, (twoSide o A AT c n s).1.alpha, (twoSide o A AT c n s).1.beta)) := by
  -- the two-sided variant does not depend on the options in exact arithmetic
  have hsw : ∀ o' : Opts, o'.eta ≤ 1 → ((twoSide o A AT c n s).2.1 = n ↔ (twoSide o' A AT c n s).2.1 = n) ∧
      ((twoSide o A AT c n s).2.1 = n → (twoSide o A AT c n s).1 = (twoSide o' A AT c n s).1) := by
    intro o' he'
    have k1 := C127_mgs o he hadj (l := 0) s h hex hn
    have key : ∀ (o1 o2 : Opts), o1.eta ≤ 1 → o2.eta ≤ 1 → (twoSide o1 A AT c n s).2.1 = n → (twoSide o2 A AT c n s).2.1 = n ∧ (twoSide o1 A AT c n s).1 = (twoSide o2 A AT c n s).1 := by
      intro o1 o2 h1 h2 e
      obtain ⟨a1, a2⟩ := two_start o1 h1 hadj (l := 0) h hex hn
      obtain ⟨b1, b2⟩ := two_start o2 h2 hadj (l := 0) h hex hn
      by_cases h0 : firstU A c 0 s = 0
      · rw [show c = c + 0 by rfl, a1 h0] at e
        have : c + 0 = n := e
        omega
      · obtain ⟨s1, hs1, hr1, hx1, d1, d2⟩ := a2 h0
        obtain ⟨s2, hs2, hr2, hx2, f1, f2⟩ := b2 h0
        have hss : s2 = s1 := by rw [hs1, hs2]
        subst hss
        have hlp : ∀ f i (s : Bid E F), c + 0 < i → Run A AT c (c + 0) i s → Exact AT c s → (twoLoop o1 A AT f i s).2.2 = false → twoLoop o2 A AT f i s = twoLoop o1 A AT f i s := by
          intro f
          induction f with
          | zero => intro i s _ _ _ _; rfl
          | succ f ih =>
            intro i s hp hr hx hb
            obtain ⟨p1, p2, p3⟩ := two_step o1 h1 hadj hr hp hx f
            obtain ⟨q1, q2, q3⟩ := two_step o2 h2 hadj hr hp hx f
            have hy : ry AT i s ≠ 0 := fun e => by rw [p1 e] at hb; cases hb
            have hw : rw' A AT i s ≠ 0 := fun e => by rw [p2 hy e] at hb; cases hb
            obtain ⟨e1, g1, _, g2⟩ := p3 hy hw
            rw [e1] at hb ⊢
            rw [(q3 hy hw).1]
            exact ih (i + 1) _ (by omega) g1 g2 hb
        cases hb1 : (twoLoop o1 A AT (n - (c + 0 + 1)) (c + 0 + 1) s2).2.2 with
        | true =>
          obtain ⟨x1, x2⟩ := d1 hb1
          rw [← x1] at x2
          have x3 : (twoSide o1 A AT c n s).2.1 < n := x2
          omega
        | false =>
          have hh := hlp _ _ s2 (by omega) hr1 hx1 hb1
          obtain ⟨r, hre, _, c1, c2⟩ := d2 hb1
          obtain ⟨r', hre', _, c1', c2'⟩ := f2 (by rw [hh]; exact hb1)
          rw [hh] at hre'
          have hrr : r' = r := by rw [hre, hre']
          subst hrr
          exact ⟨c1', c2.trans c2'.symm⟩
    exact ⟨⟨fun e => (key o o' he he' e).1, fun e => (key o' o he' he e).1⟩, fun e => (key o o' he he' e).2⟩
  obtain ⟨w1, w2⟩ := hsw ⟨false, .always, 0⟩ zero_le_one
  obtain ⟨g1, g2⟩ := C127_cgs hthr (⟨false, .always, 0⟩ : Opts) zero_le_one hadj (l := 0) s h hex hn
  have hl := oneL_cgs thr 0 false hadj s h hex hn hb
  constructor
  · intro r hr
    cases hc : oneCgs thr ⟨false, .always, 0⟩ A AT c 0 n s with
    | error => rw [hl, hc] at hr; cases hr
    | nan => rw [hl, hc] at hr; cases hr
    | ok t =>
      obtain ⟨x1, x2⟩ := g1 t hc
      have x3 := w1.mpr x1
      refine ⟨x3, ?_⟩
      rw [hl, hc] at hr
      unfold Res.map at hr
      injection hr with hr
      rw [← hr, x2, w2 x3]
      rfl
  · intro e hbeta
    have e2 := w2 e
    rw [e2] at hbeta ⊢
    have := g2 (w1.mp e) hbeta
    rw [hl, this]
    rfl

end Verif.GKL
