import Verif.GKL.OneLem
/-! One step of the two-sided bidiagonalization in closed form. -/
set_option linter.all false
namespace Verif.GKL
open Verif.BV Verif.BVB Finset
variable {𝕜 E F : Type} [RCLike 𝕜] [NormedAddCommGroup E] [InnerProductSpace 𝕜 E] [NormedAddCommGroup F] [InnerProductSpace 𝕜 F]

variable (𝕜) in
/-- Normalized vector. -/
noncomputable def unit (y : E) : E := ((1 / ‖y‖ : ℝ) : 𝕜) • y

theorem unit_norm {y : E} (h : y ≠ 0) : ‖unit 𝕜 y‖ = 1 := by
  have : ‖y‖ ≠ 0 := norm_ne_zero_iff.mpr h
  unfold unit
  rw [norm_smul, RCLike.norm_ofReal, abs_of_nonneg (by positivity), one_div, inv_mul_cancel₀ this]

theorem unit_smul (y : E) : ((‖y‖ : ℝ) : 𝕜) • unit 𝕜 y = y := by
  by_cases h : y = 0
  · rw [h, norm_zero, RCLike.ofReal_zero, zero_smul]
  · have : ‖y‖ ≠ 0 := norm_ne_zero_iff.mpr h
    unfold unit
    rw [smul_smul, ← RCLike.ofReal_mul, mul_one_div_cancel this, RCLike.ofReal_one, one_smul]

/-- The right residual in step `i`. -/
noncomputable def ry (AT : F →ₗ[𝕜] E) (i : ℕ) (s : Bid E F) : E := cgsPass 𝕜 0 s.V i (AT (s.U (i - 1)))
/-- The left residual in step `i`. -/
noncomputable def rw' (A : E →ₗ[𝕜] F) (AT : F →ₗ[𝕜] E) (i : ℕ) (s : Bid E F) : F := A (unit 𝕜 (ry AT i s)) - ((‖ry AT i s‖ : ℝ) : 𝕜) • s.U (i - 1)
/-- The state after step `i`. -/
noncomputable def next (A : E →ₗ[𝕜] F) (AT : F →ₗ[𝕜] E) (i : ℕ) (s : Bid E F) : Bid E F :=
  ⟨wr s.V i (unit 𝕜 (ry AT i s)), wr s.U i (unit 𝕜 (rw' A AT i s)), wr s.alpha i ‖rw' A AT i s‖, wr s.beta (i - 1) ‖ry AT i s‖⟩

theorem two_step (o : Opts) (he : o.eta ≤ 1) {A : E →ₗ[𝕜] F} {AT : F →ₗ[𝕜] E} (hadj : Adj A AT) {c p i : ℕ} {s : Bid E F} (h : Run A AT c p i s) (hp : p < i)
    (hex : Exact AT c s) (f : ℕ) :
    (ry AT i s = 0 → (twoLoop o A AT (f + 1) i s).2 = (i, true)) ∧
    (ry AT i s ≠ 0 → rw' A AT i s = 0 → (twoLoop o A AT (f + 1) i s).2 = (i, true)) ∧
    (ry AT i s ≠ 0 → rw' A AT i s ≠ 0 → twoLoop o A AT (f + 1) i s = twoLoop o A AT f (i + 1) (next A AT i s) ∧ Run A AT c p (i + 1) (next A AT i s) ∧
      Same i (next A AT i s) s ∧ Exact AT c (next A AT i s)) := by
  have hle := h.le
  obtain ⟨v1, v2, v3⟩ := orthon_eq (𝕜 := 𝕜) o he s.V i h.onV (AT (s.U (i - 1)))
  have hy0 : ry AT i s = cgsPass 𝕜 0 s.V i (AT (s.U (i - 1))) := rfl
  have ht := twoLoop_succ o A AT f i s
  have ht1 := twoLoop_succ o A AT 0 i s
  have hok := twoLoop_ok o he hadj 1 i s hp h
  rw [← hy0] at v1 v2 v3
  have v1' : (orthon 𝕜 o s.V i (AT (s.U (i - 1)))).1 = wr s.V i (unit 𝕜 (ry AT i s)) := v1
  rw [v1', v2] at ht ht1
  by_cases h0 : ry AT i s = 0
  · rw [if_pos (v3.mpr h0)] at ht
    exact ⟨fun _ => by rw [ht], fun hne => absurd h0 hne, fun hne => absurd h0 hne⟩
  · have h0' : ¬ (orthon 𝕜 o s.V i (AT (s.U (i - 1)))).2.2 = true := fun e => h0 (v3.mp e)
    rw [if_neg h0'] at ht ht1
    have hL := loop_step o he hadj h hp hex (unit 𝕜 (ry AT i s)) ‖ry AT i s‖ (unit_smul _).symm (unit_norm h0) (norm_pos_iff.mpr h0)
    obtain ⟨u1, u2, u3⟩ := orthon_eq (𝕜 := 𝕜) o he s.U i h.onU (A (unit 𝕜 (ry AT i s)))
    have hw : cgsPass 𝕜 0 s.U i (A (unit 𝕜 (ry AT i s))) = rw' A AT i s := hL
    rw [hw] at u1 u2 u3
    have u1' : (orthon 𝕜 o s.U i (A (unit 𝕜 (ry AT i s)))).1 = wr s.U i (unit 𝕜 (rw' A AT i s)) := u1
    rw [Biorth.wr_same, u1', u2] at ht ht1
    refine ⟨fun e => absurd e h0, fun _ e => ?_, fun _ hw0 => ?_⟩
    · rw [if_pos (u3.mpr e)] at ht
      rw [ht]
    · have hn : ¬ (orthon 𝕜 o s.U i (A (unit 𝕜 (ry AT i s)))).2.2 = true := fun e => hw0 (u3.mp e)
      rw [if_neg hn] at ht ht1
      have ht2 : twoLoop o A AT 1 i s = (next A AT i s, i + 1, false) := ht1
      rw [ht2] at hok
      exact ⟨ht, hok.2.1 rfl, hok.1, hex.congr (by omega) hok.1⟩

/-- The start of SVDTwoSideLanczos in closed form. -/
theorem two_start (o : Opts) (he : o.eta ≤ 1) {A : E →ₗ[𝕜] F} {AT : F →ₗ[𝕜] E} (hadj : Adj A AT) {c l n : ℕ} {s : Bid E F} (h : Kept A AT c (c + l) s) (hex : Exact AT c s)
    (hn : c + l < n) :
    (firstU A c l s = 0 → (twoSide o A AT (c + l) n s).2 = (c + l, true)) ∧
    (firstU A c l s ≠ 0 → ∃ s1 : Bid E F, s1 = ⟨s.V, wr s.U (c + l) (unit 𝕜 (firstU A c l s)), wr s.alpha (c + l) ‖firstU A c l s‖, s.beta⟩ ∧
      Run A AT c (c + l) (c + l + 1) s1 ∧ Exact AT c s1 ∧
      ((twoLoop o A AT (n - (c + l + 1)) (c + l + 1) s1).2.2 = true → twoSide o A AT (c + l) n s = twoLoop o A AT (n - (c + l + 1)) (c + l + 1) s1 ∧
        (twoLoop o A AT (n - (c + l + 1)) (c + l + 1) s1).2.1 < n) ∧
      ((twoLoop o A AT (n - (c + l + 1)) (c + l + 1) s1).2.2 = false → ∃ r, r = (twoLoop o A AT (n - (c + l + 1)) (c + l + 1) s1).1 ∧ Run A AT c (c + l) n r ∧
        (twoSide o A AT (c + l) n s).2.1 = n ∧
        (twoSide o A AT (c + l) n s).1 = ⟨wr r.V n (ry AT n r), r.U, r.alpha, wr r.beta (n - 1) ‖ry AT n r‖⟩)) := by
  obtain ⟨k1, k2, k3⟩ := h.start
  obtain ⟨u1, u2, u3⟩ := orthon_eq (𝕜 := 𝕜) o he s.U (c + l) h.onU (A (s.V (c + l)))
  have hrun := ustep_run (A := A) (AT := AT) (c := c) (p := c + l) (a := s.alpha) (b := s.beta) o he hadj h.le le_rfl h.onV h.onU k1 k2 k3
  rw [first_step hadj h hex] at u1 u2 u3
  have u1' : (orthon 𝕜 o s.U (c + l) (A (s.V (c + l)))).1 = wr s.U (c + l) (unit 𝕜 (firstU A c l s)) := u1
  have ht : twoSide o A AT (c + l) n s = if (orthon 𝕜 o s.U (c + l) (A (s.V (c + l)))).2.2 = true then
      ({ s with U := (orthon 𝕜 o s.U (c + l) (A (s.V (c + l)))).1, alpha := wr s.alpha (c + l) (orthon 𝕜 o s.U (c + l) (A (s.V (c + l)))).2.1 }, c + l, true)
    else
      let r := twoLoop o A AT (n - (c + l + 1)) (c + l + 1) { s with U := (orthon 𝕜 o s.U (c + l) (A (s.V (c + l)))).1, alpha := wr s.alpha (c + l) (orthon 𝕜 o s.U (c + l) (A (s.V (c + l)))).2.1 }
      if r.2.2 = true then (r.1, r.2.1, true)
      else ({ r.1 with V := (orthog 𝕜 o r.1.V n (AT (r.1.U (n - 1)))).1, beta := wr r.1.beta (n - 1) (orthog 𝕜 o r.1.V n (AT (r.1.U (n - 1)))).2.1 }, n, (orthog 𝕜 o r.1.V n (AT (r.1.U (n - 1)))).2.2) := rfl
  rw [u1', u2] at ht hrun
  constructor
  · intro h0
    rw [if_pos (u3.mpr h0)] at ht
    rw [ht]
  · intro h0
    have h0' : ¬ (orthon 𝕜 o s.U (c + l) (A (s.V (c + l)))).2.2 = true := fun e => h0 (u3.mp e)
    rw [if_neg h0'] at ht
    have h0f : (orthon 𝕜 o s.U (c + l) (A (s.V (c + l)))).2.2 = false := by
      cases hq : (orthon 𝕜 o s.U (c + l) (A (s.V (c + l)))).2.2 with
      | false => rfl
      | true => exact absurd hq h0'
    obtain ⟨s1, hs1⟩ : ∃ s1 : Bid E F, s1 = ⟨s.V, wr s.U (c + l) (unit 𝕜 (firstU A c l s)), wr s.alpha (c + l) ‖firstU A c l s‖, s.beta⟩ := ⟨_, rfl⟩
    have hr1 : Run A AT c (c + l) (c + l + 1) s1 := by rw [hs1]; exact hrun h0f
    have ht' : twoSide o A AT (c + l) n s =
      let r := twoLoop o A AT (n - (c + l + 1)) (c + l + 1) s1
      if r.2.2 = true then (r.1, r.2.1, true)
      else ({ r.1 with V := (orthog 𝕜 o r.1.V n (AT (r.1.U (n - 1)))).1, beta := wr r.1.beta (n - 1) (orthog 𝕜 o r.1.V n (AT (r.1.U (n - 1)))).2.1 }, n, (orthog 𝕜 o r.1.V n (AT (r.1.U (n - 1)))).2.2) := by
      rw [ht, hs1]
    refine ⟨s1, hs1, hr1, ?_, ?_, ?_⟩
    · intro m hm
      rw [hs1]
      show AT (wr s.U (c + l) _ m) = ((wr s.alpha (c + l) _ m : ℝ) : 𝕜) • s.V m
      rw [Biorth.wr_other _ _ _ (by omega), Biorth.wr_other _ _ _ (by omega)]
      exact hex m hm
    · intro hb
      have hok := (twoLoop_ok o he hadj (n - (c + l + 1)) (c + l + 1) s1 (by omega) hr1).2.2 hb
      dsimp only at ht'
      rw [if_pos hb] at ht'
      refine ⟨?_, by omega⟩
      rw [ht']
      exact Prod.ext rfl (Prod.ext rfl hb.symm)
    · intro hb
      have hok := (twoLoop_ok o he hadj (n - (c + l + 1)) (c + l + 1) s1 (by omega) hr1).2.1 hb
      rw [show c + l + 1 + (n - (c + l + 1)) = n by omega] at hok
      have hb' : ¬ (twoLoop o A AT (n - (c + l + 1)) (c + l + 1) s1).2.2 = true := by rw [hb]; exact Bool.false_ne_true
      dsimp only at ht'
      rw [if_neg hb'] at ht'
      refine ⟨_, rfl, hok, ?_, ?_⟩
      · rw [ht']
      · obtain ⟨w1, w2, w3⟩ := orthog_eq (𝕜 := 𝕜) o he _ n hok.onV (AT ((twoLoop o A AT (n - (c + l + 1)) (c + l + 1) s1).1.U (n - 1)))
        rw [ht']
        dsimp only
        rw [w1, w2]
        rfl

end Verif.GKL
