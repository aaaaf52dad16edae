import Verif.MFN.CycleLemmas
/-!
The invariant of the restart loop of the Krylov solver for matrix functions.
-/
set_option linter.all false
namespace Verif.MFN
noncomputable section
open Verif.BV Polynomial
variable {𝕜 : Type} [RCLike 𝕜] {E : Type} [NormedAddCommGroup E] [InnerProductSpace 𝕜 E]

/-- The function agreed with the polynomial wherever it was evaluated. -/
def Agree (fn : FnVec 𝕜) (q : 𝕜[X]) (l : List (Σ n : Nat, Matrix (Fin n) (Fin n) 𝕜)) : Prop :=
  ∀ e ∈ l, fn e.1 e.2 = some (polyVec q e.2)

/-- State before an iteration. -/
structure Before (A : E →ₗ[𝕜] E) (L : Limits) (bnorm : ℝ) (fn : FnVec 𝕜) (q : 𝕜[X]) (u0 : E) (W : Nat → E) (s : KS 𝕜 E) : Prop where
  first : s.its = 0 ↔ s.n = 0
  v00 : s.n = 0 → s.v0 = u0
  w0 : 0 < s.n → W 0 = u0
  rel : 0 < s.n → KRel A W s.n s.H ((s.betaold : 𝕜) • s.v0)
  hess : 0 < s.n → ∀ i j, j + 1 < i → s.H i j = 0
  hM : ∀ i j, j + 1 < i → s.M i j = 0
  m0 : 0 < s.m
  mle : s.m ≤ L.ncv
  vn : ‖s.v0‖ = 1 ∨ s.v0 = 0
  cnt : s.v0 ≠ 0 → s.n = s.its * L.ncv ∧ s.m = L.ncv
  x : Agree fn q s.evals → s.x = (bnorm : 𝕜) • ∑ i ∈ Finset.range s.n, ext (polyVec q (mat s.n s.H)) i • W i

/-- State after an iteration. -/
structure After (A : E →ₗ[𝕜] E) (L : Limits) (bnorm : ℝ) (fn : FnVec 𝕜) (q : 𝕜[X]) (u0 : E) (W : Nat → E) (s : KS 𝕜 E) : Prop where
  its : 0 < s.its
  w0 : W 0 = u0
  dim : 0 < s.dim
  rel : KRel A W s.dim s.H ((s.beta : 𝕜) • W s.dim)
  hess : ∀ i j, j + 1 < i → s.H i j = 0
  hM : ∀ i j, j + 1 < i → s.M i j = 0
  m0 : 0 < s.m
  mle : s.m ≤ L.ncv
  x : Agree fn q s.evals → s.x = (bnorm : 𝕜) • ∑ i ∈ Finset.range s.dim, ext (polyVec q (mat s.dim s.H)) i • W i
  bd : s.breakdown = true → s.beta = 0
  it : s.reason = .iterating → s.n = s.dim ∧ s.betaold = s.beta ∧ s.v0 = W s.dim ∧ (‖s.v0‖ = 1 ∨ s.v0 = 0)
  cnt : s.beta ≠ 0 → s.dim = s.its * L.ncv ∧ s.m = L.ncv
  itb : s.reason = .iterating → s.v0 ≠ 0 → s.beta ≠ 0
  why : s.reason = decideReason L s.its s.m s.breakdown s.beta s.nrm

theorem After.before {A : E →ₗ[𝕜] E} {L : Limits} {bnorm : ℝ} {fn : FnVec 𝕜} {q : 𝕜[X]} {u0 : E} {W : Nat → E} {s : KS 𝕜 E}
    (h : After A L bnorm fn q u0 W s) (hr : s.reason = .iterating) : Before A L bnorm fn q u0 W s := by
  obtain ⟨e1, e2, e3, e4⟩ := h.it hr
  have hd := h.dim
  have hi := h.its
  refine ⟨by omega, fun hn => by omega, fun _ => h.w0, fun _ => ?_, fun _ => h.hess, h.hM, h.m0, h.mle, e4,
    fun hv => by rw [e1]; exact h.cnt (h.itb hr hv), ?_⟩
  · rw [e1, e2, e3]; exact h.rel
  · rw [e1]; exact h.x

theorem start_before (A : E →ₗ[𝕜] E) (L : Limits) (hL : 0 < L.ncv) (bnorm : ℝ) (fn : FnVec 𝕜) (q : 𝕜[X]) (b : E) (hb : b ≠ 0)
    (hbn : bnorm = ‖b‖) (buf : Nat → Nat → 𝕜) :
    Before A L bnorm fn q (((1 / bnorm : ℝ) : 𝕜) • b) (fun _ => 0) (start L bnorm b buf) := by
  refine ⟨Iff.rfl, fun _ => rfl, fun h => absurd h (lt_irrefl 0), fun h => absurd h (lt_irrefl 0), fun _ _ _ _ => rfl, fun _ _ _ => rfl, hL,
    le_rfl, Or.inl ?_, fun _ => ⟨(Nat.zero_mul _).symm, rfl⟩, fun _ => ?_⟩
  · show ‖((1 / bnorm : ℝ) : 𝕜) • b‖ = 1
    rw [norm_smul, RCLike.norm_ofReal, hbn, abs_of_nonneg (by positivity), one_div, inv_mul_cancel₀ (norm_ne_zero_iff.2 hb)]
  · show (0 : E) = _
    simp [start]

/-- One iteration of the restart loop. -/
theorem cycle_after [FiniteDimensional 𝕜 E] (o : OrthOpts) (he : o.eta ≤ 1) (A : E →ₗ[𝕜] E) (L : Limits) (bnorm : ℝ) (fn : FnVec 𝕜)
    (q : 𝕜[X]) (u0 : E) (W : Nat → E) (s s' : KS 𝕜 E) (hB : Before A L bnorm fn q u0 W s)
    (h : cycle (ipForm 𝕜 E) o A (Module.finrank 𝕜 E) L bnorm fn s = some s') :
    (∃ W', After A L bnorm fn q u0 W' s') ∧ s'.its = s.its + 1 ∧
      (s.v0 = 0 → s'.beta = 0 ∧ s'.m = 1 ∧ s'.breakdown = true) := by
  obtain ⟨V, V0, V1, V2, V3, V4, V5, V6, V7, V8⟩ :=
    arn_cycle o he A s.m (L.ncv + 1) hB.m0 s.v0 hB.vn s.buf s.M hB.hM
  unfold cycle at h
  dsimp only at h
  generalize matArnoldi (ipForm 𝕜 E) o A (Module.finrank 𝕜 E) 0 0 s.m (L.ncv + 1) [mkSlot s.v0 1] s.buf s.M = r at *
  have hfirst : decide (s.its + 1 = 1) = true ↔ s.n = 0 := by
    rw [decide_eq_true_iff]; have := hB.first; omega
  have hfirst' : decide (s.its + 1 = 1) = false → 0 < s.n := by
    intro hh
    by_contra hc
    have := hfirst.2 (by omega)
    rw [this] at hh; cases hh
  have hrel := KRel.glue (A := A) (W := W) (V := V) (n := s.n) (m := r.m) (G := s.H) (M := r.H) (betaold := s.betaold)
    (u := (r.beta : 𝕜) • V r.m) (decide (s.its + 1 = 1)) V2 hfirst
    (fun hh => by rw [V0]; exact hB.rel (hfirst' hh)) V4
  have hhess := glue_hess s.n r.m r.H s.H (decide (s.its + 1 = 1)) s.betaold V5 (fun hh => hB.hess (hfirst' hh))
  have hlead : ∀ i, i < s.n → ext (polyVec q (mat (s.n + r.m) (Verif.MFN.glue s.n r.m r.H s.H (decide (s.its + 1 = 1)) s.betaold))) i =
      ext (polyVec q (mat s.n s.H)) i := by
    intro i hi
    have hf : decide (s.its + 1 = 1) = false := by
      rw [← Bool.not_eq_true]; intro hh; rw [hfirst] at hh; omega
    refine polyVec_lead q s.n (s.n + r.m) (by omega) (by omega) _ _ ?_ ?_ i hi
    · intro a c ha hc
      unfold Verif.MFN.glue
      rw [if_neg (by omega), if_pos ⟨hf, ha, hc⟩]
    · intro a c ha hc hc'
      unfold Verif.MFN.glue
      rw [if_neg (by omega), if_neg (by omega), if_neg (by omega)]
  generalize hHH : Verif.MFN.glue s.n r.m r.H s.H (decide (s.its + 1 = 1)) s.betaold = HH at *
  generalize hWW : (fun i => if i < s.n then W i else V (i - s.n)) = WW at hrel
  have hWlt : ∀ i, i < s.n → WW i = W i := by
    intro i hi; rw [← hWW]; exact if_pos hi
  have hWge : ∀ i, WW (s.n + i) = V i := by
    intro i; rw [← hWW]; dsimp only; rw [if_neg (by omega), Nat.add_sub_cancel_left]
  have hW0 : WW 0 = u0 := by
    by_cases hn : s.n = 0
    · have := hWge 0
      rw [hn] at this
      rw [this, V0]; exact hB.v00 hn
    · rw [hWlt 0 (by omega)]; exact hB.w0 (by omega)
  rw [← hWge r.m] at hrel
  cases hfn : fn (s.n + r.m) (mat (s.n + r.m) HH) with
  | none => rw [hfn] at h; cases h
  | some F =>
    rw [hfn] at h
    dsimp only at h
    have hx : Agree fn q (⟨s.n + r.m, mat (s.n + r.m) HH⟩ :: s.evals) →
        s.x + ∑ j ∈ Finset.range r.m, ((bnorm : 𝕜) * ext F (s.n + j)) • (r.ss.map Slot.v).getD j 0 =
        (bnorm : 𝕜) • ∑ i ∈ Finset.range (s.n + r.m), ext (polyVec q (mat (s.n + r.m) HH)) i • WW i := by
      intro hag
      have hF : F = polyVec q (mat (s.n + r.m) HH) := by
        have := hag _ List.mem_cons_self
        dsimp only at this
        rw [hfn] at this
        exact Option.some.inj this
      rw [hB.x (fun e he => hag e (List.mem_cons_of_mem _ he)), Finset.sum_range_add, smul_add, ← hF]
      congr 1
      · refine congrArg _ (Finset.sum_congr rfl fun i hi => ?_)
        have hi' := Finset.mem_range.1 hi
        rw [hF, hlead i hi', hWlt i hi']
      · rw [Finset.smul_sum]
        refine Finset.sum_congr rfl fun j hj => ?_
        have hj' := Finset.mem_range.1 hj
        rw [V1, cols_getD V _ _ (by omega), hWge, smul_smul]
    have hv' : (r.ss.map Slot.v).getD r.m 0 = WW (s.n + r.m) := by
      rw [V1, cols_getD V _ _ (by omega), hWge]
    have hcnt : r.beta ≠ 0 → s.n + r.m = (s.its + 1) * L.ncv ∧ r.m = L.ncv := by
      intro hb0
      have hb : r.breakdown = false := by
        rw [← Bool.not_eq_true]; intro hh; exact hb0 (V6 hh).1
      have hv0 : s.v0 ≠ 0 := by
        intro hh; have := (V8 hh).2.1; rw [hb] at this; cases this
      obtain ⟨c1, c2⟩ := hB.cnt hv0
      rw [(V7 hb).2.1, c2, c1]
      exact ⟨by ring, rfl⟩
    by_cases hr : decideReason L (s.its + 1) r.m r.breakdown r.beta (Real.sqrt (∑ j ∈ Finset.range r.m, ‖ext F (s.n + j)‖ ^ 2)) = .iterating
    · rw [if_pos hr] at h
      obtain rfl := Option.some.inj h
      refine ⟨⟨WW, ⟨Nat.succ_pos _, hW0, by show 0 < s.n + r.m; omega, hrel, hhess, V5, V2, V3.trans hB.mle, hx, fun hb => (V6 hb).1,
        fun _ => ⟨rfl, rfl, hv', ?_⟩, hcnt, fun _ hv hb0 => ?_, rfl⟩⟩, rfl, fun h0 => ?_⟩
      · show ‖(r.ss.map Slot.v).getD r.m 0‖ = 1 ∨ (r.ss.map Slot.v).getD r.m 0 = 0
        rw [hv', hWge]
        cases hb : r.breakdown with
        | false => exact Or.inl (V7 hb).1
        | true => exact Or.inr (V6 hb).2
      · cases hb : r.breakdown with
        | false => exact absurd hb0 (V7 hb).2.2.ne'
        | true => exact hv (hv'.trans ((hWge _).trans (V6 hb).2))
      · obtain ⟨z1, z2, z3⟩ := V8 h0
        exact ⟨(V6 z2).1, z1, z2⟩
    · rw [if_neg hr] at h
      obtain rfl := Option.some.inj h
      refine ⟨⟨WW, ⟨Nat.succ_pos _, hW0, by show 0 < s.n + r.m; omega, hrel, hhess, V5, V2, V3.trans hB.mle, hx, fun hb => (V6 hb).1,
        fun hh => absurd hh hr, hcnt, fun hh => absurd hh hr, rfl⟩⟩, rfl, fun h0 => ?_⟩
      obtain ⟨z1, z2, z3⟩ := V8 h0
      exact ⟨(V6 z2).1, z1, z2⟩

/-- The restart loop. -/
theorem loop_after [FiniteDimensional 𝕜 E] (o : OrthOpts) (he : o.eta ≤ 1) (A : E →ₗ[𝕜] E) (L : Limits) (bnorm : ℝ) (fn : FnVec 𝕜)
    (q : 𝕜[X]) (u0 : E) : ∀ (fuel : Nat) (s s' : KS 𝕜 E) (W : Nat → E), Before A L bnorm fn q u0 W s → s.reason = .iterating →
      L.maxit ≤ s.its + (fuel + 1) →
      loop (ipForm 𝕜 E) o A (Module.finrank 𝕜 E) L bnorm fn (fuel + 1) s = some s' →
      (∃ W', After A L bnorm fn q u0 W' s') ∧ s'.reason ≠ .iterating ∧ s.its < s'.its := by
  intro fuel
  induction fuel with
  | zero =>
    intro s s' W hB hr hf h
    unfold loop at h
    rw [if_pos hr] at h
    cases hc : cycle (ipForm 𝕜 E) o A (Module.finrank 𝕜 E) L bnorm fn s with
    | none => rw [hc] at h; cases h
    | some t =>
      rw [hc] at h
      dsimp only [loop] at h
      obtain rfl := Option.some.inj h
      obtain ⟨⟨W', hA⟩, hits, _⟩ := cycle_after o he A L bnorm fn q u0 W s t hB hc
      refine ⟨⟨W', hA⟩, ?_, by omega⟩
      rw [hA.why]
      unfold decideReason
      dsimp only
      rw [if_pos (show t.its ≥ L.maxit by omega)]
      split_ifs <;> intro hh <;> cases hh
  | succ fuel ih =>
    intro s s' W hB hr hf h
    rw [loop] at h
    rw [if_pos hr] at h
    cases hc : cycle (ipForm 𝕜 E) o A (Module.finrank 𝕜 E) L bnorm fn s with
    | none => rw [hc] at h; cases h
    | some t =>
      rw [hc] at h
      dsimp only at h
      obtain ⟨⟨W', hA⟩, hits, _⟩ := cycle_after o he A L bnorm fn q u0 W s t hB hc
      by_cases ht : t.reason = .iterating
      · obtain ⟨a, b, c⟩ := ih t s' W' (hA.before ht) ht (by omega) h
        exact ⟨a, b, by omega⟩
      · unfold loop at h
        rw [if_neg ht] at h
        obtain rfl := Option.some.inj h
        exact ⟨⟨W', hA⟩, ht, by omega⟩

end
end Verif.MFN
