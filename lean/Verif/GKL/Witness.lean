import Verif.GKL.TrThm
import Verif.GKL.LThm
import Verif.GKL.OneThm
import Verif.GKL.Svd
/-! Cases that meet the hypotheses of C123-C128, and inputs for which the claims fail. -/
set_option linter.all false
namespace Verif.GKL
open Verif.BV Verif.BVB Finset
variable {𝕜 E F : Type} [RCLike 𝕜] [NormedAddCommGroup E] [InnerProductSpace 𝕜 E] [NormedAddCommGroup F] [InnerProductSpace 𝕜 F]

/-! ### A start vector in the null space -/

theorem two_null (o : Opts) (he : o.eta ≤ 1) (A : E →ₗ[𝕜] F) (AT : F →ₗ[𝕜] E) (n : ℕ) (s : Bid E F) (h : A (s.V 0) = 0) : (twoSide o A AT 0 n s).2 = (0, true) := by
  obtain ⟨u1, u2, u3⟩ := orthon_eq (𝕜 := 𝕜) o he s.U 0 (fun i hi => absurd hi (Nat.not_lt_zero _)) (A (s.V 0))
  have hz : cgsPass 𝕜 0 s.U 0 (A (s.V 0)) = 0 := by rw [h]; exact pass_fix (fun m hm => absurd hm (Nat.not_lt_zero _))
  unfold twoSide
  dsimp only
  rw [if_pos (u3.mpr hz)]

/-- **C124 (negation for start vectors in the null space).**  SVDTRLANCZOS fails with an error (size zero given to DSSVDSetDimensions) if the start vector is mapped to zero, whatever the matrix
is otherwise. -/
theorem C124_null (o : Opts) (he : o.eta ≤ 1) (A : E →ₗ[𝕜] F) (AT : F →ₗ[𝕜] E) (P : Params) (dense : Dense) (x : E) (s : State E F) (hc : s.nconv = 0) (hl : s.l = 0)
    (h : A (s.B.V 0) = 0) : (trCycle o A AT P dense x s).status = .error := by
  unfold trCycle
  dsimp only
  have := two_null o he A AT (min (s.nconv + P.mpd) P.ncv) s.B h
  rw [hc, hl] at *
  rw [this]
  rfl

/-- **C128 (negation for start vectors in the null space).** -/
theorem C128_null (o : Opts) (he : o.eta ≤ 1) (A : E →ₗ[𝕜] F) (AT : F →ₗ[𝕜] E) (P : Params) (dense : Dense) (x : (ℕ → E) → ℕ → E) (s : State E F) (hc : s.nconv = 0)
    (h : A (s.B.V 0) = 0) : (lCycle o A AT P dense x s).status = .error := by
  unfold lCycle
  dsimp only
  have := two_null o he A AT (min (s.nconv + P.mpd) P.ncv) s.B h
  rw [hc] at *
  rw [this]
  rfl

/-! ### Breakdown in the one-sided variants -/

theorem mgsLoop_noerror (o : Opts) (A : E →ₗ[𝕜] F) (AT : F →ₗ[𝕜] E) (f : ℕ) : ∀ i (s : Bid E F), mgsLoop o A AT f i s ≠ .error := by
  induction f with
  | zero => intro i s h; cases h
  | succ f ih =>
    intro i s h
    rw [mgsLoop_succ] at h
    revert h
    split
    · intro h; cases h
    · intro h; exact ih _ _ h

/-- **C127 (negation, modified Gram-Schmidt).**  A breakdown is never reported. -/
theorem C127_mgs_silent (o : Opts) (A : E →ₗ[𝕜] F) (AT : F →ₗ[𝕜] E) (c l n : ℕ) (s : Bid E F) : oneMgs o A AT c l n s ≠ .error := by
  unfold oneMgs
  dsimp only
  by_cases h : ‖firstU A c l s‖ = 0
  · rw [if_pos h]; intro h; cases h
  · rw [if_neg h]
    cases hm : mgsLoop o A AT (n - (c + l + 1)) (c + l + 1) ⟨s.V, wr s.U (c + l) (((1 / ‖firstU A c l s‖ : ℝ) : 𝕜) • firstU A c l s), wr s.alpha (c + l) ‖firstU A c l s‖, s.beta⟩ with
    | error => exact absurd hm (mgsLoop_noerror o A AT _ _ _)
    | nan => intro h; cases h
    | ok r => intro h; cases h

/-- **C127 (negation, classical Gram-Schmidt and SVDLANCZOS).**  A left vector equal to zero in the last step is not reported. -/
theorem C127_last_silent (thr : ℝ) (o : Opts) (A : E →ₗ[𝕜] F) (AT : F →ₗ[𝕜] E) (bvl : ℕ) (s : Bid E F) (h : A (s.V 0) = 0) :
    oneCgs thr o A AT 0 0 1 s = .nan ∧ oneL thr A AT bvl 0 1 s.V s.alpha s.beta = .nan := by
  constructor
  · unfold oneCgs firstU
    simp [cgsLoop, h, Biorth.wr_same]
  · unfold oneL
    simp [lLoop, h]

/-! ### Examples -/

namespace Ex
local notation "E3" => EuclideanSpace ℝ (Fin 3)

/-- diag(1,2,3). -/
noncomputable def A : E3 →ₗ[ℝ] E3 where
  toFun x := !₂[x 0, 2 * x 1, 3 * x 2]
  map_add' x y := by ext i; fin_cases i <;> simp <;> ring
  map_smul' c x := by ext i; fin_cases i <;> simp <;> ring

theorem adj : Adj A A := by
  intro x y
  simp [A, PiLp.inner_apply, Fin.sum_univ_three]
  ring

theorem inj : Function.Injective A := by
  intro x y h
  have h0 := congrArg (fun v : E3 => v 0) h
  have h1 := congrArg (fun v : E3 => v 1) h
  have h2 := congrArg (fun v : E3 => v 2) h
  simp [A] at h0 h1 h2
  ext i; fin_cases i <;> simpa

noncomputable def v0 : E3 := !₂[3 / 5, 4 / 5, 0]
theorem v0_norm : ‖v0‖ = 1 := by
  have h : ‖v0‖ ^ 2 = 1 := by rw [EuclideanSpace.real_norm_sq_eq]; simp [v0, Fin.sum_univ_three]; norm_num
  nlinarith [norm_nonneg v0]

noncomputable def B : Bid E3 E3 := ⟨fun _ => v0, fun _ => 0, fun _ => 0, fun _ => 0⟩
noncomputable def o : Opts := ⟨false, .ifneeded, 1 / 2⟩
theorem he : o.eta ≤ 1 := by norm_num [o]
noncomputable def P : Params := ⟨1, 2, 2, 10, 1 / 2, true, false, 1 / 2, fun _ r => r⟩
theorem hP : Valid P := ⟨rfl, by norm_num [P], by norm_num [P], by norm_num [P]⟩

theorem kept : Kept A A 0 0 B := by
  refine ⟨le_rfl, ?_, fun i hi => absurd hi (Nat.not_lt_zero _), fun i hi => absurd hi (Nat.not_lt_zero _), fun i _ hi => absurd hi (Nat.not_lt_zero _)⟩
  intro i hi j hj
  have hi' : i = 0 := by omega
  have hj' : j = 0 := by omega
  subst hi'; subst hj'
  show inner ℝ v0 v0 = _
  rw [if_pos rfl, real_inner_self_eq_norm_sq, v0_norm, one_pow]

/-- C123: the hypotheses are met by diag(1,2,3) with a start vector. -/
example : ∃ s' n' bd x, twoSide o A A 0 2 B = (s', n', bd) ∧ 0 < n' ∧ n' ≤ 2 ∧ Decomp A A 0 0 n' s' x := by
  obtain ⟨s', n', bd, x, h1, h2, h3, h4, _⟩ := twoSide_injective o he adj inj B kept (show 0 < 2 by omega)
  exact ⟨s', n', bd, x, h1, h2, h3, h4⟩

/-- C124, C125: a complete run. -/
example (x : ℕ → E3) : Result A A P (trRun o A A P exactDense x 10 ⟨0, 0, 0, B, fun _ => 0, fun _ => 0, .iterating⟩) ∧
    (trRun o A A P exactDense x 10 ⟨0, 0, 0, B, fun _ => 0, fun _ => 0, .iterating⟩).status ≠ .iterating := by
  have hs := C124_start (A := A) (AT := A) P (by norm_num [P]) (by norm_num [P]) (by norm_num [P]) B v0_norm (fun _ => 0) (fun _ => 0)
  have hconv : ∀ σ, 0 < σ → P.conv σ 0 < P.tol := fun σ _ => by norm_num [P]
  exact ⟨C124_partial o he adj inj P hP hconv exactDense exactDense_ok x 10 _ hs, C124_ends o he adj inj P hP hconv exactDense exactDense_ok x _ hs (by norm_num [P])⟩

/-- C126. -/
example (x : ℕ → E3) (m : ℕ) : Keeps (⟨0, 0, 0, B, fun _ => 0, fun _ => 0, .iterating⟩ : State E3 E3) (trRun o A A P exactDense x m ⟨0, 0, 0, B, fun _ => 0, fun _ => 0, .iterating⟩) :=
  C126_tr_partial o A A P exactDense x rfl (by norm_num [P]) m _ (by show 0 + 0 ≤ _; omega)

/-- C128: a complete run, with a random vector that is not in the span of the converged ones. -/
example : ∃ x : ℕ → (ℕ → E3) → ℕ → E3, LResult A A P (lRun o A A P exactDense x 10 ⟨0, 0, 0, B, fun _ => 0, fun _ => 0, .iterating⟩) := by
  refine ⟨fun _ _ _ => v0, C128_partial o he adj P (by norm_num [P]) (by norm_num [P]) exactDense exactDense_ok _ ?_ 10 _ (C128_start P (by norm_num [P]) B v0_norm _ _)⟩
  intro i V n hn hm
  have hn0 : n = 0 := by have : n < 1 := hn; omega
  subst hn0
  have : Biorth.spanOf ℝ V 0 = ⊥ := by
    unfold Biorth.spanOf
    rw [Submodule.span_eq_bot]
    rintro y ⟨k, hk, _⟩
    exact absurd hk (Nat.not_lt_zero _)
  rw [this, Submodule.mem_bot] at hm
  have h1 := v0_norm
  rw [hm, norm_zero] at h1
  exact zero_ne_one h1

/-- C125: the hypotheses are met by an exact triplet. -/
example : Locked A A P 1 ⟨1, 1, 0, ⟨fun _ => !₂[0, 0, 1], fun _ => !₂[0, 0, 1], fun _ => 3, fun _ => 0⟩, fun _ => 3, fun _ => 0, .tol⟩ := by
  have hn : inner ℝ (!₂[0, 0, 1] : E3) (!₂[0, 0, 1] : E3) = 1 := by rw [PiLp.inner_apply]; simp [Fin.sum_univ_three]
  have hon : Insert.ON ℝ (fun _ : ℕ => (!₂[0, 0, 1] : E3)) 1 := by
    intro i hi j hj
    rw [if_pos (by omega)]; exact hn
  have hA : A (!₂[0, 0, 1] : E3) - (3 : ℝ) • (!₂[0, 0, 1] : E3) = 0 := by ext i; fin_cases i <;> simp [A]
  refine ⟨hon, hon, fun _ _ => by norm_num, fun j _ => ?_, fun j _ => ?_, fun _ _ => by norm_num [P]⟩
  · show A (!₂[0, 0, 1] : E3) - (3 : ℝ) • (!₂[0, 0, 1] : E3) ∈ _
    rw [hA]; exact Submodule.zero_mem _
  · show (0 : ℝ) = ‖A (!₂[0, 0, 1] : E3) - (3 : ℝ) • (!₂[0, 0, 1] : E3)‖
    rw [hA, norm_zero]

/-- C127. -/
example : (twoSide o A A 0 1 B).2.1 = 1 → oneMgs o A A 0 0 1 B = .ok (twoSide o A A 0 1 B).1 :=
  (C127_mgs o he adj (l := 0) B kept (fun m hm => absurd hm (Nat.not_lt_zero _)) (by omega)).1

end Ex

/-! ### A matrix without full column rank -/

open Classical in
/-- After a breakdown on the left side with some values not converged, the start vector of the next iteration of SVDTRLANCZOS is the last right vector divided by `beta`, although it is a unit
vector already; the new random vector is overwritten. -/
theorem trCycle_left_breakdown (o : Opts) (A : E →ₗ[𝕜] F) (AT : F →ₗ[𝕜] E) (P : Params) (dense : Dense) (x : E) (s : State E F) (t : Bid E F) (nv : ℕ) (d : DenseOut) (k : ℕ)
    (h1 : twoSide o A AT (s.nconv + s.l) (min (s.nconv + P.mpd) P.ncv) s.B = (t, nv, true))
    (h2 : dense (decide (0 < s.l)) s.nconv (s.nconv + s.l) nv t.alpha t.beta = some d) (hlock : P.lock = true)
    (hk : (converge P s.nconv nv (fun i => if s.nconv ≤ i ∧ i < nv then d.w i else s.sigma i) (betaNew nv d t.beta) s.err).1 = k) (hkn : k < nv)
    (hst : stopping P (s.its + 1) k = .iterating) (hb : t.beta (nv - 1) ≠ 0)
    (hq : (orthon 𝕜 o (wr t.V nv (((1 / t.beta (nv - 1) : ℝ) : 𝕜) • t.V nv)) k x).2.2 = false) :
    (trCycle o A AT P dense x s).status = .iterating ∧ (trCycle o A AT P dense x s).nconv = k ∧ (trCycle o A AT P dense x s).l = 0 ∧
    (trCycle o A AT P dense x s).B.V k = ((1 / t.beta (nv - 1) : ℝ) : 𝕜) • t.V nv := by
  have hns : k < P.nsv := by
    rcases stopping_cases P (s.its + 1) k with h | h | h
    · rw [h.1] at hst; cases hst
    · rw [h.1] at hst; cases hst
    · exact h.2.1
  unfold trCycle
  dsimp only
  rw [h1]
  dsimp only
  rw [if_neg (by omega), h2]
  dsimp only
  rw [hk, hst, hlock]
  have hl1 : ∀ z : ℕ, (if (Status.iterating ≠ Status.iterating ∨ true = true ∨ k = nv) then 0 else z) = 0 := fun z => if_pos (Or.inr (Or.inl rfl))
  have hl2 : ∀ (z a b : ℕ), (if true = false ∧ 0 < z then a else b) = b := fun z a b => if_neg (fun h => by cases h.1)
  rw [hl1, hl2, hl2]
  have hfr : (Status.iterating = Status.iterating ∧ (true = true ∨ k = nv) ∧ k < P.nsv) := ⟨rfl, Or.inl rfl, hns⟩
  rw [if_pos hfr, if_pos hfr, hq]
  have hn1 : ¬ ((Status.iterating = Status.iterating ∧ (true = true ∨ k = nv) ∧ k < P.nsv) ∧ false = true) := fun h => by cases h.2
  rw [if_neg hn1]
  have hc : Status.iterating = Status.iterating ∧ false = false := ⟨rfl, rfl⟩
  rw [if_pos hc]
  have hnn : ¬ ((Status.iterating = Status.iterating ∧ false = false) ∧ t.beta (nv - 1) = 0 ∧ k + 0 ≠ nv) := fun h => hb h.2.1
  rw [if_neg hnn]
  refine ⟨rfl, rfl, rfl, ?_⟩
  rw [Nat.add_zero, Biorth.wr_same]
  unfold rotate
  rw [if_neg (by omega)]
  unfold orthon
  dsimp only
  rw [Biorth.wr_other _ _ _ (by omega), Biorth.wr_same]

namespace Def
local notation "E2" => EuclideanSpace ℝ (Fin 2)

/-- The matrix [1 2; 0 0]. -/
noncomputable def A : E2 →ₗ[ℝ] E2 where
  toFun x := !₂[x 0 + 2 * x 1, 0]
  map_add' x y := by ext i; fin_cases i <;> simp <;> ring
  map_smul' c x := by ext i; fin_cases i <;> simp <;> ring
noncomputable def AT : E2 →ₗ[ℝ] E2 where
  toFun x := !₂[x 0, 2 * x 0]
  map_add' x y := by ext i; fin_cases i <;> simp <;> ring
  map_smul' c x := by ext i; fin_cases i <;> simp <;> ring

theorem adj : Adj A AT := by
  intro x y
  simp [A, AT, PiLp.inner_apply, Fin.sum_univ_two]
  ring

noncomputable def e0 : E2 := !₂[1, 0]
noncomputable def e1 : E2 := !₂[0, 1]
theorem e0_norm : ‖e0‖ = 1 := by
  have h : ‖e0‖ ^ 2 = 1 := by rw [EuclideanSpace.real_norm_sq_eq]; simp [e0, Fin.sum_univ_two]
  nlinarith [norm_nonneg e0]
theorem e1_norm : ‖e1‖ = 1 := by
  have h : ‖e1‖ ^ 2 = 1 := by rw [EuclideanSpace.real_norm_sq_eq]; simp [e1, Fin.sum_univ_two]
  nlinarith [norm_nonneg e1]

noncomputable def B : Bid E2 E2 := ⟨fun _ => e0, fun _ => 0, fun _ => 0, fun _ => 0⟩
noncomputable def P : Params := ⟨1, 2, 2, 10, 1 / 2, true, false, 1 / 2, fun _ r => r⟩
theorem hP : Valid P := ⟨rfl, by norm_num [P], by norm_num [P], by norm_num [P]⟩

theorem on0 (V : ℕ → E2) : Insert.ON ℝ V 0 := fun i hi => absurd hi (Nat.not_lt_zero _)
theorem on1 {V : ℕ → E2} (h : ‖V 0‖ = 1) : Insert.ON ℝ V 1 := by
  intro i hi j hj
  have hi' : i = 0 := by omega
  have hj' : j = 0 := by omega
  subst hi'; subst hj'
  rw [if_pos rfl, real_inner_self_eq_norm_sq, h, one_pow]
theorem pass0 (V : ℕ → E2) (w : E2) : cgsPass ℝ 0 V 0 w = w := pass_fix (fun m hm => absurd hm (Nat.not_lt_zero _))
theorem pass1 (V : ℕ → E2) (w : E2) : cgsPass ℝ 0 V 1 w = w - (inner ℝ (V 0) w : ℝ) • V 0 := by rw [pass_zero, sum_range_one]

theorem two (o : Opts) (he : o.eta ≤ 1) : ∃ t : Bid E2 E2, twoSide o A AT 0 2 B = (t, 1, true) ∧ t.V 0 = e0 ∧ t.V 1 = e1 ∧ t.U 0 = e0 ∧ t.alpha 0 = 1 ∧ t.beta 0 = 2 := by
  obtain ⟨u1, u2, u3⟩ := orthon_eq (𝕜 := ℝ) o he B.U 0 (on0 _) (A (B.V 0))
  have hA : A (B.V 0) = e0 := by ext i; fin_cases i <;> simp [A, B, e0]
  rw [hA] at u1 u2 u3
  rw [pass0, e0_norm] at u1 u2
  rw [pass0] at u3
  have hne : e0 ≠ 0 := fun h => by have := e0_norm; rw [h, norm_zero] at this; exact zero_ne_one this
  have u1' : (orthon ℝ o B.U 0 (A (B.V 0))).1 = wr B.U 0 e0 := by rw [hA, u1]; simp
  obtain ⟨s1, hs1⟩ : ∃ s1 : Bid E2 E2, s1 = ⟨B.V, wr B.U 0 e0, wr B.alpha 0 1, B.beta⟩ := ⟨_, rfl⟩
  have hu0 : s1.U 0 = e0 := by rw [hs1]; exact Biorth.wr_same B.U 0 e0
  have hv0 : s1.V 0 = e0 := by rw [hs1]; rfl
  -- the right vector
  obtain ⟨v1, v2, v3⟩ := orthon_eq (𝕜 := ℝ) o he s1.V 1 (on1 (by rw [hv0, e0_norm])) (AT (s1.U 0))
  have hy : cgsPass ℝ 0 s1.V 1 (AT (s1.U 0)) = (2 : ℝ) • e1 := by
    rw [pass1, hv0, hu0]
    ext i; fin_cases i <;> simp [AT, e0, e1, PiLp.inner_apply, Fin.sum_univ_two]
  have hyn : ‖(2 : ℝ) • e1‖ = 2 := by rw [norm_smul, e1_norm]; norm_num
  rw [hy, hyn] at v1 v2
  rw [hy] at v3
  have v1' : (orthon ℝ o s1.V 1 (AT (s1.U 0))).1 = wr s1.V 1 e1 := by rw [v1, smul_smul]; norm_num
  have hv : ¬ (orthon ℝ o s1.V 1 (AT (s1.U 0))).2.2 = true := fun h => by
    have := v3.mp h
    rw [this, norm_zero] at hyn
    norm_num at hyn
  -- the left vector
  obtain ⟨w1, w2, w3⟩ := orthon_eq (𝕜 := ℝ) o he s1.U 1 (on1 (by rw [hu0, e0_norm])) (A e1)
  have hz : cgsPass ℝ 0 s1.U 1 (A e1) = 0 := by
    rw [pass1, hu0]
    ext i; fin_cases i <;> simp [A, e0, e1, PiLp.inner_apply, Fin.sum_univ_two]
  have hw := w3.mpr hz
  have hl : twoLoop o A AT 1 1 s1 = (⟨wr s1.V 1 e1, (orthon ℝ o s1.U 1 (A e1)).1, wr s1.alpha 1 (orthon ℝ o s1.U 1 (A e1)).2.1, wr s1.beta 0 2⟩, 1, true) := by
    rw [twoLoop_succ, if_neg hv, v1', v2, Biorth.wr_same, if_pos hw]
  refine ⟨⟨wr s1.V 1 e1, (orthon ℝ o s1.U 1 (A e1)).1, wr s1.alpha 1 (orthon ℝ o s1.U 1 (A e1)).2.1, wr s1.beta 0 2⟩, ?_, ?_, ?_, ?_, ?_, ?_⟩
  · unfold twoSide
    dsimp only
    rw [u1', hA, u2, if_neg (fun h => hne (u3.mp h)), ← hs1, show 2 - (0 + 1) = 1 by rfl, show 0 + 1 = 1 by rfl, hl]
    rfl
  · show wr s1.V 1 e1 0 = e0
    rw [Biorth.wr_other _ _ _ (by omega), hv0]
  · exact Biorth.wr_same s1.V 1 e1
  · show (orthon ℝ o s1.U 1 (A e1)).1 0 = e0
    rw [w1, Biorth.wr_other _ _ _ (by omega), hu0]
  · show wr s1.alpha 1 (orthon ℝ o s1.U 1 (A e1)).2.1 0 = 1
    have e : ∀ z, wr s1.alpha 1 z 0 = s1.alpha 0 := fun z => Biorth.wr_other _ _ _ (by omega)
    rw [e, hs1]
    exact Biorth.wr_same B.alpha 0 1
  · exact Biorth.wr_same s1.beta 0 2

/-- **C124 (negation for matrices without full column rank).**  For the matrix [1 2; 0 0] and the unit start vector e_0 the bidiagonalization breaks down on the left side after one step; one iteration
of SVDTRLANCZOS continues with a start vector of norm 1/2, for every dense solver and every random vector different from zero. -/
theorem C124_rank_deficient (o : Opts) (he : o.eta ≤ 1) (dense : Dense) (hd : DenseOK dense) (x : E2) (hx : x ≠ 0) :
    ∃ s' : State E2 E2, s' = trCycle o A AT P dense x ⟨0, 0, 0, B, fun _ => 0, fun _ => 0, .iterating⟩ ∧
      s'.status = .iterating ∧ s'.nconv = 0 ∧ s'.l = 0 ∧ ‖s'.B.V 0‖ = 1 / 2 ∧ ¬ Good A AT P s' := by
  obtain ⟨t, ht, tv0, tv1, tu0, ta, tb⟩ := two o he
  obtain ⟨d, hdd, hsvd⟩ := hd false 0 (0 + 0) 1 t.alpha t.beta (by omega) (by omega) (fun h => by cases h)
  have hP1 : |d.P 0 0| = 1 := by
    have := hsvd.onP 0 0 le_rfl (by omega) le_rfl (by omega)
    rw [if_pos rfl, show Ico 0 1 = range 1 by rfl, sum_range_one] at this
    rw [← abs_mul_abs_self] at this
    nlinarith [abs_nonneg (d.P 0 0)]
  have hb0 : |betaNew 1 d t.beta 0| = 2 := by
    show |if 0 < 1 then t.beta (1 - 1) * d.P (1 - 1) 0 else t.beta 0| = 2
    rw [if_pos (by omega)]
    show |t.beta 0 * d.P 0 0| = 2
    rw [tb, abs_mul, hP1, mul_one]; norm_num
  have hcv : ∀ sg err, (converge P 0 1 sg (betaNew 1 d t.beta) err).1 = 0 := by
    intro sg err
    unfold converge
    show (convLoop false (1 / 2) (fun k => |betaNew 1 d t.beta k|) 1 0 none err).1 = 0
    unfold convLoop
    dsimp only
    have e1 : (if (none : Option ℕ) = none ∧ (2 : ℝ) ≥ 1 / 2 then some 0 else none) = some 0 := if_pos ⟨rfl, by norm_num⟩
    rw [Biorth.wr_same, hb0, e1]
    rfl
  obtain ⟨q1, q2, q3⟩ := orthon_eq (𝕜 := ℝ) o he (wr t.V 1 ((1 / 2 : ℝ) • e1)) 0 (on0 _) x
  rw [pass0] at q1 q2 q3
  have hq : (orthon ℝ o (wr t.V 1 ((1 / 2 : ℝ) • e1)) 0 x).2.2 = false := by
    cases h : (orthon ℝ o (wr t.V 1 ((1 / 2 : ℝ) • e1)) 0 x).2.2 with
    | false => rfl
    | true => exact absurd (q3.mp h) hx
  have hst : stopping P (0 + 1) 0 = .iterating := by
    unfold stopping
    rw [if_neg (by show ¬ (0 ≥ 1); omega), if_neg (by show ¬ (0 + 1 ≥ 10); omega)]
  have hmin : min ((⟨0, 0, 0, B, fun _ => 0, fun _ => 0, .iterating⟩ : State E2 E2).nconv + P.mpd) P.ncv = 2 := by
    show min (0 + P.mpd) P.ncv = 2
    norm_num [P]
  have key := trCycle_left_breakdown o A AT P dense x ⟨0, 0, 0, B, fun _ => 0, fun _ => 0, .iterating⟩ t 1 d 0 (by rw [hmin]; exact ht) hdd (by rw [P]) (hcv _ _) (by omega) hst
    (by rw [tb]; norm_num) (by
      show (orthon ℝ o (wr t.V 1 (((1 / t.beta 0 : ℝ) : ℝ) • t.V 1)) 0 x).2.2 = false
      rw [tb, tv1]; exact hq)
  have tb' : t.beta (1 - 1) = 2 := tb
  rw [tb', tv1] at key
  refine ⟨_, rfl, key.1, key.2.1, key.2.2.1, ?_, ?_⟩
  · rw [key.2.2.2, norm_smul, e1_norm]; norm_num
  · intro hg
    have h1 := hg.kept.onV 0 (by omega) 0 (by omega)
    rw [if_pos rfl, key.2.2.2, real_inner_self_eq_norm_sq, norm_smul, e1_norm] at h1
    norm_num at h1

end Def

end Verif.GKL
