import Verif.FN.Model
import Verif.FN.Spec
import Mathlib.Analysis.SpecialFunctions.Exponential
import Mathlib.Analysis.Complex.Exponential
import Mathlib.Analysis.SpecialFunctions.Pow.Continuity

/-! # Lemmas on the FN model -/

set_option linter.all false
noncomputable section
open Classical Topology Filter

namespace Verif.FN

/-- What the elementary functions have to satisfy; `cut` is the set where log and sqrt jump. -/
structure Lawful {K : Type} [RCLike K] (P : Prim K) (cut : K → Prop) : Prop where
  expSum : ∀ x, HasSum (fun n : ℕ => x ^ n / (n.factorial : K)) (P.exp x)
  expDeriv : ∀ x, HasDerivAt P.exp (P.exp x) x
  logDeriv : ∀ x, x ≠ 0 → P.pos x → ¬ cut x → HasDerivAt P.log (1 / x) x
  sqrtDeriv : ∀ x, x ≠ 0 → P.pos x → ¬ cut x → HasDerivAt P.sqrt (1 / (2 * P.sqrt x)) x
  invDeriv : ∀ x, x ≠ 0 → P.pos x → ¬ cut x →
    HasDerivAt (fun y => 1 / P.sqrt y) (-1 / (2 * P.pow15 x)) x
  near : ∀ x, x ≠ 0 → P.pos x → ∀ᶠ y in 𝓝 x, y ≠ 0 ∧ P.pos y ∧ P.nonneg y

theorem lawfulReal : Lawful primReal (fun _ => False) where
  expSum x := by
    have := Real.exp_eq_exp_ℝ ▸ NormedSpace.expSeries_div_hasSum_exp x
    simpa [primReal] using this
  expDeriv x := Real.hasDerivAt_exp x
  logDeriv x hx hp _ := by simpa [primReal] using Real.hasDerivAt_log hx
  sqrtDeriv x hx hp _ := Real.hasDerivAt_sqrt hx
  invDeriv x hx hp _ := by
    have hp : 0 < x := hp
    have h := (Real.hasDerivAt_sqrt hx).inv (Real.sqrt_ne_zero'.2 hp)
    have e : (fun y => 1 / primReal.sqrt y) = (fun y => Real.sqrt y)⁻¹ := by
      ext y; simp [primReal]
    rw [e]
    refine h.congr_deriv (Eq.symm ?_)
    have h1 : primReal.pow15 x = x * Real.sqrt x := by
      show x ^ (3 / 2 : ℝ) = _
      rw [show (3 / 2 : ℝ) = 1 + 1 / 2 by norm_num, Real.rpow_add hp, Real.rpow_one,
        Real.sqrt_eq_rpow]
    have h2 : Real.sqrt x ^ 2 = x := Real.sq_sqrt hp.le
    have h3 : Real.sqrt x ≠ 0 := Real.sqrt_ne_zero'.2 hp
    rw [h1, h2]
    field_simp
  near x hx hp := by
    have hp : 0 < x := hp
    filter_upwards [lt_mem_nhds hp] with y hy
    exact ⟨hy.ne', hy, le_of_lt hy⟩

theorem lawfulComplex : Lawful primComplex (fun z => z ∉ Complex.slitPlane) where
  expSum x := by
    have := Complex.exp_eq_exp_ℂ ▸ NormedSpace.expSeries_div_hasSum_exp x
    simpa [primComplex] using this
  expDeriv x := Complex.hasDerivAt_exp x
  logDeriv x hx _ hc := by
    have hc : x ∈ Complex.slitPlane := not_not.1 hc
    simpa [primComplex] using (Complex.hasStrictDerivAt_log hc).hasDerivAt
  sqrtDeriv x hx _ hc := by
    have hc : x ∈ Complex.slitPlane := not_not.1 hc
    have h := (hasDerivAt_id x).cpow_const (c := (1 / 2 : ℂ)) (by simpa using hc)
    simp only [id, mul_one] at h
    refine h.congr_deriv (Eq.symm ?_)
    show 1 / (2 * x ^ (1 / 2 : ℂ)) = _
    rw [show (1 / 2 - 1 : ℂ) = -(1 / 2) by norm_num, Complex.cpow_neg]
    field_simp
  invDeriv x hx _ hc := by
    have hc : x ∈ Complex.slitPlane := not_not.1 hc
    have h := (hasDerivAt_id x).cpow_const (c := (-(1 / 2) : ℂ)) (by simpa using hc)
    simp only [id, mul_one] at h
    have e : (fun y => 1 / primComplex.sqrt y) = fun y => y ^ (-(1 / 2) : ℂ) := by
      ext y; simp [primComplex, Complex.cpow_neg]
    rw [e]
    refine h.congr_deriv (Eq.symm ?_)
    show -1 / (2 * x ^ (3 / 2 : ℂ)) = _
    rw [show (-(1 / 2) - 1 : ℂ) = -(3 / 2) by norm_num, Complex.cpow_neg]
    field_simp
  near x hx _ := by
    filter_upwards [isOpen_ne.mem_nhds hx] with y hy
    exact ⟨hy, trivial, trivial⟩

/-! ## Horner -/

variable {K : Type}

theorem hornerLoop_eq [Field K] (x : K) (cs : List K) : ∀ p,
    hornerLoop x p cs = p * x ^ cs.length + Spec.poly cs x := by
  induction cs with
  | nil => intro p; simp [hornerLoop, Spec.poly]
  | cons c cs ih =>
    intro p
    rw [hornerLoop, ih]
    simp only [Spec.poly, List.length_cons, Fin.sum_univ_succ, List.get_cons_zero,
      List.get_cons_succ, Fin.val_zero, Fin.val_succ]
    have : ∀ i : Fin cs.length, cs.length + 1 - 1 - ((i : ℕ) + 1) = cs.length - 1 - i := by
      intro i; omega
    simp only [this]
    simp only [Nat.add_sub_cancel, Nat.sub_zero]
    rw [pow_succ, add_mul, mul_assoc x p, ← add_assoc]
    congr 1
    ring

theorem hornerP_eq [Field K] (x : K) (c : List K) : hornerP x c = Spec.polyOrOne c x := by
  cases c with
  | nil => simp [hornerP, Spec.polyOrOne]
  | cons c cs =>
    rw [hornerP, hornerLoop_eq, Spec.polyOrOne, if_neg (by simp)]
    conv_rhs => rw [Spec.poly]
    simp only [Spec.poly, List.length_cons, Fin.sum_univ_succ, List.get_cons_zero,
      List.get_cons_succ, Fin.val_zero, Fin.val_succ]
    have : ∀ i : Fin cs.length, cs.length + 1 - 1 - ((i : ℕ) + 1) = cs.length - 1 - i := by
      intro i; omega
    simp only [this]
    simp

theorem hornerLoopD_spec [RCLike K] (x : K) (cs : List K) : ∀ (p : K → K) (pp : K),
    HasDerivAt p pp x →
    (hornerLoopD x (p x, pp) cs).1 = hornerLoop x (p x) cs ∧
    HasDerivAt (fun y => hornerLoop y (p y) cs) (hornerLoopD x (p x, pp) cs).2 x := by
  induction cs with
  | nil => intro p pp h; exact ⟨rfl, h⟩
  | cons c cs ih =>
    intro p pp h
    simp only [hornerLoopD, hornerLoop]
    apply ih (fun y => c + y * p y)
    have := ((hasDerivAt_id x).mul h).const_add c
    simpa using this

theorem hornerD_spec [RCLike K] (x : K) (c : List K) :
    (hornerD x c).1 = hornerP x c ∧ HasDerivAt (fun y => hornerP y c) (hornerD x c).2 x := by
  cases c with
  | nil => exact ⟨rfl, hasDerivAt_const x 1⟩
  | cons c cs => exact hornerLoopD_spec x cs (fun _ => c) 0 (hasDerivAt_const x c)

theorem derivRational_spec [RCLike K] {p q : List K} {x d : K}
    (h : derivRational p q x = some d) : Spec.HasDerivative (evalRational p q) d x := by
  have hp := hornerD_spec x p
  have hq := hornerD_spec x q
  simp only [derivRational] at h
  split_ifs at h with h1 h2
  · refine ⟨fun y => hornerP y p, ?_, ?_⟩
    · filter_upwards with y
      simp [evalRational, h1]
    · rw [← Option.some.inj h]; exact hp.2
  · refine ⟨fun y => hornerP y p / hornerP y q, ?_, ?_⟩
    · rw [hq.1] at h2
      have := hq.2.continuousAt.eventually_ne h2
      filter_upwards [this] with y hy
      simp only [evalRational, if_neg h1, if_neg hy]
    · rw [← Option.some.inj h, hq.1, hp.1]
      have := hp.2.fun_div hq.2 (hq.1 ▸ h2)
      exact this.congr_deriv (by rw [pow_two])

/-! ## Phi -/

section phi
variable [RCLike K] {P : Prim K} {cut : K → Prop}

theorem phiLoop_hasSum (L : Lawful P cut) {x : K} (hx : x ≠ 0) (k : ℕ) :
    Spec.IsPhi k x (phiLoop P x k) := by
  unfold Spec.IsPhi
  induction k with
  | zero => simpa [phiLoop] using L.expSum x
  | succ k ih =>
    rw [phiLoop]
    have h1 := (hasSum_nat_add_iff' (f := fun n : ℕ => x ^ n / ((n + k).factorial : K)) 1).2 ih
    have h2 := h1.div_const x
    simp only [Finset.range_one, Finset.sum_singleton, pow_zero, zero_add] at h2
    have : (fun n : ℕ => x ^ (n + 1) / ((n + 1 + k).factorial : K) / x)
        = fun n : ℕ => x ^ n / ((n + (k + 1)).factorial : K) := by
      ext n
      rw [show n + 1 + k = n + (k + 1) by omega]
      rw [pow_succ]
      field_simp
    rw [this] at h2
    exact h2

theorem isPhi_zero (k : ℕ) : Spec.IsPhi k (0 : K) (rfactorial k) := by
  unfold Spec.IsPhi rfactorial
  have := hasSum_single (f := fun n : ℕ => (0 : K) ^ n / ((n + k).factorial : K)) 0 (by
    intro n hn; simp [hn])
  simpa using this

theorem evalPhi_isPhi (L : Lawful P cut) (k : ℕ) (x : K) : Spec.IsPhi k x (evalPhi P k x) := by
  unfold evalPhi
  split_ifs with h
  · rw [h]; exact isPhi_zero k
  · exact phiLoop_hasSum L h k

/-- Near 0 the phi functions are bounded by `exp 1`. -/
theorem phi_bound {k : ℕ} {x y : K} (h : Spec.IsPhi k x y) (hx : ‖x‖ ≤ 1) :
    ‖y‖ ≤ Real.exp 1 := by
  unfold Spec.IsPhi at h
  have hs : HasSum (fun n : ℕ => (1 : ℝ) ^ n / (n.factorial : ℝ)) (Real.exp 1) :=
    lawfulReal.expSum 1
  refine h.norm_le_of_bounded hs ?_
  intro n
  rw [norm_div, norm_pow, RCLike.norm_natCast]
  apply div_le_div₀ (by positivity) (pow_le_pow_left₀ (norm_nonneg _) hx n)
    (by exact_mod_cast Nat.factorial_pos n)
  exact_mod_cast Nat.factorial_le (by omega)

theorem evalPhi_rec (k : ℕ) (x : K) :
    evalPhi P k x - rfactorial k = x * (if x = 0 then 0 else phiLoop P x (k + 1)) := by
  unfold evalPhi
  split_ifs with h
  · simp
  · rw [phiLoop]; field_simp

theorem evalPhi_tendsto (L : Lawful P cut) (k : ℕ) :
    Tendsto (evalPhi P k) (𝓝 0) (𝓝 (rfactorial k)) := by
  rw [tendsto_iff_norm_sub_tendsto_zero]
  have hb : ∀ᶠ x : K in 𝓝 0, ‖evalPhi P k x - rfactorial k‖ ≤ ‖x‖ * Real.exp 1 := by
    have : ∀ᶠ x : K in 𝓝 0, ‖x‖ < 1 := by
      have := (continuous_norm (E := K)).tendsto 0
      rw [norm_zero] at this
      exact this.eventually_lt_const one_pos
    filter_upwards [this] with x hx
    rw [evalPhi_rec, norm_mul]
    apply mul_le_mul_of_nonneg_left _ (norm_nonneg _)
    split_ifs with h
    · simp [Real.exp_pos 1 |>.le]
    · exact phi_bound (phiLoop_hasSum L h (k + 1)) hx.le
  refine squeeze_zero' (Eventually.of_forall fun _ => norm_nonneg _) hb ?_
  have := ((continuous_norm (E := K)).tendsto 0).mul_const (Real.exp 1)
  simpa using this

theorem phiLoop_deriv (L : Lawful P cut) {x : K} (hx : x ≠ 0) (k : ℕ) :
    HasDerivAt (fun y => phiLoop P y k) (phiLoop P x k - phiLoop P x (k + 1) * (k : K)) x := by
  induction k with
  | zero => simpa [phiLoop] using L.expDeriv x
  | succ k ih =>
    have h := (ih.sub_const (rfactorial k)).fun_div (hasDerivAt_id x) hx
    simp only [id] at h
    have e : (fun y => phiLoop P y (k + 1)) = fun y => (phiLoop P y k - rfactorial k) / y := by
      ext y; rfl
    rw [e]
    refine h.congr_deriv (Eq.symm ?_)
    have h2 : phiLoop P x (k + 1 + 1) = (phiLoop P x (k + 1) - rfactorial (k + 1)) / x := rfl
    have h1 : phiLoop P x (k + 1) = (phiLoop P x k - rfactorial k) / x := rfl
    have h0 : phiLoop P x k = x * phiLoop P x (k + 1) + rfactorial k := by
      rw [h1]; field_simp; ring
    rw [h2, h0]
    have hf : (rfactorial (k + 1) : K) * ((k + 1 : ℕ) : K) = rfactorial k := by
      unfold rfactorial
      rw [Nat.factorial_succ]
      have : ((k : K) + 1) ≠ 0 := by exact_mod_cast Nat.succ_ne_zero k
      have h3 : (k.factorial : K) ≠ 0 := by exact_mod_cast Nat.factorial_ne_zero k
      push_cast
      field_simp
    rw [← hf]
    field_simp
    push_cast
    ring

theorem evalPhi_deriv (L : Lawful P cut) (k : ℕ) (x : K) :
    HasDerivAt (evalPhi P k) (derivPhi P k x) x := by
  by_cases hx : x = 0
  · subst hx
    rw [derivPhi, if_pos rfl, hasDerivAt_iff_tendsto_slope]
    have h := (evalPhi_tendsto L (k + 1)).mono_left (nhdsWithin_le_nhds (s := {0}ᶜ))
    refine h.congr' ?_
    filter_upwards [self_mem_nhdsWithin] with y hy
    have hy : y ≠ 0 := hy
    simp only [slope, vsub_eq_sub, sub_zero, smul_eq_mul]
    rw [evalPhi, if_neg hy, evalPhi, if_neg hy, evalPhi, if_pos rfl, phiLoop]
    rw [div_eq_inv_mul]
  · rw [derivPhi, if_neg hx]
    refine (phiLoop_deriv L hx k).congr_of_eventuallyEq ?_
    filter_upwards [isOpen_ne.mem_nhds hx] with y hy
    exact if_neg hy

end phi

/-! ## Leaves and trees -/

section tree
variable [RCLike K] {P : Prim K} {cut : K → Prop}

/-- No argument passed to a logarithm or a square root during the evaluation of `f` at `x` lies on
the cut. -/
def OffCut (P : Prim K) (cut : K → Prop) : Fn K → K → Prop
  | .leaf h t, x => (t = .log ∨ t = .sqrt ∨ t = .invsqrt) → ¬ cut (h.alpha * x)
  | .combine h c f1 f2, x => OffCut P cut f1 (h.alpha * x) ∧
      (if c = .compose then ∀ a, eval P f1 (h.alpha * x) = some a → OffCut P cut f2 a
       else OffCut P cut f2 (h.alpha * x))

theorem derivLeaf_spec (L : Lawful P cut) (t : Leaf K) {x d : K}
    (hc : (t = .log ∨ t = .sqrt ∨ t = .invsqrt) → ¬ cut x)
    (h : derivLeaf P t x = some d) : Spec.HasDerivative (evalLeaf P t) d x := by
  cases t with
  | exp =>
    refine ⟨P.exp, Eventually.of_forall fun y => rfl, ?_⟩
    rw [← Option.some.inj h]; exact L.expDeriv x
  | log =>
    simp only [derivLeaf] at h
    split_ifs at h with h1 h2
    refine ⟨P.log, ?_, ?_⟩
    · filter_upwards [L.near x h1 h2] with y hy
      simp [evalLeaf, hy]
    · rw [← Option.some.inj h]; exact L.logDeriv x h1 h2 (hc (by simp))
  | sqrt =>
    simp only [derivLeaf] at h
    split_ifs at h with h1 h2
    refine ⟨P.sqrt, ?_, ?_⟩
    · filter_upwards [L.near x h1 h2] with y hy
      simp [evalLeaf, hy]
    · rw [← Option.some.inj h]; exact L.sqrtDeriv x h1 h2 (hc (by simp))
  | invsqrt =>
    simp only [derivLeaf] at h
    split_ifs at h with h1 h2
    refine ⟨fun y => 1 / P.sqrt y, ?_, ?_⟩
    · filter_upwards [L.near x h1 h2] with y hy
      simp [evalLeaf, hy]
    · rw [← Option.some.inj h]; exact L.invDeriv x h1 h2 (hc (by simp))
  | phi k =>
    refine ⟨evalPhi P k, Eventually.of_forall fun y => rfl, ?_⟩
    rw [← Option.some.inj h]; exact evalPhi_deriv L k x
  | rational p q => exact derivRational_spec h

/-- Chain rule for the scale factors. -/
theorem scale_spec {e : K → Option K} {d x al be : K} (h : Spec.HasDerivative e d (al * x)) :
    Spec.HasDerivative (fun y => (e (al * y)).bind fun v => some (be * v)) (al * be * d) x := by
  obtain ⟨g, hg, hd⟩ := h
  refine ⟨fun y => be * g (al * y), ?_, ?_⟩
  · have hc : Tendsto (fun y => al * y) (𝓝 x) (𝓝 (al * x)) :=
      (continuous_const.mul continuous_id).tendsto x
    filter_upwards [hc.eventually hg] with y hy
    rw [hy]; rfl
  · have h1 : HasDerivAt (fun y => al * y) al x := by
      simpa using (hasDerivAt_id x).const_mul al
    have h2 := (HasDerivAt.comp x hd h1).const_mul be
    exact h2.congr_deriv (by ring)

theorem tree_spec (L : Lawful P cut) (f : Fn K) : ∀ {x d : K}, OffCut P cut f x →
    deriv P f x = some d → Spec.HasDerivative (eval P f) d x := by
  induction f with
  | leaf h t =>
    intro x d hc hd
    simp only [deriv, Option.bind_eq_some_iff] at hd
    obtain ⟨y, hy, hd⟩ := hd
    have := scale_spec (al := h.alpha) (be := h.beta) (derivLeaf_spec L t hc hy)
    rw [← Option.some.inj hd]
    exact this
  | combine h c f1 f2 ih1 ih2 =>
    intro x d hc hd
    simp only [deriv, Option.bind_eq_some_iff] at hd
    obtain ⟨y, hy, hd⟩ := hd
    obtain ⟨hc1, hc2⟩ := hc
    rw [← Option.some.inj hd]
    refine scale_spec (e := fun z => (eval P f1 z).bind fun a => combineVal c a z (eval P f2)) ?_
    cases c with
    | add =>
      simp only [combineDer, Option.bind_eq_some_iff] at hy
      obtain ⟨ap, h1, bp, h2, h3⟩ := hy
      obtain ⟨g1, e1, d1⟩ := ih1 hc1 h1
      obtain ⟨g2, e2, d2⟩ := ih2 hc2 h2
      refine ⟨fun z => g1 z + g2 z, ?_, ?_⟩
      · filter_upwards [e1, e2] with z k1 k2
        simp [k1, k2, combineVal]
      · rw [← Option.some.inj h3]; exact d1.add d2
    | multiply =>
      simp only [combineDer, Option.bind_eq_some_iff] at hy
      obtain ⟨ap, h1, bp, h2, a, h4, b, h5, h3⟩ := hy
      obtain ⟨g1, e1, d1⟩ := ih1 hc1 h1
      obtain ⟨g2, e2, d2⟩ := ih2 hc2 h2
      refine ⟨fun z => g1 z * g2 z, ?_, ?_⟩
      · filter_upwards [e1, e2] with z k1 k2
        simp [k1, k2, combineVal]
      · have ha : g1 (h.alpha * x) = a := by
          have := e1.self_of_nhds; rw [h4] at this; exact (Option.some.inj this).symm
        have hb : g2 (h.alpha * x) = b := by
          have := e2.self_of_nhds; rw [h5] at this; exact (Option.some.inj this).symm
        rw [← Option.some.inj h3, ← ha, ← hb]; exact d1.mul d2
    | divide =>
      simp only [combineDer, Option.bind_eq_some_iff] at hy
      obtain ⟨ap, h1, bp, h2, a, h4, b, h5, h3⟩ := hy
      split_ifs at h3 with h0
      obtain ⟨g1, e1, d1⟩ := ih1 hc1 h1
      obtain ⟨g2, e2, d2⟩ := ih2 hc2 h2
      have ha : g1 (h.alpha * x) = a := by
        have := e1.self_of_nhds; rw [h4] at this; exact (Option.some.inj this).symm
      have hb : g2 (h.alpha * x) = b := by
        have := e2.self_of_nhds; rw [h5] at this; exact (Option.some.inj this).symm
      refine ⟨fun z => g1 z / g2 z, ?_, ?_⟩
      · have := d2.continuousAt.eventually_ne (hb ▸ h0)
        filter_upwards [e1, e2, this] with z k1 k2 k3
        simp [k1, k2, combineVal, k3]
      · rw [← Option.some.inj h3, ← ha, ← hb]
        exact (d1.fun_div d2 (hb ▸ h0)).congr_deriv (by rw [pow_two])
    | compose =>
      simp only [combineDer, Option.bind_eq_some_iff] at hy
      obtain ⟨a, h4, ap, h1, yp, h2, h3⟩ := hy
      rw [if_pos rfl] at hc2
      obtain ⟨g1, e1, d1⟩ := ih1 hc1 h1
      obtain ⟨g2, e2, d2⟩ := ih2 (hc2 a h4) h2
      have ha : g1 (h.alpha * x) = a := by
        have := e1.self_of_nhds; rw [h4] at this; exact (Option.some.inj this).symm
      subst ha
      refine ⟨fun z => g2 (g1 z), ?_, ?_⟩
      · filter_upwards [e1, d1.continuousAt.eventually e2] with z k1 k2
        simp [k1, k2, combineVal]
      · rw [← Option.some.inj h3]; exact HasDerivAt.comp _ d2 d1

theorem offCut_real (f : Fn K) : ∀ x, OffCut P (fun _ => False) f x := by
  induction f with
  | leaf h t => intro x _; simp
  | combine h c f1 f2 ih1 ih2 =>
    intro x
    refine ⟨ih1 _, ?_⟩
    split_ifs
    · intro a _; exact ih2 a
    · exact ih2 _

end tree

end Verif.FN
