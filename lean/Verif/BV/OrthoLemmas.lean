import Verif.BV.OrthoModel
import Mathlib.Algebra.BigOperators.Group.List.Basic
import Mathlib.Tactic.Module
import Mathlib.Tactic.Linarith
import Mathlib.Tactic.FieldSimp
/-!
Lemmas on the Gram-Schmidt passes.
-/
set_option linter.all false
namespace Verif.BV
noncomputable section
variable {𝕜 : Type} [RCLike 𝕜] {E : Type} [AddCommGroup E] [Module 𝕜 E]
variable (f : E →ₗ⋆[𝕜] E →ₗ[𝕜] 𝕜)

/-- What does not change in a slot. -/
def Slot.key (s : Slot 𝕜 E) : E × ℝ × Bool := (s.v, s.om, s.sel)

/-- The columns are orthogonal to each other, with the given signs as squares. -/
structure Ortho (ss : List (Slot 𝕜 E)) : Prop where
  pw : ss.Pairwise fun a b => f a.v b.v = 0 ∧ f b.v a.v = 0
  self : ∀ s ∈ ss, f s.v s.v = (s.om : 𝕜)
  om : ∀ s ∈ ss, s.om ≠ 0

/-- The combination of the columns with coefficients `g`, the signs taken into account. -/
def comb (g : Slot 𝕜 E → 𝕜) (ss : List (Slot 𝕜 E)) : E :=
  (ss.map fun s => if s.sel then (g s / (s.om : 𝕜)) • s.v else 0).sum

theorem Ortho.tail {s : Slot 𝕜 E} {ss : List (Slot 𝕜 E)} (h : Ortho f (s :: ss)) : Ortho f ss :=
  ⟨(List.pairwise_cons.1 h.pw).2, fun t ht => h.self t (List.mem_cons_of_mem _ ht),
   fun t ht => h.om t (List.mem_cons_of_mem _ ht)⟩

/-- Effective coefficient: in the definite case the signs are 1. -/
theorem coef_eq (indef : Bool) (om : ℝ) (h : indef = false → om = 1) (d : 𝕜) :
    (if indef = true then d / (om : 𝕜) else d) = d / (om : 𝕜) := by
  cases indef with
  | true => rfl
  | false => simp [h rfl]

theorem mgsLoop_app (indef : Bool) (u : E) (ss : List (Slot 𝕜 E)) : ∀ w,
    (∀ s ∈ ss, s.sel = true → f u s.v = 0) → f u (mgsLoop f indef ss w).1 = f u w := by
  induction ss with
  | nil => intro w _; rfl
  | cons s ss ih =>
    intro w h
    rw [mgsLoop]
    by_cases hs : s.sel = true
    · rw [if_pos hs]
      simp only
      rw [ih _ (fun t ht => h t (List.mem_cons_of_mem _ ht)), map_sub, map_smul,
        h s (List.mem_cons_self ..) hs, smul_zero, sub_zero]
    · rw [if_neg hs]
      simp only
      exact ih _ (fun t ht => h t (List.mem_cons_of_mem _ ht))

theorem mgsLoop_orth (indef : Bool) (ss : List (Slot 𝕜 E)) : ∀ w, Ortho f ss →
    (indef = false → ∀ s ∈ ss, s.om = 1) → ∀ s ∈ ss, s.sel = true → f s.v (mgsLoop f indef ss w).1 = 0 := by
  induction ss with
  | nil => intro w _ _ s hs; simp at hs
  | cons s ss ih =>
    intro w ho hd t ht hsel
    rw [mgsLoop]
    have hd' : indef = false → ∀ s ∈ ss, s.om = 1 := fun h t ht => hd h t (List.mem_cons_of_mem _ ht)
    have key : ∀ w', f s.v (mgsLoop f indef ss w').1 = f s.v w' := fun w' =>
      mgsLoop_app f indef s.v ss w' (fun t ht _ => ((List.pairwise_cons.1 ho.pw).1 t ht).1)
    by_cases hs : s.sel = true
    · rw [if_pos hs]
      simp only
      rcases List.mem_cons.1 ht with rfl | ht'
      · rw [key, coef_eq indef t.om (fun h => hd h t (List.mem_cons_self ..)), map_sub, map_smul,
          ho.self t (List.mem_cons_self ..)]
        have : (t.om : 𝕜) ≠ 0 := by
          simpa using ho.om t (List.mem_cons_self ..)
        rw [smul_eq_mul, div_mul_cancel₀ _ this, sub_self]
      · exact ih _ ho.tail hd' t ht' hsel
    · rw [if_neg hs]
      simp only
      rcases List.mem_cons.1 ht with rfl | ht'
      · exact absurd hsel hs
      · exact ih _ ho.tail hd' t ht' hsel

theorem mgsLoop_fact (indef : Bool) (ss : List (Slot 𝕜 E)) : ∀ w,
    (indef = false → ∀ s ∈ ss, s.om = 1) →
    w = (mgsLoop f indef ss w).1 + comb Slot.c (mgsLoop f indef ss w).2 := by
  induction ss with
  | nil => intro w _; simp [mgsLoop, comb]
  | cons s ss ih =>
    intro w hd
    have hd' : indef = false → ∀ s ∈ ss, s.om = 1 := fun h t ht => hd h t (List.mem_cons_of_mem _ ht)
    rw [mgsLoop]
    by_cases hs : s.sel = true
    · rw [if_pos hs]
      simp only [comb, List.map_cons, List.sum_cons, hs, if_true]
      rw [coef_eq indef s.om (fun h => hd h s (List.mem_cons_self ..))]
      have := ih (w - (f s.v w / (s.om : 𝕜)) • s.v) hd'
      simp only [comb] at this
      rw [add_left_comm, ← this]
      abel
    · rw [if_neg hs]
      have : comb Slot.c (s :: (mgsLoop f indef ss w).2) = comb Slot.c (mgsLoop f indef ss w).2 := by
        simp [comb, hs]
      simp only [this]
      exact ih w hd'

theorem mgsLoop_key (indef : Bool) (ss : List (Slot 𝕜 E)) : ∀ w,
    (mgsLoop f indef ss w).2.map (fun s => (s.key, s.h)) = ss.map fun s => (s.key, s.h) := by
  induction ss with
  | nil => intro w; rfl
  | cons s ss ih =>
    intro w
    rw [mgsLoop]
    by_cases hs : s.sel = true
    · rw [if_pos hs]
      simp only [List.map_cons]
      rw [ih]
      rfl
    · rw [if_neg hs]
      simp only [List.map_cons]
      rw [ih]

/-- For orthogonal columns the modified loop computes the products with the original vector. -/
theorem mgsLoop_eq_cgs (indef : Bool) (ss : List (Slot 𝕜 E)) : ∀ w, Ortho f ss →
    (indef = false → ∀ s ∈ ss, s.om = 1) → (∀ s ∈ ss, s.sel = true) →
    mgsLoop f indef ss w = (w - comb Slot.c (cgsDots f ss w), cgsDots f ss w) := by
  induction ss with
  | nil => intro w _ _ _; simp [mgsLoop, comb, cgsDots]
  | cons s ss ih =>
    intro w ho hd hsel
    have hd' : indef = false → ∀ s ∈ ss, s.om = 1 := fun h t ht => hd h t (List.mem_cons_of_mem _ ht)
    have hsel' : ∀ s ∈ ss, s.sel = true := fun t ht => hsel t (List.mem_cons_of_mem _ ht)
    have hs := hsel s (List.mem_cons_self ..)
    have hdots : ∀ a : 𝕜, cgsDots f ss (w - a • s.v) = cgsDots f ss w := by
      intro a
      unfold cgsDots
      refine List.map_congr_left fun t ht => ?_
      rw [map_sub, map_smul, ((List.pairwise_cons.1 ho.pw).1 t ht).2, smul_zero, sub_zero]
    rw [mgsLoop, if_pos hs]
    simp only
    rw [ih _ ho.tail hd' hsel', hdots, coef_eq indef s.om (fun h => hd h s (List.mem_cons_self ..))]
    refine Prod.ext ?_ ?_
    · show w - (f s.v w / (s.om : 𝕜)) • s.v - comb Slot.c (cgsDots f ss w) = w - comb Slot.c (cgsDots f (s :: ss) w)
      have : comb Slot.c (cgsDots f (s :: ss) w) = (f s.v w / (s.om : 𝕜)) • s.v + comb Slot.c (cgsDots f ss w) := by
        simp [comb, cgsDots, hs]
      rw [this]; abel
    · rfl

theorem squareSum_pythagoras (hH : ∀ x y, f y x = (starRingEnd 𝕜) (f x y)) (ss : List (Slot 𝕜 E)) : ∀ w,
    Ortho f ss → (∀ s ∈ ss, s.om = 1) → (∀ s ∈ ss, s.sel = true) →
    RCLike.re (f w w) = RCLike.re (f (mgsLoop f false ss w).1 (mgsLoop f false ss w).1) +
      squareSum (mgsLoop f false ss w).2 := by
  induction ss with
  | nil => intro w _ _ _; simp [mgsLoop, squareSum]
  | cons s ss ih =>
    intro w ho hd hsel
    have hs := hsel s (List.mem_cons_self ..)
    have h1 := ih (w - (f s.v w) • s.v) ho.tail (fun t ht => hd t (List.mem_cons_of_mem _ ht))
      (fun t ht => hsel t (List.mem_cons_of_mem _ ht))
    rw [mgsLoop, if_pos hs]
    simp only [Bool.false_eq_true, if_false, squareSum, List.map_cons, List.sum_cons]
    simp only [squareSum] at h1
    have h2 : RCLike.re (f (w - (f s.v w) • s.v) (w - (f s.v w) • s.v)) = RCLike.re (f w w) - ‖f s.v w‖ ^ 2 := by
      have hself : f s.v s.v = 1 := by
        rw [ho.self s (List.mem_cons_self ..), hd s (List.mem_cons_self ..)]; simp
      simp only [map_sub, map_smul, map_smulₛₗ, LinearMap.sub_apply, LinearMap.smul_apply, smul_eq_mul, hself,
        hH s.v w, mul_one, RingHom.id_apply]
      rw [RCLike.conj_mul, sub_self, mul_zero, map_zero, sub_zero]
      rw [show ((‖(f s.v) w‖ : 𝕜) ^ 2) = ((‖(f s.v) w‖ ^ 2 : ℝ) : 𝕜) by push_cast; rfl, RCLike.ofReal_re]
    linarith

/-- What a pass achieves. -/
structure PassOK (indef : Bool) (ss : List (Slot 𝕜 E)) (w : E) (p : Pass 𝕜 E) : Prop where
  key : p.ss.map Slot.key = ss.map Slot.key
  orth : ∀ s ∈ ss, s.sel = true → f s.v p.w = 0
  fact : w + comb Slot.h ss = p.w + comb Slot.h p.ss
  onrm : p.onrm = nrmOf f indef w
  nrm : p.nrm = nrmOf f indef p.w
  idem : (∀ s ∈ ss, s.sel = true → f s.v w = 0) → p.w = w

theorem addCoeffs_key (ss : List (Slot 𝕜 E)) : (addCoeffs ss).map Slot.key = ss.map Slot.key := by
  simp [addCoeffs, Slot.key, List.map_map, Function.comp_def]

theorem comb_add (ss : List (Slot 𝕜 E)) : comb Slot.h (addCoeffs ss) = comb Slot.h ss + comb Slot.c ss := by
  unfold comb addCoeffs
  induction ss with
  | nil => simp
  | cons s ss ih =>
    simp only [List.map_cons, List.sum_cons] at ih ⊢
    rw [ih]
    by_cases hs : s.sel = true
    · simp only [hs, if_true, add_div, add_smul]
      exact add_add_add_comm _ _ _ _
    · simp only [hs, if_false]; simp

theorem comb_congr (g : Slot 𝕜 E → 𝕜) (ss ss' : List (Slot 𝕜 E))
    (h : ss'.map (fun s => (s.key, g s)) = ss.map fun s => (s.key, g s)) : comb g ss' = comb g ss := by
  have : ∀ l : List (Slot 𝕜 E), comb g l = ((l.map fun s => (s.key, g s)).map
      fun x : (E × ℝ × Bool) × 𝕜 => if x.1.2.2 then (x.2 / (x.1.2.1 : 𝕜)) • x.1.1 else 0).sum := by
    intro l
    rw [List.map_map]
    rfl
  rw [this, this, h]

theorem mgsLoop_idem (indef : Bool) (ss : List (Slot 𝕜 E)) : ∀ w,
    (∀ s ∈ ss, s.sel = true → f s.v w = 0) → (mgsLoop f indef ss w).1 = w := by
  induction ss with
  | nil => intro w _; rfl
  | cons s ss ih =>
    intro w h
    rw [mgsLoop]
    by_cases hs : s.sel = true
    · rw [if_pos hs]
      have h0 := h s (List.mem_cons_self ..) hs
      simp only [h0, zero_div, ite_self, zero_smul, sub_zero]
      exact ih w fun t ht => h t (List.mem_cons_of_mem _ ht)
    · rw [if_neg hs]
      simp only
      exact ih w fun t ht => h t (List.mem_cons_of_mem _ ht)

theorem mgs1_ok (indef : Bool) (ss : List (Slot 𝕜 E)) (w : E) (ho : Ortho f ss)
    (hd : indef = false → ∀ s ∈ ss, s.om = 1) : PassOK f indef ss w (mgs1 f indef ss w) := by
  have hk := mgsLoop_key f indef ss w
  refine ⟨?_, mgsLoop_orth f indef ss w ho hd, ?_, rfl, rfl, fun h => mgsLoop_idem f indef ss w h⟩
  · simp only [mgs1, addCoeffs_key]
    have := congrArg (List.map Prod.fst) hk
    simpa [List.map_map, Function.comp_def] using this
  · simp only [mgs1, comb_add]
    rw [comb_congr Slot.h _ _ hk]
    conv_lhs => rw [mgsLoop_fact f indef ss w hd]
    abel

theorem cgs1_eq (indef : Bool) (ss : List (Slot 𝕜 E)) (w : E) (ho : Ortho f ss)
    (hd : indef = false → ∀ s ∈ ss, s.om = 1) (hsel : ∀ s ∈ ss, s.sel = true) :
    (cgs1 f indef ss w).w = (mgs1 f indef ss w).w ∧ (cgs1 f indef ss w).ss = (mgs1 f indef ss w).ss := by
  have hm := mgsLoop_eq_cgs f indef ss w ho hd hsel
  have e3 : (if indef = true then mulSign (if indef = true then divSign (cgsDots f ss w) else cgsDots f ss w)
      else (if indef = true then divSign (cgsDots f ss w) else cgsDots f ss w)) = cgsDots f ss w := by
    cases indef with
    | false => rfl
    | true =>
      simp only [if_true]
      unfold mulSign divSign cgsDots
      rw [List.map_map, List.map_map]
      refine List.map_congr_left fun t ht => ?_
      have : (t.om : 𝕜) ≠ 0 := by simpa using ho.om t ht
      simp [div_mul_cancel₀ _ this]
  constructor
  · simp only [cgs1, mgs1, hm, subComb]
    congr 1
    unfold comb
    cases indef with
    | false =>
      simp only [Bool.false_eq_true, if_false, cgsDots, List.map_map]
      congr 1
      refine List.map_congr_left fun t ht => ?_
      simp [hsel t ht, hd rfl t ht]
    | true =>
      simp only [if_true, divSign, cgsDots, List.map_map]
      congr 1
      refine List.map_congr_left fun t ht => ?_
      simp [hsel t ht]
  · simp only [cgs1, mgs1, e3, hm]

theorem cgs1_nrm (indef : Bool) (ss : List (Slot 𝕜 E)) (w : E) (ho : Ortho f ss)
    (hd : indef = false → ∀ s ∈ ss, s.om = 1) (hsel : ∀ s ∈ ss, s.sel = true)
    (hH : ∀ x y, f y x = (starRingEnd 𝕜) (f x y)) (hp : indef = false → ∀ x, 0 ≤ RCLike.re (f x x)) :
    (cgs1 f indef ss w).nrm = nrmOf f indef (cgs1 f indef ss w).w := by
  cases indef with
  | true => simp [cgs1, cgsNorm]
  | false =>
    have hm := mgsLoop_eq_cgs f false ss w ho hd hsel
    have hw := (cgs1_eq f false ss w ho hd hsel).1
    have hpy := squareSum_pythagoras f hH ss w ho (hd rfl) hsel
    have h0 := hp rfl w
    have h1 := hp rfl (mgsLoop f false ss w).1
    have e1 : nrmOf f false w * nrmOf f false w = RCLike.re (f w w) := by
      unfold nrmOf
      simp only [Bool.false_eq_true, if_false, not_lt.2 h0]
      exact Real.mul_self_sqrt h0
    have e2 : nrmOf f false w * nrmOf f false w - squareSum (cgsDots f ss w) =
        RCLike.re (f (mgsLoop f false ss w).1 (mgsLoop f false ss w).1) := by
      rw [e1, hpy]
      rw [show (mgsLoop f false ss w).2 = cgsDots f ss w by rw [hm]]
      ring
    rw [hw]
    simp only [cgs1, mgs1, cgsNorm, Bool.false_eq_true, if_false]
    have e3 : subComb (cgsDots f ss w) w = (mgsLoop f false ss w).1 := by
      have := hw
      simpa [cgs1, mgs1] using this
    rw [e2, e3]
    by_cases c : RCLike.re (f (mgsLoop f false ss w).1 (mgsLoop f false ss w).1) ≤ 0
    · rw [if_pos c]
    · rw [if_neg c]
      unfold nrmOf
      simp only [Bool.false_eq_true, if_false, not_lt.2 h1]

/-- General hypotheses on a call: orthogonal columns, and for the classical variant all of them. -/
structure Setup (indef mgs : Bool) (ss : List (Slot 𝕜 E)) : Prop where
  ortho : Ortho f ss
  def1 : indef = false → ∀ s ∈ ss, s.om = 1
  sel : mgs = false → ∀ s ∈ ss, s.sel = true
  herm : ∀ x y, f y x = (starRingEnd 𝕜) (f x y)
  pos : indef = false → ∀ x, 0 ≤ RCLike.re (f x x)

theorem gs1_ok (indef mgs : Bool) (ss : List (Slot 𝕜 E)) (w : E) (h : Setup f indef mgs ss) :
    PassOK f indef ss w (gs1 f indef mgs ss w) := by
  have hm := mgs1_ok f indef ss w h.ortho h.def1
  unfold gs1
  cases mgs with
  | true => rw [if_pos rfl]; exact hm
  | false =>
    simp only [Bool.false_eq_true, if_false]
    obtain ⟨e1, e2⟩ := cgs1_eq f indef ss w h.ortho h.def1 (h.sel rfl)
    refine ⟨by rw [e2]; exact hm.key, by rw [e1]; exact hm.orth, by rw [e1, e2]; exact hm.fact, rfl,
      cgs1_nrm f indef ss w h.ortho h.def1 (h.sel rfl) h.herm h.pos, by rw [e1]; exact hm.idem⟩

theorem forall_key {P : E × ℝ × Bool → Prop} (ss ss' : List (Slot 𝕜 E)) (hk : ss'.map Slot.key = ss.map Slot.key)
    (h : ∀ s ∈ ss, P s.key) : ∀ s ∈ ss', P s.key := by
  intro s hs
  have : s.key ∈ ss.map Slot.key := by rw [← hk]; exact List.mem_map_of_mem hs
  obtain ⟨t, ht, e⟩ := List.mem_map.1 this
  rw [← e]; exact h t ht

theorem Setup.of_key (indef mgs : Bool) (ss ss' : List (Slot 𝕜 E)) (hk : ss'.map Slot.key = ss.map Slot.key)
    (h : Setup f indef mgs ss) : Setup f indef mgs ss' := by
  refine ⟨⟨?_, ?_, ?_⟩, fun hi => ?_, fun hm => ?_, h.herm, h.pos⟩
  · have e : ∀ l : List (Slot 𝕜 E), l.Pairwise (fun a b => f a.v b.v = 0 ∧ f b.v a.v = 0) ↔
        (l.map Slot.key).Pairwise (fun a b => f a.1 b.1 = 0 ∧ f b.1 a.1 = 0) := fun l =>
      (List.pairwise_map (f := Slot.key) (R := fun a b => f a.1 b.1 = 0 ∧ f b.1 a.1 = 0)).symm
    exact (e ss').2 (hk ▸ (e ss).1 h.ortho.pw)
  · exact forall_key (P := fun x => f x.1 x.1 = (x.2.1 : 𝕜)) ss ss' hk h.ortho.self
  · exact forall_key (P := fun x => x.2.1 ≠ 0) ss ss' hk h.ortho.om
  · exact forall_key (P := fun x => x.2.1 = 1) ss ss' hk (h.def1 hi)
  · exact forall_key (P := fun x => x.2.2 = true) ss ss' hk (h.sel hm)

/-- What the whole procedure achieves. -/
structure GSOK (indef : Bool) (ss : List (Slot 𝕜 E)) (w : E) (w' : E) (ss' : List (Slot 𝕜 E)) (nrm : ℝ) : Prop where
  key : ss'.map Slot.key = ss.map Slot.key
  orth : ∀ s ∈ ss, s.sel = true → f s.v w' = 0
  fact : w + comb Slot.h ss = w' + comb Slot.h ss'
  nrm : nrm = nrmOf f indef w'

theorem PassOK.gs {f : E →ₗ⋆[𝕜] E →ₗ[𝕜] 𝕜} {indef : Bool} {ss : List (Slot 𝕜 E)} {w : E} {p : Pass 𝕜 E}
    (h : PassOK f indef ss w p) : GSOK f indef ss w p.w p.ss p.nrm := ⟨h.key, h.orth, h.fact, h.nrm⟩

/-- One more pass keeps what has been achieved, and does not change the vector. -/
theorem again (indef mgs : Bool) (ss : List (Slot 𝕜 E)) (w : E) (p : Pass 𝕜 E) (h : Setup f indef mgs ss)
    (hp : GSOK f indef ss w p.w p.ss p.nrm) :
    GSOK f indef ss w (gs1 f indef mgs p.ss p.w).w (gs1 f indef mgs p.ss p.w).ss (gs1 f indef mgs p.ss p.w).nrm ∧
    (gs1 f indef mgs p.ss p.w).w = p.w ∧ (gs1 f indef mgs p.ss p.w).onrm = p.nrm ∧
    (gs1 f indef mgs p.ss p.w).nrm = p.nrm := by
  have hs' := h.of_key f indef mgs ss p.ss hp.key
  have hq := gs1_ok f indef mgs p.ss p.w hs'
  have horth : ∀ s ∈ p.ss, s.sel = true → f s.v p.w = 0 := by
    have := forall_key (P := fun x => x.2.2 = true → f x.1 p.w = 0) ss p.ss hp.key hp.orth
    exact this
  have hw := hq.idem horth
  refine ⟨⟨hq.key.trans hp.key, fun s hs hsel => by rw [hw]; exact hp.orth s hs hsel, ?_, hq.nrm⟩, hw, ?_, ?_⟩
  · rw [hp.fact, hq.fact]
  · rw [hq.onrm, hp.nrm]
  · rw [hq.nrm, hw, hp.nrm]

theorem refineLoop_ok (indef mgs : Bool) (eta : ℝ) (he : eta ≤ 1) (ss : List (Slot 𝕜 E)) (w : E) (fuel : Nat) :
    ∀ p : Pass 𝕜 E, Setup f indef mgs ss → GSOK f indef ss w p.w p.ss p.nrm →
    let q := refineLoop f indef mgs eta (fuel + 1) p
    GSOK f indef ss w q.w q.ss q.nrm ∧ (q.nrm ≠ 0 → |q.nrm| ≥ eta * |q.onrm|) := by
  induction fuel with
  | zero =>
    intro p h hp
    simp only [refineLoop]
    by_cases c : p.nrm ≠ 0 ∧ |p.nrm| < eta * |p.onrm|
    · rw [if_pos c]
      obtain ⟨a1, a2, a3, a4⟩ := again f indef mgs ss w p h hp
      refine ⟨a1, fun _ => ?_⟩
      have : (if (mgs || indef) = true then p.nrm else (gs1 f indef mgs p.ss p.w).onrm) = p.nrm := by
        rw [a3]; simp
      simp only [this, a4]
      have := abs_nonneg p.nrm
      nlinarith
    · rw [if_neg c]
      refine ⟨hp, fun h0 => ?_⟩
      push Not at c
      exact c h0
  | succ fuel ih =>
    intro p h hp
    rw [refineLoop]
    by_cases c : p.nrm ≠ 0 ∧ |p.nrm| < eta * |p.onrm|
    · rw [if_pos c]
      obtain ⟨a1, a2, a3, a4⟩ := again f indef mgs ss w p h hp
      exact ih _ h a1
    · rw [if_neg c]
      refine ⟨hp, fun h0 => ?_⟩
      push Not at c
      exact c h0

theorem comb_clean (ss : List (Slot 𝕜 E)) : comb Slot.h (cleanCoeffs ss) = 0 := by
  unfold comb cleanCoeffs
  rw [List.map_map]
  apply List.sum_eq_zero
  intro x hx
  obtain ⟨s, _, rfl⟩ := List.mem_map.1 hx
  simp

theorem clean_key (ss : List (Slot 𝕜 E)) : (cleanCoeffs ss).map Slot.key = ss.map Slot.key := by
  simp [cleanCoeffs, Slot.key, List.map_map, Function.comp_def]

theorem gs_ok (indef mgs : Bool) (eta : ℝ) (he : eta ≤ 1) (ref : Refine) (ss : List (Slot 𝕜 E)) (w : E)
    (h : Setup f indef mgs ss) :
    let r := gs f indef mgs eta ref ss w
    r.ss.map Slot.key = ss.map Slot.key ∧ (∀ s ∈ ss, s.sel = true → f s.v r.w = 0) ∧
    w = r.w + comb Slot.h r.ss ∧ r.nrm = nrmOf f indef r.w ∧ (r.lindep = true ↔ indef = false ∧ r.nrm = 0) := by
  have h' : Setup f indef mgs (cleanCoeffs ss) := h.of_key f indef mgs ss _ (clean_key ss)
  have h1 := (gs1_ok f indef mgs (cleanCoeffs ss) w h').gs
  have fin : ∀ (w' : E) (ss' : List (Slot 𝕜 E)) (nrm : ℝ), GSOK f indef (cleanCoeffs ss) w w' ss' nrm →
      ss'.map Slot.key = ss.map Slot.key ∧ (∀ s ∈ ss, s.sel = true → f s.v w' = 0) ∧
      w = w' + comb Slot.h ss' ∧ nrm = nrmOf f indef w' := by
    intro w' ss' nrm hg
    refine ⟨hg.key.trans (clean_key ss), ?_, ?_, hg.nrm⟩
    · have := forall_key (P := fun x => x.2.2 = true → f x.1 w' = 0) (cleanCoeffs ss) ss (clean_key ss).symm hg.orth
      exact this
    · have := hg.fact
      rwa [comb_clean, add_zero] at this
  cases ref with
  | never =>
    simp only [gs]
    obtain ⟨a, b, c, d⟩ := fin _ _ _ h1
    refine ⟨a, b, c, trivial, ?_⟩
    cases indef <;> simp
  | ifneeded =>
    simp only [gs]
    obtain ⟨k1, k2⟩ := refineLoop_ok f indef mgs eta he (cleanCoeffs ss) w 1 _ h' h1
    obtain ⟨a, b, c, d⟩ := fin _ _ _ k1
    refine ⟨a, b, c, d, ?_⟩
    simp only [Bool.and_eq_true, Bool.not_eq_true', decide_eq_false_iff_not]
    refine and_congr_right fun _ => ⟨fun h => ?_, fun h h2 => h2.1 h⟩
    by_contra h0
    exact h ⟨h0, k2 h0⟩
  | always =>
    simp only [gs]
    obtain ⟨a1, a2, a3, a4⟩ := again f indef mgs (cleanCoeffs ss) w _ h' h1
    obtain ⟨a, b, c, d⟩ := fin _ _ _ a1
    refine ⟨a, b, c, d, ?_⟩
    simp only [Bool.and_eq_true, Bool.not_eq_true', decide_eq_false_iff_not]
    refine and_congr_right fun _ => ⟨fun h => ?_, fun h h2 => h2.1 h⟩
    by_contra h0
    refine h ⟨h0, ?_⟩
    rw [a3, a4]
    have := abs_nonneg (gs1 f indef mgs (cleanCoeffs ss) w).nrm
    nlinarith

end
end Verif.BV
