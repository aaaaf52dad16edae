import Verif.BV.OrthoLemmas
import Mathlib.Analysis.InnerProductSpace.Basic
import Mathlib.Analysis.InnerProductSpace.LinearMap
/-!
C31: Gram-Schmidt orthogonalization in exact arithmetic.
-/
set_option linter.all false
namespace Verif.BV
noncomputable section
variable {𝕜 : Type} [RCLike 𝕜]

/-! ### Definite inner products, stated in an inner product space -/

section Definite
variable {E : Type} [NormedAddCommGroup E] [InnerProductSpace 𝕜 E]

local notation "⟪" x ", " y "⟫" => inner 𝕜 x y

/-- The inner product as the form of the model. -/
abbrev ipForm (𝕜 E : Type) [RCLike 𝕜] [NormedAddCommGroup E] [InnerProductSpace 𝕜 E] : E →ₗ⋆[𝕜] E →ₗ[𝕜] 𝕜 :=
  innerₛₗ 𝕜

/-- A list of vectors that are orthonormal. -/
structure ONList (𝕜 : Type) [RCLike 𝕜] [InnerProductSpace 𝕜 E] (vs : List E) : Prop where
  unit : ∀ v ∈ vs, ‖v‖ = 1
  orth : vs.Pairwise fun a b => inner 𝕜 a b = 0

/-- The slots of the BV hold the vectors `vs`, with whatever is left in the coefficient arrays. -/
structure Holds (ss : List (Slot 𝕜 E)) (vs : List E) : Prop where
  v : ss.map Slot.v = vs
  om : ∀ s ∈ ss, s.om = 1
  sel : ∀ s ∈ ss, s.sel = true

/-- Linear combination of a list of vectors. -/
def lincomb (h : List 𝕜) (vs : List E) : E := (List.zipWith (fun a v => a • v) h vs).sum

theorem nrm_eq (w : E) : nrmOf (ipForm 𝕜 E) false w = ‖w‖ := by
  have h0 : (0 : ℝ) ≤ RCLike.re (inner 𝕜 w w) := inner_self_nonneg
  have hf : ipForm 𝕜 E w w = inner 𝕜 w w := rfl
  unfold nrmOf
  generalize ipForm 𝕜 E w w = z at *
  subst hf
  simp only [Bool.false_eq_true, if_false]
  rw [if_neg (not_lt.2 h0), ← norm_eq_sqrt_re_inner]

theorem Holds.setup {ss : List (Slot 𝕜 E)} {vs : List E} (hh : Holds ss vs) (ho : ONList 𝕜 vs) (mgs : Bool) :
    Setup (ipForm 𝕜 E) false mgs ss := by
  refine ⟨⟨?_, ?_, ?_⟩, fun _ => hh.om, fun _ => hh.sel, ?_, ?_⟩
  · have := ho.orth
    rw [← hh.v, List.pairwise_map] at this
    refine this.imp fun {a b} h => ⟨?_, ?_⟩
    · simpa using h
    · simpa using inner_eq_zero_symm.1 h
  · intro s hs
    have h1 : ‖s.v‖ = 1 := ho.unit s.v (by rw [← hh.v]; exact List.mem_map_of_mem hs)
    have := inner_self_eq_norm_sq_to_K (𝕜 := 𝕜) s.v
    simp only [ipForm, innerₛₗ_apply_apply, this, h1, hh.om s hs]
    norm_num
  · intro s hs
    rw [hh.om s hs]; exact one_ne_zero
  · intro x y
    simp only [ipForm, innerₛₗ_apply_apply]
    exact (inner_conj_symm y x).symm
  · intro _ x
    simp only [ipForm, innerₛₗ_apply_apply]
    exact inner_self_nonneg

theorem comb_lincomb (ss : List (Slot 𝕜 E)) (om : ∀ s ∈ ss, s.om = 1) (sel : ∀ s ∈ ss, s.sel = true) :
    comb Slot.h ss = lincomb (ss.map Slot.h) (ss.map Slot.v) := by
  unfold comb lincomb
  induction ss with
  | nil => rfl
  | cons s ss ih =>
    simp only [List.map_cons, List.sum_cons, List.zipWith_cons_cons]
    rw [ih (fun t ht => om t (List.mem_cons_of_mem _ ht)) (fun t ht => sel t (List.mem_cons_of_mem _ ht))]
    simp [om s (List.mem_cons_self ..), sel s (List.mem_cons_self ..)]

theorem Holds.of_key {ss ss' : List (Slot 𝕜 E)} {vs : List E} (hh : Holds ss vs)
    (hk : ss'.map Slot.key = ss.map Slot.key) : Holds ss' vs := by
  refine ⟨?_, ?_, ?_⟩
  · have := congrArg (List.map Prod.fst) hk
    rw [List.map_map, List.map_map] at this
    exact (this : ss'.map Slot.v = ss.map Slot.v).trans hh.v
  · exact forall_key (P := fun x => x.2.1 = 1) ss ss' hk hh.om
  · exact forall_key (P := fun x => x.2.2 = true) ss ss' hk hh.sel

theorem lincomb_mem (vs : List E) : ∀ h : List 𝕜, lincomb h vs ∈ Submodule.span 𝕜 {v | v ∈ vs} := by
  unfold lincomb
  induction vs with
  | nil => intro h; simp
  | cons v vs ih =>
    intro h
    cases h with
    | nil => simp
    | cons a h =>
      simp only [List.zipWith_cons_cons, List.sum_cons]
      refine Submodule.add_mem _ (Submodule.smul_mem _ _ (Submodule.subset_span (by simp))) ?_
      exact Submodule.span_mono (fun x hx => List.mem_cons_of_mem _ hx) (ih h)

/-- **C31, definite inner product.** For orthonormal previous columns (and constraints), every
refinement policy and both variants, the vector computed is orthogonal to all of them, the coefficients
and the vector add up to the original one, the norm reported is the norm, and linear dependence is
reported exactly when the vector lies in the span of the previous ones. -/
theorem C31_column (mgs : Bool) (eta : ℝ) (he : eta ≤ 1) (ref : Refine) (ss : List (Slot 𝕜 E)) (vs : List E)
    (hh : Holds ss vs) (ho : ONList 𝕜 vs) (w : E) :
    let r := gs (ipForm 𝕜 E) false mgs eta ref ss w
    Holds r.ss vs ∧ (∀ v ∈ vs, ⟪v, r.w⟫ = 0) ∧ w = lincomb (r.ss.map Slot.h) vs + r.w ∧ r.nrm = ‖r.w‖ ∧
    (r.lindep = true ↔ w ∈ Submodule.span 𝕜 {v | v ∈ vs}) := by
  obtain ⟨h1, h2, h3, h4, h5⟩ := gs_ok (ipForm 𝕜 E) false mgs eta he ref ss w (hh.setup ho mgs)
  have hr := hh.of_key h1
  simp only
  have hf : w = lincomb ((gs (ipForm 𝕜 E) false mgs eta ref ss w).ss.map Slot.h) vs +
      (gs (ipForm 𝕜 E) false mgs eta ref ss w).w := by
    rw [← hr.v, ← comb_lincomb _ hr.om hr.sel, add_comm]; exact h3
  have horth : ∀ v ∈ vs, ⟪v, (gs (ipForm 𝕜 E) false mgs eta ref ss w).w⟫ = 0 := by
    intro v hv
    rw [← hh.v] at hv
    obtain ⟨s, hs, rfl⟩ := List.mem_map.1 hv
    have := h2 s hs (hh.sel s hs)
    simpa using this
  refine ⟨hr, horth, hf, by rw [h4, nrm_eq], ?_⟩
  rw [h5, h4, nrm_eq, norm_eq_zero]
  simp only [true_and]
  generalize hg : gs (ipForm 𝕜 E) false mgs eta ref ss w = r at *
  constructor
  · intro h0
    rw [hf, h0, add_zero]
    exact lincomb_mem vs _
  · intro hw
    have hmem : r.w ∈ Submodule.span 𝕜 {v | v ∈ vs} := by
      have : r.w = w - lincomb (r.ss.map Slot.h) vs := by
        conv_rhs => rw [hf]
        simp
      rw [this]
      exact Submodule.sub_mem _ hw (lincomb_mem vs _)
    have hz : ∀ x ∈ Submodule.span 𝕜 {v | v ∈ vs}, ⟪x, r.w⟫ = 0 := by
      intro x hx
      refine Submodule.span_induction (p := fun x _ => ⟪x, r.w⟫ = 0) ?_ ?_ ?_ ?_ hx
      · intro v hv; exact horth v hv
      · simp
      · intro a b _ _ ha hb; rw [inner_add_left, ha, hb, add_zero]
      · intro a b _ hb; rw [inner_smul_left, hb, mul_zero]
    exact inner_self_eq_zero.1 (hz _ hmem)

/-- **C31, normalization.** `BVOrthonormalizeColumn` of a vector outside the span of the previous columns
extends the orthonormal family. -/
theorem C31_orthonormalize (mgs : Bool) (eta : ℝ) (he : eta ≤ 1) (ref : Refine) (ss : List (Slot 𝕜 E))
    (vs : List E) (hh : Holds ss vs) (ho : ONList 𝕜 vs) (w : E) (hw : w ∉ Submodule.span 𝕜 {v | v ∈ vs}) :
    let q := orthonormalize (ipForm 𝕜 E) false mgs eta ref ss w
    ONList 𝕜 (vs ++ [q.1]) ∧ w = lincomb (q.2.ss.map Slot.h) vs + ((q.2.nrm : ℝ) : 𝕜) • q.1 := by
  obtain ⟨h1, h2, h3, h4, h5⟩ := C31_column mgs eta he ref ss vs hh ho w
  simp only [orthonormalize]
  generalize hg : gs (ipForm 𝕜 E) false mgs eta ref ss w = r at *
  have hne : r.w ≠ 0 := by
    intro h0
    rw [h0, add_zero] at h3
    exact hw (h3 ▸ lincomb_mem vs _)
  have hn : r.nrm ≠ 0 := by rw [h4]; simpa using hne
  have hscale : (if r.nrm ≠ 1 ∧ r.nrm ≠ 0 then ((1 / r.nrm : ℝ) : 𝕜) • r.w else r.w) =
      ((1 / r.nrm : ℝ) : 𝕜) • r.w := by
    by_cases c : r.nrm = 1
    · simp [c]
    · rw [if_pos ⟨c, hn⟩]
  rw [hscale]
  refine ⟨⟨?_, ?_⟩, ?_⟩
  · intro v hv
    rcases List.mem_append.1 hv with hv | hv
    · exact ho.unit v hv
    · obtain rfl := List.mem_singleton.1 hv
      rw [norm_smul, RCLike.norm_ofReal, h4, abs_of_nonneg (by positivity), one_div,
        inv_mul_cancel₀ (by simpa using hne)]
  · rw [List.pairwise_append]
    refine ⟨ho.orth, by simp, ?_⟩
    intro a ha b hb
    obtain rfl := List.mem_singleton.1 hb
    rw [inner_smul_right, h2 a ha, mul_zero]
  · rw [smul_smul, ← RCLike.ofReal_mul, mul_one_div_cancel hn, RCLike.ofReal_one, one_smul]
    exact h3

/-! ### BVOrthogonalize, column by column -/

theorem lincomb_append (h : List 𝕜) (a : 𝕜) (vs : List E) (v : E) (hl : h.length = vs.length) :
    lincomb (h ++ [a]) (vs ++ [v]) = lincomb h vs + a • v := by
  unfold lincomb
  rw [List.zipWith_append hl]
  simp

theorem lincomb_prefix (h : List 𝕜) (vs us : List E) (hl : h.length = vs.length) :
    lincomb h (vs ++ us) = lincomb h vs := by
  unfold lincomb
  have : List.zipWith (fun (a : 𝕜) (v : E) => a • v) h (vs ++ us) =
      List.zipWith (fun a v => a • v) h vs := by
    conv_lhs => rw [← List.append_nil h]
    rw [List.zipWith_append hl]
    simp
  rw [this]

theorem orthogonalizeGS_ok (mgs : Bool) (eta : ℝ) (he : eta ≤ 1) (ref : Refine) (X : List E) :
    ∀ (done : List (Slot 𝕜 E)) (vs : List E) (res : List (Slot 𝕜 E)) (R : List (List 𝕜)), Holds done vs → ONList 𝕜 vs →
      orthogonalizeGS (ipForm 𝕜 E) false mgs eta ref done X = some (res, R) →
      ∃ us, Holds res (vs ++ us) ∧ ONList 𝕜 (vs ++ us) ∧ us.length = X.length ∧ R.length = X.length ∧
        ∀ j (hj : j < X.length), ∃ r, R[j]? = some r ∧ r.length = vs.length + j + 1 ∧ X[j] = lincomb r (vs ++ us) := by
  induction X with
  | nil =>
    intro done vs res R hh ho h
    simp only [orthogonalizeGS, Option.some.injEq, Prod.mk.injEq] at h
    obtain ⟨rfl, rfl⟩ := h
    exact ⟨[], by simpa using hh, by simpa using ho, rfl, rfl, fun j hj => by simp at hj⟩
  | cons x X ih =>
    intro done vs res R hh ho h
    obtain ⟨h1, h2, h3, h4, h5⟩ := C31_column mgs eta he ref done vs hh ho x
    simp only [orthogonalizeGS] at h
    generalize hg : gs (ipForm 𝕜 E) false mgs eta ref done x = r at *
    by_cases hn : r.nrm = 0
    · rw [if_pos hn] at h; simp at h
    rw [if_neg hn] at h
    obtain ⟨⟨res', R'⟩, h6, h7⟩ := Option.map_eq_some_iff.1 h
    simp only [Prod.mk.injEq] at h7
    obtain ⟨rfl, rfl⟩ := h7
    have hne : r.w ≠ 0 := by
      intro h0; rw [h4, h0, norm_zero] at hn; exact hn rfl
    have hh' : Holds (r.ss ++ [mkSlot (((1 / r.nrm : ℝ) : 𝕜) • r.w) (newSign false r.nrm)])
        (vs ++ [((1 / r.nrm : ℝ) : 𝕜) • r.w]) := by
      refine ⟨by rw [List.map_append, h1.v]; rfl, ?_, ?_⟩
      · intro s hs
        rcases List.mem_append.1 hs with hs | hs
        · exact h1.om s hs
        · obtain rfl := List.mem_singleton.1 hs; simp [mkSlot, newSign]
      · intro s hs
        rcases List.mem_append.1 hs with hs | hs
        · exact h1.sel s hs
        · obtain rfl := List.mem_singleton.1 hs; simp [mkSlot]
    have ho' : ONList 𝕜 (vs ++ [((1 / r.nrm : ℝ) : 𝕜) • r.w]) := by
      refine ⟨?_, ?_⟩
      · intro v hv
        rcases List.mem_append.1 hv with hv | hv
        · exact ho.unit v hv
        · obtain rfl := List.mem_singleton.1 hv
          rw [norm_smul, RCLike.norm_ofReal, h4, abs_of_nonneg (by positivity), one_div,
            inv_mul_cancel₀ (by simpa using hne)]
      · rw [List.pairwise_append]
        refine ⟨ho.orth, by simp, ?_⟩
        intro a ha b hb
        obtain rfl := List.mem_singleton.1 hb
        rw [inner_smul_right, h2 a ha, mul_zero]
    obtain ⟨us, k1, k2, k3, k4, k5⟩ := ih _ _ _ _ hh' ho' h6
    refine ⟨((1 / r.nrm : ℝ) : 𝕜) • r.w :: us, ?_, ?_, by simp [k3], by simp [k4], ?_⟩
    · simpa [List.append_assoc] using k1
    · simpa [List.append_assoc] using k2
    · intro j hj
      have hlen : (r.ss.map Slot.h).length = vs.length := by
        rw [List.length_map, ← h1.v, List.length_map]
      cases j with
      | zero =>
        refine ⟨_, rfl, by simp [hlen], ?_⟩
        simp only [List.getElem_cons_zero]
        rw [show vs ++ ((1 / r.nrm : ℝ) : 𝕜) • r.w :: us = (vs ++ [((1 / r.nrm : ℝ) : 𝕜) • r.w]) ++ us by simp,
          lincomb_prefix _ _ _ (by simp only [List.length_append, List.length_singleton, hlen]), lincomb_append _ _ _ _ hlen, smul_smul, ← RCLike.ofReal_mul,
          mul_one_div_cancel hn, RCLike.ofReal_one, one_smul]
        exact h3
      | succ j =>
        obtain ⟨q, e1, e2, e3⟩ := k5 j (by simpa using hj)
        refine ⟨q, by simpa using e1, by rw [e2]; simp only [List.length_append, List.length_singleton]; omega, ?_⟩
        simp only [List.getElem_cons_succ]
        rw [e3]
        congr 1
        simp

/-- **C31, QR factorization.** When `BVOrthogonalize` with the column-by-column method succeeds, the
leading columns are unchanged, all columns are orthonormal, and every original column is the combination
of the new ones with the coefficients in the corresponding column of `R`, which is upper triangular. -/
theorem C31_block (mgs : Bool) (eta : ℝ) (he : eta ≤ 1) (ref : Refine) (done : List (Slot 𝕜 E)) (lead X : List E)
    (res : List (Slot 𝕜 E)) (R : List (List 𝕜)) (hh : Holds done lead) (ho : ONList 𝕜 lead)
    (h : orthogonalizeGS (ipForm 𝕜 E) false mgs eta ref done X = some (res, R)) :
    ∃ Q, res.map Slot.v = lead ++ Q ∧ Q.length = X.length ∧ ONList 𝕜 (lead ++ Q) ∧ R.length = X.length ∧
      ∀ j (hj : j < X.length), ∃ r, R[j]? = some r ∧ r.length = lead.length + j + 1 ∧
        X[j] = lincomb r (lead ++ Q) := by
  obtain ⟨us, k1, k2, k3, k4, k5⟩ := orthogonalizeGS_ok mgs eta he ref X done lead res R hh ho h
  exact ⟨us, k1.v, k3, k2, k4, k5⟩

/-- **C31, breakdown.** `BVOrthogonalize` reports a breakdown only if the columns are linearly dependent
on the previous ones. -/
theorem C31_breakdown (mgs : Bool) (eta : ℝ) (he : eta ≤ 1) (ref : Refine) (X : List E) :
    ∀ (done : List (Slot 𝕜 E)) (lead : List E), Holds done lead → ONList 𝕜 lead →
    orthogonalizeGS (ipForm 𝕜 E) false mgs eta ref done X = none →
    ∃ j, ∃ hj : j < X.length, X[j] ∈ Submodule.span 𝕜 ({v | v ∈ lead} ∪ {v | v ∈ X.take j}) := by
  induction X with
  | nil => intro done lead _ _ h; simp [orthogonalizeGS] at h
  | cons x X ih =>
    intro done lead hh ho h
    obtain ⟨h1, h2, h3, h4, h5⟩ := C31_column mgs eta he ref done lead hh ho x
    simp only [orthogonalizeGS] at h
    generalize hg : gs (ipForm 𝕜 E) false mgs eta ref done x = r at *
    by_cases hn : r.nrm = 0
    · refine ⟨0, by simp, ?_⟩
      have h0 : r.w = 0 := by rw [hn] at h4; simpa using h4.symm
      simp only [List.getElem_cons_zero]
      rw [h3, h0, add_zero]
      exact Submodule.span_mono Set.subset_union_left (lincomb_mem lead _)
    rw [if_neg hn] at h
    have h6 := Option.map_eq_none_iff.1 h
    have hne : r.w ≠ 0 := by
      intro h0; rw [h4, h0, norm_zero] at hn; exact hn rfl
    have hh' : Holds (r.ss ++ [mkSlot (((1 / r.nrm : ℝ) : 𝕜) • r.w) (newSign false r.nrm)])
        (lead ++ [((1 / r.nrm : ℝ) : 𝕜) • r.w]) := by
      refine ⟨by rw [List.map_append, h1.v]; rfl, ?_, ?_⟩
      · intro s hs
        rcases List.mem_append.1 hs with hs | hs
        · exact h1.om s hs
        · obtain rfl := List.mem_singleton.1 hs; simp [mkSlot, newSign]
      · intro s hs
        rcases List.mem_append.1 hs with hs | hs
        · exact h1.sel s hs
        · obtain rfl := List.mem_singleton.1 hs; simp [mkSlot]
    have ho' : ONList 𝕜 (lead ++ [((1 / r.nrm : ℝ) : 𝕜) • r.w]) := by
      refine ⟨?_, ?_⟩
      · intro v hv
        rcases List.mem_append.1 hv with hv | hv
        · exact ho.unit v hv
        · obtain rfl := List.mem_singleton.1 hv
          rw [norm_smul, RCLike.norm_ofReal, h4, abs_of_nonneg (by positivity), one_div,
            inv_mul_cancel₀ (by simpa using hne)]
      · rw [List.pairwise_append]
        refine ⟨ho.orth, by simp, ?_⟩
        intro a ha b hb
        obtain rfl := List.mem_singleton.1 hb
        rw [inner_smul_right, h2 a ha, mul_zero]
    obtain ⟨j, hj, hm⟩ := ih _ _ hh' ho' h6
    refine ⟨j + 1, by simpa using hj, ?_⟩
    simp only [List.getElem_cons_succ, List.take_succ_cons]
    refine (Submodule.span_le.2 ?_) hm
    intro v hv
    have hlead : ∀ u ∈ Submodule.span 𝕜 {v | v ∈ lead},
        u ∈ Submodule.span 𝕜 ({v | v ∈ lead} ∪ {v | v ∈ x :: X.take j}) := fun u hu =>
      Submodule.span_mono Set.subset_union_left hu
    have hx : x ∈ Submodule.span 𝕜 ({v | v ∈ lead} ∪ {v | v ∈ x :: X.take j}) :=
      Submodule.subset_span (Or.inr (by simp))
    rcases hv with hv | hv
    · rcases List.mem_append.1 (show v ∈ lead ++ _ from hv) with hv | hv
      · exact Submodule.subset_span (Or.inl hv)
      · obtain rfl := List.mem_singleton.1 hv
        refine Submodule.smul_mem _ _ ?_
        have : r.w = x - lincomb (r.ss.map Slot.h) lead := by
          conv_rhs => rw [h3]
          simp
        rw [this]
        exact Submodule.sub_mem _ hx (hlead _ (lincomb_mem lead _))
    · exact Submodule.subset_span (Or.inr (List.mem_cons_of_mem _ hv))

/-- Non-vacuity: one previous column. -/
example : Holds [mkSlot (𝕜 := ℝ) (1 : ℝ) 1] [(1 : ℝ)] ∧ ONList ℝ [(1 : ℝ)] :=
  ⟨⟨rfl, by simp [mkSlot], by simp [mkSlot]⟩, ⟨by simp, by simp⟩⟩

end Definite

/-! ### Indefinite inner products -/

section Indefinite
variable {E : Type} [AddCommGroup E] [Module 𝕜 E]

/-- **C31, general Hermitian form.** For columns that are orthogonal with respect to a Hermitian form,
with squares `±1`, the vector computed is orthogonal to all selected ones, and it differs from the original
one by the combination of the selected columns with the coefficients divided by the signs. -/
theorem C31_indefinite (f : E →ₗ⋆[𝕜] E →ₗ[𝕜] 𝕜) (hH : ∀ x y, f y x = (starRingEnd 𝕜) (f x y)) (mgs : Bool)
    (eta : ℝ) (he : eta ≤ 1) (ref : Refine) (ss : List (Slot 𝕜 E))
    (hpw : ss.Pairwise fun a b => f a.v b.v = 0) (hself : ∀ s ∈ ss, f s.v s.v = (s.om : 𝕜))
    (hom : ∀ s ∈ ss, s.om = 1 ∨ s.om = -1) (hsel : mgs = false → ∀ s ∈ ss, s.sel = true) (w : E) :
    let r := gs f true mgs eta ref ss w
    r.ss.map (fun s => (s.v, s.om, s.sel)) = ss.map (fun s => (s.v, s.om, s.sel)) ∧
    (∀ s ∈ ss, s.sel = true → f s.v r.w = 0) ∧
    w = r.w + (r.ss.map fun s => if s.sel then (s.h / (s.om : 𝕜)) • s.v else 0).sum ∧
    r.nrm * |r.nrm| = RCLike.re (f r.w r.w) := by
  have hs : Setup f true mgs ss := by
    refine ⟨⟨?_, hself, ?_⟩, fun h => by simp at h, hsel, hH, fun h => by simp at h⟩
    · refine hpw.imp fun {a b} h => ⟨h, ?_⟩
      rw [hH, h, map_zero]
    · intro s hs
      rcases hom s hs with h | h <;> rw [h] <;> norm_num
  obtain ⟨h1, h2, h3, h4, h5⟩ := gs_ok f true mgs eta he ref ss w hs
  refine ⟨h1, h2, h3, ?_⟩
  rw [h4]
  unfold nrmOf
  simp only [if_true]
  generalize RCLike.re (f (gs f true mgs eta ref ss w).w (gs f true mgs eta ref ss w).w) = x
  by_cases c : x < 0
  · rw [if_pos c, abs_neg, abs_of_nonneg (Real.sqrt_nonneg _), neg_mul, Real.mul_self_sqrt (by linarith), neg_neg]
  · rw [if_neg c, abs_of_nonneg (Real.sqrt_nonneg _), Real.mul_self_sqrt (by linarith)]

/-- **C31, sign of the new column.** If its norm is not zero, the normalized vector has square 1 or -1, the
sign stored for the column. -/
theorem C31_sign (f : E →ₗ⋆[𝕜] E →ₗ[𝕜] 𝕜) (hH : ∀ x y, f y x = (starRingEnd 𝕜) (f x y)) (mgs : Bool)
    (eta : ℝ) (he : eta ≤ 1) (ref : Refine) (ss : List (Slot 𝕜 E))
    (hpw : ss.Pairwise fun a b => f a.v b.v = 0) (hself : ∀ s ∈ ss, f s.v s.v = (s.om : 𝕜))
    (hom : ∀ s ∈ ss, s.om = 1 ∨ s.om = -1) (hsel : mgs = false → ∀ s ∈ ss, s.sel = true) (w : E) :
    let q := orthonormalize f true mgs eta ref ss w
    q.2.nrm ≠ 0 → f q.1 q.1 = (newSign true q.2.nrm : 𝕜) := by
  obtain ⟨_, _, _, h4⟩ := C31_indefinite f hH mgs eta he ref ss hpw hself hom hsel w
  simp only [orthonormalize]
  generalize gs f true mgs eta ref ss w = r at *
  intro hn
  have hscale : (if r.nrm ≠ 1 ∧ r.nrm ≠ 0 then ((1 / r.nrm : ℝ) : 𝕜) • r.w else r.w) =
      ((1 / r.nrm : ℝ) : 𝕜) • r.w := by
    by_cases c : r.nrm = 1
    · simp [c]
    · rw [if_pos ⟨c, hn⟩]
  have hre : f r.w r.w = ((r.nrm * |r.nrm| : ℝ) : 𝕜) := by
    rw [h4]
    exact (RCLike.conj_eq_iff_re.1 (hH r.w r.w).symm).symm
  rw [hscale]
  simp only [map_smulₛₗ, LinearMap.smul_apply, map_smul, hre, smul_eq_mul, RCLike.conj_ofReal, RingHom.id_apply]
  rw [← RCLike.ofReal_mul, ← RCLike.ofReal_mul]
  congr 1
  unfold newSign
  simp only [if_true]
  by_cases c : r.nrm < 0
  · rw [if_pos c, abs_of_neg c]; field_simp
  · rw [if_neg c, abs_of_nonneg (by linarith)]; field_simp

/-! ### Where the code falls short -/

/-- **C31, array H.** The coefficients that `BVOrthogonalizeColumn` stores in the user's array for column
`j` of a BV with `nc` constraints and `l` leading columns: entry `i-l` is the coefficient of column `i`,
and nothing else is stored. -/
theorem C31_H_entries (nc l j : Nat) (r : GSOut 𝕜 E) (hr : r.ss.length = nc + j) (p : Nat) (x : 𝕜) :
    (p, x) ∈ storeH l j (bufferColumn nc r) ↔
      ∃ i s, l ≤ i ∧ i < j ∧ p = i - l ∧ r.ss[nc + i]? = some s ∧ x = s.h := by
  have hb : ∀ i, i < j → (bufferColumn nc r)[i]? = (r.ss[nc + i]?).map Slot.h := by
    intro i hi
    unfold bufferColumn
    rw [List.getElem?_append_left (by simp; omega), List.getElem?_map, List.getElem?_drop]
  unfold storeH
  rw [List.mem_filterMap]
  constructor
  · rintro ⟨i, hi, he⟩
    rw [List.mem_range'_1] at hi
    rw [hb i (by omega)] at he
    obtain ⟨y, hy, e⟩ := Option.map_eq_some_iff.1 he
    obtain ⟨s, hs, rfl⟩ := Option.map_eq_some_iff.1 hy
    simp only [Prod.mk.injEq] at e
    exact ⟨i, s, by omega, by omega, e.1.symm, hs, e.2.symm⟩
  · rintro ⟨i, s, h1, h2, rfl, hs, rfl⟩
    refine ⟨i, by rw [List.mem_range'_1]; omega, ?_⟩
    rw [hb i h2, hs]
    rfl

/-- The norm is kept in the internal buffer, after the coefficients. -/
theorem C31_buffer_norm (nc j : Nat) (r : GSOut 𝕜 E) (hr : r.ss.length = nc + j) (hl : r.lindep = false) :
    (bufferColumn nc r)[j]? = some (r.nrm : 𝕜) := by
  unfold bufferColumn
  rw [List.getElem?_append_right (by simp; omega)]
  simp [hr, hl]

/-- **C31, norm in H.** Contrary to the documentation, the entry `j-l` of the user's array, which should
contain the norm, is never written. -/
theorem C31_H_norm_false (l j : Nat) (buf : List 𝕜) (x : 𝕜) : (j - l, x) ∉ storeH l j buf := by
  intro h
  unfold storeH at h
  obtain ⟨i, hi, he⟩ := List.mem_filterMap.1 h
  obtain ⟨y, hy, e⟩ := Option.map_eq_some_iff.1 he
  rw [List.mem_range'_1] at hi
  simp only [Prod.mk.injEq] at e
  omega

/-- **C31 fails for `BVOrthogonalizeSomeColumn`**: the coefficient reported for a column that is not
selected is the one left over from an earlier orthogonalization, so vector and coefficients do not
add up to the original vector. -/
theorem C31_some_false : ∃ (s : Slot ℝ ℝ), 
    let r1 := gs (ipForm ℝ ℝ) false true 0.5 .never [s] 5
    let r2 := gs (ipForm ℝ ℝ) false true 0.5 .never (r1.ss.map fun t => { t with sel := false }) 7
    Holds [s] [(1 : ℝ)] ∧ r2.w = 7 ∧ r2.ss.map Slot.h = [5] := by
  refine ⟨mkSlot 1 1, ⟨rfl, by simp [mkSlot], by simp [mkSlot]⟩, ?_, ?_⟩
  · simp [gs, gs1, mgs1, mgsLoop, cleanCoeffs, addCoeffs, mkSlot]
  · simp [gs, gs1, mgs1, mgsLoop, cleanCoeffs, addCoeffs, mkSlot]

/-- The form `x₁y₁ - x₂y₂` on the plane. -/
def minkowski : (ℝ × ℝ) →ₗ⋆[ℝ] (ℝ × ℝ) →ₗ[ℝ] ℝ :=
  LinearMap.mk₂'ₛₗ (starRingEnd ℝ) (RingHom.id ℝ) (fun x y => x.1 * y.1 - x.2 * y.2)
    (fun a b c => by simp; ring) (fun a b c => by simp; ring) (fun a b c => by simp; ring)
    (fun a b c => by simp; ring)

/-- **C31 fails for `BVOrthogonalize` with an indefinite inner product**: the coefficients stored in `R` are
not divided by the signs, and the original columns are not the combinations given by `R`. -/
theorem C31_block_indefinite_false : ∃ res R,
    orthogonalizeGS minkowski true true 0.5 .never [] [((0 : ℝ), (1 : ℝ)), (1, 1)] = some (res, R) ∧
    ∃ r, R[1]? = some r ∧ ((1 : ℝ), (1 : ℝ)) ≠ (List.zipWith (fun (a : ℝ) (v : ℝ × ℝ) => a • v) r (res.map Slot.v)).sum := by
  have e1 : gs minkowski true true 0.5 .never [] ((0 : ℝ), (1 : ℝ)) = ⟨(0, 1), [], -1, false⟩ := by
    simp [gs, gs1, mgs1, mgsLoop, cleanCoeffs, addCoeffs, nrmOf, minkowski]
  have e2 : gs minkowski true true 0.5 .never [mkSlot ((0 : ℝ), (-1 : ℝ)) (-1)] ((1 : ℝ), (1 : ℝ)) =
      ⟨(1, 0), [⟨(0, -1), -1, true, 1, 1⟩], 1, false⟩ := by
    simp [gs, gs1, mgs1, mgsLoop, cleanCoeffs, addCoeffs, nrmOf, minkowski, mkSlot]
  refine ⟨[⟨(0, -1), -1, true, 1, 1⟩, mkSlot (1, 0) 1], [[-1], [1, 1]], ?_, [1, 1], rfl, ?_⟩
  · rw [orthogonalizeGS, e1]
    simp only
    rw [if_neg (by norm_num)]
    have e3 : ([] : List (Slot ℝ (ℝ × ℝ))) ++ [mkSlot (((1 / (-1) : ℝ) : ℝ) • ((0 : ℝ), (1 : ℝ))) (newSign true (-1))] =
        [mkSlot ((0 : ℝ), (-1 : ℝ)) (-1)] := by
      simp [newSign, mkSlot]
    rw [show ((1 / (-1) : ℝ) : ℝ) = RCLike.ofReal (K := ℝ) (1 / (-1)) from rfl] at e3
    rw [e3, orthogonalizeGS, e2]
    simp only
    rw [if_neg (by norm_num)]
    simp [orthogonalizeGS, newSign, mkSlot]
  · simp [mkSlot]
    norm_num

end Indefinite

end
end Verif.BV
