import Verif.BV.KrylovModel
import Verif.BV.OrthoTheorems
import Mathlib.Analysis.InnerProductSpace.PiL2
import Mathlib.Analysis.InnerProductSpace.Orthonormal
import Mathlib.Analysis.InnerProductSpace.Symmetric
/-!
Lemmas on the Arnoldi loop.
-/
set_option linter.all false
namespace Verif.BV
noncomputable section
variable {𝕜 : Type} [RCLike 𝕜] {E : Type} [NormedAddCommGroup E] [InnerProductSpace 𝕜 E]

/-- The first `n` vectors of a sequence, as a list. -/
def cols (V : Nat → E) (n : Nat) : List E := (List.range n).map V

theorem cols_succ (V : Nat → E) (n : Nat) : cols V (n + 1) = cols V n ++ [V n] := by
  simp [cols, List.range_succ]

theorem cols_congr (V W : Nat → E) (n : Nat) (h : ∀ i, i < n → W i = V i) : cols W n = cols V n := by
  unfold cols
  exact List.map_congr_left fun i hi => h i (List.mem_range.1 hi)

theorem lincomb_cols (V : Nat → E) : ∀ (n : Nat) (h : List 𝕜), h.length = n →
    lincomb h (cols V n) = ∑ i ∈ Finset.range n, h.getD i 0 • V i := by
  intro n
  induction n with
  | zero => intro h _; simp [lincomb, cols]
  | succ n ih =>
    intro h hl
    obtain ⟨h', a, rfl⟩ : ∃ h' a, h = h' ++ [a] := by
      rcases List.eq_nil_or_concat h with rfl | ⟨h', a, e⟩
      · simp at hl
      · exact ⟨h', a, by simpa using e⟩
    have hl' : h'.length = n := by simpa using hl
    rw [cols_succ, lincomb_append _ _ _ _ (by simp [cols, hl']), ih h' hl', Finset.sum_range_succ]
    congr 1
    · refine Finset.sum_congr rfl fun i hi => ?_
      have : i < h'.length := by rw [hl']; exact Finset.mem_range.1 hi
      simp [List.getD, List.getElem?_append_left this]
    · simp [List.getD, ← hl']

theorem lincomb_app (a b : List 𝕜) (us vs : List E) (hl : a.length = us.length) :
    lincomb (a ++ b) (us ++ vs) = lincomb a us + lincomb b vs := by
  unfold lincomb
  rw [List.zipWith_append hl, List.sum_append]

theorem lincomb_split (cs : List E) (V : Nat → E) (n : Nat) (h : List 𝕜) (hl : h.length = cs.length + n) :
    ∃ c ∈ Submodule.span 𝕜 {v | v ∈ cs},
      lincomb h (cs ++ cols V n) = c + ∑ i ∈ Finset.range n, (h.drop cs.length).getD i 0 • V i := by
  refine ⟨lincomb (h.take cs.length) cs, lincomb_mem _ _, ?_⟩
  conv_lhs => rw [← List.take_append_drop cs.length h]
  rw [lincomb_app _ _ _ _ (by simp [hl]), lincomb_cols V n _ (by simp [hl])]

theorem Holds.length {ss : List (Slot 𝕜 E)} {vs : List E} (h : Holds ss vs) : ss.length = vs.length := by
  rw [← h.v, List.length_map]

theorem Holds.snoc {ss : List (Slot 𝕜 E)} {vs : List E} (h : Holds ss vs) (v : E) :
    Holds (ss ++ [mkSlot v 1]) (vs ++ [v]) := by
  refine ⟨by rw [List.map_append, h.v]; rfl, ?_, ?_⟩
  · intro s hs
    rcases List.mem_append.1 hs with hs | hs
    · exact h.om s hs
    · obtain rfl := List.mem_singleton.1 hs; rfl
  · intro s hs
    rcases List.mem_append.1 hs with hs | hs
    · exact h.sel s hs
    · obtain rfl := List.mem_singleton.1 hs; rfl

theorem lastCol_holds {ss : List (Slot 𝕜 E)} {vs : List E} {v : E} (h : Holds ss (vs ++ [v])) : lastCol ss = v := by
  have hv := h.v
  unfold lastCol
  rcases List.eq_nil_or_concat ss with rfl | ⟨ss', s, rfl⟩
  · simp at hv
  · simp only [List.concat_eq_append, List.map_append, List.map_cons, List.map_nil] at hv
    have := (List.append_inj' hv rfl).2
    simp only [List.cons.injEq, and_true] at this
    simp [this]

/-- An orthonormal list is no longer than the dimension, and spans the space when it is as long. -/
theorem ONList.orthonormal {vs : List E} (h : ONList 𝕜 vs) : Orthonormal 𝕜 (fun i : Fin vs.length => vs[i]) := by
  refine ⟨fun i => h.unit _ (List.getElem_mem _), ?_⟩
  intro i j hij
  have hp := List.pairwise_iff_getElem.1 h.orth
  rcases lt_or_gt_of_ne (fun e => hij (Fin.ext e) : (i : Nat) ≠ j) with hlt | hgt
  · exact hp i j i.2 j.2 hlt
  · exact inner_eq_zero_symm.1 (hp j i j.2 i.2 hgt)

theorem ONList.length_le [FiniteDimensional 𝕜 E] {vs : List E} (h : ONList 𝕜 vs) :
    vs.length ≤ Module.finrank 𝕜 E := by
  have := h.orthonormal.linearIndependent.fintype_card_le_finrank
  simpa using this

theorem ONList.span_eq_top [FiniteDimensional 𝕜 E] {vs : List E} (h : ONList 𝕜 vs)
    (hl : vs.length = Module.finrank 𝕜 E) : Submodule.span 𝕜 {v | v ∈ vs} = ⊤ := by
  have hs := h.orthonormal.linearIndependent.span_eq_top_of_card_eq_finrank' (by simp [hl])
  rw [← hs]
  congr 1
  ext v
  simp only [Set.mem_setOf_eq, Set.mem_range]
  constructor
  · intro hv
    obtain ⟨i, hi, e⟩ := List.getElem_of_mem hv
    exact ⟨⟨i, hi⟩, e⟩
  · rintro ⟨i, e⟩
    rw [← e]; exact List.getElem_mem _

theorem ONList.sublist {us vs : List E} (h : ONList 𝕜 vs) (hs : us.Sublist vs) : ONList 𝕜 us :=
  ⟨fun v hv => h.unit v (hs.subset hv), h.orth.sublist hs⟩

/-- Orthonormalization of a vector in the span: it becomes zero. -/
theorem orthonormalize_dep (o : OrthOpts) (he : o.eta ≤ 1) (ss : List (Slot 𝕜 E)) (vs : List E) (hh : Holds ss vs)
    (ho : ONList 𝕜 vs) (w : E) (hw : w ∈ Submodule.span 𝕜 {v | v ∈ vs}) :
    let q := orthonormalize (ipForm 𝕜 E) false o.mgs o.eta o.ref ss w
    q.1 = 0 ∧ q.2.nrm = 0 ∧ q.2.lindep = true := by
  obtain ⟨h1, h2, h3, h4, h5⟩ := C31_column o.mgs o.eta he o.ref ss vs hh ho w
  simp only [orthonormalize]
  generalize hg : gs (ipForm 𝕜 E) false o.mgs o.eta o.ref ss w = r at *
  have hmem : r.w ∈ Submodule.span 𝕜 {v | v ∈ vs} := by
    have : r.w = w - lincomb (r.ss.map Slot.h) vs := by
      conv_rhs => rw [h3]
      simp
    rw [this]
    exact Submodule.sub_mem _ hw (lincomb_mem vs _)
  have hz : ∀ x ∈ Submodule.span 𝕜 {v | v ∈ vs}, inner 𝕜 x r.w = 0 := by
    intro x hx
    refine Submodule.span_induction (p := fun x _ => inner 𝕜 x r.w = 0) ?_ ?_ ?_ ?_ hx
    · intro v hv; exact h2 v hv
    · simp
    · intro a b _ _ ha hb; rw [inner_add_left, ha, hb, add_zero]
    · intro a b _ hb; rw [inner_smul_left, hb, mul_zero]
  have h0 : r.w = 0 := inner_self_eq_zero.1 (hz _ hmem)
  have hn : r.nrm = 0 := by rw [h4, h0, norm_zero]
  refine ⟨by rw [if_neg (by simp [hn])]; exact h0, hn, h5.2 hw⟩

theorem writeCol_other (buf : Nat → Nat → 𝕜) (c : Nat) (xs : List 𝕜) (i j : Nat) (h : j ≠ c) :
    writeCol buf c xs i j = buf i j := by
  unfold writeCol; rw [if_neg (fun hc => h hc.1)]

theorem writeCol_same (buf : Nat → Nat → 𝕜) (c : Nat) (xs : List 𝕜) (i : Nat) (h : i < xs.length) :
    writeCol buf c xs i c = xs.getD i 0 := by
  unfold writeCol; rw [if_pos ⟨rfl, h⟩]

/-- What the loop guarantees from iteration `j` on. -/
structure LoopOK (A : E →ₗ[𝕜] E) (cs : List E) (V : Nat → E) (buf : Nat → Nat → 𝕜) (fuel j : Nat) (r : Arn 𝕜 E) : Prop where
  ex : ∃ W : Nat → E, (∀ i, i ≤ j → W i = V i) ∧ Holds r.ss (cs ++ cols W (r.m + 1)) ∧ ONList 𝕜 (cs ++ cols W r.m) ∧
    (r.lindep = false → ONList 𝕜 (cs ++ cols W (r.m + 1))) ∧
    (r.lindep = true → W r.m = 0 ∧ r.beta = 0) ∧
    (∀ i, j ≤ i → i < r.m → ∃ c ∈ Submodule.span 𝕜 {v | v ∈ cs},
      A (W i) = c + ∑ l ∈ Finset.range (i + 1), r.buf l (i + 1) • W l +
        (if i + 1 = r.m ∧ r.lindep = true then 0 else r.buf (i + 1) (i + 1) • W (i + 1)))
  le : r.m ≤ j + fuel
  ge : j ≤ r.m
  gt : 0 < fuel → j < r.m
  full : r.lindep = false → r.m = j + fuel
  old : ∀ a b, b ≤ j → r.buf a b = buf a b
  beta : r.lindep = false → 0 < fuel → (r.beta : 𝕜) = r.buf r.m r.m ∧ 0 < r.beta
  real : ∀ i, j ≤ i → i < r.m → ¬ (i + 1 = r.m ∧ r.lindep = true) → ∃ x : ℝ, 0 < x ∧ r.buf (i + 1) (i + 1) = (x : 𝕜)

theorem arnLoop_ok [FiniteDimensional 𝕜 E] (o : OrthOpts) (he : o.eta ≤ 1) (A : E →ₗ[𝕜] E) (cs : List E) :
    ∀ (fuel j : Nat) (ss : List (Slot 𝕜 E)) (buf : Nat → Nat → 𝕜) (beta : ℝ) (V : Nat → E),
      Holds ss (cs ++ cols V (j + 1)) → ONList 𝕜 (cs ++ cols V (j + 1)) →
      LoopOK A cs V buf fuel j (arnLoop (ipForm 𝕜 E) o A (Module.finrank 𝕜 E) cs.length fuel j ss buf beta) := by
  intro fuel
  induction fuel with
  | zero =>
    intro j ss buf beta V hh ho
    simp only [arnLoop]
    refine ⟨⟨V, fun i _ => rfl, hh, ?_, fun _ => ho, by simp, ?_⟩, by simp, le_rfl, by simp, by simp, fun _ _ _ => rfl, by simp,
      fun i h1 h2 => by dsimp only at h2; omega⟩
    · refine ho.sublist ?_
      rw [cols_succ]; exact List.Sublist.append_left (List.sublist_append_left _ _) _
    · intro i h1 h2; dsimp only at h2; omega
  | succ fuel ih =>
    intro j ss buf beta V hh ho
    have hh2 : Holds ss ((cs ++ cols V j) ++ [V j]) := by
      rw [cols_succ] at hh; simpa [List.append_assoc] using hh
    have hlast : lastCol ss = V j := lastCol_holds hh2
    unfold arnLoop
    dsimp only
    rw [hlast]
    by_cases hN : j + 1 = Module.finrank 𝕜 E
    · rw [if_pos hN]
      obtain ⟨h1, h2, h3, h4, h5⟩ := C31_column o.mgs o.eta he .never ss _ hh ho (A (V j))
      generalize hg : gs (ipForm 𝕜 E) false o.mgs o.eta .never ss (A (V j)) = r at *
      have hcs : cs = [] := by
        have := ho.length_le
        rw [List.length_append] at this
        simp only [cols, List.length_map, List.length_range] at this
        exact List.length_eq_zero_iff.1 (by omega)
      subst hcs
      have hspan := ho.span_eq_top (by simp [cols, hN])
      have hw0 : r.w = 0 := by
        have hmem : r.w ∈ Submodule.span 𝕜 {v | v ∈ ([] : List E) ++ cols V (j + 1)} := by rw [hspan]; trivial
        have : inner 𝕜 r.w r.w = 0 := by
          refine Submodule.span_induction (p := fun x _ => inner 𝕜 x r.w = 0) ?_ ?_ ?_ ?_ hmem
          · intro v hv; exact h2 v hv
          · simp
          · intro a b _ _ ha hb; rw [inner_add_left, ha, hb, add_zero]
          · intro a b _ hb; rw [inner_smul_left, hb, mul_zero]
        exact inner_self_eq_zero.1 this
      have hlen : (r.ss.map Slot.h).length = ([] : List E).length + (j + 1) := by
        rw [List.length_map, h1.length]; simp [cols]
      refine ⟨⟨fun i => if i ≤ j then V i else 0, fun i hi => by simp [hi], ?_, ?_, by simp, ?_, ?_⟩, by dsimp only; omega, by dsimp only; omega,
        fun _ => by dsimp only; omega, by simp, ?_, by simp, fun i h1 h2 h3 => absurd ⟨by dsimp only at h2 ⊢; omega, rfl⟩ h3⟩
      · dsimp only
        rw [cols_succ, cols_congr V _ (j + 1) (fun i hi => by simp [Nat.lt_succ_iff.1 hi])]
        simp only [show ¬ (j + 1 ≤ j) by omega, if_false]
        rw [hw0, ← List.append_assoc]
        exact h1.snoc 0
      · dsimp only
        rw [cols_congr V _ (j + 1) (fun i hi => by simp [Nat.lt_succ_iff.1 hi])]
        exact ho
      · intro _; simp
      · intro i hi1 hi2
        dsimp only at hi2 ⊢
        have hij : i = j := by omega
        subst hij
        obtain ⟨c, hc, e⟩ := lincomb_split ([] : List E) V (i + 1) (r.ss.map Slot.h) hlen
        refine ⟨c, hc, ?_⟩
        rw [if_pos (by simp)]
        simp only [le_refl, if_true, add_zero]
        conv_lhs => rw [h3]
        rw [e, hw0]
        simp only [and_self, if_true, add_zero]
        refine congrArg (c + ·) (Finset.sum_congr rfl fun l hl => ?_)
        have hl' := Finset.mem_range.1 hl
        rw [writeCol_same _ _ _ _ (by simp only [List.length_map, List.length_drop] at hlen ⊢; rw [hlen]; simp; omega), if_pos (by omega), List.map_drop]
      · intro a b hb
        dsimp only
        rw [writeCol_other _ _ _ _ _ (by omega)]
    · rw [if_neg hN]
      obtain ⟨h1, h2, h3, h4, h5⟩ := C31_column o.mgs o.eta he o.ref ss _ hh ho (A (V j))
      by_cases hdep : A (V j) ∈ Submodule.span 𝕜 {v | v ∈ cs ++ cols V (j + 1)}
      · obtain ⟨d1, d2, d3⟩ := orthonormalize_dep o he ss _ hh ho _ hdep
        rw [if_pos d3]
        have hq : (orthonormalize (ipForm 𝕜 E) false o.mgs o.eta o.ref ss (A (V j))).2 =
          gs (ipForm 𝕜 E) false o.mgs o.eta o.ref ss (A (V j)) := rfl
        rw [d1, d2]
        rw [hq] at d2 d3
        rw [hq]
        generalize hg : gs (ipForm 𝕜 E) false o.mgs o.eta o.ref ss (A (V j)) = r at *
        have hw0 : r.w = 0 := by rw [d2] at h4; simpa using h4.symm
        have hlen : (r.ss.map Slot.h).length = cs.length + (j + 1) := by
          rw [List.length_map, h1.length]; simp [cols]
        have hbl : ((r.ss.drop cs.length).map Slot.h).length = j + 1 := by
          simp only [List.length_map, List.length_drop] at hlen ⊢; omega
        refine ⟨⟨fun i => if i ≤ j then V i else 0, fun i hi => by simp [hi], ?_, ?_, by simp, ?_, ?_⟩, by dsimp only; omega, by dsimp only; omega,
          fun _ => by dsimp only; omega, by simp, ?_, by simp, fun i h1 h2 h3 => absurd ⟨by dsimp only at h2 ⊢; omega, rfl⟩ h3⟩
        · dsimp only
          rw [cols_succ, cols_congr V _ (j + 1) (fun i hi => by simp [Nat.lt_succ_iff.1 hi])]
          simp only [show ¬ (j + 1 ≤ j) by omega, if_false]
          rw [← List.append_assoc]
          exact h1.snoc 0
        · dsimp only
          rw [cols_congr V _ (j + 1) (fun i hi => by simp [Nat.lt_succ_iff.1 hi])]
          exact ho
        · intro _; simp
        · intro i hi1 hi2
          dsimp only at hi2 ⊢
          have hij : i = j := by omega
          subst hij
          obtain ⟨c, hc, e⟩ := lincomb_split cs V (i + 1) (r.ss.map Slot.h) hlen
          refine ⟨c, hc, ?_⟩
          rw [if_pos (by simp)]
          simp only [le_refl, if_true, add_zero]
          conv_lhs => rw [h3]
          rw [e, hw0]
          simp only [and_self, if_true, add_zero]
          refine congrArg (c + ·) (Finset.sum_congr rfl fun l hl => ?_)
          have hl' := Finset.mem_range.1 hl
          rw [writeCol_same _ _ _ _ (by unfold bufferColumn; rw [List.length_append, hbl]; omega), if_pos (by omega)]
          unfold bufferColumn
          simp only [List.getD, List.getElem?_append_left (hbl ▸ hl' : l < ((r.ss.drop cs.length).map Slot.h).length)]
          rw [List.map_drop]
        · intro a b hb
          dsimp only
          rw [writeCol_other _ _ _ _ _ (by omega)]
      · obtain ⟨o1, o2⟩ := C31_orthonormalize o.mgs o.eta he o.ref ss _ hh ho _ hdep
        have hlin : (orthonormalize (ipForm 𝕜 E) false o.mgs o.eta o.ref ss (A (V j))).2.lindep = false := by
          have : ¬ (gs (ipForm 𝕜 E) false o.mgs o.eta o.ref ss (A (V j))).lindep = true := fun hc => hdep (h5.1 hc)
          exact Bool.eq_false_iff.2 this
        rw [if_neg (by rw [hlin]; simp)]
        have hq : (orthonormalize (ipForm 𝕜 E) false o.mgs o.eta o.ref ss (A (V j))).2 =
          gs (ipForm 𝕜 E) false o.mgs o.eta o.ref ss (A (V j)) := rfl
        rw [hq] at o2 hlin ⊢
        generalize hv : (orthonormalize (ipForm 𝕜 E) false o.mgs o.eta o.ref ss (A (V j))).1 = v at *
        generalize hg : gs (ipForm 𝕜 E) false o.mgs o.eta o.ref ss (A (V j)) = r at *
        have hlen : (r.ss.map Slot.h).length = cs.length + (j + 1) := by
          rw [List.length_map, h1.length]; simp [cols]
        have hbl : ((r.ss.drop cs.length).map Slot.h).length = j + 1 := by
          simp only [List.length_map, List.length_drop] at hlen ⊢; omega
        have hpos : 0 < r.nrm := by
          have h0 : r.w ≠ 0 := by
            intro h0
            rw [h0, add_zero] at h3
            exact hdep (h3 ▸ lincomb_mem _ _)
          rw [h4]; exact norm_pos_iff.2 h0
        have hc1 : cols (fun i => if i ≤ j then V i else v) (j + 1 + 1) = cols V (j + 1) ++ [v] := by
          rw [cols_succ, cols_congr V _ (j + 1) (fun i hi => by simp [Nat.lt_succ_iff.1 hi])]
          simp only [show ¬ (j + 1 ≤ j) by omega, if_false]
        have hh' : Holds (r.ss ++ [mkSlot v 1]) (cs ++ cols (fun i => if i ≤ j then V i else v) (j + 1 + 1)) := by
          rw [hc1, ← List.append_assoc]; exact h1.snoc v
        have ho' : ONList 𝕜 (cs ++ cols (fun i => if i ≤ j then V i else v) (j + 1 + 1)) := by
          rw [hc1, ← List.append_assoc]; exact o1
        have hbuf : ∀ l, l < j + 2 → writeCol buf (j + 1) (bufferColumn cs.length r) l (j + 1) =
            if l < j + 1 then ((r.ss.map Slot.h).drop cs.length).getD l 0 else (r.nrm : 𝕜) := by
          intro l hl
          have hbl2 : (bufferColumn cs.length r).length = j + 2 := by
            unfold bufferColumn; rw [List.length_append, hbl]; rfl
          rw [writeCol_same _ _ _ _ (by rw [hbl2]; exact hl)]
          unfold bufferColumn
          by_cases hlj : l < j + 1
          · rw [if_pos hlj]
            simp only [List.getD, List.getElem?_append_left (hbl ▸ hlj : l < ((r.ss.drop cs.length).map Slot.h).length)]
            rw [List.map_drop]
          · rw [if_neg hlj]
            have : l = j + 1 := by omega
            subst this
            simp only [List.getD, List.getElem?_append_right (le_of_eq hbl), hbl, hlin]
            simp
        obtain ⟨⟨W, w1, w2, w3, w4, w5, w6⟩, q1, q2, q3, q4, q5, q6, q7⟩ :=
          ih (j + 1) (r.ss ++ [mkSlot v 1]) (writeCol buf (j + 1) (bufferColumn cs.length r)) r.nrm _ hh' ho'
        generalize hR : arnLoop (ipForm 𝕜 E) o A (Module.finrank 𝕜 E) cs.length fuel (j + 1) (r.ss ++ [mkSlot v 1])
          (writeCol buf (j + 1) (bufferColumn cs.length r)) r.nrm = R at *
        refine ⟨⟨W, ?_, w2, w3, w4, w5, ?_⟩, by omega, by omega, fun _ => by omega, fun h => by rw [q4 h]; omega, ?_, ?_, ?_⟩
        · intro i hi
          rw [w1 i (by omega)]; simp [hi]
        · intro i hi1 hi2
          rcases Nat.lt_or_ge j i with hlt | hge
          · exact w6 i (by omega) hi2
          · have hij : i = j := by omega
            subst hij
            have hnot : ¬ (i + 1 = R.m ∧ R.lindep = true) := by
              rintro ⟨e1, e2⟩
              rcases Nat.eq_zero_or_pos fuel with h0 | hp
              · subst h0
                rw [← hR] at e2
                simp [arnLoop] at e2
              · have := q3 hp; omega
            rw [if_neg hnot]
            obtain ⟨c, hc, e⟩ := lincomb_split cs V (i + 1) (r.ss.map Slot.h) hlen
            refine ⟨c, hc, ?_⟩
            rw [w1 i (by omega), w1 (i + 1) le_rfl]
            simp only [le_refl, if_true, show ¬ (i + 1 ≤ i) by omega, if_false]
            conv_lhs => rw [o2]
            rw [e, q5 (i + 1) (i + 1) le_rfl, hbuf (i + 1) (by omega), if_neg (by omega)]
            congr 2
            refine Finset.sum_congr rfl fun l hl => ?_
            have hl' := Finset.mem_range.1 hl
            rw [q5 l (i + 1) le_rfl, hbuf l (by omega), if_pos hl', w1 l (by omega)]
            simp [show l ≤ i by omega]
        · intro a b hb
          rw [q5 a b (by omega), writeCol_other _ _ _ _ _ (by omega)]
        · intro hl _
          rcases Nat.eq_zero_or_pos fuel with h0 | hp
          · subst h0
            have hm : R.m = j + 1 := by rw [q4 hl]
            have hb : R.beta = r.nrm := by rw [← hR]; rfl
            rw [hm, q5 (j + 1) (j + 1) le_rfl, hbuf (j + 1) (by omega), if_neg (by omega), hb]
            exact ⟨rfl, hpos⟩
          · exact q6 hl hp
        · intro i hi1 hi2 hi3
          rcases Nat.lt_or_ge j i with hlt | hge
          · exact q7 i (by omega) hi2 hi3
          · have hij : i = j := by omega
            subst hij
            exact ⟨r.nrm, hpos, by rw [q5 (i + 1) (i + 1) le_rfl, hbuf (i + 1) (by omega), if_neg (by omega)]⟩

theorem arn_of_loop (A : E →ₗ[𝕜] E) (cs : List E)
    (k m ldh : Nat) (hkm : k < m) (V0 : Nat → E) (buf h0 : Nat → Nat → 𝕜) (hz : ∀ i j, j + 1 < i → h0 i j = 0)
    (R : Arn 𝕜 E) (hR : LoopOK A cs V0 buf (m - k) k R) :
    ∃ V : Nat → E, (∀ i, i ≤ k → V i = V0 i) ∧ R.ss.map Slot.v = cs ++ cols V (R.m + 1) ∧ k < R.m ∧ R.m ≤ m ∧
      ONList 𝕜 (cs ++ cols V R.m) ∧
      (∀ j, k ≤ j → j < R.m → ∃ c ∈ Submodule.span 𝕜 {v | v ∈ cs},
        A (V j) = c + ∑ i ∈ Finset.range R.m, arnH k R.m ldh R.buf h0 i j • V i + (if j + 1 = R.m then (R.beta : 𝕜) • V R.m else 0)) ∧
      (∀ i j, j + 1 < i → arnH k R.m ldh R.buf h0 i j = 0) ∧
      (R.lindep = false → R.m = m ∧ 0 < R.beta ∧ ONList 𝕜 (cs ++ cols V (m + 1)) ∧
        (m < ldh → arnH k R.m ldh R.buf h0 m (m - 1) = (R.beta : 𝕜))) ∧
      (R.lindep = true → R.beta = 0 ∧ V R.m = 0) := by
  obtain ⟨⟨W, w1, w2, w3, w4, w5, w6⟩, q1, q2, q3, q4, q5, q6, q7⟩ := hR
  have hkR := q3 (by omega)
  have hH : ∀ i j, k ≤ j → j + 1 < R.m → i < R.m → arnH k R.m ldh R.buf h0 i j = if i < j + 2 then R.buf i (j + 1) else 0 := by
    intro i j h1 h2 h3
    unfold arnH
    by_cases hij : i < j + 2
    · rw [if_pos ⟨h1, by omega, hij⟩, if_pos hij]
    · rw [if_neg (by omega), if_neg (by omega), if_neg (by omega), if_neg hij, hz i j (by omega)]
  have hHl : ∀ i j, j + 1 = R.m → i < R.m → arnH k R.m ldh R.buf h0 i j = R.buf i (j + 1) := by
    intro i j h1 h2
    unfold arnH
    rw [if_neg (by omega), if_pos (by omega), h1]
  refine ⟨W, w1, w2.v, hkR, by omega, w3, ?_, ?_, ?_, ?_⟩
  · intro j hj1 hj2
    obtain ⟨c, hc, e⟩ := w6 j hj1 hj2
    refine ⟨c, hc, ?_⟩
    rw [e]
    by_cases hl : j + 1 = R.m
    · rw [if_pos hl]
      have hs : ∑ i ∈ Finset.range R.m, arnH k R.m ldh R.buf h0 i j • W i =
          ∑ l ∈ Finset.range (j + 1), R.buf l (j + 1) • W l := by
        refine Finset.sum_congr (by rw [hl]) fun i hi => ?_
        rw [hHl i j hl (by have := Finset.mem_range.1 hi; omega)]
      rw [hs]
      congr 1
      by_cases hd : R.lindep = true
      · rw [if_pos ⟨hl, hd⟩, (w5 hd).1, smul_zero]
      · rw [if_neg (fun h => hd h.2), (q6 (by simpa using hd) (by omega)).1, hl]
    · rw [if_neg hl, if_neg (fun h => hl h.1), add_zero, add_assoc]
      congr 1
      have hs : ∑ i ∈ Finset.range R.m, arnH k R.m ldh R.buf h0 i j • W i =
          ∑ i ∈ Finset.range (j + 2), R.buf i (j + 1) • W i := by
        symm
        have hsub : Finset.range (j + 2) ⊆ Finset.range R.m := Finset.range_subset_range.2 (by omega)
        rw [← Finset.sum_subset hsub (f := fun i => arnH k R.m ldh R.buf h0 i j • W i)]
        · refine Finset.sum_congr rfl fun i hi => ?_
          have hi' := Finset.mem_range.1 hi
          rw [hH i j hj1 (by omega) (by omega), if_pos hi']
        · intro i hi1 hi2
          have h1 := Finset.mem_range.1 hi1
          have h2 : ¬ i < j + 2 := fun h => hi2 (Finset.mem_range.2 h)
          rw [hH i j hj1 (by omega) h1, if_neg h2, zero_smul]
      rw [hs, ← Finset.sum_range_succ (fun i => R.buf i (j + 1) • W i) (j + 1)]
  · intro i j hij
    unfold arnH
    rw [if_neg (by omega), if_neg (by omega), if_neg (by omega), hz i j hij]
  · intro hb
    have hm : R.m = m := by rw [q4 hb]; omega
    obtain ⟨b1, b2⟩ := q6 hb (by omega)
    refine ⟨hm, b2, by rw [← hm]; exact w4 hb, ?_⟩
    intro hl
    unfold arnH
    rw [if_neg (by omega), if_neg (by omega), if_pos ⟨by omega, by omega, by omega⟩, b1]
  · intro hb
    exact ⟨(w5 hb).2, (w5 hb).1⟩


theorem lan_of_loop (A : E →ₗ[𝕜] E) (hA : A.IsSymmetric)
    (cs : List E) (k m : Nat) (hkm : k < m) (V0 : Nat → E)
    (hlock : ∀ i, i < k → A (V0 i) ∈ Submodule.span 𝕜 {v | v ∈ cs ++ cols V0 k}) (buf : Nat → Nat → 𝕜)
    (alpha0 betat0 : Nat → ℝ) (R : Arn 𝕜 E) (hR : LoopOK A cs V0 buf (m - k) k R) :
    ∃ V : Nat → E, (∀ i, i ≤ k → V i = V0 i) ∧ R.ss.map Slot.v = cs ++ cols V (R.m + 1) ∧ k < R.m ∧ R.m ≤ m ∧
      ONList 𝕜 (cs ++ cols V R.m) ∧
      (∀ j, k ≤ j → j < R.m → ∃ c ∈ Submodule.span 𝕜 {v | v ∈ cs},
        A (V j) = c + (if k < j then ((if k ≤ j - 1 ∧ j - 1 < R.m then RCLike.re (R.buf (j - 1 + 1) (j - 1 + 1)) else betat0 (j - 1) : ℝ) : 𝕜) • V (j - 1) else 0) +
          ((if k ≤ j ∧ j < R.m then RCLike.re (R.buf j (j + 1)) else alpha0 j : ℝ) : 𝕜) • V j +
          ((if j + 1 = R.m then R.beta else (if k ≤ j ∧ j < R.m then RCLike.re (R.buf (j + 1) (j + 1)) else betat0 j) : ℝ) : 𝕜) • V (j + 1)) ∧
      (∀ j, k ≤ j → j + 1 < R.m → 0 < (if k ≤ j ∧ j < R.m then RCLike.re (R.buf (j + 1) (j + 1)) else betat0 j)) ∧
      (R.lindep = false → R.m = m ∧ 0 < R.beta ∧ ONList 𝕜 (cs ++ cols V (m + 1)) ∧
        (if k ≤ m - 1 ∧ m - 1 < R.m then RCLike.re (R.buf (m - 1 + 1) (m - 1 + 1)) else betat0 (m - 1)) = R.beta) ∧
      (R.lindep = true → R.beta = 0 ∧ V R.m = 0) := by
  obtain ⟨⟨W, w1, w2, w3, w4, w5, w6⟩, q1, q2, q3, q4, q5, q6, q7⟩ := hR
  have hkR := q3 (by omega)
  -- orthogonality
  have hON : ∀ i j, i < R.m → j < R.m → inner 𝕜 (W i) (W j) = if i = j then (1 : 𝕜) else 0 := by
    have h1 : ONList 𝕜 (cols W R.m) := w3.sublist (List.sublist_append_right _ _)
    intro i j hi hj
    have hp := List.pairwise_iff_getElem.1 h1.orth
    by_cases hij : i = j
    · subst hij
      rw [if_pos rfl, inner_self_eq_norm_sq_to_K, h1.unit (W i) (List.mem_map.2 ⟨i, List.mem_range.2 hi, rfl⟩)]
      simp
    · rw [if_neg hij]
      rcases lt_or_gt_of_ne hij with hlt | hgt
      · simpa [cols] using hp i j (by simpa [cols] using hi) (by simpa [cols] using hj) hlt
      · have := hp j i (by simpa [cols] using hj) (by simpa [cols] using hi) hgt
        simp only [cols, List.getElem_map, List.getElem_range] at this
        exact inner_eq_zero_symm.1 this
  have hC : ∀ c ∈ Submodule.span 𝕜 {v | v ∈ cs}, ∀ i, i < R.m → inner 𝕜 (W i) c = 0 := by
    intro c hc i hi
    refine Submodule.span_induction (p := fun x _ => inner 𝕜 (W i) x = 0) ?_ ?_ ?_ ?_ hc
    · intro v hv
      have := (List.pairwise_append.1 w3.orth).2.2 v hv (W i) (List.mem_map.2 ⟨i, List.mem_range.2 hi, rfl⟩)
      exact inner_eq_zero_symm.1 this
    · simp
    · intro a b _ _ ha hb; rw [inner_add_right, ha, hb, add_zero]
    · intro a b _ hb; rw [inner_smul_right, hb, mul_zero]
  have hWm : R.lindep = false → ∀ i, i < R.m → inner 𝕜 (W i) (W R.m) = 0 := by
    intro hd i hi
    have h1 : ONList 𝕜 (cols W (R.m + 1)) := (w4 hd).sublist (List.sublist_append_right _ _)
    rw [cols_succ] at h1
    exact (List.pairwise_append.1 h1.orth).2.2 (W i) (List.mem_map.2 ⟨i, List.mem_range.2 hi, rfl⟩) (W R.m) (by simp)
  -- coefficients are inner products
  have hcoef : ∀ l j, k ≤ j → j < R.m → l ≤ j → inner 𝕜 (W l) (A (W j)) = R.buf l (j + 1) := by
    intro l j hj1 hj2 hl
    obtain ⟨c, hc, e⟩ := w6 j hj1 hj2
    rw [e, inner_add_right, inner_add_right, hC c hc l (by omega), zero_add, inner_sum]
    have h2 : inner 𝕜 (W l) (if j + 1 = R.m ∧ R.lindep = true then (0 : E) else R.buf (j + 1) (j + 1) • W (j + 1)) = 0 := by
      by_cases hd : j + 1 = R.m ∧ R.lindep = true
      · rw [if_pos hd, inner_zero_right]
      · rw [if_neg hd, inner_smul_right]
        by_cases hj3 : j + 1 = R.m
        · have hd' : R.lindep = false := by simpa using fun h => hd ⟨hj3, h⟩
          rw [hj3, hWm hd' l (by omega), mul_zero]
        · rw [hON l (j + 1) (by omega) (by omega), if_neg (by omega), mul_zero]
    rw [h2, add_zero, Finset.sum_eq_single l]
    · rw [inner_smul_right, hON l l (by omega) (by omega), if_pos rfl, mul_one]
    · intro i hi hil
      have := Finset.mem_range.1 hi
      rw [inner_smul_right, hON l i (by omega) (by omega), if_neg (Ne.symm hil), mul_zero]
    · intro h; exact absurd (Finset.mem_range.2 (by omega)) h
  -- for l<j the coefficient vanishes unless l+1=j
  have hsub : ∀ l j, k ≤ j → j < R.m → l < j →
      R.buf l (j + 1) = if k < j ∧ l + 1 = j then ((RCLike.re (R.buf j j) : ℝ) : 𝕜) else 0 := by
    intro l j hj1 hj2 hl
    rw [← hcoef l j hj1 hj2 hl.le, ← hA (W l) (W j)]
    by_cases hlk : l < k
    · rw [if_neg (by omega)]
      have hin : A (W l) ∈ Submodule.span 𝕜 {v | v ∈ cs ++ cols V0 k} := by
        rw [w1 l hlk.le]; exact hlock l hlk
      refine Submodule.span_induction (p := fun x _ => inner 𝕜 x (W j) = 0) ?_ ?_ ?_ ?_ hin
      · intro v hv
        rcases List.mem_append.1 hv with hv | hv
        · exact inner_eq_zero_symm.1 (hC v (Submodule.subset_span hv) j hj2)
        · obtain ⟨i, hi, rfl⟩ := List.mem_map.1 hv
          have hi' := List.mem_range.1 hi
          rw [← w1 i (by omega), hON i j (by omega) hj2, if_neg (by omega)]
      · simp
      · intro a b _ _ ha hb; rw [inner_add_left, ha, hb, add_zero]
      · intro a b _ hb; rw [inner_smul_left, hb, mul_zero]
    · obtain ⟨c, hc, e⟩ := w6 l (by omega) (by omega)
      obtain ⟨x, hx, ex⟩ := q7 l (by omega) (by omega) (fun h => by omega)
      rw [e, if_neg (by omega), inner_add_left, inner_add_left, inner_eq_zero_symm.1 (hC c hc j hj2), zero_add, sum_inner,
        inner_smul_left, hON (l + 1) j (by omega) hj2]
      rw [Finset.sum_eq_zero, zero_add]
      · by_cases hlj : l + 1 = j
        · rw [if_pos hlj, if_pos ⟨by omega, hlj⟩, mul_one, ← hlj, ex]
          simp
        · rw [if_neg hlj, if_neg (fun h => hlj h.2), mul_zero]
      · intro i hi
        have := Finset.mem_range.1 hi
        rw [inner_smul_left, hON i j (by omega) hj2, if_neg (by omega), mul_zero]
  have hdiag : ∀ j, k ≤ j → j < R.m → R.buf j (j + 1) = ((RCLike.re (R.buf j (j + 1)) : ℝ) : 𝕜) := by
    intro j hj1 hj2
    rw [← hcoef j j hj1 hj2 le_rfl]
    have h1 : (starRingEnd 𝕜) (inner 𝕜 (W j) (A (W j))) = inner 𝕜 (W j) (A (W j)) := by
      rw [inner_conj_symm]; exact hA (W j) (W j)
    exact (RCLike.conj_eq_iff_re.1 h1).symm
  refine ⟨W, w1, w2.v, hkR, by omega, w3, ?_, ?_, ?_, ?_⟩
  · intro j hj1 hj2
    obtain ⟨c, hc, e⟩ := w6 j hj1 hj2
    refine ⟨c, hc, ?_⟩
    rw [e, Finset.sum_range_succ]
    have hal : (if k ≤ j ∧ j < R.m then RCLike.re (R.buf j (j + 1)) else alpha0 j) = RCLike.re (R.buf j (j + 1)) :=
      if_pos ⟨hj1, hj2⟩
    rw [hal, ← hdiag j hj1 hj2]
    have hs : ∑ x ∈ Finset.range j, R.buf x (j + 1) • W x =
        (if k < j then (((if k ≤ j - 1 ∧ j - 1 < R.m then RCLike.re (R.buf (j - 1 + 1) (j - 1 + 1)) else betat0 (j - 1) : ℝ)) : 𝕜) • W (j - 1)
          else 0) := by
      by_cases hkj : k < j
      · rw [if_pos hkj, if_pos ⟨by omega, by omega⟩, Finset.sum_eq_single (j - 1)]
        · rw [hsub (j - 1) j hj1 hj2 (by omega), if_pos ⟨hkj, by omega⟩, show j - 1 + 1 = j by omega]
        · intro i hi hne
          have := Finset.mem_range.1 hi
          rw [hsub i j hj1 hj2 this, if_neg (by omega), zero_smul]
        · intro h; exact absurd (Finset.mem_range.2 (by omega)) h
      · rw [if_neg hkj]
        refine Finset.sum_eq_zero fun i hi => ?_
        have := Finset.mem_range.1 hi
        rw [hsub i j hj1 hj2 this, if_neg (by omega), zero_smul]
    have hlast : (if j + 1 = R.m ∧ R.lindep = true then (0 : E) else R.buf (j + 1) (j + 1) • W (j + 1)) =
        (((if j + 1 = R.m then R.beta else if k ≤ j ∧ j < R.m then RCLike.re (R.buf (j + 1) (j + 1)) else betat0 j : ℝ)) : 𝕜) • W (j + 1) := by
      by_cases hd : j + 1 = R.m
      · by_cases hd2 : R.lindep = true
        · rw [if_pos ⟨hd, hd2⟩, hd, (w5 hd2).1, smul_zero]
        · rw [if_neg (fun h => hd2 h.2), if_pos hd, (q6 (by simpa using hd2) (by omega)).1, hd]
      · obtain ⟨x, hx, ex⟩ := q7 j hj1 hj2 (fun h => hd h.1)
        rw [if_neg (fun h => hd h.1), if_neg hd, if_pos ⟨hj1, hj2⟩, ex, RCLike.ofReal_re]
    rw [hs, hlast]
    simp only [add_assoc]
  · intro j hj1 hj2
    obtain ⟨x, hx, ex⟩ := q7 j hj1 (by omega) (fun h => by omega)
    rw [if_pos ⟨hj1, by omega⟩, ex, RCLike.ofReal_re]
    exact hx
  · intro hb
    have hm : R.m = m := by rw [q4 hb]; omega
    obtain ⟨b1, b2⟩ := q6 hb (by omega)
    refine ⟨hm, b2, by rw [← hm]; exact w4 hb, ?_⟩
    rw [if_pos ⟨by omega, by omega⟩, show m - 1 + 1 = R.m by omega, ← b1, RCLike.ofReal_re]
  · intro hb
    exact ⟨(w5 hb).2, (w5 hb).1⟩


end
end Verif.BV
