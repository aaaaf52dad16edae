import Verif.BVB.Biorth
/-! Theorems about the biorthogonalization of bases (C116). -/
set_option linter.all false
namespace Verif.BVB.Biorth
variable {𝕜 E : Type*} [RCLike 𝕜] [NormedAddCommGroup E] [InnerProductSpace 𝕜 E]

/-- **C116 (one column).**  Let the first `j` columns be biorthonormal.  After BVBiorthogonalizeColumn column `j` of `V` is orthogonal to the first `j` columns
of `W` and conversely; both changed only by combinations of the previous columns of their own basis, with the coefficients found; no other column changed. -/
theorem biorthogonalizeColumn (oV oW : Opt) (V W : ℕ → E) (j : ℕ) (h : Biorthonormal 𝕜 V W j) :
    ∃ V' W', bioCol 𝕜 oV oW V W j = (V', W') ∧
      (∀ i < j, inner 𝕜 (W i) (V' j) = 0 ∧ inner 𝕜 (V i) (W' j) = 0) ∧
      (∃ c d : ℕ → 𝕜, V j = ∑ t ∈ Finset.range j, c t • V t + V' j ∧ W j = ∑ t ∈ Finset.range j, d t • W t + W' j) ∧
      (∀ i ≠ j, V' i = V i ∧ W' i = W i) := by
  refine ⟨_, _, rfl, ?_, ?_, ?_⟩
  · intro i hi
    obtain ⟨_, h1⟩ := gs_spec oV h (V j)
    have hb : Biorthonormal 𝕜 W (wr V j (gs 𝕜 oV V W j (V j)).1) j := by
      intro a ha b hb'
      rw [wr_other _ _ _ (by omega)]
      exact h.symm a ha b hb'
    obtain ⟨_, h2⟩ := gs_spec oW hb (W j)
    refine ⟨?_, ?_⟩
    · rw [wr_same]; exact h1 i hi
    · rw [wr_same]
      have := h2 i hi
      rwa [wr_other _ _ _ (by omega)] at this
  · obtain ⟨h1, _⟩ := gs_spec oV h (V j)
    have hb : Biorthonormal 𝕜 W (wr V j (gs 𝕜 oV V W j (V j)).1) j := by
      intro a ha b hb'
      rw [wr_other _ _ _ (by omega)]
      exact h.symm a ha b hb'
    obtain ⟨h2, _⟩ := gs_spec oW hb (W j)
    exact ⟨_, _, by rw [wr_same]; exact h1, by rw [wr_same]; exact h2⟩
  · intro i hi
    exact ⟨wr_other _ _ _ hi, wr_other _ _ _ hi⟩

/-- The product of the scaled columns. -/
theorem scale_one (a : 𝕜) (ha : a ≠ 0) : (starRingEnd 𝕜) (1 / ((Real.sqrt ‖a‖ : ℝ) : 𝕜)) * (1 / (starRingEnd 𝕜) (a / ((Real.sqrt ‖a‖ : ℝ) : 𝕜))) * (starRingEnd 𝕜) a = 1 := by
  have hs : ((Real.sqrt ‖a‖ : ℝ) : 𝕜) ≠ 0 := by
    rw [Ne, RCLike.ofReal_eq_zero, Real.sqrt_eq_zero (norm_nonneg a), norm_eq_zero]; exact ha
  have hc : (starRingEnd 𝕜) a ≠ 0 := (map_ne_zero _).mpr ha
  rw [map_div₀, map_div₀, map_one, RCLike.conj_ofReal]
  field_simp

/-- **C116 (one column, with scaling).**  If moreover the product of the two columns does not vanish, that is the returned `delta` is not zero, then after
BVBiorthonormalizeColumn the first `j+1` columns are biorthonormal, the spans are kept, and no other column changed. -/
theorem biorthonormalizeColumn (oV oW : Opt) (V W : ℕ → E) (j : ℕ) (h : Biorthonormal 𝕜 V W j) :
    ∃ V' W' delta, bionormCol 𝕜 oV oW V W j = (V', W', delta) ∧
      (delta ≠ 0 → Biorthonormal 𝕜 V' W' (j + 1) ∧ spanOf 𝕜 V' (j + 1) = spanOf 𝕜 V (j + 1) ∧ spanOf 𝕜 W' (j + 1) = spanOf 𝕜 W (j + 1)) ∧
      (∀ i ≠ j, V' i = V i ∧ W' i = W i) := by
  obtain ⟨V1, W1, he, ho, ⟨c, d, hc, hd⟩, hk⟩ := biorthogonalizeColumn oV oW V W j h
  have e : bionormCol 𝕜 oV oW V W j = (wr (bioCol 𝕜 oV oW V W j).1 j ((1 / (starRingEnd 𝕜) (inner 𝕜 ((bioCol 𝕜 oV oW V W j).1 j) ((bioCol 𝕜 oV oW V W j).2 j) / ((Real.sqrt ‖inner 𝕜 ((bioCol 𝕜 oV oW V W j).1 j) ((bioCol 𝕜 oV oW V W j).2 j)‖ : ℝ) : 𝕜))) • (bioCol 𝕜 oV oW V W j).1 j),
      wr (bioCol 𝕜 oV oW V W j).2 j ((1 / ((Real.sqrt ‖inner 𝕜 ((bioCol 𝕜 oV oW V W j).1 j) ((bioCol 𝕜 oV oW V W j).2 j)‖ : ℝ) : 𝕜)) • (bioCol 𝕜 oV oW V W j).2 j),
      Real.sqrt ‖inner 𝕜 ((bioCol 𝕜 oV oW V W j).1 j) ((bioCol 𝕜 oV oW V W j).2 j)‖) := rfl
  rw [he] at e
  dsimp only at e
  refine ⟨_, _, _, e, ?_, ?_⟩
  · intro hdelta
    have ha : inner 𝕜 (V1 j) (W1 j) ≠ 0 := by
      intro h0; apply hdelta; rw [h0]; simp
    have hs : ((Real.sqrt ‖inner 𝕜 (V1 j) (W1 j)‖ : ℝ) : 𝕜) ≠ 0 := by rw [Ne, RCLike.ofReal_eq_zero]; exact hdelta
    refine ⟨?_, ?_, ?_⟩
    · intro a hal b hbl
      by_cases hb : b = j
      · subst hb
        rw [wr_same, inner_smul_right]
        by_cases hab : a = b
        · subst hab
          rw [wr_same, if_pos rfl, inner_smul_left, ← inner_conj_symm (W1 a) (V1 a)]
          have := scale_one _ ha
          refine Eq.trans ?_ this
          ring
        · rw [wr_other _ _ _ hab, if_neg hab, (hk a hab).2, (ho a (by omega)).1, mul_zero]
      · rw [wr_other _ _ _ hb, (hk b hb).1]
        by_cases hab : a = j
        · subst hab
          rw [wr_same, if_neg (fun e => hb e.symm), inner_smul_left, ← inner_conj_symm (W1 a) (V b), (ho b (by omega)).2]
          simp
        · rw [wr_other _ _ _ hab, (hk a hab).2]
          exact h a (by omega) b (by omega)
    · have hs1 : (1 / (starRingEnd 𝕜) (inner 𝕜 (V1 j) (W1 j) / ((Real.sqrt ‖inner 𝕜 (V1 j) (W1 j)‖ : ℝ) : 𝕜))) ≠ 0 :=
        one_div_ne_zero ((map_ne_zero _).mpr (div_ne_zero ha hs))
      have := span_step (V := V) (j := j) hs1 hc
      rw [← this]
      apply spanOf_congr
      intro i hi
      by_cases hij : i = j
      · subst hij; rw [wr_same, wr_same]
      · rw [wr_other _ _ _ hij, wr_other _ _ _ hij, (hk i hij).1]
    · have := span_step (V := W) (j := j) (one_div_ne_zero hs) hd
      rw [← this]
      apply spanOf_congr
      intro i hi
      by_cases hij : i = j
      · subst hij; rw [wr_same, wr_same]
      · rw [wr_other _ _ _ hij, wr_other _ _ _ hij, (hk i hij).2]
  · intro i hi
    exact ⟨by rw [wr_other _ _ _ hi]; exact (hk i hi).1, by rw [wr_other _ _ _ hi]; exact (hk i hi).2⟩

theorem span_keep {V V' : ℕ → E} {j n : ℕ} (hj : j ≤ n) (hs : spanOf 𝕜 V' j = spanOf 𝕜 V j) (hk : ∀ i, j ≤ i → V' i = V i) : spanOf 𝕜 V' n = spanOf 𝕜 V n := by
  apply le_antisymm
  · refine Submodule.span_le.mpr ?_
    rintro x ⟨i, hi, rfl⟩
    by_cases hij : i < j
    · have h1 : V' i ∈ spanOf 𝕜 V j := by rw [← hs]; exact mem_spanOf hij
      refine Submodule.span_mono ?_ h1
      rintro y ⟨t, ht, rfl⟩; exact ⟨t, by omega, rfl⟩
    · rw [hk i (by omega)]; exact mem_spanOf hi
  · refine Submodule.span_le.mpr ?_
    rintro x ⟨i, hi, rfl⟩
    by_cases hij : i < j
    · have h1 : V i ∈ spanOf 𝕜 V' j := by rw [hs]; exact mem_spanOf hij
      refine Submodule.span_mono ?_ h1
      rintro y ⟨t, ht, rfl⟩; exact ⟨t, by omega, rfl⟩
    · rw [← hk i (by omega)]; exact mem_spanOf hi

/-- **C116 (full).**  BVBiorthonormalizeColumn called for the columns `0..m-1` in order: if no returned `delta` is zero the bases are biorthonormal and
span the same spaces as before. -/
theorem biorthonormalize_all (oV oW : Opt) (V W : ℕ → E) (m : ℕ) :
    ∃ V' W' delta, bionormAll 𝕜 oV oW V W m = (V', W', delta) ∧
      ((∀ j < m, delta j ≠ 0) → Biorthonormal 𝕜 V' W' m ∧ spanOf 𝕜 V' m = spanOf 𝕜 V m ∧ spanOf 𝕜 W' m = spanOf 𝕜 W m) ∧
      (∀ i, m ≤ i → V' i = V i ∧ W' i = W i) := by
  induction m with
  | zero =>
    refine ⟨V, W, _, rfl, ?_, fun i _ => ⟨rfl, rfl⟩⟩
    intro _
    exact ⟨fun i hi => absurd hi (by omega), rfl, rfl⟩
  | succ m ih =>
    obtain ⟨V1, W1, d1, he, h1, hk⟩ := ih
    have e : bionormAll 𝕜 oV oW V W (m + 1) = ((bionormCol 𝕜 oV oW V1 W1 m).1, (bionormCol 𝕜 oV oW V1 W1 m).2.1, wr d1 m (bionormCol 𝕜 oV oW V1 W1 m).2.2) := by
      have : bionormAll 𝕜 oV oW V W (m + 1) = (fun s : (ℕ → E) × (ℕ → E) × (ℕ → ℝ) => let r := bionormCol 𝕜 oV oW s.1 s.2.1 m; (r.1, r.2.1, wr s.2.2 m r.2.2)) (bionormAll 𝕜 oV oW V W m) := rfl
      rw [this, he]
    refine ⟨_, _, _, e, ?_, ?_⟩
    · intro hd
      have hd1 : ∀ j < m, d1 j ≠ 0 := by
        intro j hj
        have := hd j (by omega)
        rwa [wr_other _ _ _ (by omega)] at this
      have hdm := hd m (by omega)
      rw [wr_same] at hdm
      obtain ⟨hb, hs1, hs2⟩ := h1 hd1
      obtain ⟨V2, W2, d2, he2, h2, hk2⟩ := biorthonormalizeColumn oV oW V1 W1 m hb
      rw [he2] at hdm ⊢
      obtain ⟨g1, g2, g3⟩ := h2 hdm
      refine ⟨g1, ?_, ?_⟩
      · rw [g2]; exact span_keep (by omega) hs1 (fun i hi => (hk i hi).1)
      · rw [g3]; exact span_keep (by omega) hs2 (fun i hi => (hk i hi).2)
    · intro i hi
      have hi' : i ≠ m := by omega
      have : ∀ V W : ℕ → E, (bionormCol 𝕜 oV oW V W m).1 i = V i ∧ (bionormCol 𝕜 oV oW V W m).2.1 i = W i := by
        intro V W
        refine ⟨?_, ?_⟩
        · show wr _ m _ i = _
          rw [wr_other _ _ _ hi']; exact wr_other _ _ _ hi'
        · show wr _ m _ i = _
          rw [wr_other _ _ _ hi']; exact wr_other _ _ _ hi'
      exact ⟨(this V1 W1).1.trans (hk i (by omega)).1, (this V1 W1).2.trans (hk i (by omega)).2⟩

/-- The breakdown is visible in the result: `delta` is zero exactly if the product of the biorthogonalized columns vanishes. -/
theorem delta_zero_iff (oV oW : Opt) (V W : ℕ → E) (j : ℕ) (h : Biorthonormal 𝕜 V W j) :
    (bionormCol 𝕜 oV oW V W j).2.2 = 0 ↔ inner 𝕜 ((bioCol 𝕜 oV oW V W j).1 j) ((bioCol 𝕜 oV oW V W j).2 j) = 0 := by
  show Real.sqrt ‖_‖ = 0 ↔ _
  rw [Real.sqrt_eq_zero (norm_nonneg _), norm_eq_zero]

/-- Negation: a serious breakdown may occur for bases with linearly independent columns and full rank; in this case the scaling (lines 224-225) divides
by zero and the code gives no error.  Two vectors of `ℝ²`. -/
theorem breakdown : ∃ (V W : ℕ → EuclideanSpace ℝ (Fin 2)), V 0 ≠ 0 ∧ W 0 ≠ 0 ∧ ∀ oV oW, (bionormCol ℝ oV oW V W 0).2.2 = 0 := by
  refine ⟨fun _ => EuclideanSpace.single 0 1, fun _ => EuclideanSpace.single 1 1, ?_, ?_, ?_⟩
  · intro h; have := congrArg (fun f => f 0) h; simp at this
  · intro h; have := congrArg (fun f => f 1) h; simp at this
  · intro oV oW
    rw [delta_zero_iff (h := fun i hi => absurd hi (by omega))]
    have hg : ∀ (o : Opt) (V W : ℕ → EuclideanSpace ℝ (Fin 2)) v, (gs ℝ o V W 0 v).1 = v := by
      intro o V W v
      have := (gs_spec (𝕜 := ℝ) o (V := V) (W := W) (k := 0) (fun i hi => absurd hi (by omega)) v).1
      simpa using this.symm
    unfold bioCol
    dsimp only
    rw [wr_same, wr_same, hg, hg]
    simp [EuclideanSpace.inner_single_left]

/-- A case with nonzero products: the same two vectors, `V = W`. -/
example : ∀ oV oW, ∀ j < 1, (bionormAll ℝ oV oW (fun _ => (EuclideanSpace.single 0 (2:ℝ) : EuclideanSpace ℝ (Fin 2))) (fun _ => EuclideanSpace.single 0 (2:ℝ)) 1).2.2 j ≠ 0 := by
  intro oV oW j hj
  have hj0 : j = 0 := by omega
  subst hj0
  show wr (fun _ => (0:ℝ)) 0 (bionormCol ℝ oV oW _ _ 0).2.2 0 ≠ 0
  rw [wr_same]
  rw [Ne, delta_zero_iff (h := fun i hi => absurd hi (by omega))]
  have hg : ∀ (o : Opt) (V W : ℕ → EuclideanSpace ℝ (Fin 2)) v, (gs ℝ o V W 0 v).1 = v := by
    intro o V W v
    have := (gs_spec (𝕜 := ℝ) o (V := V) (W := W) (k := 0) (fun i hi => absurd hi (by omega)) v).1
    simpa using this.symm
  unfold bioCol
  dsimp only
  rw [wr_same, wr_same, hg, hg]
  simp [bionormAll, EuclideanSpace.inner_single_left]

end Verif.BVB.Biorth
