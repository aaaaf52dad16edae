import Verif.BVB.Norm
/-! Theorems about norms of blocks of vectors (C121). -/
set_option linter.all false
namespace Verif.BVB.Norm
variable {𝕜 : Type*} [RCLike 𝕜]

/-- **C121 (Frobenius norm).**  For every distribution and order of reduction the result is the square root of the sum of the squares of the moduli of all entries. -/
theorem norm_frobenius (d : Data 𝕜) (n : ℕ) (t : Tree) :
    norm d n t .frobenius = Real.sqrt ((t.procs.map fun r => ∑ j ∈ Finset.range n, ∑ i ∈ Finset.range (d.mloc r), ‖d.entry r i j‖ ^ 2).sum) := by
  show t.reduce pythag (fun r => langeF d r 0 n) = _
  rw [reduce_block]
  unfold sqSum
  simp only [Nat.zero_add]

/-- **C121 (1-norm).**  The result bounds the sum of the moduli of each column over all processes, and it is one of these sums (zero if there are no columns). -/
theorem norm_one (d : Data 𝕜) (n : ℕ) (t : Tree) :
    (∀ j < n, (t.procs.map fun r => ∑ i ∈ Finset.range (d.mloc r), ‖d.entry r i j‖).sum ≤ norm d n t .one) ∧
    (n = 0 → norm d n t .one = 0) ∧
    (0 < n → ∃ j < n, norm d n t .one = (t.procs.map fun r => ∑ i ∈ Finset.range (d.mloc r), ‖d.entry r i j‖).sum) := by
  have e : ∀ j, t.reduce (· + ·) (fun r => colSum d r j) = (t.procs.map fun r => ∑ i ∈ Finset.range (d.mloc r), ‖d.entry r i j‖).sum := by
    intro j
    rw [reduce_add]
    congr 1
    exact List.map_congr_left fun r _ => colSum_eq d r j
  have e2 : norm d n t .one = maxLoop n (fun j => (t.procs.map fun r => ∑ i ∈ Finset.range (d.mloc r), ‖d.entry r i j‖).sum) := by
    show maxLoop n _ = _
    congr 1; funext j; exact e j
  obtain ⟨h1, h2, h3⟩ := maxLoop_ok n (fun j => (t.procs.map fun r => ∑ i ∈ Finset.range (d.mloc r), ‖d.entry r i j‖).sum)
  rw [e2]
  refine ⟨h2, fun h => by subst h; rfl, ?_⟩
  intro hn
  rcases h3 with h | h
  · refine ⟨0, hn, ?_⟩
    have h4 := h2 0 hn
    have h5 : 0 ≤ (t.procs.map fun r => ∑ i ∈ Finset.range (d.mloc r), ‖d.entry r i 0‖).sum := by
      refine List.sum_nonneg fun x hx => ?_
      obtain ⟨r, _, rfl⟩ := List.mem_map.mp hx
      positivity
    rw [h] at h4 ⊢
    linarith
  · exact h

/-- **C121 (infinity norm).**  The result bounds the sum of the moduli of each row of each process, and it is one of these sums (zero if there are no rows at all). -/
theorem norm_infinity (d : Data 𝕜) (n : ℕ) (t : Tree) :
    (∀ r ∈ t.procs, ∀ i < d.mloc r, ∑ j ∈ Finset.range n, ‖d.entry r i j‖ ≤ norm d n t .infinity) ∧
    ((∀ r ∈ t.procs, d.mloc r = 0) → norm d n t .infinity = 0) ∧
    ((∃ r ∈ t.procs, 0 < d.mloc r) → ∃ r ∈ t.procs, ∃ i < d.mloc r, norm d n t .infinity = ∑ j ∈ Finset.range n, ‖d.entry r i j‖) := by
  obtain ⟨h1, r0, hr0, h2⟩ := reduce_max (fun r => langeI d r n) t
  have e : norm d n t .infinity = t.reduce max (fun r => langeI d r n) := rfl
  have hb : ∀ r ∈ t.procs, ∀ i < d.mloc r, ∑ j ∈ Finset.range n, ‖d.entry r i j‖ ≤ norm d n t .infinity := by
    intro r hr i hi
    exact le_trans ((maxLoop_ok (d.mloc r) (fun i => ∑ j ∈ Finset.range n, ‖d.A r (i + j * d.lda r)‖)).2.1 i hi) (h1 r hr)
  refine ⟨hb, ?_, ?_⟩
  · intro h
    rw [e, h2]
    show maxLoop _ _ = 0
    rw [h r0 hr0]; rfl
  · rintro ⟨r1, hr1, hm⟩
    rcases (maxLoop_ok (d.mloc r0) (fun i => ∑ j ∈ Finset.range n, ‖d.A r0 (i + j * d.lda r0)‖)).2.2 with h | ⟨i, hi, h⟩
    · refine ⟨r1, hr1, 0, hm, ?_⟩
      have h3 := hb r1 hr1 0 hm
      have h4 : norm d n t .infinity = 0 := by rw [e, h2]; exact h
      rw [h4] at h3 ⊢
      have h5 : 0 ≤ ∑ j ∈ Finset.range n, ‖d.entry r1 0 j‖ := by positivity
      linarith
    · exact ⟨r0, hr0, i, hi, by rw [e, h2]; exact h⟩

/-- **C121 (independence).**  Two orders of reduction with the same processes give the same norms. -/
theorem norm_independent (d : Data 𝕜) (n : ℕ) (t t' : Tree) (h : t.procs.Perm t'.procs) (ty : Ty) : norm d n t ty = norm d n t' ty := by
  cases ty with
  | frobenius =>
    rw [norm_frobenius, norm_frobenius]
    congr 1
    exact (h.map _).sum_eq
  | one =>
    show maxLoop n _ = maxLoop n _
    congr 1
    funext j
    rw [reduce_add, reduce_add]
    exact (h.map _).sum_eq
  | infinity =>
    show t.reduce max _ = t'.reduce max _
    obtain ⟨h1, r0, hr0, h2⟩ := reduce_max (fun r => langeI d r n) t
    obtain ⟨h1', r1, hr1, h2'⟩ := reduce_max (fun r => langeI d r n) t'
    apply le_antisymm
    · rw [h2]; exact h1' r0 (h.mem_iff.mp hr0)
    · rw [h2']; exact h1 r1 (h.mem_iff.mpr hr1)

/-- **C121 (BVNormalize).**  Let the columns be divided in single columns and pairs, none of them zero.  Then BVNormalize succeeds on all processes; each
entry of a block is divided by the norm of the block; so the sum of squares of each block, over all processes, is one; what lies outside of the active columns is not changed. -/
theorem normalize_ok (d : Data 𝕜) (hd : d.Ok) (eigi : ℕ → Bool) (n : ℕ) (t : Tree) (bs : List (ℕ × ℕ)) (hb : Blocks eigi n 0 bs)
    (hz : ∀ jk ∈ bs, sqSum d t.procs jk.1 jk.2 ≠ 0) :
    ∃ A' : ℕ → ℕ → 𝕜, (∀ r, normalize d eigi n t r = some (A' r)) ∧
      (∀ jk ∈ bs, ∀ r, ∀ i < d.mloc r, ∀ c < jk.2, ({ d with A := A' } : Data 𝕜).entry r i (jk.1 + c) = d.entry r i (jk.1 + c) * ((1 / Real.sqrt (sqSum d t.procs jk.1 jk.2) : ℝ) : 𝕜)) ∧
      (∀ jk ∈ bs, sqSum { d with A := A' } t.procs jk.1 jk.2 = 1) ∧
      (∀ r, ∀ i < d.mloc r, ∀ c, n ≤ c → ({ d with A := A' } : Data 𝕜).entry r i c = d.entry r i c) := by
  have hv : visits eigi n n 0 = bs := visits_blocks hb n (by omega)
  have hnorm : ∀ jk ∈ bs, t.reduce pythag (fun q => localNorms d eigi n q jk.1) = Real.sqrt (sqSum d t.procs jk.1 jk.2) := by
    intro jk hjk
    rw [← reduce_block]
    congr 1
    funext q
    unfold localNorms
    rw [hv]
    exact (localNorms_ok d q hb (fun _ => 0)).2 jk hjk
  have hpos : ∀ jk : ℕ × ℕ, 0 ≤ sqSum d t.procs jk.1 jk.2 := by
    intro jk
    refine List.sum_nonneg fun x hx => ?_
    obtain ⟨r, _, rfl⟩ := List.mem_map.mp hx
    positivity
  have hn0 : ∀ jk ∈ bs, t.reduce pythag (fun q => localNorms d eigi n q jk.1) ≠ 0 := by
    intro jk hjk
    rw [hnorm jk hjk, Ne, Real.sqrt_eq_zero (hpos jk)]
    exact hz jk hjk
  have hs := fun r => scale_ok (d.mloc r) (d.lda r) (hd r) (fun j => t.reduce pythag (fun q => localNorms d eigi n q j)) hb hn0 (d.A r)
  choose A' h1 h2 h3 using hs
  have hentry : ∀ jk ∈ bs, ∀ r, ∀ i < d.mloc r, ∀ c < jk.2, ({ d with A := A' } : Data 𝕜).entry r i (jk.1 + c) = d.entry r i (jk.1 + c) * ((1 / Real.sqrt (sqSum d t.procs jk.1 jk.2) : ℝ) : 𝕜) := by
    intro jk hjk r i hi c hc
    rw [← hnorm jk hjk]
    exact h3 r jk hjk i hi c hc
  refine ⟨A', ?_, hentry, ?_, ?_⟩
  · intro r
    unfold normalize
    dsimp only
    rw [hv]
    exact h1 r
  · intro jk hjk
    obtain ⟨q, hq⟩ : ∃ q, q = sqSum d t.procs jk.1 jk.2 := ⟨_, rfl⟩
    have hq0 : q ≠ 0 := by rw [hq]; exact hz jk hjk
    have hqp : 0 ≤ q := by rw [hq]; exact hpos jk
    have : sqSum { d with A := A' } t.procs jk.1 jk.2 = (1 / q) * sqSum d t.procs jk.1 jk.2 := by
      unfold sqSum
      rw [← List.sum_map_mul_left]
      congr 1
      refine List.map_congr_left fun r _ => ?_
      rw [Finset.mul_sum]
      refine Finset.sum_congr rfl fun c hc => ?_
      rw [Finset.mul_sum]
      refine Finset.sum_congr rfl fun i hi => ?_
      rw [hentry jk hjk r i (Finset.mem_range.mp hi) c (Finset.mem_range.mp hc), norm_mul, RCLike.norm_ofReal, mul_pow, sq_abs, div_pow, one_pow, Real.sq_sqrt (hpos jk), ← hq]
      ring
    rw [this, ← hq, one_div, inv_mul_cancel₀ hq0]
  · intro r i hi c hc
    exact h2 r i hi c (Or.inr hc)

/-- Without `eigi` (or in complex arithmetic) every column is a block. -/
theorem blocks_single (n : ℕ) : ∀ k, k ≤ n → ∃ bs, Blocks (fun _ => false) n (n - k) bs ∧ ∀ j, n - k ≤ j → j < n → (j, 1) ∈ bs := by
  intro k
  induction k with
  | zero => intro _; exact ⟨[], Blocks.done, fun j h1 h2 => by omega⟩
  | succ k ih =>
    intro hk
    obtain ⟨bs, h1, h2⟩ := ih (by omega)
    refine ⟨(n - (k + 1), 1) :: bs, Blocks.one _ _ rfl (by omega) (by rw [show n - (k + 1) + 1 = n - k by omega]; exact h1), ?_⟩
    intro j hj1 hj2
    by_cases h : j = n - (k + 1)
    · rw [h]; exact List.mem_cons_self
    · exact List.mem_cons_of_mem _ (h2 j (by omega) hj2)

/-- Negation: if the active columns end in the middle of a pair, BVNormalize changes the column after them. -/
theorem truncated_pair : ∃ (d : Data ℝ) (eigi : ℕ → Bool) (a' : ℕ → ℝ), d.Ok ∧ normalize d eigi 1 (.leaf 0) 0 = some a' ∧ a' (0 + 1 * d.lda 0) ≠ d.entry 0 0 1 := by
  obtain ⟨d, hd⟩ : ∃ d : Data ℝ, d = ⟨fun _ => 1, fun _ => 1, fun _ x => if x = 0 then 3 else if x = 1 then 4 else 0⟩ := ⟨_, rfl⟩
  have hl : langeF d 0 0 2 = 5 := by
    unfold langeF
    rw [hd]
    simp only [Finset.sum_range_succ, Finset.sum_range_zero]
    norm_num
  have hv : visits (fun _ => true) 1 1 0 = [(0, 2)] := by simp [visits, width]
  have hln : localNorms d (fun _ => true) 1 0 0 = 5 := by
    unfold localNorms
    rw [hv]
    simp [wr, hl]
  refine ⟨d, fun _ => true, lascl 1 1 (d.A 0) 0 2 5, ?_, ?_, ?_⟩
  · intro r; rw [hd]
  · unfold normalize
    dsimp only
    rw [hv]
    simp only [List.foldl_cons, List.foldl_nil, Tree.reduce, hln]
    rw [if_neg (by norm_num), hd]
  · have h1 := lascl_entry (𝕜 := ℝ) 1 1 le_rfl (d.A 0) 0 2 5 0 (by norm_num) 1
    rw [show d.lda 0 = 1 by rw [hd], h1, if_pos (by omega), hd]
    show _ ≠ (if 0 + 1 * 1 = 0 then (3:ℝ) else if 0 + 1 * 1 = 1 then 4 else 0)
    norm_num

/-- A case that meets the hypotheses: two processes with 2 and 1 rows, a single column and a pair. -/
example : ∃ (d : Data ℝ) (eigi : ℕ → Bool) (bs : List (ℕ × ℕ)), d.Ok ∧ Blocks eigi 3 0 bs ∧ bs = [(0, 1), (1, 2)] ∧
    ∀ jk ∈ bs, sqSum d (Tree.node (.leaf 1) (.leaf 0)).procs jk.1 jk.2 ≠ 0 := by
  refine ⟨⟨fun r => 2 - r, fun _ => 2, fun _ _ => 1⟩, fun j => j ≥ 1, [(0, 1), (1, 2)], fun r => Nat.sub_le 2 r, ?_, rfl, ?_⟩
  · exact Blocks.one 0 _ (by simp) (by norm_num) (Blocks.two 1 _ (by simp) (by norm_num) Blocks.done)
  · intro jk hjk
    simp only [List.mem_cons, List.not_mem_nil, or_false] at hjk
    rcases hjk with rfl | rfl <;> simp [sqSum, Tree.procs, Data.entry, Finset.sum_range_succ] <;> norm_num

end Verif.BVB.Norm
