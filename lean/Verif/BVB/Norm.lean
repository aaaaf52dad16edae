import Verif.BVB.Biorth
import Mathlib.Analysis.RCLike.Basic
/-!
Model of the norms of blocks of vectors: `BVNorm_LAPACK_Private`, `BVNormalize_LAPACK_Private` and the reduction operation `SlepcPythag`
(`src/sys/classes/bv/interface/bvlapack.c:20-127`).  The memory of process `r` is `A r`; the entry of its local row `i` and active column `j` is at `i+j*lda r`; it has `mloc r` rows.
Arithmetic is exact; the norms of LAPACK (xLANGE) are exact.
-/
set_option linter.all false
namespace Verif.BVB.Norm

variable {𝕜 : Type*} [RCLike 𝕜]

/-- The order in which MPI_Allreduce combines the contributions: any binary tree whose leaves are the processes. -/
inductive Tree
  | leaf (r : ℕ)
  | node (a b : Tree)

/-- The processes of a tree. -/
def Tree.procs : Tree → List ℕ
  | .leaf r => [r]
  | .node a b => a.procs ++ b.procs

/-- MPI_Allreduce with an operation. -/
def Tree.reduce {α : Type*} (op : α → α → α) (x : ℕ → α) : Tree → α
  | .leaf r => x r
  | .node a b => op (a.reduce op x) (b.reduce op x)

/-- The data distributed among the processes. -/
structure Data (𝕜 : Type*) where
  mloc : ℕ → ℕ
  lda : ℕ → ℕ
  A : ℕ → ℕ → 𝕜

/-- bvlapack.c:20-32 SlepcPythag with SlepcAbs (slepcimpl.h): the operation MPIU_LAPY2. -/
noncomputable def pythag (x y : ℝ) : ℝ := Real.sqrt (x ^ 2 + y ^ 2)

/-- LAPACKlange("F") of `k` columns of process `r` starting at column `j`. -/
noncomputable def langeF (d : Data 𝕜) (r j k : ℕ) : ℝ :=
  Real.sqrt (∑ c ∈ Finset.range k, ∑ i ∈ Finset.range (d.mloc r), ‖d.A r (i + (j + c) * d.lda r)‖ ^ 2)

/-- The maximum of `f 0, .., f (n-1)` with initial value zero: the loop of bvlapack.c:67-68, also used for LAPACKlange("I"), whose value is zero for an empty matrix. -/
noncomputable def maxLoop (n : ℕ) (f : ℕ → ℝ) : ℝ := forN n (fun j s => if s < f j then f j else s) 0

/-- LAPACKlange("I") of the `n` columns of process `r`. -/
noncomputable def langeI (d : Data 𝕜) (r n : ℕ) : ℝ := maxLoop (d.mloc r) (fun i => ∑ j ∈ Finset.range n, ‖d.A r (i + j * d.lda r)‖)

/-- The sums of the moduli of a column on process `r`, lines 60-64. -/
noncomputable def colSum (d : Data 𝕜) (r j : ℕ) : ℝ := forN (d.mloc r) (fun i s => s + ‖d.A r (i + j * d.lda r)‖) 0

/-- Types of norms. -/
inductive Ty | frobenius | one | infinity

/-- bvlapack.c:37-83 BVNorm_LAPACK_Private with `mpi`; `t` is the order of the reduction (with one process, or without `mpi`, a leaf). -/
noncomputable def norm (d : Data 𝕜) (n : ℕ) (t : Tree) : Ty → ℝ
  | .frobenius => t.reduce pythag (fun r => langeF d r 0 n)
  | .one => maxLoop n (fun j => t.reduce (· + ·) (fun r => colSum d r j))
  | .infinity => t.reduce max (fun r => langeI d r n)

/-- The number of columns treated together, lines 103-104 and 117-120. -/
def width (eigi : ℕ → Bool) (j : ℕ) : ℕ := if eigi j then 2 else 1

/-- The values `j`, `k` of the loops of lines 102-107 and 116-123 (`j` is increased once more after a pair). -/
def visits (eigi : ℕ → Bool) (n : ℕ) : ℕ → ℕ → List (ℕ × ℕ)
  | 0, _ => []
  | fuel + 1, j => if j < n then (j, width eigi j) :: visits eigi n fuel (j + width eigi j) else []

/-- Lines 102-107: the array of local norms. -/
noncomputable def localNorms (d : Data 𝕜) (eigi : ℕ → Bool) (n r : ℕ) : ℕ → ℝ :=
  (visits eigi n n 0).foldl (fun (w : ℕ → ℝ) jk => if jk.2 = 2 then wr (wr w jk.1 (langeF d r jk.1 jk.2)) (jk.1 + 1) (langeF d r jk.1 jk.2) else wr w jk.1 (langeF d r jk.1 jk.2)) (fun _ => 0)

/-- LAPACKlascl("G",norms[j],1) on `k` columns from `j` of a local array; an error for a zero norm is checked by the caller. -/
noncomputable def lascl (m lda : ℕ) (a : ℕ → 𝕜) (j k : ℕ) (nrm : ℝ) : ℕ → 𝕜 :=
  forN k (fun c a => forN m (fun i (a : ℕ → 𝕜) => wr a (i + (j + c) * lda) (a (i + (j + c) * lda) * ((1 / nrm : ℝ) : 𝕜))) a) a

/-- bvlapack.c:88-127 BVNormalize_LAPACK_Private, on process `r`.  `eigi j` tells that the scalars are real, the argument `eigi` is given and `eigi[j] != 0.0`.
`none` is the error of LAPACKlascl for a zero norm. -/
noncomputable def normalize (d : Data 𝕜) (eigi : ℕ → Bool) (n : ℕ) (t : Tree) (r : ℕ) : Option (ℕ → 𝕜) :=
  let norms : ℕ → ℝ := fun j => t.reduce pythag (fun q => localNorms d eigi n q j)
  (visits eigi n n 0).foldl (fun (o : Option (ℕ → 𝕜)) jk => match o with
    | none => none
    | some a => if norms jk.1 = 0 then none else some (lascl (d.mloc r) (d.lda r) a jk.1 jk.2 (norms jk.1))) (some (d.A r))

/-! ### Specification -/

/-- The entry in local row `i` of process `r` and column `j`. -/
def Data.entry (d : Data 𝕜) (r i j : ℕ) : 𝕜 := d.A r (i + j * d.lda r)

/-- The sum of the squares of the moduli of all entries, on all processes, of the columns `j..j+k-1`. -/
noncomputable def sqSum (d : Data 𝕜) (ps : List ℕ) (j k : ℕ) : ℝ :=
  (ps.map fun r => ∑ c ∈ Finset.range k, ∑ i ∈ Finset.range (d.mloc r), ‖d.entry r i (j + c)‖ ^ 2).sum

/-- The columns `j..n-1` are divided in blocks: two columns if `eigi` tells the start of a pair, else one. -/
inductive Blocks (eigi : ℕ → Bool) (n : ℕ) : ℕ → List (ℕ × ℕ) → Prop
  | done : Blocks eigi n n []
  | one (j : ℕ) (bs : List (ℕ × ℕ)) : eigi j = false → j < n → Blocks eigi n (j + 1) bs → Blocks eigi n j ((j, 1) :: bs)
  | two (j : ℕ) (bs : List (ℕ × ℕ)) : eigi j = true → j + 1 < n → Blocks eigi n (j + 2) bs → Blocks eigi n j ((j, 2) :: bs)

/-- Every process has room for its rows. -/
def Data.Ok (d : Data 𝕜) : Prop := ∀ r, d.mloc r ≤ d.lda r

/-! ### Lemmas -/

theorem reduce_pythag (x : ℕ → ℝ) (hx : ∀ r, 0 ≤ x r) (t : Tree) : 0 ≤ t.reduce pythag x ∧ (t.reduce pythag x) ^ 2 = (t.procs.map fun r => x r ^ 2).sum := by
  induction t with
  | leaf r => exact ⟨hx r, by simp [Tree.reduce, Tree.procs]⟩
  | node a b iha ihb =>
    refine ⟨Real.sqrt_nonneg _, ?_⟩
    show (Real.sqrt _) ^ 2 = _
    rw [Real.sq_sqrt (by positivity), iha.2, ihb.2]
    simp [Tree.procs]

theorem reduce_add (x : ℕ → ℝ) (t : Tree) : t.reduce (· + ·) x = (t.procs.map x).sum := by
  induction t with
  | leaf r => simp [Tree.reduce, Tree.procs]
  | node a b iha ihb => simp [Tree.reduce, Tree.procs, iha, ihb]

theorem reduce_max (x : ℕ → ℝ) (t : Tree) : (∀ r ∈ t.procs, x r ≤ t.reduce max x) ∧ ∃ r ∈ t.procs, t.reduce max x = x r := by
  induction t with
  | leaf r => simp [Tree.reduce, Tree.procs]
  | node a b iha ihb =>
    obtain ⟨a1, ra, ha, ea⟩ := iha
    obtain ⟨b1, rb, hb, eb⟩ := ihb
    refine ⟨?_, ?_⟩
    · intro r hr
      rcases List.mem_append.mp hr with h | h
      · exact le_trans (a1 r h) (le_max_left _ _)
      · exact le_trans (b1 r h) (le_max_right _ _)
    · rcases le_total (a.reduce max x) (b.reduce max x) with h | h
      · exact ⟨rb, List.mem_append.mpr (Or.inr hb), by show max _ _ = _; rw [max_eq_right h, eb]⟩
      · exact ⟨ra, List.mem_append.mpr (Or.inl ha), by show max _ _ = _; rw [max_eq_left h, ea]⟩

theorem maxLoop_ok (n : ℕ) (f : ℕ → ℝ) : 0 ≤ maxLoop n f ∧ (∀ j < n, f j ≤ maxLoop n f) ∧ (maxLoop n f = 0 ∨ ∃ j < n, maxLoop n f = f j) := by
  induction n with
  | zero => exact ⟨le_rfl, fun j hj => absurd hj (by omega), Or.inl rfl⟩
  | succ n ih =>
    obtain ⟨h1, h2, h3⟩ := ih
    have e : maxLoop (n + 1) f = if maxLoop n f < f n then f n else maxLoop n f := rfl
    rw [e]
    by_cases hc : maxLoop n f < f n
    · rw [if_pos hc]
      refine ⟨by linarith, ?_, Or.inr ⟨n, by omega, rfl⟩⟩
      intro j hj
      by_cases hjn : j = n
      · rw [hjn]
      · have := h2 j (by omega); linarith
    · rw [if_neg hc]
      refine ⟨h1, ?_, ?_⟩
      · intro j hj
        by_cases hjn : j = n
        · rw [hjn]; linarith
        · exact h2 j (by omega)
      · rcases h3 with h | ⟨j, hj, h⟩
        · exact Or.inl h
        · exact Or.inr ⟨j, by omega, h⟩

theorem colSum_eq (d : Data 𝕜) (r j : ℕ) : colSum d r j = ∑ i ∈ Finset.range (d.mloc r), ‖d.entry r i j‖ := by
  unfold colSum
  generalize d.mloc r = m
  induction m with
  | zero => rfl
  | succ m ih => rw [forN_succ, ih, Finset.sum_range_succ]; rfl

theorem visits_blocks {eigi : ℕ → Bool} {n : ℕ} {j : ℕ} {bs : List (ℕ × ℕ)} (h : Blocks eigi n j bs) : ∀ fuel, n - j ≤ fuel → visits eigi n fuel j = bs := by
  induction h with
  | done =>
    intro fuel _
    cases fuel with
    | zero => rfl
    | succ f => simp [visits]
  | one j bs he hj _ ih =>
    intro fuel hf
    cases fuel with
    | zero => omega
    | succ f => simp [visits, hj, width, he, ih f (by omega)]
  | two j bs he hj _ ih =>
    intro fuel hf
    cases fuel with
    | zero => omega
    | succ f => simp [visits, show j < n by omega, width, he, ih f (by omega)]

/-- What the fold over the blocks writes in the array of local norms. -/
theorem localNorms_ok (d : Data 𝕜) (r : ℕ) {eigi : ℕ → Bool} {n j : ℕ} {bs : List (ℕ × ℕ)} (h : Blocks eigi n j bs) : ∀ w : ℕ → ℝ,
    (∀ x < j, (bs.foldl (fun (w : ℕ → ℝ) jk => if jk.2 = 2 then wr (wr w jk.1 (langeF d r jk.1 jk.2)) (jk.1 + 1) (langeF d r jk.1 jk.2) else wr w jk.1 (langeF d r jk.1 jk.2)) w) x = w x) ∧
    (∀ jk ∈ bs, (bs.foldl (fun (w : ℕ → ℝ) jk => if jk.2 = 2 then wr (wr w jk.1 (langeF d r jk.1 jk.2)) (jk.1 + 1) (langeF d r jk.1 jk.2) else wr w jk.1 (langeF d r jk.1 jk.2)) w) jk.1 = langeF d r jk.1 jk.2) := by
  induction h with
  | done => intro w; exact ⟨fun _ _ => rfl, fun jk hjk => absurd hjk (by simp)⟩
  | one j bs he hj _ ih =>
    intro w
    obtain ⟨h1, h2⟩ := ih (wr w j (langeF d r j 1))
    rw [List.foldl_cons]
    dsimp only
    rw [if_neg (by norm_num)]
    refine ⟨fun x hx => by rw [h1 x (by omega), Biorth.wr_other _ _ _ (by omega)], ?_⟩
    intro jk hjk
    rcases List.mem_cons.mp hjk with h | h
    · subst h; rw [h1 j (by omega), Biorth.wr_same]
    · exact h2 jk h
  | two j bs he hj _ ih =>
    intro w
    obtain ⟨h1, h2⟩ := ih (wr (wr w j (langeF d r j 2)) (j + 1) (langeF d r j 2))
    rw [List.foldl_cons]
    dsimp only
    rw [if_pos rfl]
    refine ⟨fun x hx => by rw [h1 x (by omega), Biorth.wr_other _ _ _ (by omega), Biorth.wr_other _ _ _ (by omega)], ?_⟩
    intro jk hjk
    rcases List.mem_cons.mp hjk with h | h
    · subst h; rw [h1 j (by omega), Biorth.wr_other _ _ _ (by simp), Biorth.wr_same]
    · exact h2 jk h

theorem langeF_nonneg (d : Data 𝕜) (r j k : ℕ) : 0 ≤ langeF d r j k := Real.sqrt_nonneg _

theorem langeF_sq (d : Data 𝕜) (r j k : ℕ) : langeF d r j k ^ 2 = ∑ c ∈ Finset.range k, ∑ i ∈ Finset.range (d.mloc r), ‖d.entry r i (j + c)‖ ^ 2 :=
  Real.sq_sqrt (by positivity)

/-- The global norm of a block. -/
theorem reduce_block (d : Data 𝕜) (t : Tree) (j k : ℕ) : t.reduce pythag (fun r => langeF d r j k) = Real.sqrt (sqSum d t.procs j k) := by
  obtain ⟨h1, h2⟩ := reduce_pythag (fun r => langeF d r j k) (fun r => langeF_nonneg d r j k) t
  rw [show sqSum d t.procs j k = (t.reduce pythag fun r => langeF d r j k) ^ 2 by
    rw [h2]; unfold sqSum; congr 1; refine List.map_congr_left fun r _ => ?_; exact (langeF_sq d r j k).symm]
  exact (Real.sqrt_sq h1).symm

/-- Scaling of `k` columns. -/
theorem lascl_entry (m lda : ℕ) (hm : m ≤ lda) (a : ℕ → 𝕜) (j k : ℕ) (nrm : ℝ) (i : ℕ) (hi : i < m) (c : ℕ) :
    lascl m lda a j k nrm (i + c * lda) = if j ≤ c ∧ c < j + k then a (i + c * lda) * ((1 / nrm : ℝ) : 𝕜) else a (i + c * lda) := by
  have inner : ∀ (b : ℕ → 𝕜) (e i : ℕ), i < m → ∀ c, forN m (fun i (a : ℕ → 𝕜) => wr a (i + e * lda) (a (i + e * lda) * ((1 / nrm : ℝ) : 𝕜))) b (i + c * lda) =
      if c = e then b (i + c * lda) * ((1 / nrm : ℝ) : 𝕜) else b (i + c * lda) := by
    intro b e i hi c
    have := forN_inv (f := fun i (a : ℕ → 𝕜) => wr a (i + e * lda) (a (i + e * lda) * ((1 / nrm : ℝ) : 𝕜))) (s := b)
      (fun (n : ℕ) (s : ℕ → 𝕜) => ∀ i < m, ∀ c, s (i + c * lda) = if c = e ∧ i < n then b (i + c * lda) * ((1 / nrm : ℝ) : 𝕜) else b (i + c * lda)) m
      (fun i _ c => by rw [if_neg (by omega)])
      (by
        intro n hn s hs i hi c
        rw [wr_addr (ld := lda) c e s _ (by omega) (by omega)]
        by_cases h : i = n ∧ c = e
        · obtain ⟨rfl, rfl⟩ := h
          rw [if_pos ⟨rfl, rfl⟩, hs i hi c, if_neg (by omega), if_pos ⟨rfl, by omega⟩]
        · rw [if_neg h, hs i hi c]
          by_cases h2 : c = e ∧ i < n
          · rw [if_pos h2, if_pos ⟨h2.1, by omega⟩]
          · rw [if_neg h2, if_neg (by omega)])
    rw [this i hi c]
    by_cases hc : c = e
    · rw [if_pos ⟨hc, hi⟩, if_pos hc]
    · rw [if_neg (fun h => hc h.1), if_neg hc]
  have := forN_inv (f := fun c a => forN m (fun i (a : ℕ → 𝕜) => wr a (i + (j + c) * lda) (a (i + (j + c) * lda) * ((1 / nrm : ℝ) : 𝕜))) a) (s := a)
    (fun (n : ℕ) (s : ℕ → 𝕜) => ∀ i < m, ∀ c, s (i + c * lda) = if j ≤ c ∧ c < j + n then a (i + c * lda) * ((1 / nrm : ℝ) : 𝕜) else a (i + c * lda)) k
    (fun i _ c => by rw [if_neg (by omega)])
    (by
      intro n hn s hs i hi c
      rw [inner s (j + n) i hi c, hs i hi c]
      by_cases h : c = j + n
      · subst h
        rw [if_pos rfl, if_neg (by omega), if_pos (by omega)]
      · rw [if_neg h]
        by_cases h2 : j ≤ c ∧ c < j + n
        · rw [if_pos h2, if_pos (by omega)]
        · rw [if_neg h2, if_neg (by omega)])
  exact this i hi c

theorem blocks_ge {eigi : ℕ → Bool} {n x : ℕ} {bs : List (ℕ × ℕ)} (hb : Blocks eigi n x bs) : ∀ jk ∈ bs, x ≤ jk.1 := by
  induction hb with
  | done => intro jk hjk; simp at hjk
  | one y bs _ _ _ ih =>
    intro jk hjk
    rcases List.mem_cons.mp hjk with h | h
    · rw [h]
    · have := ih jk h; omega
  | two y bs _ _ _ ih =>
    intro jk hjk
    rcases List.mem_cons.mp hjk with h | h
    · rw [h]
    · have := ih jk h; omega

/-- What the scaling loop does. -/
theorem scale_ok (m lda : ℕ) (hm : m ≤ lda) (norms : ℕ → ℝ) {eigi : ℕ → Bool} {n j : ℕ} {bs : List (ℕ × ℕ)} (h : Blocks eigi n j bs) (hn : ∀ jk ∈ bs, norms jk.1 ≠ 0) :
    ∀ a : ℕ → 𝕜, ∃ a', bs.foldl (fun (o : Option (ℕ → 𝕜)) jk => match o with
      | none => none
      | some a => if norms jk.1 = 0 then none else some (lascl m lda a jk.1 jk.2 (norms jk.1))) (some a) = some a' ∧
      (∀ i < m, ∀ c, (c < j ∨ n ≤ c) → a' (i + c * lda) = a (i + c * lda)) ∧
      (∀ jk ∈ bs, ∀ i < m, ∀ c < jk.2, a' (i + (jk.1 + c) * lda) = a (i + (jk.1 + c) * lda) * ((1 / norms jk.1 : ℝ) : 𝕜)) := by
  induction h with
  | done => intro a; exact ⟨a, rfl, fun _ _ _ _ => rfl, fun jk hjk => absurd hjk (by simp)⟩
  | one j bs he hj hB ih =>
    intro a
    obtain ⟨a', h1, h2, h3⟩ := ih (fun jk hjk => hn jk (List.mem_cons_of_mem _ hjk)) (lascl m lda a j 1 (norms j))
    refine ⟨a', ?_, ?_, ?_⟩
    · rw [List.foldl_cons]; dsimp only; rw [if_neg (hn (j, 1) List.mem_cons_self)]; exact h1
    · intro i hi c hc
      rw [h2 i hi c (by omega), lascl_entry m lda hm _ _ _ _ i hi c, if_neg (by omega)]
    · intro jk hjk i hi c hc
      rcases List.mem_cons.mp hjk with h | h
      · subst h
        rw [h2 i hi _ (by omega), lascl_entry m lda hm _ _ _ _ i hi _, if_pos (by omega)]
      · have hge : j + 1 ≤ jk.1 := blocks_ge hB jk h
        rw [h3 jk h i hi c hc, lascl_entry m lda hm _ _ _ _ i hi _, if_neg (by omega)]
  | two j bs he hj hB ih =>
    intro a
    obtain ⟨a', h1, h2, h3⟩ := ih (fun jk hjk => hn jk (List.mem_cons_of_mem _ hjk)) (lascl m lda a j 2 (norms j))
    refine ⟨a', ?_, ?_, ?_⟩
    · rw [List.foldl_cons]; dsimp only; rw [if_neg (hn (j, 2) List.mem_cons_self)]; exact h1
    · intro i hi c hc
      rw [h2 i hi c (by omega), lascl_entry m lda hm _ _ _ _ i hi c, if_neg (by omega)]
    · intro jk hjk i hi c hc
      rcases List.mem_cons.mp hjk with h | h
      · subst h
        rw [h2 i hi _ (by dsimp only at hc ⊢; omega), lascl_entry m lda hm _ _ _ _ i hi _, if_pos (by dsimp only at hc ⊢; omega)]
      · have hge : j + 2 ≤ jk.1 := blocks_ge hB jk h
        rw [h3 jk h i hi c hc, lascl_entry m lda hm _ _ _ _ i hi _, if_neg (by omega)]

end Verif.BVB.Norm
