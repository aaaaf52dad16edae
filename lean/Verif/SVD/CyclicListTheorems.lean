import Verif.SVD.CyclicListModel
import Mathlib.Tactic

/-!
# C77, C78: values and vectors of the cyclic solver belong together; initial vectors
-/
set_option linter.all false

namespace Verif.SVD

theorem foldl_filterMap {α β : Type*} (f : α → Option β) (l : List α) (acc : List β) :
    l.foldl (fun acc a => match f a with | some b => acc ++ [b] | none => acc) acc = acc ++ l.filterMap f := by
  induction l generalizing acc with
  | nil => simp
  | cons a l ih =>
    rw [List.foldl_cons, ih, List.filterMap_cons]
    cases f a <;> simp

theorem cyclicValues_eq (invert : Bool) (ncv : ℕ) (es : List ℝ) : cyclicValues invert ncv es
    = ((es.take ncv).filter (fun s => 0 < s)).map (fun s => if invert then 1 / s else s) := by
  unfold cyclicValues
  generalize es.take ncv = l
  suffices h : ∀ acc : List ℝ, l.foldl (fun acc s => if 0 < s then acc ++ [if invert then 1 / s else s] else acc) acc
      = acc ++ (l.filter (fun s => 0 < s)).map (fun s => if invert then 1 / s else s) by simpa using h []
  induction l with
  | nil => simp
  | cons a l ih =>
    intro acc
    rw [List.foldl_cons, ih]
    by_cases h : 0 < a
    · simp [h]
    · simp [h]

theorem cyclicSources_eq (ncv : ℕ) (es : List ℝ) : cyclicSources ncv es
    = ((es.take ncv).zipIdx.filter (fun p => ¬ p.1 < 0)).map Prod.snd := by
  unfold cyclicSources
  generalize (es.take ncv).zipIdx = l
  suffices h : ∀ acc : List ℕ, l.foldl (fun acc p => if p.1 < 0 then acc else acc ++ [p.2]) acc
      = acc ++ (l.filter (fun p => ¬ p.1 < 0)).map Prod.snd by simpa using h []
  induction l with
  | nil => simp
  | cons a l ih =>
    intro acc
    rw [List.foldl_cons, ih]
    by_cases h : a.1 < 0
    · simp [h]
    · rw [if_neg h, List.filter_cons_of_pos (by simpa using h)]
      simp

/-- Prefix criterion: the positive ones are a prefix of the nonnegative ones iff no zero comes before a positive one. -/
theorem filter_prefix_iff (l : List (ℝ × ℕ)) :
    (l.filter (fun p => 0 < p.1)) <+: (l.filter (fun p => ¬ p.1 < 0)) ↔
      l.Pairwise (fun p q => p.1 = 0 → ¬ 0 < q.1) := by
  induction l with
  | nil => simp
  | cons a l ih =>
    rcases lt_trichotomy a.1 0 with h | h | h
    · have h1 : ¬ 0 < a.1 := by linarith
      simp only [List.pairwise_cons]
      rw [List.filter_cons_of_neg (by simpa using h1), List.filter_cons_of_neg (by simpa using h), ih]
      constructor
      · intro hh; exact ⟨fun b _ h0 => absurd h0 (ne_of_lt h), hh⟩
      · intro hh; exact hh.2
    · have h1 : ¬ 0 < a.1 := by linarith
      have h2 : ¬ a.1 < 0 := by linarith
      simp only [List.pairwise_cons]
      rw [List.filter_cons_of_neg (by simpa using h1), List.filter_cons_of_pos (by simpa using h2)]
      constructor
      · intro hp
        have hnil : ∀ b ∈ l, ¬ 0 < b.1 := by
          intro b hb hpos
          have hmem : b ∈ l.filter (fun p => 0 < p.1) := List.mem_filter.2 ⟨hb, by simpa using hpos⟩
          cases hL : l.filter (fun p => 0 < p.1) with
          | nil => rw [hL] at hmem; simp at hmem
          | cons c t =>
            rw [hL] at hp
            have hc := (List.cons_prefix_cons.1 hp).1
            have : c ∈ l.filter (fun p => 0 < p.1) := by rw [hL]; simp
            have := (List.mem_filter.1 this).2
            rw [hc] at this
            simp at this
            exact h1 this
        refine ⟨fun b hb _ => hnil b hb, ?_⟩
        exact List.pairwise_of_forall_mem_list (fun x _ y hy _ => hnil y hy)
      · rintro ⟨h3, _⟩
        have : l.filter (fun p => 0 < p.1) = [] := by
          rw [List.filter_eq_nil_iff]
          intro b hb
          simpa using h3 b hb h
        rw [this]
        exact List.nil_prefix
    · have h2 : ¬ a.1 < 0 := by linarith
      simp only [List.pairwise_cons]
      rw [List.filter_cons_of_pos (by simpa using h), List.filter_cons_of_pos (by simpa using h2),
        List.cons_prefix_cons, ih]
      constructor
      · rintro ⟨_, hh⟩; exact ⟨fun b _ h0 => absurd h0 (ne_of_gt h), hh⟩
      · intro hh; exact ⟨rfl, hh.2⟩

/-- Specification: entry `j` of the stored values and column `j` of the stored vectors come from the same converged
eigenpair, whose eigenvalue is positive. -/
def Aligned (invert : Bool) (conv : List ℝ) (values : List ℝ) (sources : List ℕ) : Prop :=
  ∀ j, j < values.length → ∃ i s, sources[j]? = some i ∧ conv[i]? = some s ∧ 0 < s ∧
    values[j]? = some (if invert then 1 / s else s)

theorem zipIdx_pairwise (l : List ℝ) (R : ℝ → ℝ → Prop) :
    l.zipIdx.Pairwise (fun p q => R p.1 q.1) ↔ l.Pairwise R := by
  conv_rhs => rw [← List.zipIdx_map_fst 0 l]
  rw [List.pairwise_map]

theorem filter_zipIdx_fst (l : List ℝ) (P : ℝ → Bool) (k : ℕ) :
    ((l.zipIdx k).filter (fun p => P p.1)).map Prod.fst = l.filter P := by
  induction l generalizing k with
  | nil => simp
  | cons a l ih =>
    rw [List.zipIdx_cons]
    by_cases h : P a
    · rw [List.filter_cons_of_pos (by simpa using h), List.filter_cons_of_pos h, List.map_cons, ih]
    · rw [List.filter_cons_of_neg (by simpa using h), List.filter_cons_of_neg h, ih]

/-- C77 (part). Stored values and vectors belong together exactly when no converged eigenvalue equal to zero comes before
a positive one. (Missing for the full statement: the lists with such a zero, see `C77_false`.) -/
theorem C77_aligned_partial (invert : Bool) (ncv : ℕ) (es : List ℝ) :
    Aligned invert (es.take ncv) (cyclicValues invert ncv es) (cyclicSources ncv es)
      ↔ (es.take ncv).Pairwise (fun x y => x = 0 → ¬ 0 < y) := by
  rw [cyclicValues_eq, cyclicSources_eq, ← zipIdx_pairwise (es.take ncv) (fun x y => x = 0 → ¬ 0 < y),
    ← filter_prefix_iff]
  generalize es.take ncv = l
  have hf : l.filter (fun s => decide (0 < s)) = (l.zipIdx.filter (fun p => decide (0 < p.1))).map Prod.fst :=
    (filter_zipIdx_fst l (fun s => decide (0 < s)) 0).symm
  rw [hf]
  unfold Aligned
  have hz : ∀ p ∈ l.zipIdx, l[p.2]? = some p.1 := by
    intro p hp
    have := List.mem_zipIdx_iff_getElem?.1 (show (p.1, p.2) ∈ l.zipIdx from hp)
    simpa using this
  set P := l.zipIdx.filter (fun p => decide (0 < p.1)) with hP
  set Q := l.zipIdx.filter (fun p => decide (¬ p.1 < 0)) with hQ
  constructor
  · -- aligned → prefix, by contradiction through the criterion
    intro hal
    have hPQ : P = Q.filter (fun p => decide (0 < p.1)) := by
      rw [hP, hQ, List.filter_filter]
      apply List.filter_congr
      intro p _
      by_cases h : 0 < p.1
      · simp [h, le_of_lt h]
      · simp [h]
    have hlen : P.length ≤ Q.length := by rw [hPQ]; exact List.length_filter_le _ _
    have hpos : ∀ p ∈ Q.take P.length, 0 < p.1 := by
      intro p hp
      obtain ⟨j, hj, rfl⟩ := List.mem_iff_getElem.1 hp
      have hjP : j < P.length := by
        have := hj; rw [List.length_take] at this; omega
      have hjQ : j < Q.length := by omega
      obtain ⟨i, s, h1, h2, h3, _⟩ := hal j (by simpa using hjP)
      rw [List.getElem_take]
      rw [List.getElem?_map, List.getElem?_eq_getElem hjQ] at h1
      have hi : Q[j].2 = i := by simpa using h1
      have := hz Q[j] (List.mem_filter.1 (List.getElem_mem hjQ)).1
      rw [hi, h2] at this
      have hs : s = Q[j].1 := by simpa using this
      rw [← hs]; exact h3
    have h1 : (Q.take P.length).filter (fun p => decide (0 < p.1)) = Q.take P.length := by
      rw [List.filter_eq_self]
      intro p hp
      simpa using hpos p hp
    have h2 : P = Q.take P.length ++ (Q.drop P.length).filter (fun p => decide (0 < p.1)) := by
      conv_lhs => rw [hPQ, ← List.take_append_drop P.length Q, List.filter_append, h1]
    have h3 : (Q.drop P.length).filter (fun p => decide (0 < p.1)) = [] := by
      have := congrArg List.length h2
      rw [List.length_append, List.length_take, min_eq_left hlen] at this
      exact List.length_eq_zero_iff.1 (by omega)
    rw [h3, List.append_nil] at h2
    rw [h2]
    exact List.take_prefix _ _
  · intro hpre j hj
    simp only [List.length_map] at hj
    have hPj : P[j]? = some P[j] := List.getElem?_eq_getElem hj
    have hQj : Q[j]? = some P[j] := by
      obtain ⟨t, ht⟩ := hpre
      rw [← ht, List.getElem?_append_left hj, hPj]
    have hmem : P[j] ∈ P := List.getElem_mem hj
    have hmem' := List.mem_filter.1 hmem
    refine ⟨P[j].2, P[j].1, ?_, hz _ hmem'.1, by simpa using hmem'.2, ?_⟩
    · rw [List.getElem?_map, hQj]; rfl
    · rw [List.getElem?_map, List.getElem?_map, hPj]; rfl


/-- C77 (part). Every positive converged eigenvalue gives one stored value, in order, and nothing else does. -/
theorem C77_values (invert : Bool) (ncv : ℕ) (es : List ℝ) : cyclicValues invert ncv es
    = ((es.take ncv).filter (fun s => 0 < s)).map (fun s => if invert then 1 / s else s) :=
  cyclicValues_eq invert ncv es

/-- C77 (part). No vector is taken from an eigenpair with negative eigenvalue, and each positive one gives a column. -/
theorem C77_vectors (ncv : ℕ) (es : List ℝ) (i : ℕ) : i ∈ cyclicSources ncv es ↔
    ∃ s, (es.take ncv)[i]? = some s ∧ 0 ≤ s := by
  rw [cyclicSources_eq, List.mem_map]
  constructor
  · rintro ⟨p, hp, rfl⟩
    obtain ⟨h1, h2⟩ := List.mem_filter.1 hp
    have := List.mem_zipIdx_iff_getElem?.1 (show (p.1, p.2) ∈ (es.take ncv).zipIdx from h1)
    exact ⟨p.1, by simpa using this, by simpa using h2⟩
  · rintro ⟨s, h1, h2⟩
    exact ⟨(s, i), List.mem_filter.2 ⟨List.mem_zipIdx_iff_getElem?.2 (by simpa using h1), by simpa using h2⟩, rfl⟩

/-- C77 is false: with converged eigenvalues 0 and 2 the value 2 is stored together with the vectors of the eigenvalue 0. -/
theorem C77_false : cyclicValues false 2 [0, 2] = [2] ∧ cyclicSources 2 [0, 2] = [0, 1] ∧
    ¬ Aligned false [0, 2] (cyclicValues false 2 [0, 2]) (cyclicSources 2 [0, 2]) := by
  refine ⟨?_, ?_, ?_⟩
  · rw [cyclicValues_eq]; norm_num
  · rw [cyclicSources_eq]; norm_num [List.zipIdx]
  · have := C77_aligned_partial false 2 [0, 2]
    simp only [List.take_succ_cons, List.take_nil, List.take_zero] at this
    rw [this]
    simp

example : ([3, -3, 1, -1, 0] : List ℝ).Pairwise (fun x y => x = 0 → ¬ 0 < y) := by norm_num

/-! ## Initial vectors -/

variable {K : Type*} [Zero K]

theorem initLoop_ok (d : InitDims) (IS ISL : List (List K)) (is : List ℕ) (out : List (List K)) :
    initLoop d IS ISL is = .ok out ↔ List.Forall₂ (fun i v => initTurn d IS ISL i = .ok v) is out := by
  induction is generalizing out with
  | nil =>
    unfold initLoop
    constructor
    · intro h; cases h; exact List.Forall₂.nil
    · intro h; cases h; rfl
  | cons i is ih =>
    unfold initLoop
    cases h1 : initTurn d IS ISL i with
    | error e =>
      constructor
      · intro h; cases h
      · intro h; cases h with | cons hh _ => rw [h1] at hh; cases hh
    | ok v =>
      cases h2 : initLoop d IS ISL is with
      | error e =>
        constructor
        · intro h; cases h
        · intro h
          cases h with
          | cons hh ht => rw [(ih _).2 ht] at h2; cases h2
      | ok vs =>
        constructor
        · intro h; cases h; exact List.Forall₂.cons h1 ((ih _).1 h2)
        · intro h
          cases h with
          | cons hh ht =>
            rw [h1] at hh; cases hh
            rw [(ih _).2 ht] at h2; cases h2; rfl

theorem initTurn_ok (d : InitDims) (IS ISL : List (List K)) (i : ℕ) (v : List K) (hk : d.k ≠ 0) :
    initTurn d IS ISL i = .ok v ↔ ∃ l r, ISL[i]? = some l ∧ IS[i]? = some r ∧ l.length = d.left ∧ r.length = d.n ∧
      v = d.upper l ++ r := by
  unfold initTurn
  cases hl : ISL[i]? with
  | none =>
    simp only [if_neg hk]
    constructor
    · intro h; cases h
    · rintro ⟨l, r, h, _⟩; cases h
  | some l =>
    dsimp only
    by_cases h1 : l.length = d.left
    · rw [if_pos h1]
      by_cases h2 : i < IS.length
      · rw [if_pos h2, List.getElem?_eq_getElem h2]
        dsimp only
        by_cases h3 : IS[i].length = d.n
        · rw [if_pos h3]
          constructor
          · intro h; cases h; exact ⟨l, _, rfl, rfl, h1, h3, rfl⟩
          · rintro ⟨l', r', h4, h5, _, _, h8⟩
            cases h4; cases h5; rw [h8]
        · rw [if_neg h3]
          constructor
          · intro h; cases h
          · rintro ⟨l', r', h4, h5, _, h7, _⟩
            cases h5; exact absurd h7 h3
      · rw [if_neg h2]
        constructor
        · intro h; cases h
        · rintro ⟨l', r', _, h5, _⟩
          rw [List.getElem?_eq_none (by omega)] at h5; cases h5
    · rw [if_neg h1]
      constructor
      · intro h; cases h
      · rintro ⟨l', r', h4, _, h6, _⟩
        cases h4; exact absurd h6 h1

/-- Specification: what the eigensolver should start from, given equally many left and right vectors: each left vector's
part for the upper block (all of it for a standard problem; of a vector `[a; b]` for a generalized problem `a` for the
largest values and `b` for the smallest ones) over the right vector. -/
def stacked {K : Type*} (generalized smallest : Bool) (pairs : List ((List K × List K) × List K)) : List (List K) :=
  pairs.map fun t => (if generalized && smallest then t.1.2 else t.1.1) ++ t.2

/-- C78 (part). With as many left as right vectors, of the right sizes, the eigensolver starts from the stacked vectors.
`t.1.1`, `t.1.2` are the two parts of a left vector (the second one empty for standard problems). (Missing for the full
statement: different numbers of left and right vectors, see `C78_right_only_false` and `C78_left_only_false`.) -/
theorem C78_equal_partial (d : InitDims) (hk : d.k ≠ 0) (pairs : List ((List K × List K) × List K))
    (hm : ∀ t ∈ pairs, t.1.1.length = d.m) (hp : ∀ t ∈ pairs, t.1.2.length = if d.generalized then d.p else 0)
    (hn : ∀ t ∈ pairs, t.2.length = d.n) :
    cyclicInit d (pairs.map fun t => t.2) (pairs.map fun t => t.1.1 ++ t.1.2)
      = .ok (stacked d.generalized d.smallest pairs) := by
  unfold cyclicInit stacked
  rw [initLoop_ok, List.length_map, List.length_map, max_self, List.forall₂_iff_get]
  refine ⟨by simp, ?_⟩
  intro i h1 h2
  have hi : i < pairs.length := by simpa using h1
  rw [initTurn_ok _ _ _ _ _ hk]
  have hmem : pairs[i] ∈ pairs := List.getElem_mem hi
  refine ⟨pairs[i].1.1 ++ pairs[i].1.2, pairs[i].2, by simp [hi], by simp [hi], ?_, hn _ hmem, ?_⟩
  · rw [List.length_append, hm _ hmem, hp _ hmem]
    unfold InitDims.left InitDims.k
    cases hg : d.generalized <;> simp
  · have e1 := hm _ hmem
    have e2 := hp _ hmem
    unfold InitDims.upper InitDims.k
    rw [List.get_eq_getElem, List.getElem_map]
    change (if (d.generalized && d.smallest) = true then pairs[i].1.2 else pairs[i].1.1) ++ pairs[i].2 = _
    generalize pairs[i] = t at *
    cases hg : d.generalized
    · rw [hg] at e2
      have e3 : t.1.2 = [] := by simpa using e2
      simp [hg, e3, ← e1]
    · rw [hg] at e2
      simp only [if_true] at e2
      cases hs : d.smallest
      · simp [hg, hs, ← e1]
      · simp [hg, hs, ← e1, ← e2]

/-- C78. Exact condition: the transfer succeeds only with as many left as right vectors. -/
theorem C78_counts (d : InitDims) (hk : d.k ≠ 0) (IS ISL : List (List K)) (out : List (List K))
    (h : cyclicInit d IS ISL = .ok out) : IS.length = ISL.length ∧ (∀ r ∈ IS, r.length = d.n) ∧
      ∀ l ∈ ISL, l.length = d.left := by
  unfold cyclicInit at h
  rw [initLoop_ok] at h
  obtain ⟨hlen, hall⟩ := List.forall₂_iff_get.1 h
  have key : ∀ i, i < max IS.length ISL.length → ∃ l r, ISL[i]? = some l ∧ IS[i]? = some r ∧ l.length = d.left ∧
      r.length = d.n := by
    intro i hi
    have h1 : i < (List.range (max IS.length ISL.length)).length := by simpa using hi
    have := hall i h1 (hlen ▸ h1)
    rw [initTurn_ok _ _ _ _ _ hk] at this
    obtain ⟨l, r, a, b, c, e, _⟩ := this
    simp only [List.get_eq_getElem, List.getElem_range] at a b
    exact ⟨l, r, a, b, c, e⟩
  refine ⟨?_, ?_, ?_⟩
  · by_contra hne
    rcases lt_or_gt_of_ne hne with hlt | hlt
    · obtain ⟨l, r, _, b, _⟩ := key IS.length (by omega)
      rw [List.getElem?_eq_none (le_refl _)] at b; cases b
    · obtain ⟨l, r, a, _⟩ := key ISL.length (by omega)
      rw [List.getElem?_eq_none (le_refl _)] at a; cases a
  · intro r hr
    obtain ⟨i, hi, rfl⟩ := List.mem_iff_getElem.1 hr
    obtain ⟨l, r, a, b, c, e⟩ := key i (by omega)
    rw [List.getElem?_eq_getElem hi] at b; cases b; exact e
  · intro l hl
    obtain ⟨i, hi, rfl⟩ := List.mem_iff_getElem.1 hl
    obtain ⟨l, r, a, b, c, e⟩ := key i (by omega)
    rw [List.getElem?_eq_getElem hi] at a; cases a; exact c

/-- C78 is false: right vectors only, of the right size: the set-up overwrites its own stack. -/
theorem C78_right_only_false (d : InitDims) (hk : d.k ≠ 0) (r : List K) (rs : List (List K)) :
    cyclicInit d (r :: rs) [] = .error .stackOverwritten := by
  unfold cyclicInit
  simp only [List.length_cons, List.length_nil, Nat.max_zero]
  rw [List.range_succ_eq_map]
  unfold initLoop initTurn
  simp [hk]

/-- C78 is false: left vectors only, of the right size: the set-up reads beyond the list of right vectors. -/
theorem C78_left_only_false (d : InitDims) (l : List K) (ls : List (List K)) (hl : l.length = d.left) :
    cyclicInit d [] (l :: ls) = .error .outOfBounds := by
  unfold cyclicInit
  simp only [List.length_cons, List.length_nil, Nat.zero_max]
  rw [List.range_succ_eq_map]
  unfold initLoop initTurn
  simp [hl]

example : cyclicInit ⟨true, true, 2, 1, 2⟩ [[(7 : ℤ), 8]] [[1, 2, 3]] = .ok [[3, 7, 8]] := by decide
example : (⟨true, true, 2, 1, 2⟩ : InitDims).k ≠ 0 := by decide

end Verif.SVD
