import Verif.MatTile.Model
import Mathlib.Algebra.BigOperators.Intervals
import Mathlib.Data.Matrix.Block
import Mathlib.Tactic

/-! C23: `MatCreateTile` builds the 2x2 block matrix, in parallel up to the renumbering that keeps
the rows and columns of each process together. -/
set_option linter.all false

namespace Verif.MatTile

open Finset

variable {K : Type} [Field K] [DecidableEq K]

/-! ### Specification -/

/-- The entry of a sparse matrix: the stored value, or zero. -/
def entry (A : Rows K) (i j : ℕ) : K := ((A i).lookup j).getD 0

/-- A sparse matrix with `M` rows and `N` columns: in every row the columns are distinct and in range. -/
def WellFormed (A : Rows K) (M N : ℕ) : Prop :=
  ∀ i < M, ((A i).map Prod.fst).Nodup ∧ ∀ e ∈ A i, e.1 < N

/-- The assembled matrix, after performing the writes on a zero matrix. -/
def assembled (l : List (Write K)) (i j : ℕ) : K := runWrites (fun _ => 0) l (i, j)

/-! ### Lemmas -/

theorem runWrites_const {κ α : Type} [DecidableEq κ] (l : List (κ × α)) (f : κ → α) (t : κ) (x : α)
    (hall : ∀ w ∈ l, w.1 = t → w.2 = x) (hex : f t = x ∨ ∃ w ∈ l, w.1 = t) :
    runWrites f l t = x := by
  induction l generalizing f with
  | nil => rcases hex with h | ⟨w, hw, _⟩
           · exact h
           · simp at hw
  | cons w l ih =>
    have hl : ∀ w ∈ l, w.1 = t → w.2 = x := fun w hw => hall w (List.mem_cons_of_mem _ hw)
    refine ih (Function.update f w.1 w.2) hl ?_
    by_cases hw : w.1 = t
    · left; subst hw; simp [hall w (by simp) rfl]
    · rcases hex with h | ⟨v, hv, hvt⟩
      · left; rw [Function.update_of_ne (fun h' => hw h'.symm), h]
      · rcases List.mem_cons.1 hv with rfl | hv
        · exact absurd hvt hw
        · right; exact ⟨v, hv, hvt⟩

theorem ptr_succ (l : ℕ → ℕ) (p : ℕ) : ptr l (p + 1) = ptr l p + l p := Finset.sum_range_succ _ _

theorem ptr_mono (l : ℕ → ℕ) {p q : ℕ} (h : p ≤ q) : ptr l p ≤ ptr l q := by
  induction q with
  | zero => simp at h; subst h; exact le_rfl
  | succ q ih =>
    rcases Nat.le_succ_iff.1 h with h | h
    · have := ih h; rw [ptr_succ]; omega
    · subst h; exact le_rfl

theorem ptr_inj (l : ℕ → ℕ) {p q i j : ℕ} (hi : i < l p) (hj : j < l q)
    (h : ptr l p + i = ptr l q + j) : p = q ∧ i = j := by
  have key : ∀ p q i j, i < l p → j < l q → ptr l p + i = ptr l q + j → ¬ p < q := by
    intro p q i j hi hj h hlt
    have := ptr_mono l (Nat.succ_le_of_lt hlt)
    rw [ptr_succ] at this
    omega
  have h1 := key p q i j hi hj h
  have h2 := key q p j i hj hi h.symm
  have h3 : p = q := by omega
  subst h3; exact ⟨rfl, by omega⟩

theorem ptr_surj (l : ℕ → ℕ) (np t : ℕ) (h : t < ptr l np) :
    ∃ p i, p < np ∧ i < l p ∧ t = ptr l p + i := by
  induction np with
  | zero => simp [ptr] at h
  | succ np ih =>
    by_cases h1 : t < ptr l np
    · obtain ⟨p, i, hp, hi, ht⟩ := ih h1
      exact ⟨p, i, by omega, hi, ht⟩
    · rw [ptr_succ] at h
      exact ⟨np, t - ptr l np, by omega, by omega, by omega⟩

theorem gptr_eq (m1 m2 : ℕ → ℕ) (p : ℕ) : gptr m1 m2 p = ptr m1 p + ptr m2 p := by
  unfold gptr ptr; rw [Finset.sum_add_distrib]

theorem map1_eq (np : ℕ) (n1 n2 : ℕ → ℕ) (p j : ℕ) (hp : p < np) (hj : j < n1 p) :
    map1 np n1 n2 (ptr n1 p + j) = gptr n1 n2 p + j := by
  rw [gptr_eq]
  refine runWrites_const _ _ _ _ ?_ (Or.inr ?_)
  · intro w hw h
    simp only [List.mem_flatMap, List.mem_range, List.mem_map, List.mem_range'_1] at hw
    obtain ⟨q, hq, i, ⟨h1, h2⟩, rfl⟩ := hw
    simp only at h ⊢
    rw [ptr_succ] at h2
    obtain ⟨rfl, _⟩ := ptr_inj n1 (p := q) (q := p) (i := i - ptr n1 q) (j := j) (by omega) hj (by omega)
    omega
  · refine ⟨(ptr n1 p + j, ptr n1 p + j + ptr n2 p), ?_, rfl⟩
    simp only [List.mem_flatMap, List.mem_range, List.mem_map, List.mem_range'_1]
    exact ⟨p, hp, ptr n1 p + j, ⟨by omega, by rw [ptr_succ]; omega⟩, rfl⟩

theorem map2_eq (np : ℕ) (n1 n2 : ℕ → ℕ) (p j : ℕ) (hp : p < np) (hj : j < n2 p) :
    map2 np n1 n2 (ptr n2 p + j) = gptr n1 n2 p + n1 p + j := by
  rw [gptr_eq]
  refine runWrites_const _ _ _ _ ?_ (Or.inr ?_)
  · intro w hw h
    simp only [List.mem_flatMap, List.mem_range, List.mem_map, List.mem_range'_1] at hw
    obtain ⟨q, hq, i, ⟨h1, h2⟩, rfl⟩ := hw
    simp only at h ⊢
    rw [ptr_succ] at h2
    obtain ⟨rfl, _⟩ := ptr_inj n2 (p := q) (q := p) (i := i - ptr n2 q) (j := j) (by omega) hj (by omega)
    rw [ptr_succ]; omega
  · refine ⟨(ptr n2 p + j, ptr n2 p + j + ptr n1 (p + 1)), ?_, rfl⟩
    simp only [List.mem_flatMap, List.mem_range, List.mem_map, List.mem_range'_1]
    exact ⟨p, hp, ptr n2 p + j, ⟨by omega, by rw [ptr_succ]; omega⟩, rfl⟩

theorem svals_eq (a v : K) : svals a v = a * v := by
  unfold svals; split_ifs with h
  · exact mul_comm _ _
  · rw [not_not.1 h, one_mul]

theorem lookup_mem {l : List (ℕ × K)} {j : ℕ} {v : K} (h : l.lookup j = some v) : (j, v) ∈ l := by
  induction l with
  | nil => simp at h
  | cons e l ih =>
    rw [List.lookup_cons] at h
    by_cases hj : j = e.1
    · subst hj; simp at h; subst h; simp
    · have : (j == e.1) = false := by simpa using hj
      rw [this] at h
      exact List.mem_cons_of_mem _ (ih h)

theorem mem_lookup {l : List (ℕ × K)} (hn : (l.map Prod.fst).Nodup) {e : ℕ × K} (h : e ∈ l) :
    l.lookup e.1 = some e.2 := by
  induction l with
  | nil => simp at h
  | cons e' l ih =>
    rw [List.map_cons, List.nodup_cons] at hn
    rw [List.lookup_cons]
    rcases List.mem_cons.1 h with rfl | h
    · simp
    · have : e.1 ≠ e'.1 := fun he => hn.1 (he ▸ List.mem_map_of_mem h)
      have h2 : (e.1 == e'.1) = false := by simpa using this
      rw [h2]; exact ih hn.2 h

theorem entry_of_mem {A : Rows K} {i : ℕ} (hn : ((A i).map Prod.fst).Nodup) {e : ℕ × K}
    (h : e ∈ A i) : entry A i e.1 = e.2 := by
  unfold entry; rw [mem_lookup hn h]; rfl

theorem mem_transfer {a : K} {A : Rows K} {start m : ℕ} {rmap cmap : ℕ → ℕ} {w : Write K} :
    w ∈ transfer a A start m rmap cmap ↔
      a ≠ 0 ∧ ∃ i < m, ∃ e ∈ A (i + start), w = ((rmap i, cmap e.1), a * e.2) := by
  unfold transfer
  split_ifs with h
  · simp only [List.mem_flatMap, List.mem_range, List.mem_map, svals_eq]
    constructor
    · rintro ⟨i, hi, e, he, rfl⟩; exact ⟨h, i, hi, e, he, rfl⟩
    · rintro ⟨_, i, hi, e, he, rfl⟩; exact ⟨i, hi, e, he, rfl⟩
  · simp [h]

/-- An entry of the assembled matrix, given that only section `A` writes to it and at that place
only from `(i,j)`. -/
theorem block_entry (l : List (Write K)) (a : K) (A : Rows K) (start m : ℕ) (rmap cmap : ℕ → ℕ)
    (i j : ℕ) (hi : i < m) (hn : ((A (i + start)).map Prod.fst).Nodup)
    (hsub : ∀ w ∈ transfer a A start m rmap cmap, w ∈ l)
    (honly : ∀ w ∈ l, w.1 = (rmap i, cmap j) →
      ∃ e ∈ A (i + start), e.1 = j ∧ w.2 = a * e.2) :
    assembled l (rmap i) (cmap j) = a * entry A (i + start) j := by
  unfold assembled
  refine runWrites_const _ _ _ _ ?_ ?_
  · intro w hw h
    obtain ⟨e, he, rfl, h2⟩ := honly w hw h
    rw [h2, entry_of_mem hn he]
  · by_cases ha : a = 0
    · left; rw [ha, zero_mul]
    · cases hl : (A (i + start)).lookup j with
      | none => left; unfold entry; rw [hl]; simp
      | some v =>
        right
        exact ⟨((rmap i, cmap j), a * v), hsub _ (mem_transfer.2
          ⟨ha, i, hi, (j, v), lookup_mem hl, rfl⟩), rfl⟩

/-! ### C23 -/

/-- C23, one process: the result is the block matrix `[aA bB; cC dD]`. -/
theorem C23_seq (M1 M2 N1 N2 : ℕ) (a b c d : K) (A B C D : Rows K) (hA : WellFormed A M1 N1)
    (hB : WellFormed B M1 N2) (hC : WellFormed C M2 N1) (hD : WellFormed D M2 N2) :
    (Matrix.of fun (i : Fin M1 ⊕ Fin M2) (j : Fin N1 ⊕ Fin N2) =>
      assembled (tileSeq M1 M2 N1 a A b B c C d D)
        (i.elim (fun i => i.val) fun i => M1 + i.val) (j.elim (fun j => j.val) fun j => N1 + j.val)) =
    Matrix.fromBlocks
      (a • Matrix.of fun (i : Fin M1) (j : Fin N1) => entry A i j)
      (b • Matrix.of fun (i : Fin M1) (j : Fin N2) => entry B i j)
      (c • Matrix.of fun (i : Fin M2) (j : Fin N1) => entry C i j)
      (d • Matrix.of fun (i : Fin M2) (j : Fin N2) => entry D i j) := by
  have hmem : ∀ w, w ∈ tileSeq M1 M2 N1 a A b B c C d D ↔
      (w ∈ transfer a A 0 M1 (fun i => i) (fun j => j) ∨
       w ∈ transfer b B 0 M1 (fun i => i) (fun j => j + N1) ∨
       w ∈ transfer c C 0 M2 (fun i => i + M1) (fun j => j) ∨
       w ∈ transfer d D 0 M2 (fun i => i + M1) (fun j => j + N1)) := by
    intro w; unfold tileSeq; simp only [List.mem_append, or_assoc]
  ext i j
  rcases i with i | i <;> rcases j with j | j
  · have := block_entry (tileSeq M1 M2 N1 a A b B c C d D) a A 0 M1 (fun i => i) (fun j => j) i j i.2
      (hA i i.2).1 (fun w hw => (hmem w).2 (Or.inl hw)) ?_
    · simpa using this
    intro w hw h
    rcases (hmem w).1 hw with h1 | h1 | h1 | h1 <;> obtain ⟨_, i', hi', e, he, rfl⟩ := mem_transfer.1 h1
    · simp only [Prod.mk.injEq] at h; obtain ⟨rfl, h⟩ := h; exact ⟨e, he, h, rfl⟩
    · simp only [Prod.mk.injEq] at h; have := j.2; omega
    · simp only [Prod.mk.injEq] at h; have := i.2; omega
    · simp only [Prod.mk.injEq] at h; have := i.2; omega
  · have := block_entry (tileSeq M1 M2 N1 a A b B c C d D) b B 0 M1 (fun i => i) (fun j => j + N1) i j
      i.2 (hB i i.2).1 (fun w hw => (hmem w).2 (Or.inr (Or.inl hw))) ?_
    · simpa [Nat.add_comm] using this
    intro w hw h
    rcases (hmem w).1 hw with h1 | h1 | h1 | h1 <;> obtain ⟨_, i', hi', e, he, rfl⟩ := mem_transfer.1 h1
    · have := (hA i' hi').2 e he; simp only [Prod.mk.injEq] at h; omega
    · simp only [Prod.mk.injEq] at h; obtain ⟨rfl, h⟩ := h; exact ⟨e, he, by omega, rfl⟩
    · simp only [Prod.mk.injEq] at h; have := i.2; omega
    · simp only [Prod.mk.injEq] at h; have := i.2; omega
  · have := block_entry (tileSeq M1 M2 N1 a A b B c C d D) c C 0 M2 (fun i => i + M1) (fun j => j) i j
      i.2 (hC i i.2).1 (fun w hw => (hmem w).2 (Or.inr (Or.inr (Or.inl hw)))) ?_
    · simpa [Nat.add_comm] using this
    intro w hw h
    rcases (hmem w).1 hw with h1 | h1 | h1 | h1 <;> obtain ⟨_, i', hi', e, he, rfl⟩ := mem_transfer.1 h1
    · simp only [Prod.mk.injEq] at h; omega
    · simp only [Prod.mk.injEq] at h; omega
    · simp only [Prod.mk.injEq] at h
      obtain ⟨h2, h⟩ := h
      have : i' = i := by omega
      subst this; exact ⟨e, he, h, rfl⟩
    · simp only [Prod.mk.injEq] at h; have := j.2; omega
  · have := block_entry (tileSeq M1 M2 N1 a A b B c C d D) d D 0 M2 (fun i => i + M1) (fun j => j + N1)
      i j i.2 (hD i i.2).1 (fun w hw => (hmem w).2 (Or.inr (Or.inr (Or.inr hw)))) ?_
    · simpa [Nat.add_comm] using this
    intro w hw h
    rcases (hmem w).1 hw with h1 | h1 | h1 | h1 <;> obtain ⟨_, i', hi', e, he, rfl⟩ := mem_transfer.1 h1
    · simp only [Prod.mk.injEq] at h; omega
    · simp only [Prod.mk.injEq] at h; omega
    · simp only [Prod.mk.injEq] at h; have := (hC i' hi').2 e he; omega
    · simp only [Prod.mk.injEq] at h
      obtain ⟨h2, h⟩ := h
      have : i' = i := by omega
      subst this; exact ⟨e, he, by omega, rfl⟩

/-- Where local index `i` of the first (`false`) or second (`true`) block row (or column) of process
`p` goes. -/
def place (l1 l2 : ℕ → ℕ) (p : ℕ) (second : Bool) (i : ℕ) : ℕ :=
  gptr l1 l2 p + if second then l1 p + i else i

/-- Number of local indices of the first or second block. -/
def cnt (l1 l2 : ℕ → ℕ) (p : ℕ) (second : Bool) : ℕ := if second then l2 p else l1 p

/-- C23, renumbering: the places form a bijection onto the indices of the result, and those of
process `p` are exactly its contiguous range. -/
theorem C23_renumbering (np : ℕ) (l1 l2 : ℕ → ℕ) :
    (∀ t, t < ptr l1 np + ptr l2 np → ∃! x : ℕ × Bool × ℕ,
      x.1 < np ∧ x.2.2 < cnt l1 l2 x.1 x.2.1 ∧ place l1 l2 x.1 x.2.1 x.2.2 = t) ∧
    (∀ p s i, i < cnt l1 l2 p s →
      gptr l1 l2 p ≤ place l1 l2 p s i ∧ place l1 l2 p s i < gptr l1 l2 (p + 1)) := by
  have hb : ∀ p s i, i < cnt l1 l2 p s → (if s then l1 p + i else i) < l1 p + l2 p := by
    intro p s i h; unfold cnt at h; cases s <;> simp at h ⊢ <;> omega
  refine ⟨?_, ?_⟩
  · intro t ht
    rw [← gptr_eq] at ht
    obtain ⟨p, u, hp, hu, rfl⟩ := ptr_surj _ np t ht
    refine ⟨(p, decide (l1 p ≤ u), if l1 p ≤ u then u - l1 p else u), ⟨hp, ?_, ?_⟩, ?_⟩
    · unfold cnt; by_cases h : l1 p ≤ u <;> simp [h] <;> omega
    · unfold place gptr; by_cases h : l1 p ≤ u <;> simp [h]
    · rintro ⟨q, s, i⟩ ⟨h1, h2, h3⟩
      simp only at h1 h2 h3
      unfold place gptr at h3
      obtain ⟨rfl, h5⟩ := ptr_inj (fun q => l1 q + l2 q) (hb q s i h2) hu h3
      subst h5
      unfold cnt at h2
      cases s
      · simp at h2 ⊢
        refine ⟨?_, ?_⟩ <;> first | omega | (intro; omega)
      · simp
  · intro p s i h
    have := hb p s i h
    unfold place gptr
    rw [ptr_succ]
    constructor <;> omega

theorem place_inj (l1 l2 : ℕ → ℕ) {p q i j : ℕ} {s s' : Bool} (hi : i < cnt l1 l2 p s)
    (hj : j < cnt l1 l2 q s') (h : place l1 l2 p s i = place l1 l2 q s' j) :
    p = q ∧ s = s' ∧ i = j := by
  have h1 : (if s then l1 p + i else i) < l1 p + l2 p := by
    unfold cnt at hi; cases s <;> simp at hi ⊢ <;> omega
  have h2 : (if s' then l1 q + j else j) < l1 q + l2 q := by
    unfold cnt at hj; cases s' <;> simp at hj ⊢ <;> omega
  unfold place gptr at h
  obtain ⟨rfl, h3⟩ := ptr_inj (fun q => l1 q + l2 q) h1 h2 h
  refine ⟨rfl, ?_⟩
  unfold cnt at hi hj
  cases s <;> cases s' <;> simp at hi hj h3 ⊢ <;> omega

/-- The four blocks as one function of the block row and block column. -/
def pick {α : Sort*} (s s' : Bool) (A B C D : α) : α :=
  if s then (if s' then D else C) else (if s' then B else A)

/-- C23, any number of processes and any distribution: up to the renumbering, the result is the
block matrix, whatever the order in which the writes of the processes arrive.  `s` and `s'` select
the block row and block column, `p` and `q` the processes that own row `i` and column `j`. -/
theorem C23_mpi (np : ℕ) (m1 m2 n1 n2 : ℕ → ℕ) (a b c d : K) (A B C D : Rows K)
    (hA : WellFormed A (ptr m1 np) (ptr n1 np)) (hB : WellFormed B (ptr m1 np) (ptr n2 np))
    (hC : WellFormed C (ptr m2 np) (ptr n1 np)) (hD : WellFormed D (ptr m2 np) (ptr n2 np))
    (l : List (Write K)) (hl : l.Perm (tileMPI np m1 m2 n1 n2 a A b B c C d D))
    (p q : ℕ) (hp : p < np) (hq : q < np) (s s' : Bool) (i j : ℕ) (hi : i < cnt m1 m2 p s)
    (hj : j < cnt n1 n2 q s') :
    assembled l (place m1 m2 p s i) (place n1 n2 q s' j) =
      pick s s' a b c d *
        entry (pick s s' A B C D) (ptr (fun p => cnt m1 m2 p s) p + i)
          (ptr (fun q => cnt n1 n2 q s') q + j) := by
  -- the writes, uniformly
  have hmem : ∀ w, w ∈ l ↔ ∃ p < np, ∃ s s' : Bool, pick s s' a b c d ≠ 0 ∧ ∃ i < cnt m1 m2 p s,
      ∃ e ∈ pick s s' A B C D (i + ptr (fun p => cnt m1 m2 p s) p),
        w = ((place m1 m2 p s i, (if s' then map2 np n1 n2 else map1 np n1 n2) e.1),
          pick s s' a b c d * e.2) := by
    intro w
    rw [hl.mem_iff]
    unfold tileMPI tileProc
    simp only [List.mem_flatMap, List.mem_range, List.mem_append]
    constructor
    · rintro ⟨p, hp, ((h | h) | h) | h⟩ <;> obtain ⟨h0, i, hi, e, he, rfl⟩ := mem_transfer.1 h
      · exact ⟨p, hp, false, false, h0, i, hi, e, he, rfl⟩
      · exact ⟨p, hp, false, true, h0, i, hi, e, he, rfl⟩
      · exact ⟨p, hp, true, false, h0, i, hi, e, he, by simp [place, pick, add_assoc]⟩
      · exact ⟨p, hp, true, true, h0, i, hi, e, he, by simp [place, pick, add_assoc]⟩
    · rintro ⟨p, hp, s, s', h0, i, hi, e, he, rfl⟩
      refine ⟨p, hp, ?_⟩
      cases s <;> cases s'
      · exact Or.inl (Or.inl (Or.inl (mem_transfer.2 ⟨h0, i, hi, e, he, rfl⟩)))
      · exact Or.inl (Or.inl (Or.inr (mem_transfer.2 ⟨h0, i, hi, e, he, rfl⟩)))
      · exact Or.inl (Or.inr (mem_transfer.2 ⟨h0, i, hi, e, he, by simp [place, pick, add_assoc]⟩))
      · exact Or.inr (mem_transfer.2 ⟨h0, i, hi, e, he, by simp [place, pick, add_assoc]⟩)
  have hcol : ∀ s' q j, q < np → j < cnt n1 n2 q s' →
      (if s' then map2 np n1 n2 else map1 np n1 n2) (ptr (fun q => cnt n1 n2 q s') q + j) =
        place n1 n2 q s' j := by
    intro s' q j hq hj
    cases s'
    · exact map1_eq np n1 n2 q j hq hj
    · simp only [if_true, place]
      rw [← add_assoc]; exact map2_eq np n1 n2 q j hq hj
  have hwf : ∀ s s', WellFormed (pick s s' A B C D) (ptr (fun p => cnt m1 m2 p s) np)
      (ptr (fun q => cnt n1 n2 q s') np) := by
    intro s s'
    cases s <;> cases s'
    · exact hA
    · exact hB
    · exact hC
    · exact hD
  have hrow : ∀ s p i, p < np → i < cnt m1 m2 p s →
      i + ptr (fun p => cnt m1 m2 p s) p < ptr (fun p => cnt m1 m2 p s) np := by
    intro s p i hp hi
    have := ptr_mono (fun p => cnt m1 m2 p s) (Nat.succ_le_of_lt hp)
    rw [ptr_succ] at this
    omega
  have hW := hwf s s' _ (hrow s p i hp hi)
  unfold assembled
  rw [add_comm (ptr (fun p => cnt m1 m2 p s) p) i]
  refine runWrites_const _ _ _ _ ?_ ?_
  · intro w hw h
    obtain ⟨p', hp', t, t', h0, i', hi', e, he, rfl⟩ := (hmem w).1 hw
    simp only [Prod.mk.injEq] at h
    obtain ⟨rfl, rfl, rfl⟩ := place_inj m1 m2 hi' hi h.1
    have hW' := hwf t t' _ (hrow t p' i' hp' hi')
    obtain ⟨q', j', hq', hj', hej⟩ := ptr_surj (fun q => cnt n1 n2 q t') np e.1 (hW'.2 e he)
    rw [hej, hcol t' q' j' hq' hj'] at h
    obtain ⟨rfl, rfl, rfl⟩ := place_inj n1 n2 hj' hj h.2
    rw [← hej, entry_of_mem hW'.1 he]
  · by_cases h0 : pick s s' a b c d = 0
    · left; rw [h0, zero_mul]
    · cases hlk : (pick s s' A B C D (i + ptr (fun p => cnt m1 m2 p s) p)).lookup
          (ptr (fun q => cnt n1 n2 q s') q + j) with
      | none => left; unfold entry; rw [hlk]; simp
      | some v =>
        right
        refine ⟨((place m1 m2 p s i, place n1 n2 q s' j), pick s s' a b c d * v),
          (hmem _).2 ⟨p, hp, s, s', h0, i, hi, _, lookup_mem hlk, ?_⟩, rfl⟩
        rw [hcol s' q j hq hj]

/-- Mismatched blocks are rejected: the checks accept exactly the blocks for which the parallel
result is defined. -/
theorem C23_checks (A B C D : Dims) : compatible A B C D = true ↔
    (B.M = A.M ∧ B.m = A.m) ∧ (D.M = C.M ∧ D.m = C.m) ∧ (C.N = A.N ∧ C.n = A.n) ∧
      (D.N = B.N ∧ D.n = B.n) := by
  unfold compatible
  simp only [Bool.and_eq_true, decide_eq_true_eq]
  tauto

/-- A non-trivial case: two processes, 2x2 blocks, `a=2`, `b=0`, `c=1`, `d=-1`. -/
example :
    let A : Rows ℚ := fun i => if i = 0 then [(0, 1), (1, 2)] else [(1, 3)]
    let D : Rows ℚ := fun i => [(i, 5)]
    let l := tileMPI 2 (fun _ => 1) (fun _ => 1) (fun _ => 1) (fun _ => 1) 2 A 0 A 1 A (-1) D
    (List.range 4).map (fun i => (List.range 4).map fun j => assembled l i j) =
      [[2, 0, 4, 0], [1, -5, 2, 0], [0, 0, 6, 0], [0, 0, 3, -5]] := by
  simp only
  decide +kernel

end Verif.MatTile
