import Verif.Sort.Spec
import Mathlib.Data.List.Sort
import Mathlib.Data.List.Induction
/-! Auxiliary lemmas: the sort refines insertion sort on groups. -/
set_option linter.all false
namespace Verif.Sort

variable {R : Type} [AddGroup R] [DecidableEq R]

theorem set_mid {α} (pre l : List α) (k : Nat) (v : α) :
    (pre ++ l).set (pre.length + k) v = pre ++ l.set k v := by
  induction pre with
  | nil => simp
  | cons a t ih => simp [Nat.add_right_comm, ih]

theorem get_mid {α} (pre l : List α) (k : Nat) :
    (pre ++ l)[pre.length + k]? = l[k]? := by
  induction pre with
  | nil => simp
  | cons a t ih => simp [Nat.add_right_comm, ih]

theorem wr_mid (pre l : List Nat) (k v : Nat) (h : k < l.length) :
    wr (pre ++ l) (pre.length + k) v = some (pre ++ l.set k v) := by
  unfold wr
  rw [if_pos (by simp; omega), set_mid]

/-- The value by which a group is ranked: its first member. -/
def key (eigr eigi : List R) (b : List Nat) : R × R := value eigr eigi (b.head?.getD 0)

/-- The relation used at group level. -/
def grel (cmp : Cmp R) (eigr eigi : List R) (a b : List Nat) : Prop :=
  Ranks cmp (key eigr eigi a) (key eigr eigi b)

instance (cmp : Cmp R) (eigr eigi : List R) : DecidableRel (grel cmp eigr eigi) := fun _ _ => by
  unfold grel Ranks; infer_instance

theorem group_single {c : Cfg} {r i : R} (h : c.cplx = true ∨ i = 0 ∨ (c.flg = true ∧ r = 0)) :
    isPair c r i = false := by
  unfold isPair
  rcases h with h | h | ⟨h1, h2⟩ <;> simp [*]

theorem group_pair {c : Cfg} {r i : R} (h0 : c.cplx = false) (h : i ≠ 0)
    (h2 : r ≠ 0 ∨ c.flg = false) : isPair c r i = true := by
  unfold isPair
  rcases h2 with h2 | h2 <;> simp [*]

theorem inner_correct (c : Cfg) (cmp : Cmp R) (eigr eigi : List R) (n : Nat) (b : List Nat)
    (hb : IsGroup c eigr eigi b) (rest : List (List Nat))
    (hr : ∀ x ∈ rest, IsGroup c eigr eigi x) (pre : List Nat)
    (hn : n = (pre ++ b ++ rest.flatten).length) :
    inner c cmp eigr eigi n (key eigr eigi b).1 (key eigr eigi b).2 (pre.length + b.length)
      (pre ++ b ++ rest.flatten) =
      some (pre ++ (rest.orderedInsert (grel cmp eigr eigi) b).flatten) := by
  induction rest generalizing pre with
  | nil =>
    unfold inner
    rw [if_neg (by simp at hn; omega)]
    simp
  | cons x rest ih =>
    have hx := hr x (by simp)
    have hr' : ∀ y ∈ rest, IsGroup c eigr eigi y := fun y hy => hr y (by simp [hy])
    have ih' := ih hr' (pre ++ x) (by
      rw [hn]; simp; omega)
    rw [List.orderedInsert]
    unfold inner
    have hlen : pre.length + b.length < n := by
      rcases hx with ⟨p, r, i, rfl, _⟩ | ⟨p, q, r, i, rfl, _⟩ <;> · rw [hn]; simp
    rw [if_pos hlen]
    have hgj : (pre ++ b ++ (x :: rest).flatten)[pre.length + b.length]? = x.head? := by
      have := get_mid (pre ++ b) ((x :: rest).flatten) 0
      simp only [List.length_append, Nat.add_zero] at this
      rw [this]
      rcases hx with ⟨p, r, i, rfl, _⟩ | ⟨p, q, r, i, rfl, _⟩ <;> simp
    rw [hgj]
    rcases hx with ⟨p, r, i, rfl, hpr, hpi, hs⟩ | ⟨p, q, r, i, rfl, hc, hpr, hqr, hpi, hqi, hi0, hs⟩
    · have hkx : key eigr eigi [p] = (r, i) := by simp [key, value, hpr, hpi]
      simp only [List.head?_cons, hpr, hpi, Option.bind_eq_bind, Option.bind_some]
      by_cases hle : grel cmp eigr eigi b [p]
      · have hle' := hle
        unfold grel Ranks at hle'
        rw [hkx] at hle'
        rw [if_pos hle', if_pos hle]
        simp
      · have hle' := hle
        unfold grel Ranks at hle'
        rw [hkx] at hle'
        rw [if_neg hle', if_neg hle]
        have hxp := group_single hs
        rcases hb with ⟨p', r', i', rfl, hpr', hpi', hs'⟩ |
          ⟨p', q', r', i', rfl, hc', hpr', hqr', hpi', hqi', hi0', hs'⟩
        · have hkb : key eigr eigi [p'] = (r', i') := by simp [key, value, hpr', hpi']
          have hbp := group_single hs'
          rw [hkb] at ih' ⊢
          have e1 : pre.length + [p'].length = pre.length + 1 := rfl
          have e0 : pre.length + 1 - 1 = pre.length + 0 := rfl
          rw [e1, e0]
          simp only [hbp, hxp, if_true, List.append_assoc, List.flatten_cons, List.cons_append, List.nil_append,
            get_mid, List.getElem?_cons_zero, Option.bind_some]
          rw [wr_mid _ _ _ _ (by simp)]
          simp only [Option.bind_some, List.set_cons_zero]
          rw [wr_mid _ _ _ _ (by simp)]
          simp only [Option.bind_some, List.set_cons_succ, List.set_cons_zero]
          simpa [Nat.add_assoc] using ih'
        · have hkb : key eigr eigi [p', q'] = (r', i') := by simp [key, value, hpr', hpi']
          have hbp := group_pair hc' hi0' hs'
          rw [hkb] at ih' ⊢
          have e2 : pre.length + [p', q'].length = pre.length + 2 := rfl
          have e1 : pre.length + 2 - 1 = pre.length + 1 := rfl
          have e0 : pre.length + 2 - 2 = pre.length + 0 := rfl
          have e3 : ¬ (pre.length + 2 < 2) := by omega
          rw [e2, e1, e0]
          simp only [hbp, hxp, e3, if_true, if_false, Bool.true_eq_false, List.append_assoc, List.flatten_cons,
            List.cons_append, List.nil_append, get_mid, List.getElem?_cons_zero, Option.bind_some]
          rw [wr_mid _ _ _ _ (by simp)]
          simp only [Option.bind_some, List.set_cons_zero, get_mid, List.getElem?_cons_zero, List.getElem?_cons_succ]
          rw [wr_mid _ _ _ _ (by simp)]
          simp only [Option.bind_some, List.set_cons_succ, List.set_cons_zero]
          rw [wr_mid _ _ _ _ (by simp)]
          simp only [Option.bind_some, List.set_cons_succ, List.set_cons_zero]
          simpa [Nat.add_assoc] using ih'
    · have hkx : key eigr eigi [p, q] = (r, i) := by simp [key, value, hpr, hpi]
      simp only [List.head?_cons, hpr, hpi, Option.bind_eq_bind, Option.bind_some]
      by_cases hle : grel cmp eigr eigi b [p, q]
      · have hle' := hle
        unfold grel Ranks at hle'
        rw [hkx] at hle'
        rw [if_pos hle', if_pos hle]
        simp
      · have hle' := hle
        unfold grel Ranks at hle'
        rw [hkx] at hle'
        have hxp := group_pair hc hi0 hs
        rw [if_neg hle', if_neg hle]
        rcases hb with ⟨p', r', i', rfl, hpr', hpi', hs'⟩ |
          ⟨p', q', r', i', rfl, hc', hpr', hqr', hpi', hqi', hi0', hs'⟩
        · have hkb : key eigr eigi [p'] = (r', i') := by simp [key, value, hpr', hpi']
          have hbp := group_single hs'
          rw [hkb] at ih' ⊢
          have e1 : pre.length + [p'].length = pre.length + 1 := rfl
          have e0 : pre.length + 1 - 1 = pre.length + 0 := rfl
          rw [e1, e0]
          simp only [hbp, hxp, if_true, if_false, Bool.true_eq_false, List.append_assoc, List.flatten_cons,
            List.cons_append, List.nil_append, get_mid, List.getElem?_cons_zero, Option.bind_some]
          rw [wr_mid _ _ _ _ (by simp)]
          simp only [Option.bind_some, List.set_cons_zero, Nat.add_assoc, get_mid, List.getElem?_cons_succ,
            List.getElem?_cons_zero, Nat.reduceAdd]
          rw [wr_mid _ _ _ _ (by simp)]
          simp only [Option.bind_some, List.set_cons_succ, List.set_cons_zero]
          rw [wr_mid _ _ _ _ (by simp)]
          simp only [Option.bind_some, List.set_cons_succ, List.set_cons_zero]
          simpa [Nat.add_assoc] using ih'
        · have hkb : key eigr eigi [p', q'] = (r', i') := by simp [key, value, hpr', hpi']
          have hbp := group_pair hc' hi0' hs'
          rw [hkb] at ih' ⊢
          have e2 : pre.length + [p', q'].length = pre.length + 2 := rfl
          have e1 : pre.length + 2 - 1 = pre.length + 1 := rfl
          have e0 : pre.length + 2 - 2 = pre.length + 0 := rfl
          have e3 : ¬ (pre.length + 2 < 2) := by omega
          rw [e2, e1, e0]
          simp only [hbp, hxp, e3, if_false, Bool.true_eq_false, List.append_assoc, List.flatten_cons,
            List.cons_append, List.nil_append, get_mid, List.getElem?_cons_zero, Option.bind_some]
          rw [wr_mid _ _ _ _ (by simp)]
          simp only [Option.bind_some, List.set_cons_zero]
          rw [wr_mid _ _ _ _ (by simp)]
          simp only [Option.bind_some, List.set_cons_succ, List.set_cons_zero, Nat.add_assoc, get_mid,
            List.getElem?_cons_succ, List.getElem?_cons_zero, Nat.reduceAdd]
          rw [wr_mid _ _ _ _ (by simp)]
          simp only [Option.bind_some, List.set_cons_succ, List.set_cons_zero]
          rw [wr_mid _ _ _ _ (by simp)]
          simp only [Option.bind_some, List.set_cons_succ, List.set_cons_zero]
          simpa [Nat.add_assoc] using ih'

omit [DecidableEq R] in
theorem groups_insert {c : Cfg} {cmp : Cmp R} {eigr eigi : List R} {b : List Nat}
    {rest : List (List Nat)} (hb : IsGroup c eigr eigi b)
    (hr : ∀ x ∈ rest, IsGroup c eigr eigi x) :
    ∀ x ∈ rest.orderedInsert (grel cmp eigr eigi) b, IsGroup c eigr eigi x := by
  intro x hx
  rw [List.mem_orderedInsert] at hx
  rcases hx with rfl | hx
  · exact hb
  · exact hr x hx

theorem outer_correct (c : Cfg) (cmp : Cmp R) (eigr eigi : List R) (n : Nat)
    (front : List (List Nat)) (hf : ∀ x ∈ front, IsGroup c eigr eigi x) (rest : List (List Nat))
    (hr : ∀ x ∈ rest, IsGroup c eigr eigi x)
    (hn : n = (front.flatten ++ rest.flatten).length) :
    outer c cmp eigr eigi n front.flatten.length (front.flatten ++ rest.flatten) =
      some (front.foldr (fun b l => l.orderedInsert (grel cmp eigr eigi) b) rest).flatten := by
  induction front using List.reverseRecOn generalizing rest with
  | nil => simp [outer]
  | append_singleton front b ih =>
    have hb : IsGroup c eigr eigi b := hf b (by simp)
    have hf' : ∀ x ∈ front, IsGroup c eigr eigi x := fun x hx => hf x (by simp [hx])
    have hperm : (rest.orderedInsert (grel cmp eigr eigi) b).flatten.length
        = b.length + rest.flatten.length := by
      have := ((List.perm_orderedInsert (grel cmp eigr eigi) b rest).flatten).length_eq
      simpa using this
    have ih' := ih hf' (rest.orderedInsert (grel cmp eigr eigi) b) (groups_insert hb hr) (by
      rw [List.length_append, hperm, hn]; simp)
    have hin := inner_correct c cmp eigr eigi n b hb rest hr front.flatten (by
      rw [hn]; simp)
    simp only [List.flatten_append, List.flatten_cons, List.flatten_nil, List.append_nil,
      List.foldr_append, List.foldr_cons, List.foldr_nil, List.length_append]
    rcases hb with ⟨p, r, i, rfl, hpr, hpi, hs⟩ | ⟨p, q, r, i, rfl, hc, hpr, hqr, hpi, hqi, hi0, hs⟩
    · have hkb : key eigr eigi [p] = (r, i) := by simp [key, value, hpr, hpi]
      rw [hkb] at hin
      have e1 : front.flatten.length + [p].length = front.flatten.length + 1 := rfl
      rw [e1] at hin ⊢
      rw [outer]
      have hg : (front.flatten ++ [p] ++ rest.flatten)[front.flatten.length]? = some p := by
        simp
      simp only [hg, hpr, hpi, Option.bind_eq_bind, Option.bind_some, group_single hs, hin]
      exact ih'
    · have hkb : key eigr eigi [p, q] = (r, i) := by simp [key, value, hpr, hpi]
      rw [hkb] at hin
      have e1 : front.flatten.length + [p, q].length = front.flatten.length + 1 + 1 := rfl
      rw [e1] at hin ⊢
      rw [outer]
      have hg : (front.flatten ++ [p, q] ++ rest.flatten)[front.flatten.length + 1]? = some q := by
        rw [List.append_assoc, get_mid]; simp
      have hg0 : (front.flatten ++ [p, q] ++ rest.flatten)[front.flatten.length]? = some p := by
        simp
      have hpq : isPair c r (-i) = true := group_pair hc (by simpa using hi0) hs
      simp only [hg, hg0, hqr, hqi, hpi, Option.bind_eq_bind, Option.bind_some, hpq, if_true, hin]
      exact ih'

theorem sort_correct (c : Cfg) (cmp : Cmp R) (eigr eigi : List R)
    (bs : List (List Nat)) (hf : ∀ x ∈ bs, IsGroup c eigr eigi x) :
    sortEigenvalues c cmp bs.flatten.length eigr eigi bs.flatten =
      some (bs.insertionSort (grel cmp eigr eigi)).flatten := by
  have := outer_correct c cmp eigr eigi bs.flatten.length bs hf [] (by simp) (by simp)
  simpa [sortEigenvalues, List.insertionSort] using this

theorem filter_orderedInsert {α : Type} (r : α → α → Prop) [DecidableRel r] (P : α → Bool)
    (hP : ∀ a b, P a = true → P b = true → r a b) (a : α) (l : List α) :
    (l.orderedInsert r a).filter P = (a :: l).filter P := by
  induction l with
  | nil => simp
  | cons b l ih =>
    rw [List.orderedInsert]
    split
    · rfl
    · rename_i h
      by_cases ha : P a = true <;> by_cases hb : P b = true
      · exact absurd (hP a b ha hb) h
      · simp [List.filter_cons, ha, hb] at ih ⊢; exact ih
      · simp [List.filter_cons, ha, hb] at ih ⊢; exact ih
      · simp [List.filter_cons, ha, hb] at ih ⊢; exact ih

theorem filter_insertionSort {α : Type} (r : α → α → Prop) [DecidableRel r] (P : α → Bool)
    (hP : ∀ a b, P a = true → P b = true → r a b) (l : List α) :
    (l.insertionSort r).filter P = l.filter P := by
  induction l with
  | nil => rfl
  | cons a l ih =>
    rw [List.insertionSort_cons, filter_orderedInsert r P hP]
    by_cases ha : P a = true <;> simp [List.filter_cons, ha, ih]

theorem filter_flatten_uniform {α : Type} (P : α → Bool) (Q : List α → Bool) (bs : List (List α))
    (h : ∀ b ∈ bs, ∀ x ∈ b, P x = Q b) : bs.flatten.filter P = (bs.filter Q).flatten := by
  induction bs with
  | nil => rfl
  | cons b bs ih =>
    have hb : b.filter P = if Q b then b else [] := by
      split
      · rename_i hq
        rw [List.filter_eq_self]; intro x hx; rw [h b (by simp) x hx, hq]
      · rename_i hq
        rw [List.filter_eq_nil_iff]; intro x hx; rw [h b (by simp) x hx]; exact hq
    rw [List.flatten_cons, List.filter_append, hb, ih (fun b hb => h b (by simp [hb]))]
    by_cases hq : Q b = true <;> simp [List.filter_cons, hq]

/-- Every member of a group ranks like the group's key. -/
theorem group_member {c : Cfg} {cmp : Cmp R} {eigr eigi : List R} {b : List Nat}
    (hc : Consistent cmp) (hconj : c.cplx = false → ConjInvariant cmp)
    (hb : IsGroup c eigr eigi b) {p : Nat} (hp : p ∈ b) :
    Ranks cmp (value eigr eigi p) (key eigr eigi b) ∧
      Ranks cmp (key eigr eigi b) (value eigr eigi p) := by
  have hrefl : ∀ a, Ranks cmp a a := fun a => by have := hc.total a a; tauto
  rcases hb with ⟨p', r, i, rfl, hpr, hpi, hs⟩ | ⟨p', q', r, i, rfl, hcx, hpr, hqr, hpi, hqi, hi0, hs⟩
  · simp at hp; subst hp; simp [key, hrefl]
  · simp at hp
    rcases hp with rfl | rfl
    · simp [key, hrefl]
    · have := hconj hcx r i
      simp only [key, value, hpr, hqr, hpi, hqi, List.head?_cons, Option.getD_some]
      exact ⟨this.2, this.1⟩

end Verif.Sort
