import Verif.DS.SortSpec
import Verif.Sort.Lemmas
/-! Auxiliary lemmas: the sort of the DS object is insertion sort on groups, from the right. -/
set_option linter.all false
namespace Verif.DS
open Verif.Sort (wr wr_mid get_mid set_mid)

section
variable {V : Type}

def rel (cmp : VCmp V) (val : List V) (b g : List Nat) : Prop :=
  ∀ p q v w, b.head? = some p → g.getLast? = some q → val[p]? = some v → val[q]? = some w →
    ¬ cmp v w < 0

theorem rel_iff {cmp : VCmp V} {val : List V} {b g : List Nat} {p q : Nat} {v w : V}
    (h1 : b.head? = some p) (h2 : g.getLast? = some q) (h3 : val[p]? = some v)
    (h4 : val[q]? = some w) : rel cmp val b g ↔ ¬ cmp v w < 0 := by
  constructor
  · intro h; exact h p q v w h1 h2 h3 h4
  · intro h p' q' v' w' a1 a2 a3 a4
    rw [h1] at a1; rw [h2] at a2
    cases a1; cases a2
    rw [h3] at a3; rw [h4] at a4
    cases a3; cases a4
    exact h

open Classical in
theorem shift_correct (cmp : VCmp V) (pr : V → Bool) (conj : V → V) (val : List V) (v : V)
    (b : List Nat) (p : Nat) (hb : b.head? = some p) (hv : val[p]? = some v)
    (pre post : List Nat) (Gr : List (List Nat)) (hG : ∀ g ∈ Gr, IsGroup pr conj val g)
    (h : List Nat) (hd : h.length = 1 ∨ h.length = 2) :
    ∃ G1 G2 h', h'.length = h.length ∧ Gr.orderedInsert (rel cmp val) b = G2 ++ b :: G1 ∧
      shift cmp pr val pre.length h.length v (pre.length + Gr.reverse.flatten.length)
        (pre ++ (Gr.reverse.flatten ++ (h ++ post))) =
      some (pre.length + G1.reverse.flatten.length,
        pre ++ (G1.reverse.flatten ++ (h' ++ (G2.reverse.flatten ++ post)))) := by
  induction Gr generalizing h post with
  | nil =>
    refine ⟨[], [], h, rfl, rfl, ?_⟩
    unfold shift
    simp
  | cons g Gr ih =>
    have hg := hG g (by simp)
    have hG' : ∀ g ∈ Gr, IsGroup pr conj val g := fun x hx => hG x (by simp [hx])
    have hlast : ∃ q w, g.getLast? = some q ∧ val[q]? = some w := by
      rcases hg with ⟨q, w, rfl, h1, h2⟩ | ⟨q1, q2, w, rfl, h1, h2, h3, h4⟩
      · exact ⟨q, w, rfl, h1⟩
      · exact ⟨q2, conj w, rfl, h2⟩
    obtain ⟨q, w, hq, hw⟩ := hlast
    have hrel := rel_iff (cmp := cmp) hb hq hv hw
    by_cases hr : rel cmp val b g
    · refine ⟨g :: Gr, [], h, rfl, by rw [List.orderedInsert, if_pos hr]; rfl, ?_⟩
      have hr' := hrel.1 hr
      unfold shift
      rcases hg with ⟨q, w', rfl, h1, h2⟩ | ⟨q1, q2, w', rfl, h1, h2, h3, h4⟩
      · simp at hq; subst hq
        have e : (pre ++ ((([q] :: Gr).reverse).flatten ++ (h ++ post)))[
            pre.length + (([q] :: Gr).reverse).flatten.length - 1]? = some q := by
          simp
        rw [dif_pos (by simp)]
        simp only [e, hw, Option.bind_eq_bind, Option.bind_some, if_neg hr']
        simp
      · simp at hq; subst hq
        have e : (pre ++ ((([q1, q2] :: Gr).reverse).flatten ++ (h ++ post)))[
            pre.length + (([q1, q2] :: Gr).reverse).flatten.length - 1]? = some q2 := by
          simp
        rw [dif_pos (by simp)]
        simp only [e, hw, Option.bind_eq_bind, Option.bind_some, if_neg hr']
        simp
    · have hr' : cmp v w < 0 := by by_contra hcon; exact hr (hrel.2 hcon)
      rcases hg with ⟨q', w', rfl, h1, h2⟩ | ⟨q1, q2, w', rfl, h1, h2, h3, h4⟩
      · simp at hq; subst hq
        rw [hw] at h1; cases h1
        have key : ∀ h1 : List Nat, h1.length = h.length → 
            (pre ++ (Gr.reverse.flatten ++ ([q'] ++ (h ++ post)))).set
              ((pre ++ Gr.reverse.flatten).length + h.length) q' =
            pre ++ (Gr.reverse.flatten ++ (h1 ++ ([q'] ++ post))) →
            ∃ G1 G2 h', h'.length = h.length ∧ ([q'] :: Gr).orderedInsert (rel cmp val) b = G2 ++ b :: G1 ∧
            shift cmp pr val pre.length h.length v (pre.length + (([q'] :: Gr).reverse).flatten.length)
              (pre ++ ((([q'] :: Gr).reverse).flatten ++ (h ++ post))) =
            some (pre.length + G1.reverse.flatten.length,
              pre ++ (G1.reverse.flatten ++ (h' ++ (G2.reverse.flatten ++ post)))) := by
          intro h1 hh1 hset
          obtain ⟨G1, G2, h', a1, a2, a3⟩ := ih ([q'] ++ post) hG' h1 (by rw [hh1]; exact hd)
          refine ⟨G1, [q'] :: G2, h', by rw [a1, hh1], by
            rw [List.orderedInsert, if_neg hr, a2]; rfl, ?_⟩
          rw [hh1] at a3
          unfold shift
          have ej : pre.length + (([q'] :: Gr).reverse).flatten.length - 1
              = (pre ++ Gr.reverse.flatten).length := by simp only [List.reverse_cons, List.flatten_append, List.length_append, List.flatten_cons, List.flatten_nil, List.append_nil, List.length_cons, List.length_nil]; omega
          have el : (pre ++ ((([q'] :: Gr).reverse).flatten ++ (h ++ post)))
              = (pre ++ (Gr.reverse.flatten ++ ([q'] ++ (h ++ post)))) := by simp
          rw [dif_pos (by simp), ej, el]
          have e0 : (pre ++ (Gr.reverse.flatten ++ ([q'] ++ (h ++ post))))[
              (pre ++ Gr.reverse.flatten).length]? = some q' := by
            rw [← List.append_assoc]; simp
          have ew : wr (pre ++ (Gr.reverse.flatten ++ ([q'] ++ (h ++ post))))
              ((pre ++ Gr.reverse.flatten).length + h.length) q'
              = some (pre ++ (Gr.reverse.flatten ++ (h1 ++ ([q'] ++ post)))) := by
            unfold wr
            rw [if_pos (by simp; omega), hset]
          have e1 : (pre ++ (Gr.reverse.flatten ++ (h1 ++ ([q'] ++ post))))[
              (pre ++ Gr.reverse.flatten).length]? = some q' := by
            rw [← hset, List.getElem?_set_ne (by rcases hd with hd | hd <;> omega), e0]
          simp only [e0, hw, Option.bind_eq_bind, Option.bind_some, if_pos hr', ew, e1, h2]
          rw [show (pre ++ Gr.reverse.flatten).length = pre.length + Gr.reverse.flatten.length from
            List.length_append]
          simp only [Bool.false_eq_true, if_false]
          rw [a3]
          simp
        rcases h with _ | ⟨x, _ | ⟨y, _ | ⟨z, t⟩⟩⟩
        · simp at hd
        · refine key [q'] rfl ?_
          rw [← List.append_assoc pre, set_mid]
          simp
        · refine key [q', x] rfl ?_
          rw [← List.append_assoc pre, set_mid]
          simp
        · simp at hd
      · simp at hq; subst hq
        rw [hw] at h2; cases h2
        have key : ∀ h1 h2 : List Nat, h1.length = h.length → 
            (pre ++ (Gr.reverse.flatten ++ ([q1, q2] ++ (h ++ post)))).set
              ((pre ++ Gr.reverse.flatten).length + (1 + h.length)) q2 = h2 →
            h2.set ((pre ++ Gr.reverse.flatten).length + h.length) q1 =
            pre ++ (Gr.reverse.flatten ++ (h1 ++ ([q1, q2] ++ post))) →
            ∃ G1 G2 h', h'.length = h.length ∧ ([q1, q2] :: Gr).orderedInsert (rel cmp val) b = G2 ++ b :: G1 ∧
            shift cmp pr val pre.length h.length v (pre.length + (([q1, q2] :: Gr).reverse).flatten.length)
              (pre ++ ((([q1, q2] :: Gr).reverse).flatten ++ (h ++ post))) =
            some (pre.length + G1.reverse.flatten.length,
              pre ++ (G1.reverse.flatten ++ (h' ++ (G2.reverse.flatten ++ post)))) := by
          intro h1 hx hh1 hset hset2
          obtain ⟨G1, G2, h', a1, a2, a3⟩ := ih ([q1, q2] ++ post) hG' h1 (by rw [hh1]; exact hd)
          refine ⟨G1, [q1, q2] :: G2, h', by rw [a1, hh1], by
            rw [List.orderedInsert, if_neg hr, a2]; rfl, ?_⟩
          rw [hh1] at a3
          unfold shift
          have ej : pre.length + (([q1, q2] :: Gr).reverse).flatten.length - 1
              = (pre ++ Gr.reverse.flatten).length + 1 := by simp; omega
          have ej2 : pre.length + (([q1, q2] :: Gr).reverse).flatten.length - 2
              = (pre ++ Gr.reverse.flatten).length := by simp; omega
          have ej3 : ¬ (pre.length + (([q1, q2] :: Gr).reverse).flatten.length < 2) := by simp; omega
          have el : (pre ++ ((([q1, q2] :: Gr).reverse).flatten ++ (h ++ post)))
              = (pre ++ (Gr.reverse.flatten ++ ([q1, q2] ++ (h ++ post)))) := by simp
          rw [dif_pos (by simp), ej, ej2, el]
          have e0 : (pre ++ (Gr.reverse.flatten ++ ([q1, q2] ++ (h ++ post))))[
              (pre ++ Gr.reverse.flatten).length + 1]? = some q2 := by
            rw [← List.append_assoc, get_mid]; simp
          have e00 : (pre ++ (Gr.reverse.flatten ++ ([q1, q2] ++ (h ++ post))))[
              (pre ++ Gr.reverse.flatten).length]? = some q1 := by
            rw [← List.append_assoc]; simp
          have ew : wr (pre ++ (Gr.reverse.flatten ++ ([q1, q2] ++ (h ++ post))))
              ((pre ++ Gr.reverse.flatten).length + 1 + h.length) q2
              = some hx := by
            unfold wr
            rw [if_pos (by simp; omega), Nat.add_assoc, hset]
          have e1 : hx[(pre ++ Gr.reverse.flatten).length + 1]? = some q2 := by
            rw [← hset, List.getElem?_set_ne (by rcases hd with hd | hd <;> omega), e0]
          have e2 : hx[(pre ++ Gr.reverse.flatten).length]? = some q1 := by
            rw [← hset, List.getElem?_set_ne (by rcases hd with hd | hd <;> omega), e00]
          have ew2 : wr hx ((pre ++ Gr.reverse.flatten).length + h.length) q1
              = some (pre ++ (Gr.reverse.flatten ++ (h1 ++ ([q1, q2] ++ post)))) := by
            unfold wr
            rw [if_pos (by rw [← hset]; simp; omega), hset2]
          simp only [e0, hw, Option.bind_eq_bind, Option.bind_some, if_pos hr', ew, e1, e2, h4, ej3, ew2]
          rw [show (pre ++ Gr.reverse.flatten).length = pre.length + Gr.reverse.flatten.length from
            List.length_append]
          simp only [if_true, if_false]
          rw [a3]
          simp
        rcases h with _ | ⟨x, _ | ⟨y, _ | ⟨z, t⟩⟩⟩
        · simp at hd
        · refine key [q1] _ rfl rfl ?_
          rw [← List.append_assoc pre, set_mid, set_mid]
          simp
        · refine key [q1, q2] _ rfl rfl ?_
          rw [← List.append_assoc pre, set_mid, set_mid]
          simp
        · simp at hd

open Classical in
theorem insertAt_correct (cmp : VCmp V) (pr : V → Bool) (conj : V → V) (val : List V)
    (b : List Nat) (hb : IsGroup pr conj val b)
    (pre post : List Nat) (Gr : List (List Nat)) (hG : ∀ g ∈ Gr, IsGroup pr conj val g) :
    insertAt cmp pr val pre.length (pre.length + Gr.reverse.flatten.length)
      (pre ++ (Gr.reverse.flatten ++ (b ++ post))) =
    some (b.length, pre ++ ((Gr.orderedInsert (rel cmp val) b).reverse.flatten ++ post)) := by
  rcases hb with ⟨p, v, rfl, h1, h2⟩ | ⟨p, q, v, rfl, h1, h2, h3, h4⟩
  · obtain ⟨G1, G2, h', a1, a2, a3⟩ := shift_correct cmp pr conj val v [p] p rfl h1 pre post Gr hG [p]
      (Or.inl rfl)
    have e0 : (pre ++ (Gr.reverse.flatten ++ ([p] ++ post)))[pre.length + Gr.reverse.flatten.length]?
        = some p := by
      rw [← List.append_assoc, ← List.length_append]; simp
    unfold insertAt
    have e1 : [p].length = 1 := rfl
    rw [e1] at a1 a3
    match h', a1 with
    | [x], _ =>
      simp only [e0, h1, Option.bind_eq_bind, Option.bind_some, h2, Bool.false_eq_true, if_false, a3]
      rw [← List.append_assoc, ← List.length_append]
      rw [show (pre ++ G1.reverse.flatten).length = (pre ++ G1.reverse.flatten).length + 0 from rfl,
        wr_mid _ _ _ _ (by simp)]
      simp only [Option.bind_some, a2]
      simp
  · obtain ⟨G1, G2, h', a1, a2, a3⟩ := shift_correct cmp pr conj val v [p, q] p rfl h1 pre post Gr hG
      [p, q] (Or.inr rfl)
    have e0 : (pre ++ (Gr.reverse.flatten ++ ([p, q] ++ post)))[pre.length + Gr.reverse.flatten.length]?
        = some p := by
      rw [← List.append_assoc, ← List.length_append]; simp
    have e00 : (pre ++ (Gr.reverse.flatten ++ ([p, q] ++ post)))[pre.length + Gr.reverse.flatten.length + 1]?
        = some q := by
      rw [← List.append_assoc, ← List.length_append, get_mid]; simp
    unfold insertAt
    have e1 : [p, q].length = 2 := rfl
    rw [e1] at a1 a3
    match h', a1 with
    | [x, y], _ =>
      simp only [e0, e00, h1, Option.bind_eq_bind, Option.bind_some, h3, if_true, a3]
      rw [← List.append_assoc, ← List.length_append]
      rw [show (pre ++ G1.reverse.flatten).length = (pre ++ G1.reverse.flatten).length + 0 from rfl,
        wr_mid _ _ _ _ (by simp)]
      simp only [Option.bind_some, a2, Nat.add_zero]
      rw [wr_mid _ _ _ _ (by simp)]
      simp

open Classical in
theorem sortLoop_correct (cmp : VCmp V) (pr : V → Bool) (conj : V → V) (val : List V)
    (pre post : List Nat) (rest : List (List Nat)) (hr : ∀ b ∈ rest, IsGroup pr conj val b)
    (Gr : List (List Nat)) (hG : ∀ g ∈ Gr, IsGroup pr conj val g) (fuel : Nat)
    (hf : rest.flatten.length ≤ fuel) :
    sortLoop cmp pr val pre.length (pre.length + (Gr.reverse.flatten.length + rest.flatten.length))
      fuel (pre.length + Gr.reverse.flatten.length)
      (pre ++ (Gr.reverse.flatten ++ (rest.flatten ++ post))) =
    some (pre ++ ((rest.foldl (fun acc b => acc.orderedInsert (rel cmp val) b) Gr).reverse.flatten
      ++ post)) := by
  induction rest generalizing Gr fuel with
  | nil => cases fuel <;> simp [sortLoop]
  | cons b rest ih =>
    have hb := hr b (by simp)
    have hbl : 1 ≤ b.length := by
      rcases hb with ⟨p, v, rfl, _⟩ | ⟨p, q, v, rfl, _⟩ <;> simp
    rw [List.flatten_cons, List.length_append] at hf ⊢
    cases fuel with
    | zero => omega
    | succ fuel =>
      have hins := insertAt_correct cmp pr conj val b hb pre (rest.flatten ++ post) Gr hG
      have hG' : ∀ g ∈ Gr.orderedInsert (rel cmp val) b, IsGroup pr conj val g := by
        intro g hg
        rw [List.mem_orderedInsert] at hg
        rcases hg with rfl | hg
        · exact hb
        · exact hG g hg
      have hlen : (Gr.orderedInsert (rel cmp val) b).reverse.flatten.length
          = Gr.reverse.flatten.length + b.length := by
        have := ((List.perm_orderedInsert (rel cmp val) b Gr).flatten).length_eq
        simp only [List.flatten_cons, List.length_append] at this
        simp only [List.length_flatten, List.map_reverse, List.sum_reverse] at this ⊢
        omega
      have := ih (fun x hx => hr x (by simp [hx])) (Gr.orderedInsert (rel cmp val) b) hG' fuel (by omega)
      rw [sortLoop, if_pos (by omega), List.append_assoc b, hins]
      simp only [Option.bind_eq_bind, Option.bind_some]
      rw [hlen] at this
      simp only [Nat.add_assoc] at this ⊢
      rw [this]
      rfl

open Classical in
theorem sort_correct (cmp : VCmp V) (pr : V → Bool) (conj : V → V) (val : List V) (test : Bool)
    (ht : test = false → ∀ v, pr v = false) (b0 : List Nat)
    (pre post : List Nat) (bs : List (List Nat)) (hr : ∀ b ∈ b0 :: bs, IsGroup pr conj val b) :
    sortEigenvalues cmp pr test val pre.length (pre.length + (b0 :: bs).flatten.length)
      (pre ++ ((b0 :: bs).flatten ++ post)) =
    some (pre ++ ((((b0 :: bs).reverse).insertionSort (rel cmp val)).reverse.flatten ++ post)) := by
  have hb0 := hr b0 (by simp)
  have hmain := sortLoop_correct cmp pr conj val pre post bs (fun b hb => hr b (by simp [hb])) [b0]
    (by intro g hg; simp at hg; subst hg; exact hb0) (pre.length + (b0 :: bs).flatten.length)
    (by simp; omega)
  have hfold : (((b0 :: bs).reverse).insertionSort (rel cmp val))
      = bs.foldl (fun acc b => acc.orderedInsert (rel cmp val) b) [b0] := by
    rw [List.insertionSort, List.foldr_reverse]
    rfl
  rw [hfold]
  rcases hb0 with ⟨p, v, rfl, h1, h2⟩ | ⟨p, q, v, rfl, h1, h2, h3, h4⟩
  · simp only [List.flatten_cons, List.reverse_cons, List.reverse_nil, List.nil_append,
      List.flatten_nil, List.append_nil, List.append_assoc, List.length_append, List.length_singleton]
      at hmain ⊢
    unfold sortEigenvalues
    cases test
    · simp only [Bool.false_eq_true, if_false]
      exact hmain
    · have e : (pre ++ ([p] ++ (bs.flatten ++ post)))[pre.length]? = some p := by simp
      simp only [if_true, e, h1, h2, Option.bind_eq_bind, Option.bind_some, Bool.false_eq_true,
        if_false]
      exact hmain
  · simp only [List.flatten_cons, List.reverse_cons, List.reverse_nil, List.nil_append,
      List.flatten_nil, List.append_nil, List.append_assoc, List.length_append] at hmain ⊢
    unfold sortEigenvalues
    cases test
    · exact absurd (ht rfl v) (by simp [h3])
    · have e : (pre ++ ([p, q] ++ (bs.flatten ++ post)))[pre.length]? = some p := by simp
      simp only [if_true, e, h1, h3, Option.bind_eq_bind, Option.bind_some]
      exact hmain

open Classical in
theorem sinkReal_correct (cmp : VCmp V) (val : List V) (v : V) (p : Nat) (hv : val[p]? = some v)
    (pre post : List Nat) (Gr : List Nat) (hG : ∀ g ∈ Gr, g < val.length) :
    sinkReal cmp val pre.length v (pre.length + Gr.length) (pre ++ (Gr.reverse ++ (p :: post))) =
    some (pre ++ ((Gr.orderedInsert (fun a b => rel cmp val [a] [b]) p).reverse ++ post)) := by
  induction Gr generalizing post with
  | nil => unfold sinkReal; simp
  | cons g Gr ih =>
    have hw : val[g]? = some (val[g]'(hG g (by simp))) := by simp
    have hrel := rel_iff (cmp := cmp) (b := [p]) (g := [g]) rfl rfl hv hw
    unfold sinkReal
    rw [dif_pos (by simp)]
    have ej : pre.length + (g :: Gr).length - 1 = (pre ++ Gr.reverse).length := by simp
    have ej2 : pre.length + (g :: Gr).length = (pre ++ Gr.reverse).length + 1 := by simp; omega
    have el : pre ++ ((g :: Gr).reverse ++ (p :: post)) = (pre ++ Gr.reverse) ++ (g :: p :: post) := by simp
    rw [ej, ej2, el]
    have e0 : ((pre ++ Gr.reverse) ++ (g :: p :: post))[(pre ++ Gr.reverse).length]? = some g := by simp
    have e1 : ((pre ++ Gr.reverse) ++ (g :: p :: post))[(pre ++ Gr.reverse).length + 1]? = some p := by
      rw [get_mid]; rfl
    have w0 : wr ((pre ++ Gr.reverse) ++ (g :: p :: post)) (pre ++ Gr.reverse).length p
        = some ((pre ++ Gr.reverse) ++ (p :: p :: post)) := by
      have := wr_mid (pre ++ Gr.reverse) (g :: p :: post) 0 p (by simp)
      simpa using this
    have w1 : wr ((pre ++ Gr.reverse) ++ (p :: p :: post)) ((pre ++ Gr.reverse).length + 1) g
        = some ((pre ++ Gr.reverse) ++ (p :: g :: post)) :=
      wr_mid (pre ++ Gr.reverse) (p :: p :: post) 1 g (by simp)
    simp only [e0, e1, w0, w1, hw, Option.bind_eq_bind, Option.bind_some]
    rw [List.orderedInsert]
    by_cases hr : rel cmp val [p] [g]
    · rw [if_pos hr, if_neg (hrel.1 hr)]
      simp
    · rw [if_neg hr, if_pos (by by_contra hcon; exact hr (hrel.2 hcon))]
      have := ih (g :: post) (fun x hx => hG x (by simp [hx]))
      rw [List.append_assoc, List.length_append, List.length_reverse, this]
      simp

open Classical in
theorem sortRealLoop_correct (cmp : VCmp V) (val : List V) (pre post : List Nat) (rest : List Nat)
    (hr : ∀ b ∈ rest, b < val.length) (Gr : List Nat) (hG : ∀ g ∈ Gr, g < val.length) :
    sortRealLoop cmp val pre.length rest.length (pre.length + Gr.length)
      (pre ++ (Gr.reverse ++ (rest ++ post))) =
    some (pre ++ ((rest.foldl (fun acc b => acc.orderedInsert (fun a b => rel cmp val [a] [b]) b) Gr).reverse
      ++ post)) := by
  induction rest generalizing Gr with
  | nil => simp [sortRealLoop]
  | cons b rest ih =>
    have hb := hr b (by simp)
    have hv : val[b]? = some val[b] := by simp
    have e0 : (pre ++ (Gr.reverse ++ (b :: rest ++ post)))[pre.length + Gr.length]? = some b := by
      rw [← List.append_assoc, ← Gr.length_reverse, ← List.length_append]; simp
    have hs := sinkReal_correct cmp val val[b] b hv pre (rest ++ post) Gr hG
    have hlen : (Gr.orderedInsert (fun a b => rel cmp val [a] [b]) b).length = Gr.length + 1 := by
      have := (List.perm_orderedInsert (fun a b => rel cmp val [a] [b]) b Gr).length_eq
      simpa using this
    have := ih (fun x hx => hr x (by simp [hx])) (Gr.orderedInsert (fun a b => rel cmp val [a] [b]) b) (by
      intro g hg
      rw [List.mem_orderedInsert] at hg
      rcases hg with rfl | hg
      · exact hb
      · exact hG g hg)
    rw [List.length_cons, sortRealLoop]
    simp only [e0, hv, Option.bind_eq_bind, Option.bind_some]
    rw [List.cons_append, hs]
    simp only [Option.bind_some]
    rw [hlen, ← Nat.add_assoc] at this
    rw [this]
    rfl

open Classical in
theorem sortReal_correct (cmp : VCmp V) (val : List V) (pre post mid : List Nat)
    (hr : ∀ b ∈ mid, b < val.length) :
    sortReal cmp val pre.length (pre.length + mid.length) (pre ++ (mid ++ post)) =
    some (pre ++ ((mid.reverse.insertionSort (fun a b => rel cmp val [a] [b])).reverse ++ post)) := by
  cases mid with
  | nil => simp [sortReal, sortRealLoop]
  | cons b mid =>
    have := sortRealLoop_correct cmp val pre post mid (fun x hx => hr x (by simp [hx])) [b] (by
      intro g hg; simp at hg; subst hg; exact hr _ (by simp))
    unfold sortReal
    rw [show pre.length + (b :: mid).length - (pre.length + 1) = mid.length by simp; omega]
    simp only [List.length_singleton, List.reverse_singleton] at this
    rw [List.cons_append]
    simp only [List.singleton_append] at this
    rw [this, List.insertionSort, List.foldr_reverse]
    rfl

end
end Verif.DS
