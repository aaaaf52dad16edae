import Verif.FN.HeapModel

/-!
# FNDuplicate (C21)
-/

set_option linter.all false
noncomputable section
open Classical

namespace Verif.FN

variable {K : Type} [Field K]

/-- Handles stored in existing objects refer to existing objects. -/
def Heap.WF (s : Heap K) : Prop :=
  ∀ a < s.next, ∀ h c f1 f2, s.obj a = .combine h c f1 f2 →
    (∀ b, f1 = some b → b < s.next) ∧ (∀ b, f2 = some b → b < s.next)

theorem copyHeader_eq {h h' : Header K} (e : copyHeader h = some h') : h' = h := by
  simp only [copyHeader, setScale, setMethod, Option.bind_eq_some_iff] at e
  obtain ⟨h1, e1, h2, e2, e3⟩ := e
  split_ifs at e1 with c1
  split_ifs at e2 with c2
  rw [← Option.some.inj e3, ← Option.some.inj e2, ← Option.some.inj e1]

/-- `dup` only adds objects. -/
theorem dup_frame (n : ℕ) : ∀ {s s' : Heap K} {a b : ℕ}, dup n s a = some (s', b) →
    b = s.next ∧ s.next < s'.next ∧ ∀ x < s.next, s'.obj x = s.obj x := by
  induction n with
  | zero => intro s s' a b h; simp [dup] at h
  | succ n ih =>
    intro s s' a b h
    rw [dup] at h
    split_ifs at h with h0
    split at h
    · cases h
    · rename_i hh t ho
      simp only [create, Option.bind_eq_some_iff] at h
      obtain ⟨h', _, e⟩ := h
      obtain ⟨rfl, rfl⟩ := Prod.mk.inj (Option.some.inj e)
      refine ⟨rfl, by simp [Heap.set], ?_⟩
      intro x hx
      simp [Heap.set, Nat.ne_of_lt hx]
    · rename_i hh c a1 a2 ho
      simp only [create, Option.bind_eq_some_iff] at h
      obtain ⟨h', _, ⟨s2, b1⟩, e2, ⟨s3, b2⟩, e3, e⟩ := h
      obtain ⟨rfl, rfl⟩ := Prod.mk.inj (Option.some.inj e)
      obtain ⟨_, l2, k2⟩ := ih e2
      obtain ⟨_, l3, k3⟩ := ih e3
      simp only [Heap.set] at l2 k2 l3 k3
      refine ⟨rfl, by simp only [Heap.set]; omega, ?_⟩
      intro x hx
      have hx' := Nat.ne_of_lt hx
      simp only [Heap.set, if_neg hx']
      rw [k3 x (by omega), if_neg hx', k2 x (by omega), if_neg hx', if_neg hx']
    · cases h

/-- The tree of a handle only depends on the objects below `m` when handles below `m` only refer to
handles below `m`. -/
theorem toTree_congr (n : ℕ) : ∀ {s s' : Heap K} {m : ℕ}, m ≤ s.next → m ≤ s'.next →
    (∀ x < m, s'.obj x = s.obj x) →
    (∀ x < m, ∀ h c f1 f2, s.obj x = .combine h c f1 f2 →
      (∀ b, f1 = some b → b < m) ∧ (∀ b, f2 = some b → b < m)) →
    ∀ a < m, toTree n s' a = toTree n s a := by
  induction n with
  | zero => intros; rfl
  | succ n ih =>
    intro s s' m h1 h2 h3 h4 a ha
    rw [toTree, toTree, if_neg (by omega), if_neg (by omega), h3 a ha]
    cases ho : s.obj a with
    | untyped h => rfl
    | leaf h t => rfl
    | combine h c f1 f2 =>
      cases f1 with
      | none => rfl
      | some a1 => cases f2 with
        | none => rfl
        | some a2 =>
          have hb := h4 a ha h c _ _ ho
          simp only []
          rw [ih h1 h2 h3 h4 a1 (hb.1 a1 rfl), ih h1 h2 h3 h4 a2 (hb.2 a2 rfl)]

/-- Same with two sides: the copy made of handles in `[lo, hi)`. -/
theorem toTree_congr_range (n : ℕ) : ∀ {s s' : Heap K} {lo hi : ℕ}, hi ≤ s.next → hi ≤ s'.next →
    (∀ x, lo ≤ x → x < hi → s'.obj x = s.obj x) →
    (∀ x, lo ≤ x → x < hi → ∀ h c f1 f2, s.obj x = .combine h c f1 f2 →
      (∀ b, f1 = some b → lo ≤ b ∧ b < hi) ∧ (∀ b, f2 = some b → lo ≤ b ∧ b < hi)) →
    ∀ a, lo ≤ a → a < hi → toTree n s' a = toTree n s a := by
  induction n with
  | zero => intros; rfl
  | succ n ih =>
    intro s s' lo hi h1 h2 h3 h4 a ha ha'
    rw [toTree, toTree, if_neg (by omega), if_neg (by omega), h3 a ha ha']
    cases ho : s.obj a with
    | untyped h => rfl
    | leaf h t => rfl
    | combine h c f1 f2 =>
      cases f1 with
      | none => rfl
      | some a1 => cases f2 with
        | none => rfl
        | some a2 =>
          have hb := h4 a ha ha' h c _ _ ho
          simp only []
          rw [ih h1 h2 h3 h4 a1 (hb.1 a1 rfl).1 (hb.1 a1 rfl).2,
            ih h1 h2 h3 h4 a2 (hb.2 a2 rfl).1 (hb.2 a2 rfl).2]

/-- Objects of the copy refer only to objects of the copy. -/
theorem dup_closed (n : ℕ) : ∀ {s s' : Heap K} {a b : ℕ}, dup n s a = some (s', b) →
    ∀ x, s.next ≤ x → x < s'.next → ∀ h c f1 f2, s'.obj x = .combine h c f1 f2 →
      (∀ y, f1 = some y → s.next ≤ y ∧ y < s'.next) ∧
      (∀ y, f2 = some y → s.next ≤ y ∧ y < s'.next) := by
  induction n with
  | zero => intro s s' a b h; simp [dup] at h
  | succ n ih =>
    intro s s' a b h
    rw [dup] at h
    split_ifs at h with h0
    split at h
    · cases h
    · rename_i hh t ho
      simp only [create, Option.bind_eq_some_iff] at h
      obtain ⟨h', _, e⟩ := h
      obtain ⟨rfl, rfl⟩ := Prod.mk.inj (Option.some.inj e)
      intro x h1 h2 hd c f1 f2 hx
      simp only [Heap.set] at h2 hx
      have : x = s.next := by omega
      rw [if_pos this] at hx
      cases hx
    · rename_i hh c a1 a2 ho
      simp only [create, Option.bind_eq_some_iff] at h
      obtain ⟨h', _, ⟨s2, b1⟩, e2, ⟨s3, b2⟩, e3, e⟩ := h
      obtain ⟨rfl, rfl⟩ := Prod.mk.inj (Option.some.inj e)
      obtain ⟨eb1, l2, k2⟩ := dup_frame n e2
      obtain ⟨eb2, l3, k3⟩ := dup_frame n e3
      have c2 := ih e2
      have c3 := ih e3
      simp only [Heap.set] at l2 k2 l3 k3 c2 c3 eb1 eb2
      intro x h1 h2 hd c' f1 f2 hx
      simp only [Heap.set] at h2 hx ⊢
      by_cases hxn : x = s.next
      · rw [if_pos hxn] at hx
        cases hx
        constructor
        · intro y hy; cases hy; omega
        · intro y hy; cases hy; omega
      · rw [if_neg hxn] at hx
        by_cases hx2 : x < s2.next
        · rw [k3 x hx2, if_neg hxn] at hx
          have := c2 x (by omega) hx2 hd c' f1 f2 hx
          constructor
          · intro y hy; have := this.1 y hy; omega
          · intro y hy; have := this.2 y hy; omega
        · have := c3 x (by omega) h2 hd c' f1 f2 hx
          constructor
          · intro y hy; have := this.1 y hy; omega
          · intro y hy; have := this.2 y hy; omega
    · cases h

/-- C21, first half: in any store, FNDuplicate gives a new handle that evaluates like the original,
and the original is unchanged.  (`n` bounds the depth of the objects.) -/
theorem C21_equal (n : ℕ) {s s' : Heap K} {a b : ℕ} (hwf : s.WF) (h : dup n s a = some (s', b)) :
    s.next ≤ b ∧ b < s'.next ∧ ∃ f, toTree n s a = some f ∧ toTree n s' a = some f ∧
      toTree n s' b = some f := by
  induction n generalizing s s' a b with
  | zero => simp [dup] at h
  | succ n ih =>
    have hfr := dup_frame (n + 1) h
    have hcl := dup_closed (n + 1) h
    rw [dup] at h
    split_ifs at h with h0
    have hold : toTree (n + 1) s' a = toTree (n + 1) s a :=
      toTree_congr (n + 1) (m := s.next) le_rfl hfr.2.1.le hfr.2.2 hwf a h0
    rw [hold]
    refine ⟨hfr.1.ge, hfr.1 ▸ hfr.2.1, ?_⟩
    split at h
    · cases h
    · rename_i hh t ho
      simp only [create, Option.bind_eq_some_iff] at h
      obtain ⟨h', hc, e⟩ := h
      obtain ⟨rfl, rfl⟩ := Prod.mk.inj (Option.some.inj e)
      have := copyHeader_eq hc
      subst this
      refine ⟨.leaf h' t, ?_, ?_, ?_⟩
      · rw [toTree, if_neg (not_not.2 h0), ho]
      · rw [toTree, if_neg (not_not.2 h0), ho]
      · rw [toTree, if_neg (by simp [Heap.set])]
        simp [Heap.set]
    · rename_i hh c a1 a2 ho
      simp only [create, Option.bind_eq_some_iff] at h
      obtain ⟨h', hc, ⟨s2, b1⟩, e2, ⟨s3, b2⟩, e3, e⟩ := h
      obtain ⟨rfl, rfl⟩ := Prod.mk.inj (Option.some.inj e)
      have := copyHeader_eq hc
      subst this
      have hb := hwf a h0 _ _ _ _ ho
      have ha1 := hb.1 a1 rfl
      have ha2 := hb.2 a2 rfl
      obtain ⟨eb1, l2, k2⟩ := dup_frame n e2
      obtain ⟨eb2, l3, k3⟩ := dup_frame n e3
      simp only [Heap.set] at l2 k2 l3 k3 eb1 eb2
      -- the intermediate stores are well formed
      have wf1 : (Heap.set ⟨s.next + 1, fun b => if b = s.next then .untyped defaultHeader
          else s.obj b⟩ s.next (.combine h' c none none) : Heap K).WF := by
        intro x hx hd c' f1 f2 hxo
        simp only [Heap.set] at hx hxo ⊢
        by_cases hxn : x = s.next
        · rw [if_pos hxn] at hxo; cases hxo
          constructor <;> (intro _ h; cases h)
        · rw [if_neg hxn, if_neg hxn] at hxo
          have := hwf x (by omega) hd c' f1 f2 hxo
          exact ⟨fun y hy => by have := this.1 y hy; omega, fun y hy => by have := this.2 y hy; omega⟩
      obtain ⟨q1, q2, f1, t1, _, t2⟩ := ih wf1 e2
      have c2 := dup_closed n e2
      simp only [Heap.set] at q1 c2
      have wf2 : (Heap.set s2 s.next (.combine h' c (some b1) none)).WF := by
        intro x hx hd c' g1 g2 hxo
        simp only [Heap.set] at hx hxo ⊢
        by_cases hxn : x = s.next
        · rw [if_pos hxn] at hxo; cases hxo
          constructor
          · intro y h; cases h; exact q2
          · intro y h; cases h
        · rw [if_neg hxn] at hxo
          by_cases hx1 : x < s.next + 1
          · rw [k2 x hx1, if_neg hxn, if_neg hxn] at hxo
            have := hwf x (by omega) hd c' g1 g2 hxo
            exact ⟨fun y hy => by have := this.1 y hy; omega,
              fun y hy => by have := this.2 y hy; omega⟩
          · have := c2 x (by omega) hx hd c' g1 g2 hxo
            exact ⟨fun y hy => by have := this.1 y hy; omega,
              fun y hy => by have := this.2 y hy; omega⟩
      obtain ⟨r1, r2, f2, t3, _, t4⟩ := ih wf2 e3
      have c3 := dup_closed n e3
      simp only [Heap.set] at r1 c3
      -- trees of the children in the original store
      have o1 : toTree n s a1 = some f1 := by
        rw [← t1]
        symm
        apply toTree_congr n (m := s.next) le_rfl (by simp [Heap.set]) _ hwf a1 ha1
        intro x hx
        have hx' := Nat.ne_of_lt hx
        simp [Heap.set, hx']
      have o2 : toTree n s a2 = some f2 := by
        rw [← t3]
        symm
        apply toTree_congr n (m := s.next) le_rfl (by simp only [Heap.set]; omega) _ hwf a2 ha2
        intro x hx
        have hx' := Nat.ne_of_lt hx
        simp only [Heap.set, if_neg hx']
        rw [k2 x (by omega), if_neg hx', if_neg hx']
      have ot : toTree (n + 1) s a = some (.combine h' c f1 f2) := by
        rw [toTree, if_neg (not_not.2 h0), ho]
        simp [o1, o2]
      refine ⟨_, ot, ot, ?_⟩
      -- trees of the copies in the final store
      have p1 : toTree n (s3.set s.next (.combine h' c (some b1) (some b2))) b1 = some f1 := by
        rw [← t2]
        apply toTree_congr_range n (lo := s.next + 1) (hi := s2.next) le_rfl
          (by simp only [Heap.set]; omega) _ c2 b1 (by omega) q2
        intro x hx hx2
        have hx' : x ≠ s.next := by omega
        simp only [Heap.set, if_neg hx']
        rw [k3 x hx2, if_neg hx']
      have p2 : toTree n (s3.set s.next (.combine h' c (some b1) (some b2))) b2 = some f2 := by
        rw [← t4]
        apply toTree_congr_range n (lo := s2.next) (hi := s3.next) le_rfl
          (by simp only [Heap.set]; omega) _ c3 b2 (by omega) r2
        intro x hx hx2
        have hx' : x ≠ s.next := by omega
        simp only [Heap.set, if_neg hx']
      rw [toTree, if_neg (by simp only [Heap.set]; omega)]
      simp only [Heap.set, if_true]
      have p1' := p1
      have p2' := p2
      simp only [Heap.set] at p1' p2'
      rw [p1', p2']
      rfl
    · cases h

theorem op_frame (s : Heap K) (o : Op K) : s.next ≤ (o.run s).next ∧
    ∀ x < s.next, o.target ≠ some x → (o.run s).obj x = s.obj x := by
  cases o with
  | create =>
    simp only [Op.run, Verif.FN.create]
    exact ⟨by omega, fun x hx _ => if_neg (by omega)⟩
  | setScale a al be =>
    simp only [Op.run, Op.target]
    split
    · exact ⟨le_rfl, fun x hx h => by simp only [Heap.set]; exact if_neg fun e => h (by rw [e])⟩
    · exact ⟨le_rfl, fun x hx h => rfl⟩
  | setMethod a m =>
    simp only [Op.run, Op.target]
    split
    · exact ⟨le_rfl, fun x hx h => by simp only [Heap.set]; exact if_neg fun e => h (by rw [e])⟩
    · exact ⟨le_rfl, fun x hx h => rfl⟩
  | setParallel a m =>
    simp only [Op.run, Op.target]
    exact ⟨le_rfl, fun x hx h => by simp only [Heap.set]; exact if_neg fun e => h (by rw [e])⟩
  | setData a t =>
    simp only [Op.run, Op.target]
    exact ⟨le_rfl, fun x hx h => by simp only [Heap.set]; exact if_neg fun e => h (by rw [e])⟩
  | setCombine a c f1 f2 =>
    simp only [Op.run, Op.target]
    exact ⟨le_rfl, fun x hx h => by simp only [Heap.set]; exact if_neg fun e => h (by rw [e])⟩
  | duplicate n a =>
    simp only [Op.run, Op.target]
    split
    · rename_i s' b e
      have := dup_frame n e
      exact ⟨this.2.1.le, fun x hx _ => this.2.2 x hx⟩
    · exact ⟨le_rfl, fun x hx h => rfl⟩

theorem ops_frame (ops : List (Op K)) : ∀ (s : Heap K),
    s.next ≤ (ops.foldl Op.run s).next ∧
    ∀ x < s.next, (∀ o ∈ ops, o.target ≠ some x) → (ops.foldl Op.run s).obj x = s.obj x := by
  induction ops with
  | nil => intro s; exact ⟨le_rfl, fun _ _ _ => rfl⟩
  | cons o os ih =>
    intro s
    obtain ⟨l1, k1⟩ := op_frame s o
    obtain ⟨l2, k2⟩ := ih (o.run s)
    refine ⟨l1.trans l2, ?_⟩
    intro x hx ht
    rw [List.foldl_cons, k2 x (by omega) (fun o' ho' => ht o' (List.mem_cons_of_mem _ ho')),
      k1 x hx (ht o (List.mem_cons_self ..))]

/-- C21, second half: after FNDuplicate, no later history of calls changes the copy as long as the
calls are not applied to objects of the copy (those created by FNDuplicate), and none changes the
original as long as the calls are not applied to objects that existed before.  Calls include setters
of all kinds, creating objects and duplicating. -/
theorem C21_independent (n : ℕ) {s s' : Heap K} {a b : ℕ} (hwf : s.WF)
    (h : dup n s a = some (s', b)) (ops : List (Op K)) :
    ((∀ o ∈ ops, ∀ x, o.target = some x → ¬ (s.next ≤ x ∧ x < s'.next)) →
      ∀ m, toTree m (ops.foldl Op.run s') b = toTree m s' b) ∧
    ((∀ o ∈ ops, ∀ x, o.target = some x → ¬ x < s.next) →
      ∀ m, toTree m (ops.foldl Op.run s') a = toTree m s' a) := by
  have hfr := dup_frame n h
  have hcl := dup_closed n h
  obtain ⟨l, k⟩ := ops_frame ops s'
  constructor
  · intro ht m
    apply toTree_congr_range m (lo := s.next) (hi := s'.next) le_rfl l _ hcl b hfr.1.ge
      (hfr.1 ▸ hfr.2.1)
    intro x hx hx2
    exact k x hx2 fun o ho e => ht o ho x e ⟨hx, hx2⟩
  · intro ht m
    have ha : a < s.next := by
      cases n with
      | zero => simp [dup] at h
      | succ n => rw [dup] at h; split_ifs at h with h0; exact h0
    apply toTree_congr m (m := s.next) hfr.2.1.le (hfr.2.1.le.trans l) _ _ a ha
    · intro x hx
      exact k x (by omega) fun o ho e => ht o ho x e hx
    · intro x hx hd c f1 f2 hxo
      rw [hfr.2.2 x hx] at hxo
      exact hwf x hx hd c f1 f2 hxo

/-- C21, evaluation: the copy evaluates like the original, for values and derivatives. -/
theorem C21_eval (P : Prim K) (n : ℕ) {s s' : Heap K} {a b : ℕ} (hwf : s.WF)
    (h : dup n s a = some (s', b)) (x : K) :
    ((toTree n s' b).bind fun f => eval P f x) = ((toTree n s a).bind fun f => eval P f x) ∧
    ((toTree n s' b).bind fun f => deriv P f x) = ((toTree n s a).bind fun f => deriv P f x) := by
  obtain ⟨_, _, f, h1, _, h3⟩ := C21_equal n hwf h
  rw [h1, h3]
  exact ⟨rfl, rfl⟩

/-- FNDuplicate succeeds on every complete object: one that represents a function and whose headers
went through the setters' checks. -/
theorem C21_total (n : ℕ) : ∀ {s : Heap K} {a : ℕ} {f : Fn K}, s.WF → toTree n s a = some f →
    (∀ x < s.next, (s.obj x).header.alpha ≠ 0 ∧ (s.obj x).header.beta ≠ 0 ∧
      (s.obj x).header.method ≤ maxSolve) → ∃ s' b, dup n s a = some (s', b) := by
  induction n with
  | zero => intro s a f _ h; simp [toTree] at h
  | succ n ih =>
    intro s a f hwf ht hh
    have hcopy : ∀ x < s.next, copyHeader (s.obj x).header = some (s.obj x).header := by
      intro x hx
      obtain ⟨h1, h2, h3⟩ := hh x hx
      simp [copyHeader, setScale, setMethod, h1, h2, h3]
    rw [toTree] at ht
    split_ifs at ht with h0
    rw [dup, if_neg (not_not.2 h0)]
    have hc := hcopy a h0
    split at ht
    · cases ht
    · rename_i hd t ho
      rw [ho] at hc
      simp only [Obj.header] at hc
      simp [ho, hc]
    · rename_i hd c a1 a2 ho
      rw [ho] at hc
      simp only [Obj.header] at hc
      simp only [Option.bind_eq_some_iff] at ht
      obtain ⟨f1, t1, f2, t2, _⟩ := ht
      have hb := hwf a h0 _ _ _ _ ho
      have ha1 := hb.1 a1 rfl
      have ha2 := hb.2 a2 rfl
      simp only [ho, hc, create, Option.bind_some]
      set s1 : Heap K := Heap.set ⟨s.next + 1, fun b => if b = s.next then .untyped defaultHeader
          else s.obj b⟩ s.next (.combine hd c none none) with hs1
      have hs1n : s1.next = s.next + 1 := rfl
      have hs1o : ∀ x < s.next, s1.obj x = s.obj x := by
        intro x hx; simp [hs1, Heap.set, Nat.ne_of_lt hx]
      have hs1l : s1.obj s.next = .combine hd c none none := by simp [hs1, Heap.set]
      have wf1 : s1.WF := by
        intro x hx hd' c' g1 g2 hxo
        by_cases hxn : x = s.next
        · rw [hxn, hs1l] at hxo; cases hxo
          constructor <;> (intro _ h; cases h)
        · rw [hs1o x (by omega)] at hxo
          have := hwf x (by omega) hd' c' g1 g2 hxo
          exact ⟨fun y hy => by have := this.1 y hy; omega,
            fun y hy => by have := this.2 y hy; omega⟩
      have hd_ok := hh a h0
      rw [ho] at hd_ok
      simp only [Obj.header] at hd_ok
      have hh1 : ∀ x < s1.next, (s1.obj x).header.alpha ≠ 0 ∧ (s1.obj x).header.beta ≠ 0 ∧
          (s1.obj x).header.method ≤ maxSolve := by
        intro x hx
        by_cases hxn : x = s.next
        · rw [hxn, hs1l]; exact hd_ok
        · rw [hs1o x (by omega)]; exact hh x (by omega)
      have t1' : toTree n s1 a1 = some f1 := by
        rw [← t1]
        exact toTree_congr n (m := s.next) le_rfl (by omega) hs1o hwf a1 ha1
      obtain ⟨s2, b1, e2⟩ := ih wf1 t1' hh1
      rw [e2]
      simp only [Option.bind_some]
      obtain ⟨eb1, l2, k2⟩ := dup_frame n e2
      have c2 := dup_closed n e2
      set s2' := s2.set s.next (.combine hd c (some b1) none) with hs2
      have hs2n : s2'.next = s2.next := rfl
      have hs2l : s2'.obj s.next = .combine hd c (some b1) none := by simp [hs2, Heap.set]
      have hs2o : ∀ x < s.next, s2'.obj x = s.obj x := by
        intro x hx
        simp only [hs2, Heap.set, if_neg (Nat.ne_of_lt hx)]
        rw [k2 x (by omega), hs1o x hx]
      have hs2k : ∀ x, x ≠ s.next → s2'.obj x = s2.obj x := by
        intro x hx; simp [hs2, Heap.set, hx]
      have wf2 : s2'.WF := by
        intro x hx hd' c' g1 g2 hxo
        by_cases hxn : x = s.next
        · rw [hxn, hs2l] at hxo; cases hxo
          constructor
          · intro y h; cases h; omega
          · intro y h; cases h
        · by_cases hx1 : x < s.next
          · rw [hs2o x hx1] at hxo
            have := hwf x (by omega) hd' c' g1 g2 hxo
            exact ⟨fun y hy => by have := this.1 y hy; omega,
              fun y hy => by have := this.2 y hy; omega⟩
          · rw [hs2k x hxn] at hxo
            have := c2 x (by omega) hx hd' c' g1 g2 hxo
            exact ⟨fun y hy => by have := this.1 y hy; omega,
              fun y hy => by have := this.2 y hy; omega⟩
      -- headers of the copies are copies of headers
      have hcopyH : ∀ (n : ℕ) {s s' : Heap K} {a b : ℕ}, dup n s a = some (s', b) →
          (∀ x < s.next, (s.obj x).header.alpha ≠ 0 ∧ (s.obj x).header.beta ≠ 0 ∧
            (s.obj x).header.method ≤ maxSolve) →
          ∀ x < s'.next, (s'.obj x).header.alpha ≠ 0 ∧ (s'.obj x).header.beta ≠ 0 ∧
            (s'.obj x).header.method ≤ maxSolve := by
        clear * -
        intro n
        induction n with
        | zero => intro s s' a b h; simp [dup] at h
        | succ n ih =>
          intro s s' a b h hh
          rw [dup] at h
          split_ifs at h with h0
          have hha := hh a h0
          split at h
          · cases h
          · rename_i hd t ho
            simp only [create, Option.bind_eq_some_iff] at h
            obtain ⟨h', hc, e⟩ := h
            obtain ⟨rfl, rfl⟩ := Prod.mk.inj (Option.some.inj e)
            have := copyHeader_eq hc
            subst this
            rw [ho] at hha
            intro x hx
            simp only [Heap.set] at hx ⊢
            by_cases hxn : x = s.next
            · rw [if_pos hxn]; exact hha
            · rw [if_neg hxn, if_neg hxn]; exact hh x (by omega)
          · rename_i hd c a1 a2 ho
            simp only [create, Option.bind_eq_some_iff] at h
            obtain ⟨h', hc, ⟨s2, b1⟩, e2, ⟨s3, b2⟩, e3, e⟩ := h
            obtain ⟨rfl, rfl⟩ := Prod.mk.inj (Option.some.inj e)
            have := copyHeader_eq hc
            subst this
            rw [ho] at hha
            have i2 := ih e2 (by
              intro x hx
              simp only [Heap.set] at hx ⊢
              by_cases hxn : x = s.next
              · rw [if_pos hxn]; exact hha
              · rw [if_neg hxn, if_neg hxn]; exact hh x (by omega))
            have i3 := ih e3 (by
              intro x hx
              simp only [Heap.set] at hx ⊢
              by_cases hxn : x = s.next
              · rw [if_pos hxn]; exact hha
              · rw [if_neg hxn]; exact i2 x hx)
            intro x hx
            simp only [Heap.set] at hx ⊢
            by_cases hxn : x = s.next
            · rw [if_pos hxn]; exact hha
            · rw [if_neg hxn]; exact i3 x hx
          · cases h
      have hh2 := hcopyH n e2 hh1
      have hh2' : ∀ x < s2'.next, (s2'.obj x).header.alpha ≠ 0 ∧ (s2'.obj x).header.beta ≠ 0 ∧
          (s2'.obj x).header.method ≤ maxSolve := by
        intro x hx
        by_cases hxn : x = s.next
        · rw [hxn, hs2l]; exact hd_ok
        · rw [hs2k x hxn]; exact hh2 x hx
      have t2' : toTree n s2' a2 = some f2 := by
        rw [← t2]
        exact toTree_congr n (m := s.next) le_rfl (by omega) hs2o hwf a2 ha2
      obtain ⟨s3, b2, e3⟩ := ih wf2 t2' hh2'
      rw [e3]
      exact ⟨_, _, rfl⟩
    · cases ht

/-- A combined function `exp(x)+exp(x)` whose two children are the same object. -/
private def demo : Heap ℝ :=
  ⟨2, fun a => if a = 0 then .leaf ⟨1, 1, 0, .redundant⟩ .exp
    else .combine ⟨2, 3, 0, .redundant⟩ .add (some 0) (some 0)⟩

/-- The hypotheses hold for it, and the copy has two separate children. -/
example : demo.WF ∧ ∃ s', dup 2 demo 1 = some (s', 2) ∧ s'.next = 5 := by
  constructor
  · intro a ha h c f1 f2 e
    simp only [demo] at ha e ⊢
    split_ifs at e with h0
    cases e
    exact ⟨fun b hb => by cases hb; omega, fun b hb => by cases hb; omega⟩
  · simp [dup, demo, create, copyHeader, setScale, setMethod, maxSolve, Heap.set, defaultHeader]

end Verif.FN
