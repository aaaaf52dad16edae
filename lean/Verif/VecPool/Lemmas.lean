import Verif.VecPool.Model
import Mathlib.Data.List.Basic
import Mathlib.Order.Lattice
import Mathlib.Algebra.Order.Ring.Int
/-! Invariant of the vector pool. -/
set_option linter.all false
namespace Verif.VecPool

/-- `s` (most recent first) is a stack of non-empty intervals of allocation `a` filling `[0,u)`. -/
def Seg (a : Nat) : Int → List Out → Prop
  | u, [] => u = 0
  | u, o :: s => o.alloc = some a ∧ 0 < o.cnt ∧ o.off = u - o.cnt ∧ Seg a (u - o.cnt) s

def NodeOK (live : List (Nat × Int)) (nd : Node) (s : List Out) : Prop :=
  0 ≤ nd.used ∧ nd.used ≤ nd.n ∧ 0 ≤ nd.guess ∧
  match nd.vecs with
  | none => nd.n = 0 ∧ s = []
  | some a => (a, nd.n) ∈ live ∧ Seg a nd.used s

def Good (live : List (Nat × Int)) : List Node → List Out → Prop
  | [], s => s = []
  | nd :: rest, s => ∃ s1 s2, s = s1 ++ s2 ∧ NodeOK live nd s1 ∧ Good live rest s2

def IdOK : Nat → List Node → Prop
  | _, [] => True
  | b, nd :: rest => match nd.vecs with
    | none => IdOK b rest
    | some a => a < b ∧ IdOK a rest

structure Inv (s : Sys) : Prop where
  ne : s.nodes ≠ []
  good : Good s.heap.live s.nodes (s.held.filter (fun o => decide (0 < o.cnt)))
  ids : IdOK s.heap.next s.nodes
  pos : ∀ nd ∈ s.nodes.tail, 0 < nd.used
  nn : ∀ o ∈ s.held, 0 ≤ o.cnt
  liveLt : ∀ x ∈ s.heap.live, x.1 < s.heap.next

theorem seg_nonneg {a u s} (h : Seg a u s) : 0 ≤ u := by
  induction s generalizing u with
  | nil => simp [Seg] at h; omega
  | cons o s ih => obtain ⟨_, h1, _, h2⟩ := h; have := ih h2; omega

theorem seg_mem {a u s} (h : Seg a u s) : ∀ o ∈ s, o.alloc = some a ∧ 0 < o.cnt ∧ 0 ≤ o.off ∧
    o.off + o.cnt ≤ u := by
  induction s generalizing u with
  | nil => simp
  | cons o s ih =>
    obtain ⟨h0, h1, h2, h3⟩ := h
    intro x hx
    have hn := seg_nonneg h3
    rcases List.mem_cons.1 hx with rfl | hx
    · exact ⟨h0, h1, by omega, by omega⟩
    · obtain ⟨g0, g1, g2, g3⟩ := ih h3 x hx
      exact ⟨g0, g1, g2, by omega⟩

theorem seg_pairwise {a u s} (h : Seg a u s) :
    s.Pairwise (fun x y => x.alloc ≠ y.alloc ∨ y.off + y.cnt ≤ x.off) := by
  induction s generalizing u with
  | nil => simp
  | cons o s ih =>
    obtain ⟨h0, h1, h2, h3⟩ := h
    refine List.Pairwise.cons ?_ (ih h3)
    intro y hy
    have := (seg_mem h3 y hy).2.2.2
    right; omega

theorem idok_mono {b b' nodes} (h : IdOK b nodes) (hb : b ≤ b') : IdOK b' nodes := by
  induction nodes with
  | nil => trivial
  | cons nd rest ih =>
    unfold IdOK at h ⊢
    cases hv : nd.vecs with
    | none => rw [hv] at h; exact ih h
    | some a => rw [hv] at h; exact ⟨by have := h.1; omega, h.2⟩

theorem idok_mem {b nodes} (h : IdOK b nodes) : ∀ nd ∈ nodes, ∀ a, nd.vecs = some a → a < b := by
  induction nodes generalizing b with
  | nil => simp
  | cons nd rest ih =>
    intro x hx a ha
    unfold IdOK at h
    rcases List.mem_cons.1 hx with rfl | hx
    · rw [ha] at h; exact h.1
    · cases hv : nd.vecs with
      | none => rw [hv] at h; exact ih h x hx a ha
      | some c => rw [hv] at h; have := ih h.2 x hx a ha; have := h.1; omega

theorem good_node {live nodes s} (h : Good live nodes s) : ∀ o ∈ s, ∃ nd ∈ nodes, ∃ a,
    nd.vecs = some a ∧ o.alloc = some a := by
  induction nodes generalizing s with
  | nil => simp [Good] at h; subst h; simp
  | cons nd rest ih =>
    obtain ⟨s1, s2, rfl, h1, h2⟩ := h
    intro o ho
    rcases List.mem_append.1 ho with ho | ho
    · obtain ⟨_, _, _, h1⟩ := h1
      cases hv : nd.vecs with
      | none => simp only [hv] at h1; rw [h1.2] at ho; simp at ho
      | some a =>
        simp only [hv] at h1
        exact ⟨nd, by simp, a, hv, (seg_mem h1.2 o ho).1⟩
    · obtain ⟨x, hx, a, h3, h4⟩ := ih h2 o ho
      exact ⟨x, by simp [hx], a, h3, h4⟩

theorem good_mem {live nodes s} (h : Good live nodes s) : ∀ o ∈ s, ∃ a n, o.alloc = some a ∧
    (a, n) ∈ live ∧ 0 ≤ o.off ∧ o.off + o.cnt ≤ n ∧ 0 < o.cnt := by
  induction nodes generalizing s with
  | nil => simp [Good] at h; subst h; simp
  | cons nd rest ih =>
    obtain ⟨s1, s2, rfl, h1, h2⟩ := h
    intro o ho
    rcases List.mem_append.1 ho with ho | ho
    · obtain ⟨hu0, hun, _, h1⟩ := h1
      cases hv : nd.vecs with
      | none => simp only [hv] at h1; rw [h1.2] at ho; simp at ho
      | some a =>
        simp only [hv] at h1
        obtain ⟨g0, g1, g2, g3⟩ := seg_mem h1.2 o ho
        exact ⟨a, nd.n, g0, h1.1, g2, by omega, g1⟩
    · exact ih h2 o ho

theorem good_pairwise {live nodes s b} (h : Good live nodes s) (hid : IdOK b nodes) :
    s.Pairwise (fun x y => x.alloc ≠ y.alloc ∨ y.off + y.cnt ≤ x.off) := by
  induction nodes generalizing s b with
  | nil => simp [Good] at h; subst h; simp
  | cons nd rest ih =>
    obtain ⟨s1, s2, rfl, h1, h2⟩ := h
    obtain ⟨_, _, _, h1⟩ := h1
    unfold IdOK at hid
    cases hv : nd.vecs with
    | none =>
      simp only [hv] at h1 hid
      rw [h1.2]; simpa using ih h2 hid
    | some a =>
      simp only [hv] at h1 hid
      rw [List.pairwise_append]
      refine ⟨seg_pairwise h1.2, ih h2 hid.2, ?_⟩
      intro x hx y hy
      left
      obtain ⟨nd', hnd', c, h3, h4⟩ := good_node h2 y hy
      have := idok_mem hid.2 nd' hnd' c h3
      rw [(seg_mem h1.2 x hx).1, h4]
      intro hc
      rw [Option.some.injEq] at hc
      omega

theorem good_live {live live' nodes s} (h : Good live nodes s)
    (hl : ∀ nd ∈ nodes, ∀ a, nd.vecs = some a → ∀ n, (a, n) ∈ live → (a, n) ∈ live') :
    Good live' nodes s := by
  induction nodes generalizing s with
  | nil => exact h
  | cons nd rest ih =>
    obtain ⟨s1, s2, rfl, ⟨g0, g1, g2, h1⟩, h2⟩ := h
    refine ⟨s1, s2, rfl, ⟨g0, g1, g2, ?_⟩, ih h2 (fun x hx => hl x (by simp [hx]))⟩
    cases hv : nd.vecs with
    | none => simp only [hv] at h1 ⊢; exact h1
    | some a => simp only [hv] at h1 ⊢; exact ⟨hl nd (by simp) a hv _ h1.1, h1.2⟩

theorem start_inv (init : Int) (hi : 0 ≤ init) :
    ∃ s0, start init = some s0 ∧ Inv s0 ∧ s0.held.length = 0 := by
  refine ⟨⟨[⟨init, 0, 0, none⟩], ⟨0, []⟩, []⟩, by simp [start, create, hi], ?_, rfl⟩
  refine ⟨by simp, ?_, by simp [IdOK], by simp, by simp, by simp⟩
  exact ⟨[], [], by simp, ⟨by simp, by simp, hi, by simp⟩, rfl⟩

theorem guess_nonneg {live nodes s} (h : Good live nodes s) :
    0 ≤ (nodes.getLast?.map Node.guess).getD 0 := by
  induction nodes generalizing s with
  | nil => simp
  | cons nd rest ih =>
    obtain ⟨s1, s2, rfl, h1, h2⟩ := h
    cases rest with
    | nil => simpa using h1.2.2.1
    | cons x xs =>
      have := ih h2
      simpa [List.getLast?_cons_cons] using this

theorem step_get (s : Sys) (h : Inv s) (k : Int) (hk : 0 ≤ k) :
    ∃ s', step s (.get k) = some s' ∧ Inv s' ∧ ∃ o, s'.held = o :: s.held := by
  obtain ⟨hne, hg, hid, hpos, hnn, hlive⟩ := h
  obtain ⟨nodes, heap, held⟩ := s
  cases nodes with
  | nil => exact absurd rfl hne
  | cons pool prev =>
    have hgn := guess_nonneg hg
    obtain ⟨s1, s2, heq, ⟨hu0, hun, hgu, hv⟩, hg2⟩ := hg
    simp only at heq hid hpos hnn hlive hgn hg2 hv
    unfold IdOK at hid
    simp only [step, getVecs, if_pos hk]
    set G := max (((pool :: prev).getLast?.map Node.guess).getD 0) (pool.used + k) with hG
    have hG1 : pool.used + k ≤ G := le_max_right _ _
    by_cases hlt : pool.n - pool.used < k
    · rw [if_pos hlt]
      have hk0 : 0 < k := by omega
      cases hpv : pool.vecs with
      | none =>
        simp only [hpv] at hv hid
        simp only [Heap.alloc]
        rw [if_neg (by omega)]
        refine ⟨_, rfl, ?_, _, rfl⟩
        refine ⟨by simp, ?_, ?_, by simpa using hpos, ?_, ?_⟩
        · simp only [List.filter_cons, hk0, decide_true, if_true]
          rw [heq]
          refine ⟨⟨some heap.next, pool.used, k⟩ :: s1, s2, rfl, ⟨by simp; omega, by simp; omega, by simp; omega, ?_⟩, ?_⟩
          · simp only [List.mem_cons, true_or, true_and]
            rw [hv.2]
            refine ⟨rfl, hk0, by simp, ?_⟩
            simp [Seg]; omega
          · exact good_live hg2 (fun nd hnd a ha n hn => by simp [hn])
        · simp only [IdOK]
          exact ⟨by omega, hid⟩
        · intro o ho
          rcases List.mem_cons.1 ho with rfl | ho
          · exact hk
          · exact hnn o ho
        · intro x hx
          rcases List.mem_cons.1 hx with rfl | hx
          · simp
          · have := hlive x hx; simp; omega
      | some a =>
        simp only [hpv] at hv hid
        by_cases hu : pool.used = 0
        · simp only [hu, if_true]
          simp only [Heap.alloc, Heap.free]
          rw [if_neg (by omega)]
          refine ⟨_, rfl, ?_, _, rfl⟩
          have hs1 : s1 = [] := by
            have h2 := hv.2
            cases s1 with
            | nil => rfl
            | cons o t =>
              obtain ⟨_, h3, _, h4⟩ := h2
              have := seg_nonneg h4
              omega
          refine ⟨by simp, ?_, ?_, by simpa using hpos, ?_, ?_⟩
          · simp only [List.filter_cons, hk0, decide_true, if_true]
            rw [heq]
            refine ⟨⟨some heap.next, 0, k⟩ :: s1, s2, rfl, ⟨by simp; omega, by simp; omega, by simp; omega, ?_⟩, ?_⟩
            · simp only [List.mem_cons, true_or, true_and]
              rw [hs1]
              refine ⟨rfl, hk0, by simp, ?_⟩
              simp [Seg]
            · refine good_live hg2 (fun nd hnd a' ha n hn => ?_)
              have := idok_mem hid.2 nd hnd a' ha
              simp [hn]; right; omega
          · simp only [IdOK]
            exact ⟨by omega, idok_mono hid.2 (by omega)⟩
          · intro o ho
            rcases List.mem_cons.1 ho with rfl | ho
            · exact hk
            · exact hnn o ho
          · intro x hx
            rcases List.mem_cons.1 hx with rfl | hx
            · simp
            · have := hlive x (List.mem_of_mem_filter hx); simp; omega
        · simp only [hu, if_false]
          simp only [create, if_pos (show (0:Int) ≤ G - pool.used by omega), Option.bind_eq_bind,
            Option.bind_some, Heap.alloc, if_neg (show ¬ (G - pool.used ≤ 0) by omega)]
          refine ⟨_, rfl, ?_, _, rfl⟩
          refine ⟨by simp, ?_, ?_, ?_, ?_, ?_⟩
          · simp only [List.filter_cons, hk0, decide_true, if_true]
            rw [heq]
            refine ⟨[⟨some heap.next, 0, k⟩], s1 ++ s2, rfl, ⟨by simp; omega, by simp; omega, by simp; omega, ?_⟩, ?_⟩
            · simp only [List.mem_cons, true_or, true_and]
              refine ⟨rfl, hk0, by simp, ?_⟩
              simp [Seg]
            · refine ⟨s1, s2, rfl, ⟨hu0, hun, by simp; omega, ?_⟩, ?_⟩
              · simp only [List.mem_cons]
                exact ⟨Or.inr hv.1, hv.2⟩
              · exact good_live hg2 (fun nd hnd a ha n hn => by simp [hn])
          · simp only [IdOK]
            exact ⟨by omega, hid.1, hid.2⟩
          · intro nd hnd
            simp only [List.tail_cons, List.mem_cons] at hnd
            rcases hnd with rfl | hnd
            · simp; omega
            · exact hpos nd (by simpa using hnd)
          · intro o ho
            rcases List.mem_cons.1 ho with rfl | ho
            · exact hk
            · exact hnn o ho
          · intro x hx
            rcases List.mem_cons.1 hx with rfl | hx
            · simp
            · have := hlive x hx; simp; omega
    · rw [if_neg hlt]
      refine ⟨_, rfl, ?_, _, rfl⟩
      refine ⟨by simp, ?_, ?_, by simpa using hpos, ?_, by simpa using hlive⟩
      · by_cases hk0 : 0 < k
        · simp only [List.filter_cons, hk0, decide_true, if_true]
          rw [heq]
          refine ⟨⟨pool.vecs, pool.used, k⟩ :: s1, s2, rfl, ⟨by simp; omega, by simp; omega, hgu, ?_⟩, hg2⟩
          cases hpv : pool.vecs with
          | none => simp only [hpv] at hv; omega
          | some a =>
            simp only [hpv] at hv ⊢
            refine ⟨hv.1, rfl, hk0, by simp, ?_⟩
            simpa using hv.2
        · have hk1 : k = 0 := by omega
          subst hk1
          simp only [List.filter_cons, lt_irrefl, decide_false, Bool.false_eq_true, if_false]
          rw [heq]
          refine ⟨s1, s2, rfl, ⟨by simp; omega, by simp; omega, hgu, ?_⟩, hg2⟩
          simpa using hv
      · simp only [IdOK]; exact hid
      · intro o ho
        rcases List.mem_cons.1 ho with rfl | ho
        · exact hk
        · exact hnn o ho

theorem node_pop {live nd o t} (h : NodeOK live nd (o :: t)) (ho : 0 < o.cnt) (g : Int) (hg : 0 ≤ g) :
    0 ≤ nd.used - o.cnt ∧ NodeOK live { nd with guess := g, used := nd.used - o.cnt } t := by
  obtain ⟨h0, h1, h2, h3⟩ := h
  cases hv : nd.vecs with
  | none => simp only [hv] at h3; simp at h3
  | some a =>
    simp only [hv] at h3
    obtain ⟨h4, h5, h6, h7, h8⟩ := h3
    have := seg_nonneg h8
    refine ⟨this, this, by simp; omega, hg, ?_⟩
    simp only [hv]
    exact ⟨h4, h8⟩

theorem node_empty {live nd s} (h : NodeOK live nd s) (hu : nd.used = 0) : s = [] := by
  obtain ⟨h0, h1, h2, h3⟩ := h
  cases hv : nd.vecs with
  | none => simp only [hv] at h3; exact h3.2
  | some a =>
    simp only [hv] at h3
    cases s with
    | nil => rfl
    | cons o t =>
      obtain ⟨_, h4, h5, _, h6⟩ := h3
      have := seg_nonneg h6
      omega

theorem node_nonempty {live nd s} (h : NodeOK live nd s) (hu : 0 < nd.used) : s ≠ [] := by
  rintro rfl
  obtain ⟨h0, h1, h2, h3⟩ := h
  cases hv : nd.vecs with
  | none => simp only [hv] at h3; omega
  | some a => simp only [hv, Seg] at h3; omega

/-- Giving back the most recent array `o` to the node that must contain it. -/
theorem top_pop {live nd rest o held} (hg : Good live (nd :: rest) ((o :: held).filter (fun o => decide (0 < o.cnt))))
    (ho : 0 ≤ o.cnt) (hu : nd.used = 0 → rest = []) (g : Int) (hgg : 0 ≤ g) :
    0 ≤ nd.used - o.cnt ∧ Good live ({ nd with guess := g, used := nd.used - o.cnt } :: rest)
      (held.filter (fun o => decide (0 < o.cnt))) := by
  obtain ⟨s1, s2, heq, hn, hg2⟩ := hg
  by_cases hc : 0 < o.cnt
  · simp only [List.filter_cons, hc, decide_true, if_true] at heq
    cases s1 with
    | nil =>
      -- the node would be empty: impossible
      have hu0 : nd.used = 0 := by
        by_contra hne
        exact node_nonempty hn (by have := hn.1; omega) rfl
      have := hu hu0
      subst this
      simp [Good] at hg2
      subst hg2
      simp at heq
    | cons x t =>
      simp only [List.cons_append, List.cons.injEq] at heq
      obtain ⟨rfl, heq⟩ := heq
      have := node_pop hn hc g hgg
      exact ⟨this.1, t, s2, heq, this.2, hg2⟩
  · have hc0 : o.cnt = 0 := by omega
    simp only [List.filter_cons, hc, decide_false, Bool.false_eq_true, if_false] at heq
    obtain ⟨h0, h1, h2, h3⟩ := hn
    refine ⟨by omega, s1, s2, heq, ⟨by simp; omega, by simp; omega, hgg, ?_⟩, hg2⟩
    simpa [hc0] using h3

theorem step_restore (s : Sys) (h : Inv s) (o : Out) (held : List Out) (hh : s.held = o :: held) :
    ∃ s', step s .restore = some s' ∧ Inv s' ∧ s'.held = held := by
  obtain ⟨hne, hg, hid, hpos, hnn, hlive⟩ := h
  obtain ⟨nodes, heap, held0⟩ := s
  simp only at hh hne hg hid hpos hnn hlive
  subst hh
  have ho : 0 ≤ o.cnt := hnn o (by simp)
  have hnn' : ∀ x ∈ held, 0 ≤ x.cnt := fun x hx => hnn x (by simp [hx])
  simp only [step]
  cases nodes with
  | nil => exact absurd rfl hne
  | cons pool prev =>
    cases prev with
    | nil =>
      have hgu : 0 ≤ pool.guess := by obtain ⟨_, _, _, h1, _⟩ := hg; exact h1.2.2.1
      obtain ⟨h1, h2⟩ := top_pop hg ho (fun _ => rfl) pool.guess hgu
      simp only [restoreVecs, if_pos h1]
      exact ⟨_, rfl, ⟨by simp, h2, by simpa [IdOK] using hid, by simp, hnn', hlive⟩, rfl⟩
    | cons pool0 prev =>
      have hp0 : 0 < pool0.used := hpos pool0 (by simp)
      by_cases hu : pool.used = 0
      · -- the last node is dropped
        obtain ⟨s1, s2, heq, hn1, hg2⟩ := hg
        have := node_empty hn1 hu
        subst this
        rw [List.nil_append] at heq
        subst heq
        have hgg : 0 ≤ pool0.used + pool.guess := by have := hn1.2.2.1; omega
        obtain ⟨h1, h2⟩ := top_pop hg2 ho (fun h => by omega) (pool0.used + pool.guess) hgg
        simp only [restoreVecs, hu, if_true, if_pos h1]
        refine ⟨_, rfl, ⟨by simp, ?_, ?_, ?_, hnn', ?_⟩, rfl⟩
        · cases hv : pool.vecs with
          | none => exact h2
          | some a =>
            simp only [hv]
            refine good_live h2 (fun nd hnd a' ha n hn => ?_)
            unfold IdOK at hid
            simp only [hv] at hid
            have hid' : IdOK a ({ pool0 with guess := pool0.used + pool.guess, used := pool0.used - o.cnt } :: prev) := by
              have := hid.2
              unfold IdOK at this ⊢
              exact this
            have := idok_mem hid' nd hnd a' ha
            simp only [Heap.free, List.mem_filter]
            exact ⟨hn, by simp; omega⟩
        · unfold IdOK at hid
          have hres : IdOK heap.next (pool0 :: prev) := by
            cases hv : pool.vecs with
            | none => simp only [hv] at hid; exact hid
            | some a => simp only [hv] at hid; exact idok_mono hid.2 (by omega)
          unfold IdOK at hres ⊢
          cases hv : pool.vecs <;> simpa [Heap.free] using hres
        · intro nd hnd
          exact hpos nd (by simp at hnd ⊢; exact Or.inr hnd)
        · intro x hx
          cases hv : pool.vecs with
          | none => rw [hv] at hx; exact hlive x hx
          | some a => rw [hv] at hx; exact hlive x (List.mem_of_mem_filter hx)
      · have hgu : 0 ≤ pool.guess := by obtain ⟨_, _, _, h1, _⟩ := hg; exact h1.2.2.1
        obtain ⟨h1, h2⟩ := top_pop hg ho (fun h => absurd h hu) pool.guess hgu
        simp only [restoreVecs, if_neg hu, if_pos h1]
        refine ⟨_, rfl, ⟨by simp, h2, ?_, by simpa using hpos, hnn', hlive⟩, rfl⟩
        unfold IdOK at hid ⊢
        exact hid

end Verif.VecPool
