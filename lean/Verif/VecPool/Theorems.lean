import Verif.VecPool.Lemmas
/-! # Property C06: vectors handed out by the pool are allocated and never shared -/
set_option linter.all false
namespace Verif.VecPool

/-- Histories in which every restore gives back the most recent outstanding array, and requests are
for a non-negative number of vectors; `d` arrays are outstanding initially. -/
def WellNested : Nat → List Op → Prop
  | _, [] => True
  | d, .get k :: ops => 0 ≤ k ∧ WellNested (d + 1) ops
  | 0, .restore :: _ => False
  | d + 1, .restore :: ops => WellNested d ops

/-- Two arrays have no vector in common. -/
def Disjoint (a b : Out) : Prop := a.alloc ≠ b.alloc ∨ a.off + a.cnt ≤ b.off ∨ b.off + b.cnt ≤ a.off
  ∨ a.cnt = 0 ∨ b.cnt = 0

/-- All vectors of the array are inside a live allocation. -/
def Allocated (live : List (Nat × Int)) (o : Out) : Prop :=
  o.cnt = 0 ∨ ∃ a size, o.alloc = some a ∧ (a, size) ∈ live ∧ 0 ≤ o.off ∧ o.off + o.cnt ≤ size

theorem safe_of_inv (s : Sys) (h : Inv s) :
    (∀ o ∈ s.held, 0 ≤ o.cnt ∧ Allocated s.heap.live o) ∧ s.held.Pairwise Disjoint := by
  obtain ⟨hne, hg, hid, hpos, hnn, hlive⟩ := h
  constructor
  · intro o ho
    refine ⟨hnn o ho, ?_⟩
    by_cases hc : o.cnt = 0
    · exact Or.inl hc
    · right
      obtain ⟨a, n, h1, h2, h3, h4, h5⟩ := good_mem hg o (by
        have := hnn o ho
        rw [List.mem_filter]; exact ⟨ho, by simp; omega⟩)
      exact ⟨a, n, h1, h2, h3, h4⟩
  · have hp := good_pairwise hg hid
    rw [List.pairwise_filter] at hp
    refine hp.imp_of_mem ?_
    intro a b ha hb hab
    have h1 := hnn a ha
    have h2 := hnn b hb
    by_cases hca : a.cnt = 0
    · exact Or.inr (Or.inr (Or.inr (Or.inl hca)))
    by_cases hcb : b.cnt = 0
    · exact Or.inr (Or.inr (Or.inr (Or.inr hcb)))
    rcases hab (by simp; omega) (by simp; omega) with h | h
    · exact Or.inl h
    · exact Or.inr (Or.inr (Or.inl h))

theorem run_safe (ops : List Op) (s : Sys) (h : Inv s) (hw : WellNested s.held.length ops) :
    ∃ s', run s ops = some s' ∧ Inv s' := by
  induction ops generalizing s with
  | nil => exact ⟨s, rfl, h⟩
  | cons op ops ih =>
    cases op with
    | get k =>
      obtain ⟨hk, hw⟩ := hw
      obtain ⟨s', hs, hi, o, ho⟩ := step_get s h k hk
      obtain ⟨s'', h1, h2⟩ := ih s' hi (by rw [ho]; exact hw)
      exact ⟨s'', by simp [run, hs, h1], h2⟩
    | restore =>
      cases hh : s.held with
      | nil => rw [hh] at hw; exact absurd hw (by simp [WellNested])
      | cons o held =>
        rw [hh] at hw
        obtain ⟨s', hs, hi, ho⟩ := step_restore s h o held hh
        obtain ⟨s'', h1, h2⟩ := ih s' hi (by rw [ho]; exact hw)
        exact ⟨s'', by simp [run, hs, h1], h2⟩

/-- **C06**. After any well-nested history starting from a new pool no call has failed, every array
still held consists of vectors that are allocated, and no two held arrays share a vector. -/
theorem C06_pool_safe (init : Int) (hi : 0 ≤ init) (ops : List Op) (hw : WellNested 0 ops) :
    ∃ s0 s, start init = some s0 ∧ run s0 ops = some s ∧
      (∀ o ∈ s.held, Allocated s.heap.live o) ∧ s.held.Pairwise Disjoint := by
  obtain ⟨s0, h0, hinv, hlen⟩ := start_inv init hi
  obtain ⟨s, h1, h2⟩ := run_safe ops s0 hinv (by rw [hlen]; exact hw)
  have := safe_of_inv s h2
  exact ⟨s0, s, h0, h1, fun o ho => (this.1 o ho).2, this.2⟩

/-- **C06** (request honoured). In every such state a request for `k` vectors succeeds and returns an
array of exactly `k` vectors. -/
theorem C06_get_returns (init : Int) (hi : 0 ≤ init) (ops : List Op) (hw : WellNested 0 ops)
    (k : Int) (hk : 0 ≤ k) :
    ∃ s0 s s' o, start init = some s0 ∧ run s0 ops = some s ∧ step s (.get k) = some s' ∧
      s'.held = o :: s.held ∧ o.cnt = k := by
  obtain ⟨s0, h0, hinv, hlen⟩ := start_inv init hi
  obtain ⟨s, h1, h2⟩ := run_safe ops s0 hinv (by rw [hlen]; exact hw)
  obtain ⟨s', hs, _, o, ho⟩ := step_get s h2 k hk
  refine ⟨s0, s, s', o, h0, h1, hs, ho, ?_⟩
  simp only [step, Option.bind_eq_bind, Option.bind_eq_some_iff] at hs
  obtain ⟨⟨nd, hp, o'⟩, hg, hs⟩ := hs
  simp at hs
  rw [← hs] at ho
  simp at ho
  subst ho
  unfold getVecs at hg
  split at hg
  · simp at hg
  · rw [if_pos hk] at hg
    split at hg
    · simp only at hg
      split at hg <;>
      · simp only [Option.bind_eq_bind, Option.bind_eq_some_iff] at hg
        obtain ⟨_, _, hg⟩ := hg
        first
        | (simp at hg; rw [← hg.2.2])
        | (obtain ⟨_, _, hg⟩ := hg; simp at hg; rw [← hg.2.2])
    · simp at hg; rw [← hg.2.2]

-- a non-trivial well-nested history: overflow of the first node, nested restore, zero-size request
example : WellNested 0 [.get 3, .get 5, .restore, .get 0, .get 2, .restore, .restore, .get 7] := by
  simp [WellNested]

end Verif.VecPool
