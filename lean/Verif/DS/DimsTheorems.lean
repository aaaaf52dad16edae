import Verif.DS.DimsModel
import Mathlib.Tactic.Ring
import Mathlib.Data.Complex.Basic
import Mathlib.Algebra.BigOperators.Ring.Finset
import Mathlib.Algebra.Star.BigOperators
/-!
# Properties C27, C28, C47, C56, C57: dimensions, life cycle and truncation of the DS object
-/
set_option linter.all false
namespace Verif.DS

/-! ### C27 -/

/-- The dimensions are valid: `0 ≤ l ≤ n ≤ ld` and `0 ≤ k ≤ n`. -/
def Valid (d : Dims) : Prop := 0 ≤ d.l ∧ d.l ≤ d.n ∧ d.n ≤ d.ld ∧ 0 ≤ d.k ∧ d.k ≤ d.n

/-- The dimension `n` that a `DSSetDimensions` call with first argument `a` asks for. -/
def askedN (d : Dims) : Arg → Int
  | .determine => if d.extrarow then d.ld - 1 else d.ld
  | .current => d.n
  | .val v => v

/-- What the caller must respect because `DSSetDimensions` does not check it: a value kept with
`PETSC_CURRENT` must not exceed the new `n`, and `k` must be in range; the object must be allocated
(checked in debug builds).  For the two kinds of singular value problems, the number of columns must not
exceed `n` when updating the extra row, and truncation must leave room for the additional row of GSVD. -/
def Sane (d : Dims) : Op → Prop
  | .setDimensions n l k =>
    0 < d.ld ∧ (match l with | .current => d.l ≤ askedN d n | _ => True) ∧
      (match k with | .current => d.k ≤ askedN d n | .val v => 0 ≤ v ∧ v ≤ askedN d n | .determine => True)
  | .truncate n _ => d.kind = .gsvd → d.m < d.n → n < d.ld
  | .updateExtraRow => d.kind ≠ .std → 0 ≤ d.m ∧ d.m ≤ d.n
  | _ => True

/-- The history respects `Sane` at every call. -/
def SaneRun (dbg : Bool) (tab : Nat → Bool) : Dims → List Op → Prop
  | _, [] => True
  | d, o :: os => Sane d o ∧ ∀ d', step dbg tab d o = some d' → SaneRun dbg tab d' os

theorem step_valid (dbg : Bool) (tab : Nat → Bool) (d d' : Dims) (o : Op) (hv : Valid d) (hs : Sane d o)
    (h : step dbg tab d o = some d') : Valid d' := by
  obtain ⟨h1, h2, h3, h4, h5⟩ := hv
  cases o with
  | allocate ld =>
    simp only [step, allocate] at h
    split_ifs at h with a b
    · cases h; simp only [Valid, reset]; omega
    · cases h; exact ⟨h1, h2, h3, h4, h5⟩
  | reallocate ld =>
    simp only [step, reallocate] at h
    split_ifs at h with a
    cases h; simp only [Valid]; omega
  | setDimensions n l k =>
    simp only [step, setDimensions] at h
    obtain ⟨hld, hl, hk⟩ := hs
    split_ifs at h with hc
    obtain ⟨d1, e1, h⟩ := Option.bind_eq_some_iff.1 h
    obtain ⟨d2, e2, e3⟩ := Option.bind_eq_some_iff.1 h
    have q1 : d1.n = askedN d n ∧ d1.l = d.l ∧ d1.k = d.k ∧ d1.ld = d.ld ∧ 0 ≤ d1.n ∧ d1.n ≤ d.ld := by
      cases n with
      | determine =>
        simp only [setN] at e1
        cases e1
        simp only [askedN]
        split_ifs <;> (refine ⟨?_, ?_, ?_, ?_, ?_, ?_⟩ <;> first | rfl | trivial | omega)
      | current =>
        simp only [setN] at e1
        cases e1
        simp only [askedN]
        refine ⟨?_, ?_, ?_, ?_, ?_, ?_⟩ <;> first | rfl | trivial | omega
      | val v =>
        simp only [setN] at e1
        split_ifs at e1 with hh
        cases e1
        simp only [askedN]
        refine ⟨?_, ?_, ?_, ?_, ?_, ?_⟩ <;> first | rfl | trivial | omega
    obtain ⟨q1, q2, q3, q4, q5, q6⟩ := q1
    have r : d2.n = d1.n ∧ d2.k = d1.k ∧ d2.ld = d1.ld ∧ 0 ≤ d2.l ∧ d2.l ≤ d1.n := by
      cases l with
      | determine =>
        simp only [setL] at e2
        cases e2
        refine ⟨rfl, rfl, rfl, ?_, ?_⟩ <;> (first | omega | (simp only; omega))
      | current =>
        simp only [setL] at e2
        cases e2
        have hl : d.l ≤ askedN d n := hl
        refine ⟨rfl, rfl, rfl, ?_, ?_⟩ <;> omega
      | val v =>
        simp only [setL] at e2
        split_ifs at e2 with hh
        cases e2
        exact ⟨rfl, rfl, rfl, hh.1, hh.2⟩
    obtain ⟨r1, r2, r3, r4, r5⟩ := r
    cases k with
    | determine =>
      simp only [setK] at e3
      cases e3
      simp only [Valid]; omega
    | current =>
      simp only [setK] at e3
      cases e3
      have hk : d.k ≤ askedN d n := hk
      simp only [Valid]; omega
    | val v =>
      simp only [setK] at e3
      have hk : 0 ≤ v ∧ v ≤ askedN d n := hk
      split_ifs at e3 with hh
      cases e3
      simp only [Valid]; omega
  | setExtraRow b =>
    simp only [step, setExtraRow] at h
    split_ifs at h with a
    cases h; exact ⟨h1, h2, h3, h4, h5⟩
  | setColumns m =>
    simp only [step, setColumns] at h
    split_ifs at h with a
    cases h; exact ⟨h1, h2, h3, h4, h5⟩
  | truncate n trim =>
    simp only [step, truncate] at h
    have hg : d.kind = .gsvd → d.m < d.n → n < d.ld := hs
    clear hs
    split_ifs at h with a b c
    · cases h
      simp only [truncDims, Valid]
      subst c
      cases hk : d.kind
      · simp; omega
      · simp; omega
      · have hg := hg hk
        simp only [if_true]
        by_cases e : d.n > d.m
        · have := hg e
          simp only [e, if_true]; omega
        · simp only [e, if_false]; omega
    · cases h
      simp only [truncDims, Valid]
      rw [Bool.not_eq_true] at c
      subst c
      cases hk : d.kind
      · simp only [Bool.false_eq_true, if_false]
        cases d.extrarow <;> simp <;> omega
      · simp only [Bool.false_eq_true, if_false]
        cases d.extrarow <;> simp <;> omega
      · have hg := hg hk
        simp only [Bool.false_eq_true, if_false]
        by_cases e : d.n > d.m
        · have := hg e
          simp only [e, if_true]
          cases d.extrarow <;> simp <;> omega
        · simp only [e, if_false]
          cases d.extrarow <;> simp <;> omega
  | updateExtraRow =>
    simp only [step, updateExtraRow] at h
    have hs : d.kind ≠ .std → 0 ≤ d.m ∧ d.m ≤ d.n := hs
    split_ifs at h with a b
    cases h
    simp only [Valid]
    cases hk : d.kind <;> simp [hk] at hs ⊢ <;> omega
  | setState s => simp only [step, setState] at h; cases h; exact ⟨h1, h2, h3, h4, h5⟩
  | setMethod m =>
    simp only [step, setMethod] at h
    split_ifs at h with a b
    cases h; exact ⟨h1, h2, h3, h4, h5⟩
  | solve =>
    simp only [step, solve] at h
    by_cases c1 : checkAlloc dbg d = true
    · by_cases c2 : d.state.rank ≥ St.condensed.rank
      · simp only [c1, c2, if_true] at h
        cases h; exact ⟨h1, h2, h3, h4, h5⟩
      · by_cases c3 : d.meth < dsMaxSolve
        · by_cases c4 : tab d.meth = true
          · simp only [c1, c2, c3, c4, if_true, if_false] at h
            cases h; exact ⟨h1, h2, h3, h4, h5⟩
          · simp [c1, c2, c3, c4] at h
        · simp [c1, c2, c3] at h
    · simp [c1] at h
  | translate =>
    simp only [step, translate] at h
    split_ifs at h with a
    cases h; exact ⟨h1, h2, h3, h4, h5⟩
  | modify => simp only [step, restoreMat] at h; cases h; exact ⟨h1, h2, h3, h4, h5⟩
  | reset => simp only [step, reset] at h; cases h; simp only [Valid]; omega

/-- **C27**, the part that holds: if every call respects what `DSSetDimensions` fails to check, the
dimensions are valid after any history of calls that reported no error.  Missing: without those conditions
the claim is false, see `C27_l_false`, `C27_k_false`, `C27_gsvd_false`, `C27_svd_false`. -/
theorem C27_dimensions_partial (dbg : Bool) (tab : Nat → Bool) (kind : Kind) (os : List Op) (d : Dims)
    (hs : SaneRun dbg tab (create kind) os) (h : run dbg tab (create kind) os = some d) : Valid d := by
  have : ∀ (os : List Op) (d0 d : Dims), Valid d0 → SaneRun dbg tab d0 os → run dbg tab d0 os = some d →
      Valid d := by
    intro os
    induction os with
    | nil => intro d0 d hv _ h; cases h; exact hv
    | cons o os ih =>
      intro d0 d hv hs h
      obtain ⟨d1, e1, e2⟩ := Option.bind_eq_some_iff.1 h
      exact ih d1 d (step_valid dbg tab d0 d1 o hv hs.1 e1) (hs.2 d1 e1) e2
  exact this os _ d ⟨by simp [create], by simp [create], by simp [create], by simp [create],
    by simp [create]⟩ hs h

/-- Counterexample to C27: `DSSetDimensions(ds,3,PETSC_CURRENT,0)` after `l = 5` leaves `l > n`. -/
theorem C27_l_false : ∃ d, run true (fun _ => true) (create .std)
    [.allocate 10, .setDimensions (.val 10) (.val 5) (.val 0),
      .setDimensions (.val 3) .current (.val 0)] = some d ∧ ¬ Valid d :=
  ⟨_, rfl, by simp [Valid]⟩

/-- Counterexample to C27: a negative or too large `k` is accepted. -/
theorem C27_k_false :
    (∃ d, run true (fun _ => true) (create .std)
      [.allocate 10, .setDimensions (.val 5) (.val 0) (.val 100)] = some d ∧ ¬ Valid d) ∧
    (∃ d, run true (fun _ => true) (create .std)
      [.allocate 10, .setDimensions (.val 5) (.val 0) (.val (-7))] = some d ∧ ¬ Valid d) :=
  ⟨⟨_, rfl, by simp [Valid]⟩, ⟨_, rfl, by simp [Valid]⟩⟩

/-- Counterexample to C27: no value of `k` whatsoever is rejected. -/
theorem C27_k_never_checked (d : Dims) (h : 0 ≤ d.n) (v : Int) : setK d (.val v) ≠ none := by
  simp only [setK]
  rw [if_pos (by omega)]
  simp

/-- Counterexample to C27: truncating a GSVD problem with lower bidiagonal form to its current size makes
`n` exceed `ld`. -/
theorem C27_gsvd_false : ∃ d, run true (fun _ => true) (create .gsvd)
    [.allocate 10, .setDimensions (.val 10) (.val 0) (.val 0), .setColumns 9, .truncate 10 false] = some d ∧
    d.n = 11 ∧ d.ld = 10 :=
  ⟨_, rfl, rfl, rfl⟩

/-- Counterexample to C27: updating the extra column of an SVD problem with more columns than rows sets
`k` beyond `n`. -/
theorem C27_svd_false : ∃ d, run true (fun _ => true) (create .svd)
    [.allocate 10, .setDimensions (.val 3) (.val 0) (.val 0), .setColumns 8, .setExtraRow true,
      .updateExtraRow] = some d ∧ ¬ Valid d :=
  ⟨_, rfl, by simp [Valid, reset, create]⟩

/-- The length `t` used by the sort survives a new allocation and can exceed the new leading dimension,
that is, the length of the array `perm` being sorted. -/
theorem C27_t_stale : ∃ d, run true (fun _ => true) (create .std)
    [.allocate 10, .setDimensions (.val 10) (.val 0) (.val 0), .allocate 5] = some d ∧ d.ld < d.t :=
  ⟨_, rfl, by simp [reset]⟩

/-- Non-vacuity: a restart cycle (solve, truncate, enlarge again) respects `Sane`. -/
example : SaneRun true (fun _ => true) (create .std)
    [.allocate 10, .setExtraRow true, .setDimensions (.val 8) (.val 2) (.val 4), .solve, .updateExtraRow,
      .truncate 5 false, .setDimensions (.val 8) .current (.val 5)] := by
  refine ⟨trivial, fun d h => ?_⟩
  cases h
  refine ⟨trivial, fun d h => ?_⟩
  cases h
  refine ⟨⟨by decide, trivial, by simp [askedN]⟩, fun d h => ?_⟩
  cases h
  refine ⟨trivial, fun d h => ?_⟩
  cases h
  refine ⟨by simp [Sane, reset, create], fun d h => ?_⟩
  cases h
  refine ⟨by simp [Sane, reset, create], fun d h => ?_⟩
  cases h
  exact ⟨⟨by decide, by simp [askedN, truncDims, reset, create], by simp [askedN]⟩, fun d h => trivial⟩

/-! ### C28 -/

/-- Calls that have no influence on whether the problem counts as solved. -/
def Quiet : Op → Bool
  | .reallocate _ | .setDimensions _ _ _ | .setExtraRow _ | .setColumns _ | .updateExtraRow
  | .setMethod _ | .modify => true
  | _ => false

theorem quiet_state (dbg : Bool) (tab : Nat → Bool) (os : List Op) (hq : ∀ o ∈ os, Quiet o = true)
    (d d' : Dims) (h : run dbg tab d os = some d') : d'.state = d.state := by
  induction os generalizing d with
  | nil => cases h; rfl
  | cons o os ih =>
    obtain ⟨d1, e1, e2⟩ := Option.bind_eq_some_iff.1 h
    rw [ih (fun x hx => hq x (by simp [hx])) d1 e2]
    have ho := hq o (by simp)
    cases o <;> simp only [Quiet, Bool.false_eq_true] at ho
    · simp only [step, reallocate] at e1
      split_ifs at e1; cases e1; rfl
    · rename_i n l k
      simp only [step, setDimensions] at e1
      split_ifs at e1
      obtain ⟨x1, f1, e1⟩ := Option.bind_eq_some_iff.1 e1
      obtain ⟨x2, f2, f3⟩ := Option.bind_eq_some_iff.1 e1
      have g1 : x1.state = d.state := by
        cases n <;> simp only [setN] at f1
        · cases f1; rfl
        · cases f1; rfl
        · split_ifs at f1; cases f1; rfl
      have g2 : x2.state = x1.state := by
        cases l <;> simp only [setL] at f2
        · cases f2; rfl
        · cases f2; rfl
        · split_ifs at f2; cases f2; rfl
      have g3 : d1.state = x2.state := by
        cases k <;> simp only [setK] at f3
        · cases f3; rfl
        · cases f3; rfl
        · split_ifs at f3; cases f3; rfl
      rw [g3, g2, g1]
    · simp only [step, setExtraRow] at e1
      split_ifs at e1; cases e1; rfl
    · simp only [step, setColumns] at e1
      split_ifs at e1; cases e1; rfl
    · simp only [step, updateExtraRow] at e1
      split_ifs at e1; cases e1; rfl
    · simp only [step, setMethod] at e1
      split_ifs at e1; cases e1; rfl
    · simp only [step, restoreMat] at e1
      cases e1; rfl

/-- **C28** (no-op). Once solved (or declared solved, or truncated), with any quiet calls in between,
`DSSolve` does not run the solution method and leaves the object as it is. -/
theorem C28_solve_noop (dbg : Bool) (tab : Nat → Bool) (o : Op) (os : List Op) (d d1 d2 : Dims)
    (ho : o = .solve ∨ o = .setState .condensed ∨ o = .setState .truncated ∨ ∃ n, o = .truncate n false)
    (hq : ∀ o ∈ os, Quiet o = true) (h1 : step dbg tab d o = some d1) (h2 : run dbg tab d1 os = some d2) :
    solve dbg tab d2 = .ok false d2 ∨ (dbg = true ∧ d2.ld = 0 ∧ solve dbg tab d2 = .error) := by
  have hst : d2.state.rank ≥ St.condensed.rank := by
    rw [quiet_state dbg tab os hq d1 d2 h2]
    rcases ho with rfl | rfl | rfl | ⟨n, rfl⟩
    · simp only [step, solve] at h1
      by_cases c1 : checkAlloc dbg d = true
      · by_cases c2 : d.state.rank ≥ St.condensed.rank
        · simp only [c1, c2, if_true] at h1
          cases h1; exact c2
        · by_cases c3 : d.meth < dsMaxSolve
          · by_cases c4 : tab d.meth = true
            · simp only [c1, c2, c3, c4, if_true, if_false] at h1
              cases h1; exact le_refl _
            · simp [c1, c2, c3, c4] at h1
          · simp [c1, c2, c3] at h1
      · simp [c1] at h1
    · cases h1; exact le_refl _
    · cases h1; exact (by decide : St.truncated.rank ≥ St.condensed.rank)
    · simp only [step, truncate] at h1
      simp only [Bool.false_eq_true, if_false] at h1
      split_ifs at h1
      cases h1
      exact (by decide : St.truncated.rank ≥ St.condensed.rank)
  unfold solve
  by_cases c1 : checkAlloc dbg d2 = true
  · left; rw [if_pos c1, if_pos hst]
  · right
    have : dbg = true ∧ d2.ld = 0 := by
      cases dbg <;> simp [checkAlloc] at c1 ⊢
      exact c1
    exact ⟨this.1, this.2, by rw [if_neg c1]⟩

/-- **C28** (recomputation), the part that holds: after a call that resets the life cycle (declaring the
state raw or intermediate, translating, trimming, resetting, allocating with another leading dimension) and
any quiet calls, `DSSolve` never returns without running the solution method.  Missing: modifying a matrix
alone does not do this, see `C28_modify_false`. -/
theorem C28_recompute_partial (dbg : Bool) (tab : Nat → Bool) (o : Op) (os : List Op) (d d1 d2 : Dims)
    (ho : o = .setState .raw ∨ o = .setState .intermediate ∨ o = .translate ∨ o = .reset ∨
      (∃ n, o = .truncate n true) ∨ ∃ ld, ld ≠ d.ld ∧ o = .allocate ld)
    (hq : ∀ o ∈ os, Quiet o = true) (h1 : step dbg tab d o = some d1) (h2 : run dbg tab d1 os = some d2) :
    ∀ d3, solve dbg tab d2 ≠ .ok false d3 := by
  have hst : ¬ d2.state.rank ≥ St.condensed.rank := by
    rw [quiet_state dbg tab os hq d1 d2 h2]
    rcases ho with rfl | rfl | rfl | rfl | ⟨n, rfl⟩ | ⟨ld, hld, rfl⟩
    · cases h1; exact (by decide : ¬ St.raw.rank ≥ St.condensed.rank)
    · cases h1; exact (by decide : ¬ St.intermediate.rank ≥ St.condensed.rank)
    · simp only [step, translate] at h1
      split_ifs at h1
      cases h1; exact (by decide : ¬ St.raw.rank ≥ St.condensed.rank)
    · cases h1; exact (by decide : ¬ St.raw.rank ≥ St.condensed.rank)
    · simp only [step, truncate, if_true] at h1
      split_ifs at h1
      cases h1
      exact (by decide : ¬ St.raw.rank ≥ St.condensed.rank)
    · simp only [step, allocate] at h1
      split_ifs at h1
      cases h1
      exact (by decide : ¬ St.raw.rank ≥ St.condensed.rank)
  intro d3
  unfold solve
  by_cases c1 : checkAlloc dbg d2 = true
  · rw [if_pos c1, if_neg hst]
    by_cases c3 : d2.meth < dsMaxSolve
    · rw [if_pos c3]
      by_cases c4 : tab d2.meth = true
      · rw [if_pos c4]; intro hh; cases hh
      · rw [if_neg c4]; intro hh; cases hh
    · rw [if_neg c3]; intro hh; cases hh
  · rw [if_neg c1]; intro hh; cases hh

/-- Counterexample to C28: after `DSSolve`, writing new entries through `DSGetMat`/`DSRestoreMat` (or
`DSGetArray`/`DSRestoreArray`) does not make the next `DSSolve` compute anything. -/
theorem C28_modify_false : ∃ d, run true (fun _ => true) (create .std)
    [.allocate 4, .setDimensions (.val 4) (.val 0) (.val 0), .solve, .modify] = some d ∧
    solve true (fun _ => true) d = .ok false d :=
  ⟨_, rfl, rfl⟩

/-- **C28** (acceptance of the sort). In debug builds `DSSort` is accepted exactly when the problem is
solved and not truncated, a criterion is set, and `k` is given only together with `rr`; the version with
a permutation needs only the first. -/
theorem C28_sort_states (d : Dims) (sc k rr : Bool) :
    (sortAccepted true d sc k rr = true ↔ d.state = .condensed ∧ sc = true ∧ (k = true → rr = true)) ∧
    (sortPermAccepted true d = true ↔ d.state = .condensed) := by
  unfold sortAccepted sortPermAccepted checkSolved
  cases d.state <;> cases sc <;> cases k <;> cases rr <;> simp [St.rank]

/-- Counterexample to C28: without debugging checks `DSSort` is accepted for an unsolved problem. -/
theorem C28_sort_optimized_false :
    sortAccepted false (create .std) true false false = true ∧ (create .std).state = .raw :=
  ⟨rfl, rfl⟩

/-- In every build sorting a truncated problem is refused. -/
theorem C28_sort_truncated (dbg : Bool) (d : Dims) (sc k rr : Bool) (h : d.state = .truncated) :
    sortAccepted dbg d sc k rr = false ∧ sortPermAccepted dbg d = false := by
  simp [sortAccepted, sortPermAccepted, h, St.rank]

/-- Counterexample to C28: `DSVectors` is accepted for an unsolved problem, even in debug builds. -/
theorem C28_vectors_false : ∃ d, run true (fun _ => true) (create .std)
    [.allocate 4, .setDimensions (.val 4) (.val 0) (.val 0)] = some d ∧
    vectorsAccepted true d false false = true ∧ d.state = .raw :=
  ⟨_, rfl, rfl, rfl⟩

/-! ### C47 -/

/-- **C47** for the DS object, the part that holds: after accepting a method number below the size of the
table, `DSSolve` never leaves the table.  Missing: the number 6 itself, see `C47_ds_false`. -/
theorem C47_ds_partial (dbg : Bool) (tab : Nat → Bool) (d d1 : Dims) (meth : Int) (hm : meth ≠ 6)
    (h : setMethod d meth = some d1) : solve dbg tab d1 ≠ .outOfBounds := by
  unfold setMethod at h
  by_cases a : 0 ≤ meth
  swap
  · rw [if_neg a] at h; cases h
  by_cases b : meth ≤ (dsMaxSolve : Int)
  swap
  · rw [if_pos a, if_neg b] at h; cases h
  rw [if_pos a, if_pos b] at h
  cases h
  unfold solve
  have : meth.toNat < dsMaxSolve := by
    simp only [dsMaxSolve] at b ⊢; omega
  split_ifs <;> (intro hh; first | cases hh | omega)

/-- Counterexample to C47: method 6 is accepted and `DSSolve` reads entry 6 of a table of 6 entries. -/
theorem C47_ds_false : ∃ d1, setMethod (create .std) 6 = some d1 ∧
    ∀ tab, solve false tab d1 = .outOfBounds :=
  ⟨_, rfl, fun _ => rfl⟩

/-- Numbers outside `0..6` are rejected. -/
theorem C47_ds_rejected (d : Dims) (meth : Int) (h : meth < 0 ∨ 6 < meth) : setMethod d meth = none := by
  unfold setMethod
  by_cases a : 0 ≤ meth
  · rw [if_pos a, if_neg (by simp only [dsMaxSolve]; omega)]
  · rw [if_neg a]

/-! ### C56 -/

/-- **C56**. For a (quasi-)triangular matrix, given by the positions `j` of its nonzero subdiagonal entries
`(j,j-1)`, of which no two are adjacent, and a locked part `l` that does not end inside a 2x2 block: for any
requested size `k` with `l ≤ l + k < n`, the size reported by `DSGetTruncateSize` differs by at most one, is
in range and does not cut a 2x2 block. -/
theorem C56_truncate_size (cplx : Bool) (d : Dims) (sub : Int → Bool) (l n k : Int)
    (hblocks : ∀ j, sub j = true → sub (j + 1) = false) (hcplx : cplx = true → ∀ j, sub j = false)
    (hl : sub (if l ≠ 0 then l else d.l) = false) (hk0 : 0 ≤ k)
    (hk1 : (if l ≠ 0 then l else d.l) + k < (if n ≠ 0 then n else d.n)) :
    let l' := if l ≠ 0 then l else d.l
    let n' := if n ≠ 0 then n else d.n
    let k' := getTruncateSize cplx d sub l n k
    sub (l' + k') = false ∧ 0 ≤ k' ∧ l' + k' ≤ n' ∧ k' ≤ k + 1 ∧ k - 1 ≤ k' := by
  intro l' n' k'
  have hk1 : l' + k < n' := hk1
  have hl : sub l' = false := hl
  have ek : k' = if cplx then k else if sub (l' + k) then (if l' + k < n' - 1 then k + 1 else k - 1) else k := rfl
  cases hc : cplx with
  | true =>
    rw [hc] at ek
    simp only [if_true] at ek
    rw [ek]
    exact ⟨hcplx hc _, hk0, by omega, by omega, by omega⟩
  | false =>
    rw [hc] at ek
    simp only [Bool.false_eq_true, if_false] at ek
    by_cases hs : sub (l' + k) = true
    · rw [if_pos hs] at ek
      have hk : k ≠ 0 := by
        rintro rfl
        rw [add_zero, hl] at hs
        exact absurd hs (by simp)
      by_cases hlt : l' + k < n' - 1
      · rw [if_pos hlt] at ek
        rw [ek]
        refine ⟨?_, by omega, by omega, by omega, by omega⟩
        have := hblocks _ hs
        rwa [add_assoc] at this
      · rw [if_neg hlt] at ek
        rw [ek]
        refine ⟨?_, by omega, by omega, by omega, by omega⟩
        by_contra hcon
        have := hblocks (l' + (k - 1)) (by simpa using hcon)
        rw [show l' + (k - 1) + 1 = l' + k by ring, hs] at this
        exact absurd this (by simp)
    · rw [if_neg hs] at ek
      rw [ek]
      exact ⟨by simpa using hs, hk0, by omega, by omega, by omega⟩

/-- Non-vacuity: blocks at positions (2,3) and (5,6). -/
example : (∀ j : Int, (j == 3 || j == 6) = true → (j + 1 == 3 || j + 1 == 6) = false) ∧
    (0 : Int) + 3 < 8 := by
  constructor
  · intro j; simp; omega
  · decide

/-- Counterexample outside the range of C56: for `l + k = n` the entry consulted belongs to the extra row,
and the full size is reduced by one although it cuts no block; here the reduced size cuts one. -/
theorem C56_full_size_false :
    let d : Dims := { create .std with ld := 5, n := 4, extrarow := true }
    let sub : Int → Bool := fun j => j == 3 || j == 4  -- block in rows 2,3 and entry (4,3) of the extra row
    getTruncateSize false d sub 0 0 4 = 3 ∧ sub 3 = true := by
  decide

/-- **C56** (refusal). In debug builds `DSTruncate` of a solved nonsymmetric problem is refused exactly for
proper sizes that cut a 2x2 block. -/
theorem C56_refused (st : St) (sub : Nat → Bool) (n n1 : Nat) (hst : st = .condensed ∨ st = .truncated) :
    truncCheckNHEP st sub n n1 = false ↔ n1 ≠ 0 ∧ n1 ≠ n ∧ sub n1 = true := by
  unfold truncCheckNHEP
  rcases hst with rfl | rfl <;> simp [St.rank, and_assoc]

/-- Counterexample for two-sided problems: a size that cuts a 2x2 block of one of the two matrices is
accepted (the source requires only one of the two entries to vanish). -/
theorem C56_nhepts_false : ∃ subA subB : Nat → Bool,
    truncCheckNHEPTS .condensed subA subB 4 2 = true ∧ subA 2 = true :=
  ⟨fun j => j == 2, fun _ => false, rfl, rfl⟩

/-! ### C57 -/

/-- **C57** (truncation), the part that holds: truncating from `n` to a smaller `n1` keeps the leading
`n1 x n1` block and moves the active entries of the extra row to row `n1`.  Missing: truncation to the
current size destroys the extra row, see `C57_truncate_false`. -/
theorem C57_truncate_partial {α : Type} [Zero α] (l n n1 : Int) (A : Int → Int → α) (hn : n1 < n) :
    (∀ r c, r < n1 → truncMat true l n n n1 A r c = A r c) ∧
    (∀ c, l ≤ c → c < n1 → truncMat true l n n n1 A n1 c = A n c) ∧
    (∀ c, l ≤ c → c < n → truncMat true l n n n1 A n c = 0) := by
  refine ⟨?_, ?_, ?_⟩
  · intro r c hr
    simp only [truncMat, and_self, if_true]
    rw [if_neg (by omega), if_neg (by omega)]
  · intro c h1 h2
    simp only [truncMat, and_self, if_true]
    rw [if_neg (by omega), if_pos (by simp [h1, h2])]
  · intro c h1 h2
    simp only [truncMat, and_self, if_true]
    rw [if_pos (by simp [h1, h2])]

/-- Counterexample to C57: `DSTruncate(ds,n,PETSC_FALSE)` with the current `n` zeroes the extra row. -/
theorem C57_truncate_false : ∃ A : Int → Int → Int, A 3 1 = 7 ∧ truncMat true 0 3 3 3 A 3 1 = 0 :=
  ⟨fun _ _ => 7, rfl, rfl⟩

section
variable {K : Type} [CommSemiring K] [StarRing K]
open Finset

/-- **C57** (update). `DSUpdateExtraRow` replaces the extra row `b` by the product `b Q`, over real or
complex numbers. -/
theorem C57_update (n : Nat) (Q : Nat → Nat → K) (row : Nat → K) (i : Nat) :
    updateRow n Q row i = ∑ j ∈ range n, row j * Q j i := by
  unfold updateRow
  rw [star_sum]
  apply sum_congr rfl
  intro j _
  rw [star_mul', star_star, star_star, mul_comm]

/-- **C57** (update, compact storage). If only the last entry of the extra row is nonzero, which is what
compact storage represents, the update is the same product. -/
theorem C57_update_compact (n : Nat) (hn : 0 < n) (Q : Nat → Nat → K) (e row : Nat → K)
    (hrow : ∀ j < n, row j = if j = n - 1 then e (n - 1) else 0) (i : Nat) (hi : i < n) :
    updateRowCompact n Q e i = ∑ j ∈ range n, row j * Q j i := by
  unfold updateRowCompact
  rw [if_pos hi, sum_eq_single (n - 1)]
  · rw [hrow _ (by omega), if_pos rfl]
  · intro j hj hne
    rw [mem_range] at hj
    rw [hrow j hj, if_neg hne, zero_mul]
  · intro h; exact absurd (mem_range.2 (by omega)) h

end

end Verif.DS
