import Verif.EPS.TestSelModel
import Mathlib.Data.List.Induction
import Mathlib.Tactic
/-!
C89: the convergence and stopping tests applied are the ones selected.
-/
set_option linter.all false
namespace Verif.TestSel

/-! ### Specification: what a sequence of calls selects -/

/-- The function given in the last call that provides one. -/
def lastGiven : List Op → Option TestFn
  | [] => none
  | .byName _ :: os => lastGiven os
  | .byFunction f _ :: os => match lastGiven os with
    | some g => some g
    | none => some f

/-- The test selected by a sequence of calls, given in reverse order (the last call first): a call by name with a
predefined kind selects that test, a call by function selects the function, the name "user" selects the
function given last (and is an error, without effect, if there is none). -/
def selectedRev (d : TestFn) : List Op → TestFn
  | [] => d
  | .byName (.pre k) :: _ => .pre k
  | .byName .user :: os => match lastGiven os.reverse with
    | some f => f
    | none => selectedRev d os
  | .byFunction f _ :: _ => f

/-- The kind that the getter should return, same convention. -/
def kindRev (d : Option Kind) : List Op → Option Kind
  | [] => d
  | .byName (.pre k) :: _ => some (.pre k)
  | .byName .user :: os => match lastGiven os.reverse with
    | some _ => some .user
    | none => kindRev d os
  | .byFunction (.pre k) _ :: _ => some (.pre k)
  | .byFunction (.usr _) _ :: _ => some .user

/-- The contexts given together with a destructor, in the order of the calls. -/
def owned : List Op → List Nat
  | [] => []
  | .byName _ :: os => owned os
  | .byFunction _ c :: os => if c.destroy then c.id :: owned os else owned os

/-! ### Lemmas -/

theorem run_append (sh : Shape) (s : St) (a b : List Op) : run sh s (a ++ b) = run sh (run sh s a) b := by
  induction a generalizing s with
  | nil => rfl
  | cons o a ih => exact ih _

theorem lastGiven_append (a : List Op) (o : Op) : lastGiven (a ++ [o]) =
    match o with
    | .byName _ => lastGiven a
    | .byFunction f _ => some f := by
  induction a with
  | nil => cases o <;> rfl
  | cons x a ih =>
    cases x with
    | byName k => simp only [List.cons_append, lastGiven]; exact ih
    | byFunction f c =>
      simp only [List.cons_append, lastGiven, ih]
      cases o <;> rfl

theorem release_user (s : St) : (release s).user = s.user := by
  unfold release
  cases s.ctx with
  | none => rfl
  | some c => dsimp only; split <;> rfl

theorem step_user (sh : Shape) (s : St) (o : Op) : (step sh s o).user =
    match o with
    | .byName _ => s.user
    | .byFunction f _ => some f := by
  cases o with
  | byName k =>
    cases k with
    | pre k => rfl
    | user => simp only [step, setTest]; cases h : s.user <;> simp [h]
  | byFunction f c =>
    cases f <;> cases sh <;> rfl

theorem run_user (sh : Shape) (s : St) (h0 : s.user = none) (os : List Op) : (run sh s os).user = lastGiven os := by
  induction os using List.reverseRecOn with
  | nil => exact h0
  | append_singleton os o ih =>
    rw [run_append, lastGiven_append]
    simp only [run]
    rw [step_user]
    cases o with
    | byName k => exact ih
    | byFunction f c => rfl

/-! ### C89 -/

/-- **C89 (stopping tests of EPS and SVD).** After any sequence of calls the test applied is the one
selected. -/
theorem C89_applied (k : Nat) (os : List Op) :
    (run true (init k) os).fn = some (selectedRev (.pre k) os.reverse) := by
  induction os using List.reverseRecOn with
  | nil => rfl
  | append_singleton os o ih =>
    rw [run_append, List.reverse_append]
    have hu := run_user true (init k) rfl os
    simp only [run, List.reverse_cons, List.reverse_nil, List.nil_append, List.cons_append]
    cases o with
    | byName kd =>
      cases kd with
      | pre j => rfl
      | user =>
        simp only [step, setTest, selectedRev, List.reverse_reverse, hu]
        cases lastGiven os with
        | none => exact ih
        | some f => rfl
    | byFunction f c => cases f <;> rfl

/-- **C89 (all other tests), partial.** The same for the convergence tests of all classes and the stopping
tests of PEP and NEP, provided that no predefined function is passed to `SetTestFunction`.
Missing: calls that pass one, see `C89_applied_false`. -/
theorem C89_applied_partial (k : Nat) (os : List Op)
    (h : ∀ f c, Op.byFunction f c ∈ os → ∃ i, f = .usr i) :
    (run false (init k) os).fn = some (selectedRev (.pre k) os.reverse) := by
  induction os using List.reverseRecOn with
  | nil => rfl
  | append_singleton os o ih =>
    have ih := ih fun f c hm => h f c (List.mem_append_left _ hm)
    rw [run_append, List.reverse_append]
    have hu := run_user false (init k) rfl os
    simp only [run, List.reverse_cons, List.reverse_nil, List.nil_append, List.cons_append]
    cases o with
    | byName kd =>
      cases kd with
      | pre j => rfl
      | user =>
        simp only [step, setTest, selectedRev, List.reverse_reverse, hu]
        cases lastGiven os with
        | none => exact ih
        | some f => rfl
    | byFunction f c =>
      obtain ⟨i, rfl⟩ := h f c (by simp)
      rfl

example : ∀ f c, Op.byFunction f c ∈ [Op.byFunction (.usr 3) ⟨1, true⟩, .byName (.pre 1), .byName .user] →
    ∃ i, f = TestFn.usr i := by
  intro f c h
  simp only [List.mem_cons, Op.byFunction.injEq, reduceCtorEq, List.not_mem_nil, or_false, false_or] at h
  exact ⟨3, h.1⟩
example : (run false (init 0) [.byFunction (.usr 3) ⟨1, true⟩, .byName (.pre 1), .byName .user]).fn = some (.usr 3) := rfl

/-- **C89 is false** for the convergence tests of all classes and the stopping tests of PEP and NEP: after a
user's test, selecting a predefined one by its function leaves the user's test in use (with a context
that has been destroyed), although the getter reports the predefined one. -/
theorem C89_applied_false (i k : Nat) (c d : Ctx) (hc : c.destroy = true) :
    let s := run false (init 0) [.byFunction (.usr i) c, .byFunction (.pre k) d]
    s.kind = some (.pre k) ∧ s.fn = some (.usr i) ∧ c.id ∈ s.destroyed := by
  simp [run, step, setTestFunction, release, init, hc]

/-- **C89 is false** for a new SVD object: selecting a predefined convergence test by its function leaves no
function at all, and set-up does not repair it. -/
theorem C89_svd_null_false (k d : Nat) (c : Ctx) :
    (svdDefault d (run false initSVD [.byFunction (.pre k) c])).fn = none := rfl

/-- **C89 (SVD convergence tests), partial.** If no predefined function is passed, set-up of an SVD object finds
the test selected, or the default one if no call has selected any. -/
theorem C89_svd_partial (d : Nat) (os : List Op)
    (h : ∀ f c, Op.byFunction f c ∈ os → ∃ i, f = .usr i) :
    (svdDefault d (run false initSVD os)).fn = some (selectedRev (.pre d) os.reverse) := by
  have key : ∀ os : List Op, (∀ f c, Op.byFunction f c ∈ os → ∃ i, f = TestFn.usr i) →
      ((run false initSVD os).kind = none ∧ selectedRev (.pre d) os.reverse = .pre d) ∨
      ((run false initSVD os).kind.isSome ∧ (run false initSVD os).fn = some (selectedRev (.pre d) os.reverse)) := by
    intro os
    induction os using List.reverseRecOn with
    | nil => intro _; left; exact ⟨rfl, rfl⟩
    | append_singleton os o ih =>
      intro h
      have ih := ih fun f c hm => h f c (List.mem_append_left _ hm)
      rw [run_append, List.reverse_append]
      have hu := run_user false initSVD rfl os
      simp only [run, List.reverse_cons, List.reverse_nil, List.nil_append, List.cons_append]
      cases o with
      | byName kd =>
        cases kd with
        | pre j => right; exact ⟨rfl, rfl⟩
        | user =>
          simp only [step, setTest, selectedRev, List.reverse_reverse, hu]
          cases lastGiven os with
          | none => exact ih
          | some f => right; exact ⟨rfl, rfl⟩
      | byFunction f c =>
        obtain ⟨i, rfl⟩ := h f c (by simp)
        right; exact ⟨rfl, rfl⟩
  rcases key os h with ⟨h1, h2⟩ | ⟨h1, h2⟩
  · rw [h2]; unfold svdDefault; rw [h1]; rfl
  · unfold svdDefault
    cases hk : (run false initSVD os).kind with
    | none => rw [hk] at h1; simp at h1
    | some x => exact h2

/-- **C89 is false** for EPS once the type is set to power: its own stopping test replaces the one
selected by the user before, and the getter does not show it. -/
theorem C89_power_false (i p : Nat) (c : Ctx) :
    let s := setTypePower p (run true (init 0) [.byFunction (.usr i) c])
    s.kind = some .user ∧ s.fn = some (.pre p) := ⟨rfl, rfl⟩

/-- **C89 (getter).** The kind returned by the getter is the one selected, for every class. -/
theorem C89_getter (sh : Shape) (s0 : St) (hs : s0.user = none) (os : List Op) :
    (run sh s0 os).kind = kindRev s0.kind os.reverse := by
  induction os using List.reverseRecOn with
  | nil => rfl
  | append_singleton os o ih =>
    rw [run_append, List.reverse_append]
    have hu := run_user sh s0 hs os
    simp only [run, List.reverse_cons, List.reverse_nil, List.nil_append, List.cons_append]
    cases o with
    | byName kd =>
      cases kd with
      | pre j => rfl
      | user =>
        simp only [step, setTest, kindRev, List.reverse_reverse, hu]
        cases lastGiven os with
        | none => exact ih
        | some f => rfl
    | byFunction f c => cases f <;> cases sh <;> rfl

/-- **C89 (contexts).** When the object is destroyed after any sequence of calls, the contexts that were given
with a destructor have been destroyed exactly once each, in the order in which they were given; and at any
time before, those of all calls but the last one that gave a context. -/
theorem C89_contexts (sh : Shape) (s0 : St) (hs : s0.ctx = none) (hd : s0.destroyed = []) (os : List Op) :
    (destroyObj (run sh s0 os)).destroyed.reverse = owned os ∧
    ∀ os' f c, os = os' ++ [.byFunction f c] → (run sh s0 os).destroyed.reverse = owned os' ∧ (run sh s0 os).ctx = some c := by
  have happ : ∀ a b : List Op, owned (a ++ b) = owned a ++ owned b := by
    intro a b
    induction a with
    | nil => rfl
    | cons x a ih =>
      cases x with
      | byName k => exact ih
      | byFunction f c =>
        simp only [List.cons_append, owned]
        split
        · rw [ih]; rfl
        · exact ih
  have hname : ∀ s k, (step sh s (.byName k)).ctx = s.ctx ∧ (step sh s (.byName k)).destroyed = s.destroyed := by
    intro s k
    cases k with
    | pre j => exact ⟨rfl, rfl⟩
    | user => simp only [step, setTest]; cases h : s.user <;> simp
  have hfun : ∀ s f c, (step sh s (.byFunction f c)).ctx = some c ∧
      (step sh s (.byFunction f c)).destroyed = (release s).destroyed := by
    intro s f c
    cases f <;> cases sh <;> exact ⟨rfl, rfl⟩
  have hrel : ∀ s : St, (release s).destroyed = match s.ctx with
      | some c => if c.destroy then c.id :: s.destroyed else s.destroyed
      | none => s.destroyed := by
    intro s
    unfold release
    cases s.ctx with
    | none => rfl
    | some c => dsimp only; split <;> rfl
  have main : ∀ os : List Op, (release (run sh s0 os)).destroyed.reverse = owned os := by
    intro os
    induction os using List.reverseRecOn with
    | nil => rw [hrel]; simp only [run, hs, hd]; rfl
    | append_singleton os o ih =>
      rw [run_append, happ]
      simp only [run]
      cases o with
      | byName k =>
        rw [hrel, (hname _ k).1, (hname _ k).2, ← hrel, ih]
        simp [owned]
      | byFunction f c =>
        rw [hrel, (hfun _ f c).1, (hfun _ f c).2]
        by_cases hcd : c.destroy
        · simp [hcd, owned, ih]
        · simp [hcd, owned, ih]
  refine ⟨main os, ?_⟩
  rintro os' f c rfl
  rw [run_append]
  simp only [run]
  rw [(hfun _ f c).1, (hfun _ f c).2]
  exact ⟨main os', rfl⟩

example : (destroyObj (run false (init 0) [.byFunction (.usr 0) ⟨5, true⟩, .byFunction (.usr 1) ⟨6, false⟩,
    .byFunction (.usr 1) ⟨7, true⟩, .byName (.pre 1)])).destroyed.reverse = [5, 7] := rfl

end Verif.TestSel
