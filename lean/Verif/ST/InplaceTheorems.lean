import Verif.ST.InplaceModel
import Mathlib.Algebra.Field.Rat
import Mathlib.Algebra.Order.Ring.Rat
import Mathlib.Tactic.Module
import Mathlib.Tactic.Abel
import Mathlib.Tactic.NormNum
/-!
# Property C11: in-place mode gives the matrix back
-/
set_option linter.all false
namespace Verif.ST.Inplace
variable {K V : Type} [Field K] [DecidableEq K] [AddCommGroup V] [Module K V]

/-- What the user last stored in the matrix. -/
def userContent (v0 : V) : List (Call K V) → V
  | [] => v0
  | .newContents v :: cs => userContent v cs
  | _ :: cs => userContent v0 cs

/-- Disciplined histories, ending with the matrix released.  `busy` means that the object has been set up and
`STPostSolve` has not been called yet: then `STPostSolve` may be called, the shift may change, the
user may store new contents; other setters are only called when not busy. -/
def Disciplined : Bool → List (Call K V) → Prop
  | busy, [] => busy = false
  | busy, c :: cs =>
    match c with
    | .setUp => Disciplined true cs
    | .setShift _ => Disciplined busy cs
    | .postSolve => busy = true ∧ Disciplined false cs
    | .newContents _ => Disciplined false cs
    | .invalidate => busy = false ∧ Disciplined false cs

structure Inv (busy : Bool) (v : V) (s : St K V) : Prop where
  busy1 : busy = true → s.stage = .setup ∧ s.opready = true ∧ s.a = v - s.sigma • s.b
  free : busy = false → s.stage ≠ .setup ∧ s.opready = false ∧ s.a = v

theorem maxpy_a (alpha beta : K) (i : Bool) (s : St K V) :
    maxpyInplace alpha beta i s = { s with a := s.a + (if i then alpha else alpha - beta) • s.b } := by
  unfold maxpyInplace
  simp only
  split_ifs with h1 h2 h2
  · rfl
  · push_neg at h2; rw [h2]; simp
  · rfl
  · push_neg at h2; rw [h2]; simp

theorem restored_aux (cs : List (Call K V)) : ∀ (busy : Bool) (v : V) (s : St K V), Inv busy v s →
    Disciplined busy cs → (run s cs).a = userContent v cs := by
  induction cs with
  | nil =>
    intro busy v s hi hd
    exact (hi.free hd).2.2
  | cons c cs ih =>
    intro busy v s hi hd
    simp only [run, List.foldl_cons]
    cases c with
    | setUp =>
      refine ih true v _ ⟨fun _ => ?_, fun h => by simp at h⟩ hd
      cases busy with
      | true =>
        obtain ⟨h1, h2, h3⟩ := hi.busy1 rfl
        simp [step, h1, h2, h3]
      | false =>
        obtain ⟨h1, h2, h3⟩ := hi.free rfl
        simp only [step, if_neg h1, h2, Bool.false_eq_true, if_false, maxpy_a]
        refine ⟨trivial, trivial, ?_⟩
        rw [h3]
        simp [sub_eq_add_neg]
    | setShift x =>
      refine ih busy v _ ?_ hd
      simp only [step]
      by_cases hx : s.sigma = x
      · rw [if_neg (by simpa using hx)]; exact hi
      rw [if_pos hx]
      cases busy with
      | true =>
        obtain ⟨h1, h2, h3⟩ := hi.busy1 rfl
        refine ⟨fun _ => ?_, fun h => by simp at h⟩
        simp only [h1, if_true, maxpy_a, Bool.false_eq_true, if_false]
        refine ⟨trivial, h2, ?_⟩
        rw [h3]; module
      | false =>
        obtain ⟨h1, h2, h3⟩ := hi.free rfl
        refine ⟨fun h => by simp at h, fun _ => ?_⟩
        simp only [if_neg h1]
        exact ⟨h1, h2, h3⟩
    | postSolve =>
      obtain ⟨hb, hd⟩ := hd
      subst hb
      obtain ⟨h1, h2, h3⟩ := hi.busy1 rfl
      refine ih false v _ ⟨fun h => by simp at h, fun _ => ?_⟩ hd
      simp only [step]
      refine ⟨by simp, trivial, ?_⟩
      rw [h3]; abel
    | newContents w =>
      refine ih false w _ ⟨fun h => by simp at h, fun _ => ?_⟩ hd
      simp only [step]
      refine ⟨?_, trivial, trivial⟩
      split_ifs <;> simp
    | invalidate =>
      obtain ⟨hb, hd⟩ := hd
      subst hb
      obtain ⟨h1, h2, h3⟩ := hi.free rfl
      refine ih false v _ ⟨fun h => by simp at h, fun _ => ?_⟩ hd
      simp only [step]
      exact ⟨by simp, trivial, h3⟩

/-- **C11**, proved part: after any disciplined history (any number of set-ups and shift changes, each
busy period closed by `STPostSolve`) the user's matrix holds exactly what the user put in it.  The
full claim, for every history whose last call is `STPostSolve`, is false: see the next two theorems. -/
theorem C11_restored_partial (a b : V) (sigma : K) (cs : List (Call K V)) (h : Disciplined false cs) :
    (run (fresh a b sigma) cs).a = userContent a cs :=
  restored_aux cs false a _ ⟨fun h => by simp at h, fun _ => by simp [fresh]⟩ h

example : Disciplined (K := ℚ) (V := ℚ) false
    [.setShift 1, .setUp, .setShift 2, .setUp, .setShift 5, .postSolve, .invalidate, .setUp, .postSolve] := by
  simp [Disciplined]

/-- **C11 is false** (1): changing e.g. the target between set-up and solve applies the shift twice;
`STPostSolve` undoes it once. -/
theorem C11_reset_false :
    (run (fresh (10 : ℚ) 1 (3 : ℚ)) [.setUp, .invalidate, .setUp, .postSolve]).a = 7 := by
  simp [run, step, fresh, maxpyInplace]; norm_num

/-- **C11 is false** (2): a second `STPostSolve` modifies the user's matrix. -/
theorem C11_twice_false :
    (run (fresh (10 : ℚ) 1 (3 : ℚ)) [.setUp, .postSolve, .postSolve]).a = 13 := by
  simp [run, step, fresh, maxpyInplace]; norm_num

end Verif.ST.Inplace
