import Verif.SVD.ReuseModel
import Mathlib.Analysis.Complex.Basic
import Mathlib.Tactic

/-!
# C79: a reused cross or cyclic solver computes what is requested
-/
set_option linter.all false

namespace Verif.SVD

/-- Specification: an eigensolver asked for `w` (with target `t`) returns `a` before `b`. -/
def Ahead (w : EWhich) (t : ℚ) (a b : ℂ) : Prop :=
  match w with
  | .largestMagnitude => ‖b‖ < ‖a‖
  | .smallestMagnitude => ‖a‖ < ‖b‖
  | .largestReal => b.re < a.re
  | .smallestReal => a.re < b.re
  | .targetMagnitude => ‖a - (t : ℂ)‖ < ‖b - (t : ℂ)‖
  | .targetReal => |a.re - t| < |b.re - t|
  | .smallestPos => 0 < a.re ∧ (b.re ≤ 0 ∨ a.re < b.re)

/-- Specification: what the user asks for, on singular values. -/
def Wanted (w : Which) (s t : ℝ) : Prop :=
  match w with
  | .largest => t < s
  | .smallest => s < t

/-- Eigenvalue of the cross product problem that belongs to the singular value `s`. -/
def CrossEig (k : Kind) (s : ℝ) (l : ℂ) : Prop :=
  match k with
  | .hyperbolic => l.im = 0 ∧ ‖l‖ = s ^ 2
  | _ => l = ((s ^ 2 : ℝ) : ℂ)

/-- Eigenvalue of the cyclic problem that belongs to the singular value `s` (for the smallest generalized ones the
problem solved has the inverse values). -/
def CyclicEig (k : Kind) (w : Which) (s : ℝ) (l : ℂ) : Prop :=
  match k, w with
  | .hyperbolic, _ => ‖l‖ = s
  | .generalized, .smallest => l = ((1 / s : ℝ) : ℂ)
  | _, _ => l = (s : ℂ)

theorem reuseRun_snoc (f : Reuse → Request → Option Reuse) (s : Reuse) (hs : List Request) (r : Request) :
    reuseRun f s (hs ++ [r]) = (reuseRun f s hs).bind fun s' => f s' r := by
  induction hs generalizing s with
  | nil =>
    show (match f s r with | none => none | some s' => some s') = f s r
    cases f s r <;> rfl
  | cons h hs ih =>
    show (match f s h with | none => none | some s' => reuseRun f s' (hs ++ [r])) = _
    cases hh : f s h with
    | none => simp [reuseRun, hh]
    | some s' => simp only [reuseRun, hh]; exact ih s'

theorem reuseRun_inv (f : Reuse → Request → Option Reuse) (P : Reuse → List Request → Prop) (s0 : Reuse)
    (h0 : P s0 []) (hstep : ∀ s hs r s', P s hs → f s r = some s' → P s' (hs ++ [r])) (hs : List Request) (s : Reuse)
    (h : reuseRun f s0 hs = some s) : P s hs := by
  induction hs using List.reverseRecOn generalizing s with
  | nil => cases h; exact h0
  | append_singleton hs r ih =>
    rw [reuseRun_snoc] at h
    cases h1 : reuseRun f s0 hs with
    | none => rw [h1] at h; cases h
    | some s1 => rw [h1] at h; exact hstep s1 hs r s (ih s1 h1) h

/-- Request after which the cross solver keeps shift-and-invert. -/
def Sticky (r : Request) : Prop := r.kind = .generalized ∧ r.which = .smallest ∧ r.explicit = true

theorem crossSetUp_some {s : Reuse} {r : Request} {s' : Reuse} (h : crossSetUp s r = some s') :
    typeOk (crossType s r).1 (crossType s r).2 = true ∧ s'.ptype = (crossType s r).2 ∧
    s'.sinvert = (crossWhich s r).1 ∧ s'.target = (crossWhich s r).2.1 ∧ s'.which = (crossWhich s r).2.2 ∧
    s'.nev = r.nsv ∧ s'.etol = some ((if r.tol = none then s.stol else r.tol).getD (defaultTol / 10)) ∧
    s'.stol = some ((if r.tol = none then s.stol else r.tol).getD defaultTol) := by
  unfold crossSetUp at h
  dsimp only at h
  by_cases hc : typeOk (crossType s r).1 (crossType s r).2 = true
  · rw [if_pos hc] at h; cases h
    exact ⟨hc, rfl, rfl, rfl, rfl, rfl, rfl, rfl⟩
  · rw [if_neg hc] at h; cases h

theorem cross_inv (isks : Bool) (hs : List Request) (s : Reuse)
    (h : reuseRun crossSetUp (freshEps isks) hs = some s) :
    s.target = 0 ∧ (s.sinvert = true → ∃ r ∈ hs, Sticky r) := by
  refine reuseRun_inv crossSetUp (fun s hs => s.target = 0 ∧ (s.sinvert = true → ∃ r ∈ hs, Sticky r)) _
    ⟨rfl, fun hh => by cases hh⟩ ?_ hs s h
  rintro s hs r s' ⟨ht, hi⟩ hf
  obtain ⟨_, _, h1, h2, _, _⟩ := crossSetUp_some hf
  have old : s.sinvert = true → ∃ q ∈ hs ++ [r], Sticky q := fun hh => by
    obtain ⟨q, hq, hq'⟩ := hi hh
    exact ⟨q, by simp [hq], hq'⟩
  rw [h1, h2]
  unfold crossWhich
  by_cases hc : r.kind = .generalized ∧ r.which = .smallest
  · rw [if_pos hc]
    by_cases hd : r.explicit = true ∧ s.isks = true ∧ ¬ s.sinvert = true
    · rw [if_pos hd]
      exact ⟨rfl, fun _ => ⟨r, by simp, hc.1, hc.2, hd.1⟩⟩
    · rw [if_neg hd]; exact ⟨ht, old⟩
  · rw [if_neg hc]
    by_cases hd : s.sinvert = true
    · rw [if_pos hd]; exact ⟨ht, old⟩
    · rw [if_neg hd]; exact ⟨ht, old⟩

theorem sq_lt_sq_nonneg {s t : ℝ} (hs : 0 ≤ s) (ht : 0 ≤ t) : s ^ 2 < t ^ 2 ↔ s < t := by
  constructor
  · intro h; nlinarith
  · intro h; nlinarith

theorem crossEig_norm {k : Kind} {s : ℝ} {l : ℂ} (h : CrossEig k s l) : ‖l‖ = s ^ 2 := by
  have key : l = ((s ^ 2 : ℝ) : ℂ) → ‖l‖ = s ^ 2 := by
    rintro rfl
    rw [Complex.norm_real, Real.norm_eq_abs, abs_of_nonneg (sq_nonneg s)]
  cases k with
  | standard => exact key h
  | hyperbolic => exact h.2
  | generalized => exact key h

/-- C79 (part). After any history of successful set-ups the cross solver asks for the end of the spectrum that the last
settings request, if they request the smallest values, or if no earlier set-up was for the smallest values of a
generalized problem with explicit matrix. (Missing for the full statement: largest values after such a set-up, see
`C79_cross_end_false`.) -/
theorem C79_cross_end_partial (isks : Bool) (hs : List Request) (r : Request) (s : Reuse)
    (h : reuseRun crossSetUp (freshEps isks) (hs ++ [r]) = some s)
    (hc : r.which = .smallest ∨ ∀ q ∈ hs, ¬ (q.kind = .generalized ∧ q.which = .smallest ∧ q.explicit = true))
    (s1 s2 : ℝ) (h1 : 0 ≤ s1) (h2 : 0 ≤ s2) (l1 l2 : ℂ) (e1 : CrossEig r.kind s1 l1) (e2 : CrossEig r.kind s2 l2) :
    Ahead s.which s.target l1 l2 ↔ Wanted r.which s1 s2 := by
  rw [reuseRun_snoc] at h
  cases hr : reuseRun crossSetUp (freshEps isks) hs with
  | none => rw [hr] at h; cases h
  | some s0 =>
    rw [hr] at h
    obtain ⟨ht, hi⟩ := cross_inv isks hs s0 hr
    obtain ⟨_, _, _, g2, g3, _⟩ := crossSetUp_some (show crossSetUp s0 r = some s from h)
    have n1 := crossEig_norm e1
    have n2 := crossEig_norm e2
    have k1 := sq_lt_sq_nonneg h1 h2
    have k2 := sq_lt_sq_nonneg h2 h1
    rw [g2, g3]
    unfold crossWhich
    by_cases hg : r.kind = .generalized ∧ r.which = .smallest
    · rw [if_pos hg]
      rw [hg.1] at e1 e2
      have f1 : l1.re = s1 ^ 2 := by rw [show l1 = ((s1 ^ 2 : ℝ) : ℂ) from e1]; simp [← Complex.ofReal_pow]
      have f2 : l2.re = s2 ^ 2 := by rw [show l2 = ((s2 ^ 2 : ℝ) : ℂ) from e2]; simp [← Complex.ofReal_pow]
      have a1 : |s1 ^ 2| = s1 ^ 2 := abs_of_nonneg (sq_nonneg s1)
      have a2 : |s2 ^ 2| = s2 ^ 2 := abs_of_nonneg (sq_nonneg s2)
      rw [hg.2]
      by_cases hd : r.explicit = true ∧ s0.isks = true ∧ ¬ s0.sinvert = true
      · rw [if_pos hd]
        simp only [Ahead, Wanted, f1, f2, Rat.cast_zero, sub_zero, a1, a2, k1]
      · rw [if_neg hd, ht]
        cases s0.sinvert
        · simp only [Ahead, Wanted, f1, f2, k1, Bool.false_eq_true, if_false]
        · simp only [Ahead, Wanted, f1, f2, Rat.cast_zero, sub_zero, a1, a2, k1, if_true]
    · rw [if_neg hg]
      by_cases hd : s0.sinvert = true
      · rw [if_pos hd, ht]
        obtain ⟨q, hq, hst⟩ := hi hd
        rcases hc with hc | hc
        · rw [hc]
          simp only [Ahead, Wanted, Rat.cast_zero, sub_zero, n1, n2, k1]
        · exact absurd hst (hc q hq)
      · rw [if_neg hd]
        cases hw : r.which
        · simp only [Ahead, Wanted, n1, n2, k2, if_true]
        · have : ¬ (Which.smallest = Which.largest) := by intro hh; cases hh
          simp only [Ahead, Wanted, n1, n2, k1, if_neg this]

/-- C79 is false for the cross solver: smallest values of a generalized problem with explicit matrix, then the largest
ones: the second solve prefers the value 1 to the value 2. -/
theorem C79_cross_end_false : ∃ s, reuseRun crossSetUp (freshEps true)
    [⟨.generalized, false, .smallest, true, 1, none, none⟩, ⟨.generalized, false, .largest, true, 1, none, none⟩] = some s
    ∧ Ahead s.which s.target ((1 ^ 2 : ℝ) : ℂ) ((2 ^ 2 : ℝ) : ℂ) ∧ ¬ Wanted .largest 1 2 := by
  refine ⟨_, rfl, ?_, ?_⟩
  · show ‖(((1 ^ 2 : ℝ) : ℂ)) - ((0 : ℚ) : ℂ)‖ < ‖(((2 ^ 2 : ℝ) : ℂ)) - ((0 : ℚ) : ℂ)‖
    rw [Rat.cast_zero, sub_zero, sub_zero, Complex.norm_real, Complex.norm_real]
    norm_num
  · unfold Wanted; norm_num

/-- A set-up after which a generalized problem is accepted by the cross solver. -/
def crossKeeps (r : Request) : Prop := r.kind = .generalized ∨ (r.kind = .hyperbolic ∧ r.swapped = true)

theorem cross_type_of {s : Reuse} {r : Request} {s' : Reuse} (h : crossSetUp s r = some s') :
    (s'.ptype = some .hep ↔ ¬ crossKeeps r) ∧ s'.ptype ≠ none := by
  obtain ⟨h0, h1, _⟩ := crossSetUp_some h
  rw [h1]
  unfold typeOk at h0
  unfold crossType at h0 ⊢
  unfold crossKeeps
  rcases r with ⟨k, sw, w, ex, nsv, tol, ncv⟩
  cases k
  · simp
  · cases sw <;> simp
  · simp only at h0 ⊢
    rcases hp : s.ptype with _ | t
    · simp
    · rw [hp] at h0; cases t <;> simp_all

theorem cross_ok_iff (s : Reuse) (r : Request) :
    (∃ s', crossSetUp s r = some s') ↔ (r.kind = .generalized → s.ptype ≠ some .hep) := by
  have ht : typeOk (crossType s r).1 (crossType s r).2 = true ↔ (r.kind = .generalized → s.ptype ≠ some .hep) := by
    rcases r with ⟨k, sw, w, ex, nsv, tol, ncv⟩
    rcases s with ⟨t, _, _, _, _, _, _, _, _, _⟩
    cases k
    · simp [crossType, typeOk]
    · cases sw <;> simp [crossType, typeOk]
    · rcases t with _ | t
      · simp [crossType, typeOk]
      · cases t <;> simp [crossType, typeOk]
  rw [← ht]
  unfold crossSetUp
  dsimp only
  by_cases hc : typeOk (crossType s r).1 (crossType s r).2 = true
  · rw [if_pos hc]; exact ⟨fun _ => hc, fun _ => ⟨_, rfl⟩⟩
  · rw [if_neg hc]; exact ⟨fun ⟨_, h⟩ => (by cases h), fun h => absurd h hc⟩

theorem cross_chain (s : Reuse) (hs : List Request) :
    (∃ s', reuseRun crossSetUp s hs = some s') ↔
      (∀ r ∈ hs.head?, r.kind = .generalized → s.ptype ≠ some .hep) ∧
      List.IsChain (fun a b => b.kind = .generalized → crossKeeps a) hs := by
  induction hs generalizing s with
  | nil => simp [reuseRun]
  | cons r hs ih =>
    cases hf : crossSetUp s r with
    | none =>
      have hn : ¬ ∃ s', crossSetUp s r = some s' := by rw [hf]; simp
      rw [cross_ok_iff] at hn
      simp only [reuseRun, hf]
      constructor
      · rintro ⟨s', h⟩; cases h
      · rintro ⟨h, _⟩; exact absurd (h r (by simp)) hn
    | some s1 =>
      have hk := (cross_ok_iff s r).1 ⟨s1, hf⟩
      have ht := (cross_type_of hf).1
      simp only [reuseRun, hf]
      rw [ih s1]
      have hcons : List.IsChain (fun a b => b.kind = .generalized → crossKeeps a) (r :: hs) ↔
          (∀ q ∈ hs.head?, q.kind = .generalized → crossKeeps r) ∧
            List.IsChain (fun a b => b.kind = .generalized → crossKeeps a) hs := by
        cases hs with
        | nil => simp
        | cons b t => simp
      rw [hcons]
      have hdd : ∀ q : Request, (q.kind = .generalized → s1.ptype ≠ some .hep) ↔ (q.kind = .generalized → crossKeeps r) := by
        intro q
        rw [Ne, ht, not_not]
      constructor
      · rintro ⟨a, b⟩
        refine ⟨fun q hq => ?_, fun q hq => (hdd q).1 (a q hq), b⟩
        have : q = r := by simpa using hq.symm
        rw [this]; exact hk
      · rintro ⟨_, a, b⟩
        exact ⟨fun q hq => (hdd q).2 (a q hq), b⟩

/-- C79 (part). A sequence of set-ups of the cross solver is accepted exactly when no generalized problem comes directly
after a standard problem or a hyperbolic one with at least as many rows as columns. (Missing: such sequences, which are
legitimate uses but fail, see `C79_cross_type_false`.) -/
theorem C79_cross_accepted_partial (isks : Bool) (hs : List Request) :
    (∃ s, reuseRun crossSetUp (freshEps isks) hs = some s) ↔
      List.IsChain (fun a b => b.kind = .generalized →
        a.kind = .generalized ∨ (a.kind = .hyperbolic ∧ a.swapped = true)) hs := by
  rw [cross_chain]
  constructor
  · exact fun h => h.2
  · exact fun h => ⟨fun _ _ _ hh => (by cases hh), h⟩

/-- C79 is false for the cross solver: a generalized problem after a standard one is rejected. -/
theorem C79_cross_type_false : reuseRun crossSetUp (freshEps true)
    [⟨.standard, false, .largest, false, 1, none, none⟩, ⟨.generalized, false, .largest, false, 1, none, none⟩] = none := rfl

/-- The tolerance last given by the user, if any. -/
def lastTol : List Request → Option ℚ
  | [] => none
  | r :: rs => match lastTol rs with
    | some t => some t
    | none => r.tol

theorem lastTol_snoc (hs : List Request) (r : Request) :
    lastTol (hs ++ [r]) = if r.tol = none then lastTol hs else r.tol := by
  induction hs with
  | nil =>
    show (match (none : Option ℚ) with | some t => some t | none => r.tol) = _
    cases h : r.tol <;> simp [lastTol]
  | cons a hs ih =>
    show (match lastTol (hs ++ [r]) with | some t => some t | none => a.tol) = _
    rw [ih]
    show _ = if r.tol = none then (match lastTol hs with | some t => some t | none => a.tol) else r.tol
    cases h : r.tol <;> simp

/-- C79 (part). The cross solver asks for the number of values requested and, at every solve, for the tolerance last
given by the user, or for at most the default tolerance if none was given. -/
theorem C79_cross_values (isks : Bool) (hs : List Request) (r : Request) (s : Reuse)
    (h : reuseRun crossSetUp (freshEps isks) (hs ++ [r]) = some s) :
    s.nev = r.nsv ∧ (∀ t, lastTol (hs ++ [r]) = some t → s.etol = some t) ∧
      (lastTol (hs ++ [r]) = none → ∃ t, s.etol = some t ∧ 0 < t ∧ t ≤ defaultTol) := by
  have inv : ∀ hs s, reuseRun crossSetUp (freshEps isks) hs = some s →
      (s.stol = lastTol hs ∨ (lastTol hs = none ∧ s.stol = some defaultTol)) := by
    intro hs s h
    refine reuseRun_inv crossSetUp
      (fun s hs => s.stol = lastTol hs ∨ (lastTol hs = none ∧ s.stol = some defaultTol)) _ (Or.inl rfl) ?_ hs s h
    intro s hs r s' hP hf
    obtain ⟨_, _, _, _, _, _, _, g⟩ := crossSetUp_some hf
    rw [g, lastTol_snoc]
    cases ht : r.tol with
    | some t => left; simp
    | none =>
      simp only [if_true]
      rcases hP with hP | ⟨hP, hQ⟩
      · rw [hP]
        cases hl : lastTol hs with
        | none => right; simp
        | some t => left; simp
      · right; rw [hQ]; simp [hP]
  rw [reuseRun_snoc] at h
  cases hr : reuseRun crossSetUp (freshEps isks) hs with
  | none => rw [hr] at h; cases h
  | some s0 =>
    rw [hr] at h
    obtain ⟨_, _, _, _, _, g1, g2, _⟩ := crossSetUp_some (show crossSetUp s0 r = some s from h)
    refine ⟨g1, ?_, ?_⟩
    · intro t hl
      rw [lastTol_snoc] at hl
      rw [g2]
      cases ht : r.tol with
      | some t' => rw [ht] at hl; simpa using hl
      | none =>
        rw [ht] at hl
        simp only [if_true] at hl ⊢
        rcases inv hs s0 hr with hP | ⟨hP, _⟩
        · rw [hP, hl]; rfl
        · rw [hP] at hl; cases hl
    · intro hl
      rw [lastTol_snoc] at hl
      rw [g2]
      cases ht : r.tol with
      | some t' => rw [ht] at hl; simp at hl
      | none =>
        rw [ht] at hl
        simp only [if_true] at hl ⊢
        refine ⟨_, rfl, ?_⟩
        rcases inv hs s0 hr with hP | ⟨_, hP⟩
        · rw [hP, hl]; simp only [Option.getD_none]; unfold defaultTol; norm_num
        · rw [hP]; simp only [Option.getD_some]; unfold defaultTol; norm_num

/-- C79 is false for the cross solver: solving twice with the same (default) settings uses a tolerance ten times larger
in the second solve. -/
theorem C79_cross_tolerance_false :
    ((reuseRun crossSetUp (freshEps true) [⟨.standard, false, .largest, false, 1, none, none⟩]).map Reuse.etol
      = some (some (defaultTol / 10))) ∧
    ((reuseRun crossSetUp (freshEps true) [⟨.standard, false, .largest, false, 1, none, none⟩,
      ⟨.standard, false, .largest, false, 1, none, none⟩]).map Reuse.etol = some (some defaultTol)) := ⟨rfl, rfl⟩

/-! ## The cyclic solver -/

variable (det : ℕ → ℕ) (q : ℕ)

theorem cyclicSetUp_some {s : Reuse} {r : Request} {s' : Reuse} (h : cyclicSetUp det q s r = some s') :
    (gotNev s = 1 ∨ 2 * r.nsv ≤ gotNev s) ∧ typeOk (cyclicType s r).1 (cyclicType s r).2 = true ∧
    s'.sinvert = s.sinvert ∧ s'.target = (cyclicWhich s r).1 ∧ s'.which = (cyclicWhich s r).2 ∧
    s'.nev = max (gotNev s) (2 * r.nsv) ∧
    s'.etol = some (s.etol.getD ((if r.tol = none then s.stol else r.tol).getD (defaultTol / 10))) := by
  unfold cyclicSetUp at h
  dsimp only at h
  by_cases h1 : gotNev s = 1 ∨ 2 * r.nsv ≤ gotNev s
  · rw [if_pos h1] at h
    by_cases hc : typeOk (cyclicType s r).1 (cyclicType s r).2 = true
    · rw [if_pos hc] at h; cases h
      exact ⟨h1, hc, rfl, rfl, rfl, rfl, rfl⟩
    · rw [if_neg hc] at h; cases h
  · rw [if_neg h1] at h; cases h

/-- C79 (part). After any history of successful set-ups the cyclic solver asks for the end of the spectrum that the last
settings request. -/
theorem C79_cyclic_end (isks : Bool) (hs : List Request) (r : Request) (s : Reuse)
    (h : reuseRun (cyclicSetUp det q) (freshEps isks) (hs ++ [r]) = some s)
    (s1 s2 : ℝ) (h1 : 0 < s1) (h2 : 0 < s2) (l1 l2 : ℂ) (e1 : CyclicEig r.kind r.which s1 l1)
    (e2 : CyclicEig r.kind r.which s2 l2) : Ahead s.which s.target l1 l2 ↔ Wanted r.which s1 s2 := by
  rw [reuseRun_snoc] at h
  cases hr : reuseRun (cyclicSetUp det q) (freshEps isks) hs with
  | none => rw [hr] at h; cases h
  | some s0 =>
    rw [hr] at h
    have hi : s0.sinvert = false := by
      refine reuseRun_inv (cyclicSetUp det q) (fun s _ => s.sinvert = false) _ rfl ?_ hs s0 hr
      intro s hs r s' hP hf
      obtain ⟨_, _, g, _⟩ := cyclicSetUp_some det q hf
      rw [g]; exact hP
    obtain ⟨_, _, _, g2, g3, _⟩ := cyclicSetUp_some det q (show cyclicSetUp det q s0 r = some s from h)
    rw [g2, g3]
    rcases r with ⟨k, sw, w, ex, nsv, tol, ncv⟩
    simp only at e1 e2 ⊢
    have hlt : 1 / s2 < 1 / s1 ↔ s1 < s2 := one_div_lt_one_div h2 h1
    cases k <;> cases w <;> simp only [CyclicEig] at e1 e2 <;>
      simp [cyclicWhich, hi, Ahead, Wanted, e1, e2, h1, h2, not_le.2 h2]
    · simpa using hlt

theorem cyclic_type_of {s : Reuse} {r : Request} {s' : Reuse} (h : cyclicSetUp det q s r = some s') :
    (s'.ptype = some .hep ↔ r.kind = .standard) ∧ s'.ptype ≠ none := by
  unfold cyclicSetUp at h
  dsimp only at h
  by_cases h1 : gotNev s = 1 ∨ 2 * r.nsv ≤ gotNev s
  · rw [if_pos h1] at h
    by_cases hc : typeOk (cyclicType s r).1 (cyclicType s r).2 = true
    · rw [if_pos hc] at h; cases h
      unfold typeOk at hc
      unfold cyclicType at hc ⊢
      rcases r with ⟨k, sw, w, ex, nsv, tol, ncv⟩
      cases k
      · simp
      · simp
      · simp only at hc ⊢
        rcases hp : s.ptype with _ | t
        · simp
        · rw [hp] at hc; cases t <;> simp_all
    · rw [if_neg hc] at h; cases h
  · rw [if_neg h1] at h; cases h

theorem cyclic_ok_iff (s : Reuse) (r : Request) (h : gotNev s = 1 ∨ 2 * r.nsv ≤ gotNev s) :
    (∃ s', cyclicSetUp det q s r = some s') ↔ (r.kind = .generalized → s.ptype ≠ some .hep) := by
  have ht : typeOk (cyclicType s r).1 (cyclicType s r).2 = true ↔ (r.kind = .generalized → s.ptype ≠ some .hep) := by
    rcases r with ⟨k, sw, w, ex, nsv, tol, ncv⟩
    rcases s with ⟨t, _, _, _, _, _, _, _, _, _⟩
    cases k
    · simp [cyclicType, typeOk]
    · simp [cyclicType, typeOk]
    · rcases t with _ | t
      · simp [cyclicType, typeOk]
      · cases t <;> simp [cyclicType, typeOk]
  rw [← ht]
  unfold cyclicSetUp
  dsimp only
  rw [if_pos h]
  by_cases hc : typeOk (cyclicType s r).1 (cyclicType s r).2 = true
  · rw [if_pos hc]; exact ⟨fun _ => hc, fun _ => ⟨_, rfl⟩⟩
  · rw [if_neg hc]; exact ⟨fun ⟨_, h⟩ => (by cases h), fun h => absurd h hc⟩

theorem cyclic_tail (s : Reuse) (n0 : ℕ) (hn : s.nev = 2 * n0) (h0 : 0 < n0) (t0 : ℚ) (ht : s.etol = some t0)
    (hs : List Request) :
    ((∃ s', reuseRun (cyclicSetUp det q) s hs = some s') ↔
      (∀ r ∈ hs, r.nsv ≤ n0) ∧ (∀ r ∈ hs.head?, r.kind = .generalized → s.ptype ≠ some .hep) ∧
      List.IsChain (fun a b => b.kind = .generalized → a.kind ≠ .standard) hs) ∧
    ∀ s', reuseRun (cyclicSetUp det q) s hs = some s' → s'.nev = 2 * n0 ∧ s'.etol = some t0 := by
  induction hs generalizing s with
  | nil =>
    refine ⟨by simp [reuseRun], ?_⟩
    intro s' h; cases h; exact ⟨hn, ht⟩
  | cons r hs ih =>
    have hg : gotNev s = 2 * n0 := by unfold gotNev; rw [if_neg (by omega), hn]
    cases hf : cyclicSetUp det q s r with
    | none =>
      refine ⟨?_, by intro s' h; simp only [reuseRun, hf] at h; cases h⟩
      simp only [reuseRun, hf]
      constructor
      · rintro ⟨s', h⟩; cases h
      · rintro ⟨a, b, _⟩
        have hle : r.nsv ≤ n0 := a r (by simp)
        have := (cyclic_ok_iff det q s r (Or.inr (by rw [hg]; omega))).2 (b r (by simp))
        rw [hf] at this
        obtain ⟨s', h⟩ := this
        cases h
    | some s1 =>
      obtain ⟨g0, _, _, _, _, g1, g2⟩ := cyclicSetUp_some det q hf
      rw [hg] at g0 g1
      have hle : r.nsv ≤ n0 := by omega
      have hn1 : s1.nev = 2 * n0 := by rw [g1]; exact max_eq_left (by omega)
      have ht1 : s1.etol = some t0 := by rw [g2, ht]; rfl
      have hk := (cyclic_ok_iff det q s r (Or.inr (by rw [hg]; omega))).1 ⟨s1, hf⟩
      have htp := (cyclic_type_of det q hf).1
      obtain ⟨i1, i2⟩ := ih s1 hn1 ht1
      refine ⟨?_, by intro s' h; simp only [reuseRun, hf] at h; exact i2 s' h⟩
      simp only [reuseRun, hf]
      rw [i1]
      have hcons : List.IsChain (fun a b => b.kind = .generalized → a.kind ≠ .standard) (r :: hs) ↔
          (∀ p ∈ hs.head?, p.kind = .generalized → r.kind ≠ .standard) ∧
            List.IsChain (fun a b => b.kind = .generalized → a.kind ≠ .standard) hs := by
        cases hs with
        | nil => simp
        | cons b t => simp
      rw [hcons]
      have hdd : ∀ p : Request, (p.kind = .generalized → s1.ptype ≠ some .hep) ↔
          (p.kind = .generalized → r.kind ≠ .standard) := by
        intro p
        rw [Ne, htp]
      constructor
      · rintro ⟨a0, a, b⟩
        refine ⟨?_, fun p hp => ?_, fun p hp => (hdd p).1 (a p hp), b⟩
        · intro p hp
          rcases List.mem_cons.1 hp with rfl | hp
          · exact hle
          · exact a0 p hp
        · have : p = r := by simpa using hp.symm
          rw [this]; exact hk
      · rintro ⟨a0, _, a, b⟩
        exact ⟨fun p hp => a0 p (by simp [hp]), fun p hp => (hdd p).2 (a p hp), b⟩

/-- C79 (part). Number of values, cyclic solver: a sequence of set-ups is accepted exactly when no later one requests
more values than the first one and no generalized problem comes directly after a standard one; then the eigensolver is
asked for twice the number of the first request, hence for enough values. (Missing: later set-ups with more values,
which are rejected, see `C79_cyclic_more_false`.) -/
theorem C79_cyclic_dims_partial (isks : Bool) (r : Request) (hr : 0 < r.nsv) (hs : List Request) :
    ((∃ s, reuseRun (cyclicSetUp det q) (freshEps isks) (r :: hs) = some s) ↔
      (∀ p ∈ hs, p.nsv ≤ r.nsv) ∧
        List.IsChain (fun a b => b.kind = .generalized → a.kind ≠ .standard) (r :: hs)) ∧
    ∀ s, reuseRun (cyclicSetUp det q) (freshEps isks) (r :: hs) = some s →
      s.nev = 2 * r.nsv ∧ s.etol = some (r.tol.getD (defaultTol / 10)) := by
  have hk : ∃ s', cyclicSetUp det q (freshEps isks) r = some s' :=
    (cyclic_ok_iff det q (freshEps isks) r (Or.inl rfl)).2 (fun _ hh => by cases hh)
  obtain ⟨s1, hf⟩ := hk
  obtain ⟨_, _, _, _, _, g1, g2⟩ := cyclicSetUp_some det q hf
  have hn : s1.nev = 2 * r.nsv := by
    rw [g1]; show max 1 (2 * r.nsv) = _; exact max_eq_right (by omega)
  have ht : s1.etol = some (r.tol.getD (defaultTol / 10)) := by
    rw [g2]
    show some ((if r.tol = none then none else r.tol).getD (defaultTol / 10)) = _
    cases r.tol <;> simp
  obtain ⟨i1, i2⟩ := cyclic_tail det q s1 r.nsv hn hr _ ht hs
  have htp := (cyclic_type_of det q hf).1
  have hcons : List.IsChain (fun a b => b.kind = .generalized → a.kind ≠ .standard) (r :: hs) ↔
      (∀ p ∈ hs.head?, p.kind = .generalized → r.kind ≠ .standard) ∧
        List.IsChain (fun a b => b.kind = .generalized → a.kind ≠ .standard) hs := by
    cases hs with
    | nil => simp
    | cons b t => simp
  have hdd : ∀ p : Request, (p.kind = .generalized → s1.ptype ≠ some .hep) ↔
      (p.kind = .generalized → r.kind ≠ .standard) := by
    intro p
    rw [Ne, htp]
  refine ⟨?_, by intro s h; simp only [reuseRun, hf] at h; exact i2 s h⟩
  simp only [reuseRun, hf]
  rw [i1, hcons]
  constructor
  · rintro ⟨a0, a, b⟩; exact ⟨a0, fun p hp => (hdd p).1 (a p hp), b⟩
  · rintro ⟨a0, a, b⟩; exact ⟨a0, fun p hp => (hdd p).2 (a p hp), b⟩

/-- C79 is false for the cyclic solver: one value, then two: the second set-up fails. -/
theorem C79_cyclic_more_false : reuseRun (cyclicSetUp det q) (freshEps true)
    [⟨.standard, false, .largest, false, 1, none, none⟩, ⟨.standard, false, .largest, false, 2, none, none⟩] = none := rfl

/-- C79 is false for the cyclic solver: a tolerance given after the first solve is ignored. -/
theorem C79_cyclic_tolerance_false : (reuseRun (cyclicSetUp det q) (freshEps true)
    [⟨.standard, false, .largest, false, 1, some (1 / 10), none⟩,
     ⟨.standard, false, .largest, false, 1, some (1 / 100000), none⟩]).map Reuse.etol = some (some (1 / 10)) := rfl

/-- C79 is false for the cyclic solver: a basis size given after the first solve is ignored. -/
theorem C79_cyclic_ncv_false : (reuseRun (cyclicSetUp det q) (freshEps true)
    [⟨.standard, false, .largest, false, 1, none, some 10⟩,
     ⟨.standard, false, .largest, false, 1, none, some 40⟩]).map Reuse.encv = some (some 10) := rfl

example : ∃ s, reuseRun crossSetUp (freshEps true) ([⟨.generalized, false, .smallest, true, 2, none, none⟩,
    ⟨.standard, true, .largest, false, 3, some (1 / 10), none⟩] ++
    [⟨.hyperbolic, true, .smallest, false, 1, none, none⟩]) = some s := ⟨_, rfl⟩
example : CrossEig .hyperbolic 2 (-4) := ⟨by simp, by norm_num⟩
example : ∃ s, reuseRun (cyclicSetUp (fun n => n + 15) 20) (freshEps false)
    ([⟨.generalized, false, .smallest, true, 2, none, none⟩] ++ [⟨.generalized, true, .largest, false, 1, none, none⟩])
      = some s := ⟨_, rfl⟩
example : CyclicEig .generalized .smallest 2 (1 / 2) := by simp [CyclicEig]

end Verif.SVD
