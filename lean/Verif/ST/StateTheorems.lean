import Verif.ST.StateModel
import Mathlib.Data.Rat.Defs
import Mathlib.Algebra.Field.Rat
import Mathlib.Tactic.NormNum
/-!
# Property C09: the applied operator is the one for the current matrices, shift and antishift
-/
set_option linter.all false
namespace Verif.ST.State
variable {Mx K : Type} [Field K] [DecidableEq K]

/-- The operator a user expects: current type, current matrices, current shift and antishift (as
returned by `STGetShift`, `STCayleyGetAntishift`). -/
def Expected (s : St Mx K) (p : Ptr Mx K) : Prop :=
  ∃ m, s.mats = some m ∧ p = .val ⟨s.kind, m, s.sigma, if s.kind = .cayley then s.nu else 0⟩

/-- The full claim: after any history, a successful `STApply` uses the expected operator. -/
def OperatorCurrent (h : List (Call Mx K)) (k : Kind) : Prop :=
  ∀ s p s', run (create k) h = some s → applied s = some (p, s') → Expected s' p

/-- Histories covered by the theorem.  `risky` becomes true when `STGetOperator` or
`STSetSplitPreconditioner` is called, and false again at `STSetUp`/`STApply`; the shift and antishift
must not be changed while it is true.  `STScaleShift` is not used, the transform flag is not
switched off, and antishifts are nonzero. -/
def Clean : Bool → List (Call Mx K) → Prop
  | _, [] => True
  | risky, c :: cs =>
    match c with
    | .setShift _ => risky = false ∧ Clean risky cs
    | .setAntishift x => risky = false ∧ x ≠ 0 ∧ Clean risky cs
    | .scaleShift _ => False
    | .setTransform b => b = true ∧ Clean risky cs
    | .getOperator => Clean true cs
    | .setSplit => Clean true cs
    | .setUp => Clean false cs
    | .apply => Clean false cs
    | _ => Clean risky cs

def want (s : St Mx K) (m : Mx) : Ptr Mx K :=
  .val ⟨s.kind, m, s.sigma, if s.kind = .cayley then s.nu else 0⟩

/-- Invariant. -/
structure Inv (risky : Bool) (s : St Mx K) : Prop where
  tr : s.transform = true
  setup : s.stage = .setup → s.opready = true
  ready : s.opready = true → ∃ m, s.mats = some m ∧ s.ptr = want s m
  notready : s.opready = true → risky = false → s.stage = .setup
  nuset : s.nuSet = true → s.kind = .cayley → s.nu ≠ 0
  nu0 : s.opready = true → s.kind = .cayley → s.nu ≠ 0
  -- defaults have been taken
  defs : s.opready = true → s.kind = .sinvert → s.sigmaSet = false → s.sigma = s.defsigma

theorem takeDefaults_fields (s : St Mx K) : (takeDefaults s).kind = s.kind ∧
    (takeDefaults s).mats = s.mats ∧ (takeDefaults s).transform = s.transform ∧
    (takeDefaults s).stage = s.stage ∧ (takeDefaults s).nuSet = s.nuSet ∧
    (takeDefaults s).sigmaSet = s.sigmaSet ∧ (takeDefaults s).defsigma = s.defsigma ∧
    (takeDefaults s).opready = s.opready ∧
    (s.kind = .sinvert → s.sigmaSet = false → (takeDefaults s).sigma = s.defsigma) ∧
    (s.kind = .cayley → s.nuSet = false → (takeDefaults s).nu = (takeDefaults s).sigma) ∧
    (s.kind = .cayley → s.nuSet = true → (takeDefaults s).nu = s.nu) := by
  obtain ⟨k, _, _, _, _, _, _, _, b, _, _, c, _⟩ := s
  cases k <;> cases b <;> cases c <;> simp [takeDefaults]

theorem computeOperator_spec {r : Bool} {s s' : St Mx K}
    (htr : s.transform = true)
    (hready : s.opready = true → ∃ m, s.mats = some m ∧ s.ptr = want s m)
    (hnuset : s.nuSet = true → s.kind = .cayley → s.nu ≠ 0)
    (hnu0 : s.opready = true → s.kind = .cayley → s.nu ≠ 0)
    (hdefs : s.opready = true → s.kind = .sinvert → s.sigmaSet = false → s.sigma = s.defsigma)
    (hs : computeOperator s = some s') :
    s'.opready = true ∧ s'.stage = s.stage ∧ (s'.stage = .setup ∨ r = true → Inv r s') ∧
      Inv true s' := by
  unfold computeOperator at hs
  split_ifs at hs with ho
  · cases hs
    refine ⟨ho, rfl, fun hr => ⟨htr, fun _ => ho, hready, fun _ h => ?_, hnuset, hnu0, hdefs⟩,
      ⟨htr, fun _ => ho, hready, fun _ h => by simp at h, hnuset, hnu0, hdefs⟩⟩
    rcases hr with h1 | h1
    · exact h1
    · simp [h1] at h
  · cases hm : s.mats with
    | none => simp [hm] at hs
    | some m =>
      simp only [hm] at hs
      obtain ⟨t1, t2, t3, t4, t5, t6, t7, t8, t9, t10, t11⟩ := takeDefaults_fields s
      by_cases hc : (takeDefaults s).kind = .cayley ∧
        (((takeDefaults s).nu = 0 ∧ (takeDefaults s).sigma = 0) ∨ (takeDefaults s).nu = - (takeDefaults s).sigma)
      · rw [if_pos hc] at hs; cases hs
      rw [if_neg hc] at hs
      cases hs
      rw [t1] at hc
      have hnz : s.kind = .cayley → (takeDefaults s).nu ≠ 0 := by
        intro hk h0
        apply hc
        refine ⟨hk, ?_⟩
        cases hb : s.nuSet with
        | false => left; exact ⟨h0, by rw [← t10 hk hb]; exact h0⟩
        | true => exact absurd (by rw [← t11 hk hb]; exact h0) (hnuset hb hk)
      have base : ∀ q, (q = true ∨ s.stage = .setup) → Inv q { takeDefaults s with
          opready := true
          ptr := .val ⟨(takeDefaults s).kind, m, (takeDefaults s).sigma,
            if (takeDefaults s).kind = .cayley then (takeDefaults s).nu else 0⟩ } := by
        intro q hq
        refine ⟨by rw [t3]; exact htr, fun _ => rfl, fun _ => ⟨m, by rw [t2]; exact hm, rfl⟩, ?_, ?_, ?_, ?_⟩
        · intro _ hf
          rcases hq with h | h
          · simp [h] at hf
          · rw [t4]; exact h
        · intro _ hk; exact hnz (by rw [← t1]; exact hk)
        · intro _ hk; exact hnz (by rw [← t1]; exact hk)
        · intro _ hk hs0
          rw [t7]
          exact t9 (by rw [← t1]; exact hk) (by rw [← t6]; exact hs0)
      refine ⟨rfl, t4, fun hr => ?_, base true (Or.inl rfl)⟩
      apply base
      rcases hr with h | h
      · right; rw [← t4]; exact h
      · left; exact h

theorem setUp_spec {r : Bool} {s s' : St Mx K} (hi : Inv r s) (hs : setUp s = some s') :
    s'.stage = .setup ∧ Inv false s' := by
  unfold setUp at hs
  by_cases h1 : s.mats.isNone = true
  · rw [if_pos h1] at hs; cases hs
  rw [if_neg h1] at hs
  by_cases h2 : s.stage = .setup
  · rw [if_pos h2] at hs
    cases hs
    exact ⟨h2, hi.tr, hi.setup, hi.ready, fun _ _ => h2, hi.nuset, hi.nu0, hi.defs⟩
  rw [if_neg h2, if_pos hi.tr, Option.map_eq_some_iff] at hs
  obtain ⟨s2, hc, rfl⟩ := hs
  generalize hs1 : dropOld s = s1 at hc
  have f : s1.transform = true ∧ s1.stage = s.stage ∧ s1.opready = s.opready ∧ s1.mats = s.mats ∧
      s1.kind = s.kind ∧ s1.nu = s.nu ∧ s1.nuSet = s.nuSet ∧ s1.sigma = s.sigma ∧
      s1.sigmaSet = s.sigmaSet ∧ s1.defsigma = s.defsigma ∧
      (s.opready = true → s1.ptr = s.ptr) := by
    subst hs1
    have := hi.tr
    unfold dropOld
    split_ifs with hc
    · refine ⟨this, rfl, rfl, rfl, rfl, rfl, rfl, rfl, rfl, rfl, ?_⟩
      intro h; simp [h] at hc
    · exact ⟨this, rfl, rfl, rfl, rfl, rfl, rfl, rfl, rfl, rfl, fun _ => rfl⟩
  obtain ⟨f1, f2, f3, f4, f5, f6, f7, f8, f9, f10, f11⟩ := f
  have := computeOperator_spec (r := true) (s := s1) (s' := s2) f1
    (by
      intro h; rw [f3] at h
      obtain ⟨m, hm, hp⟩ := hi.ready h
      refine ⟨m, by rw [f4]; exact hm, ?_⟩
      rw [f11 h, hp]; simp [want, f5, f6, f8])
    (by rw [f7, f5, f6]; exact hi.nuset)
    (by rw [f3, f5, f6]; exact hi.nu0)
    (by rw [f3, f5, f9, f8, f10]; exact hi.defs) hc
  obtain ⟨g1, g2, -, g4⟩ := this
  refine ⟨rfl, ?_⟩
  unfold typeSetUp
  split_ifs with hd
  · refine ⟨g4.tr, fun _ => g1, ?_, fun _ _ => rfl, g4.nuset, g4.nu0, fun _ _ _ => rfl⟩
    intro _
    obtain ⟨m, hm, hp⟩ := g4.ready g1
    refine ⟨m, hm, ?_⟩
    rw [hp]
    have := g4.defs g1 hd.1 hd.2
    simp only [want, this]
  · exact ⟨g4.tr, fun _ => g1, g4.ready, fun _ _ => rfl, g4.nuset, g4.nu0, g4.defs⟩

theorem getPriv_spec {r : Bool} {s s' : St Mx K} (hi : Inv r s) (hs : getOperatorPrivate s = some s') :
    Inv true s' := by
  unfold getOperatorPrivate at hs
  split_ifs at hs with h1 h2
  · cases hs
    exact ⟨hi.tr, hi.setup, hi.ready, fun _ h => by simp at h, hi.nuset, hi.nu0, hi.defs⟩
  · exact (computeOperator_spec (r := true) (s := { s with opCreated := true })
      hi.tr hi.ready hi.nuset hi.nu0 hi.defs hs).2.2.2

theorem apply_spec {r : Bool} {s s' : St Mx K} (hi : Inv r s) (hs : step s .apply = some s') :
    s'.stage = .setup ∧ Inv false s' := by
  simp only [step, Option.bind_eq_some_iff] at hs
  obtain ⟨s1, h1, h2⟩ := hs
  exact setUp_spec (getPriv_spec hi h1) h2

/-- The next value of `risky`. -/
def next (risky : Bool) : Call Mx K → Bool
  | .getOperator => true
  | .setSplit => true
  | .setUp => false
  | .apply => false
  | _ => risky

def Allowed (risky : Bool) : Call Mx K → Prop
  | .setShift _ => risky = false
  | .setAntishift x => risky = false ∧ x ≠ 0
  | .scaleShift _ => False
  | .setTransform b => b = true
  | _ => True

theorem clean_cons {r : Bool} {c : Call Mx K} {cs} (h : Clean r (c :: cs)) :
    Allowed r c ∧ Clean (next r c) cs := by
  cases c with
  | setShift x => simp only [Clean] at h; exact ⟨h.1, h.2⟩
  | setAntishift x => simp only [Clean] at h; exact ⟨⟨h.1, h.2.1⟩, h.2.2⟩
  | _ => simp_all [Clean, Allowed, next]

theorem invalid_inv {r : Bool} {s : St Mx K} (h1 : s.transform = true) (h2 : s.stage ≠ .setup)
    (h3 : s.opready = false) (h4 : s.nuSet = true → s.kind = .cayley → s.nu ≠ 0) : Inv r s :=
  ⟨h1, fun h => absurd h h2, fun h => by simp [h3] at h, fun h => by simp [h3] at h, h4,
    fun h => by simp [h3] at h, fun h => by simp [h3] at h⟩

theorem step_inv {r : Bool} {s s' : St Mx K} {c : Call Mx K} (hi : Inv r s) (ha : Allowed r c)
    (hs : step s c = some s') : Inv (next r c) s' := by
  cases c with
  | setMatrices m same =>
    simp only [step, setMatrices] at hs
    split_ifs at hs with a b c <;> cases hs
    · exact invalid_inv hi.tr (by simp) rfl hi.nuset
    · exact invalid_inv hi.tr (by simp) rfl hi.nuset
    · exact invalid_inv hi.tr (by simp [reset]) rfl hi.nuset
  | setShift x =>
    simp only [Allowed] at ha
    subst ha
    simp only [next]
    simp only [step, setShift] at hs
    by_cases ho : s.opready = true
    · have hst := hi.notready ho rfl
      obtain ⟨m, hm, hp⟩ := hi.ready ho
      obtain ⟨i1, i2, i3, i4, i5, i6, i7⟩ := hi
      obtain ⟨k, mats, stage, tr, ordy, sz, oc, sg, sgs, ds, nu, nus, ptr⟩ := s
      simp only [want] at *
      clear i3
      subst hst hp hm i1 ho
      by_cases a : sg = x
      · rw [if_neg (by simpa using a)] at hs
        cases hs
        exact ⟨rfl, fun _ => rfl, fun _ => ⟨m, rfl, rfl⟩, fun _ _ => rfl, i5, i6, fun _ _ h => by simp at h⟩
      rw [if_pos a] at hs
      by_cases b : sz = true
      · rw [if_pos b] at hs; cases hs
      rw [if_neg b] at hs
      cases k with
      | shift =>
        simp [typeSetShift, want] at hs
        subst hs
        exact ⟨rfl, fun _ => rfl, fun _ => ⟨m, rfl, rfl⟩, fun _ _ => rfl, i5, i6, fun _ _ h => by simp at h⟩
      | sinvert =>
        simp [typeSetShift, want] at hs
        subst hs
        exact ⟨rfl, fun _ => rfl, fun _ => ⟨m, rfl, rfl⟩, fun _ _ => rfl, i5, i6, fun _ _ h => by simp at h⟩
      | cayley =>
        by_cases c : x = 0 ∧ ¬ (nus = true ∧ nu ≠ 0)
        · simp only [typeSetShift, if_true] at hs; rw [if_pos c] at hs; cases hs
        by_cases d : nu = - x
        · simp only [typeSetShift, if_true] at hs; rw [if_neg c, if_pos d] at hs; cases hs
        simp only [typeSetShift, if_true] at hs; rw [if_neg c, if_neg d] at hs
        by_cases e : nus = true
        · subst e
          simp only [want, if_true, Option.some.injEq] at hs
          subst hs
          exact ⟨rfl, fun _ => rfl, fun _ => ⟨m, rfl, rfl⟩, fun _ _ => rfl, i5, i6, fun _ _ h => by simp at h⟩
        · have e' : nus = false := by simpa using e
          subst e'
          have hx : x ≠ 0 := by
            intro h0; apply c; exact ⟨h0, by simp⟩
          simp only [want, Bool.false_eq_true, if_false, Option.some.injEq] at hs
          subst hs
          exact ⟨rfl, fun _ => rfl, fun _ => ⟨m, rfl, by simp [want]⟩, fun _ _ => rfl, fun _ _ => hx,
            fun _ _ => hx, fun _ _ h => by simp at h⟩
    · have ho' : s.opready = false := by simpa using ho
      have hst : s.stage ≠ .setup := fun h => ho (hi.setup h)
      simp only [hst, if_false] at hs
      split_ifs at hs with a b <;> cases hs
      · exact invalid_inv hi.tr hst ho' hi.nuset
      · exact invalid_inv hi.tr hst ho' hi.nuset
  | setDefaultShift x =>
    simp only [step, setDefaultShift] at hs
    split_ifs at hs with a <;> cases hs
    · exact invalid_inv hi.tr (by simp) rfl hi.nuset
    · exact hi
  | setAntishift x =>
    simp only [Allowed] at ha
    obtain ⟨rfl, hx⟩ := ha
    simp only [next]
    simp only [step, setAntishift] at hs
    by_cases a : s.kind ≠ .cayley
    · rw [if_pos a] at hs; cases hs; exact hi
    rw [if_neg a] at hs
    have hk : s.kind = .cayley := by simpa using a
    by_cases b : s.nu = x
    · rw [if_neg (by simpa using b)] at hs
      cases hs
      refine ⟨hi.tr, hi.setup, hi.ready, hi.notready, fun _ _ => ?_, hi.nu0, hi.defs⟩
      simp only [b]; exact hx
    rw [if_pos b] at hs
    by_cases c : s.seized = true
    · rw [if_pos c] at hs; cases hs
    rw [if_neg c] at hs
    simp only [Option.some.injEq] at hs; subst hs
    by_cases ho : s.opready = true
    · have hst := hi.notready ho rfl
      obtain ⟨m, hm, hp⟩ := hi.ready ho
      have hn0 := hi.nu0 ho hk
      refine ⟨hi.tr, fun _ => ho, fun _ => ⟨m, hm, ?_⟩, fun _ _ => hst, fun _ _ => hx,
        fun _ _ => hx, fun _ h => by simp [hk] at h⟩
      simp [hst, hp, want, hn0, hx, hk]
    · have ho' : s.opready = false := by simpa using ho
      exact invalid_inv hi.tr (fun h => ho (hi.setup h)) ho' (fun _ _ => hx)
  | scaleShift f => exact absurd ha (by simp [Allowed])
  | setType k =>
    simp only [step, setType] at hs
    split_ifs at hs with a b <;> cases hs
    · exact hi
    · exact invalid_inv hi.tr (by simp) rfl (by simp)
  | invalidate =>
    simp only [step] at hs
    split_ifs at hs with a <;> cases hs
    exact invalid_inv hi.tr (by simp) rfl hi.nuset
  | setSplit =>
    simp only [step] at hs
    split_ifs at hs with a <;> cases hs
    exact ⟨hi.tr, fun h => by simp at h, hi.ready, fun _ h => by simp [next] at h, hi.nuset, hi.nu0,
      hi.defs⟩
  | setTransform b =>
    simp only [Allowed] at ha
    subst ha
    simp only [step, hi.tr] at hs
    cases hs; exact hi
  | setUp => exact (setUp_spec hi hs).2
  | getOperator =>
    simp only [step] at hs
    split_ifs at hs with a
    simp only [Option.map_eq_some_iff] at hs
    obtain ⟨s1, h1, rfl⟩ := hs
    have := getPriv_spec hi h1
    exact ⟨this.tr, this.setup, this.ready, fun _ h => by simp [next] at h, this.nuset, this.nu0, this.defs⟩
  | restoreOperator =>
    simp only [step] at hs
    split_ifs at hs with a <;> cases hs
    exact ⟨hi.tr, hi.setup, hi.ready, hi.notready, hi.nuset, hi.nu0, hi.defs⟩
  | apply => exact (apply_spec hi hs).2

theorem run_inv {r : Bool} {h : List (Call Mx K)} : ∀ {r : Bool} {s s' : St Mx K}, Inv r s →
    Clean r h → run s h = some s' → ∃ r', Inv r' s' := by
  induction h with
  | nil => intro r s s' hi _ hs; cases hs; exact ⟨r, hi⟩
  | cons c cs ih =>
    intro r s s' hi hc hs
    simp only [run, Option.bind_eq_some_iff] at hs
    obtain ⟨s1, h1, h2⟩ := hs
    obtain ⟨a, b⟩ := clean_cons hc
    exact ih (step_inv hi a h1) b h2

/-- **C09**, proved part.  In any history that starts by switching the transform flag on (as the
solvers do) and satisfies `Clean`, every successful `STApply` uses matrices built from the current
type, matrices, shift and antishift.  What is missing from the full claim `OperatorCurrent` is
exactly what `Clean` excludes; those cases are false of the code, see the four theorems below. -/
theorem C09_operator_current_partial (k : Kind) (h : List (Call Mx K)) (hc : Clean false h) :
    OperatorCurrent (.setTransform true :: h) k := by
  intro s p s' hr ha
  have h0 : Inv false ({ (create k : St Mx K) with transform := true }) :=
    invalid_inv rfl (by simp [create]) rfl (by simp [create])
  have hr' : run ({ (create k : St Mx K) with transform := true }) h = some s := by
    simpa [run, step, create] using hr
  obtain ⟨r', hi⟩ := run_inv (r := false) h0 hc hr'
  simp only [applied, Option.map_eq_some_iff] at ha
  obtain ⟨s1, h1, h2⟩ := ha
  cases h2
  obtain ⟨g1, g2⟩ := apply_spec hi h1
  exact g2.ready (g2.setup g1)

-- a non-trivial clean history: shift changes after set-up, new matrices, get/restore of the operator
example : Clean (Mx := ℕ) (K := ℚ) false
    [.setMatrices 1 false, .setShift 2, .apply, .setShift 3, .apply, .setMatrices 2 true,
     .setShift 4, .getOperator, .restoreOperator, .setUp, .setShift 5] := by
  simp [Clean]

/-- Shift and antishift used by the applied matrices. -/
def usedShift : Ptr Mx K → Option K
  | .val b => some b.sigma
  | _ => none
def usedAntishift : Ptr Mx K → Option K
  | .val b => some b.nu
  | _ => none

/-- **C09 is false** (1): `STGetOperator` builds the operator before the object is set up; a shift
change after that is ignored by the next `STApply`. -/
theorem C09_getoperator_false :
    ¬ OperatorCurrent (Mx := ℕ) (K := ℚ) [.setTransform true, .setMatrices 1 false, .setShift 2,
        .getOperator, .restoreOperator, .setShift 3] .sinvert := by
  intro h
  obtain ⟨m, h1, h2⟩ := h _ _ _ rfl rfl
  have h3 : (some 2 : Option ℚ) = some 3 := congrArg usedShift h2
  norm_num at h3

/-- **C09 is false** (2): changing the split preconditioner of an object that was set up, and then
the shift. -/
theorem C09_split_false :
    ¬ OperatorCurrent (Mx := ℕ) (K := ℚ) [.setTransform true, .setMatrices 1 false, .setShift 2,
        .setUp, .setSplit, .setShift 3] .sinvert := by
  intro h
  obtain ⟨m, h1, h2⟩ := h _ _ _ rfl rfl
  have h3 : (some 2 : Option ℚ) = some 3 := congrArg usedShift h2
  norm_num at h3

/-- **C09 is false** (3): Cayley antishift changed from 0 after set-up: the numerator keeps the old
antishift. And changed to 0: the numerator pointer refers to a destroyed matrix. -/
theorem C09_antishift_false :
    ¬ OperatorCurrent (Mx := ℕ) (K := ℚ) [.setTransform true, .setMatrices 1 false, .setShift 2,
        .setAntishift 0, .apply, .setAntishift 3] .cayley ∧
    ∃ s s', run (create .cayley) [.setTransform true, .setMatrices (1 : ℕ) false, .setShift (2 : ℚ),
        .setAntishift 3, .apply, .setAntishift 0] = some s ∧ applied s = some (.dangling, s') := by
  constructor
  · intro h
    obtain ⟨m, h1, h2⟩ := h _ _ _ rfl rfl
    have h3 : (some 0 : Option ℚ) = some 3 := congrArg usedAntishift h2
    norm_num at h3
  · exact ⟨_, _, rfl, rfl⟩

/-- **C09 is false** (4): with the transform flag off (the default of a stand-alone ST), a change of
shift after the first `STApply` has no effect. -/
theorem C09_notransform_false :
    ¬ OperatorCurrent (Mx := ℕ) (K := ℚ) [.setMatrices 1 false, .setShift 2, .apply, .setShift 3]
        .sinvert := by
  intro h
  obtain ⟨m, h1, h2⟩ := h _ _ _ rfl rfl
  have h3 : (some 2 : Option ℚ) = some 3 := congrArg usedShift h2
  norm_num at h3

/-- `STScaleShift` changes the reported shift but never the operator. -/
theorem C09_scaleshift_false :
    ¬ OperatorCurrent (Mx := ℕ) (K := ℚ) [.setTransform true, .setMatrices 1 false, .setShift 2,
        .apply, .scaleShift 3] .sinvert := by
  intro h
  obtain ⟨m, h1, h2⟩ := h _ _ _ rfl rfl
  have h3 : (some 2 : Option ℚ) = some (2 * 3) := congrArg usedShift h2
  norm_num at h3

end Verif.ST.State
