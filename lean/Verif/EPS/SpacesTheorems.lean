import Verif.EPS.SpacesModel
import Mathlib.Tactic

/-!
# C41, C74: references to lent vectors stay balanced; which solves use them
-/
set_option linter.all false

namespace Verif.Spaces

/-! ## Specification -/

/-- References to `v` held through a list. -/
def held (s : Slot) (v : ℕ) : ℕ := if s.m < 0 then s.W.count v else 0

/-- References to `v` held by the solver. -/
def heldBy (s : St) (v : ℕ) : ℕ := held s.defl v + held s.ini v + held s.inil v

/-- What the caller must respect: destroy only references they hold, pass only vectors that exist (the caller may have
dropped their own reference to a vector the solver keeps alive). -/
def Legal (o : Op) (s : St) : Prop :=
  match o with
  | .vecDestroy v => 0 < s.user v
  | .setDefl L | .setIni L | .setInil L => ∀ v ∈ L, 0 < s.rc v
  | _ => True

/-- A history of legal calls. -/
def LegalRun : List Op → St → Prop
  | [], _ => True
  | o :: os, s => Legal o s ∧ ∀ s', step o s = .ok s' → LegalRun os s'

/-! ## Lemmas -/

theorem desAll_ok (L : List ℕ) : ∀ rc : Rc, (∀ v, L.count v ≤ rc v) →
    ∃ rc', desAll L rc = .ok rc' ∧ ∀ v, rc' v = rc v - L.count v := by
  induction L with
  | nil => intro rc _; exact ⟨rc, rfl, fun v => by simp⟩
  | cons a L ih =>
    intro rc h
    have ha := h a
    simp only [List.count_cons_self] at ha
    have h1 : des1 rc a = .ok (fun w => if w = a then rc w - 1 else rc w) := by
      unfold des1; rw [if_neg (by omega)]
    obtain ⟨rc', h2, h3⟩ := ih (fun w => if w = a then rc w - 1 else rc w) (by
      intro v
      by_cases hv : v = a
      · subst hv; simp; omega
      · have := h v
        rw [List.count_cons_of_ne (Ne.symm hv)] at this
        simpa [hv] using this)
    refine ⟨rc', ?_, ?_⟩
    · unfold desAll; rw [h1]; exact h2
    · intro v
      rw [h3 v]
      by_cases hv : v = a
      · subst hv; simp; omega
      · rw [List.count_cons_of_ne (Ne.symm hv)]; simp [hv]

theorem refAll_ok (L : List ℕ) : ∀ rc : Rc, (∀ v ∈ L, 0 < rc v) →
    ∃ rc', refAll L rc = .ok rc' ∧ ∀ v, rc' v = rc v + L.count v := by
  induction L with
  | nil => intro rc _; exact ⟨rc, rfl, fun v => by simp⟩
  | cons a L ih =>
    intro rc h
    have ha := h a (by simp)
    have h1 : ref1 rc a = .ok (fun w => if w = a then rc w + 1 else rc w) := by
      unfold ref1; rw [if_neg (by omega)]
    obtain ⟨rc', h2, h3⟩ := ih (fun w => if w = a then rc w + 1 else rc w) (by
      intro v hv
      have := h v (by simp [hv])
      by_cases hva : v = a <;> simp [hva] <;> omega)
    refine ⟨rc', ?_, ?_⟩
    · unfold refAll; rw [h1]; exact h2
    · intro v
      rw [h3 v]
      by_cases hv : v = a
      · subst hv; simp; omega
      · rw [List.count_cons_of_ne (Ne.symm hv)]; simp [hv]

/-- A list is well formed when a negative counter is matched by the array. -/
def WF (s : Slot) : Prop := s.m < 0 → (s.W.length : Int) = -s.m

theorem basisDestroy_ok (s : Slot) (rc : Rc) (hw : WF s) (h : ∀ v, held s v ≤ rc v) :
    ∃ s' rc', basisDestroy s rc = .ok (s', rc') ∧ s'.m = 0 ∧ ∀ v, rc' v = rc v - held s v := by
  unfold basisDestroy
  by_cases hm : s.m < 0
  · have hl := hw hm
    rw [if_pos hm, if_neg (by omega)]
    have ht : s.W.take (-s.m).toNat = s.W := List.take_of_length_le (by omega)
    rw [ht]
    obtain ⟨rc', h1, h2⟩ := desAll_ok s.W rc (fun v => by simpa [held, hm] using h v)
    rw [h1]
    exact ⟨⟨0, []⟩, rc', rfl, rfl, fun v => by rw [h2 v]; simp [held, hm]⟩
  · rw [if_neg hm]
    exact ⟨⟨0, s.W⟩, rc, rfl, rfl, fun v => by simp [held, hm]⟩

theorem held_of_nonneg (s : Slot) (h : 0 ≤ s.m) (v : ℕ) : held s v = 0 := by
  unfold held; rw [if_neg (by omega)]

theorem wf_of_nonneg (s : Slot) (h : 0 ≤ s.m) : WF s := fun h2 => by omega

theorem basisReference_ok (L : List ℕ) (s : Slot) (rc : Rc) (hL : ∀ v ∈ L, 0 < rc v) (hw : WF s)
    (h : ∀ v, held s v ≤ rc v) :
    ∃ s' rc', basisReference L s rc = .ok (s', rc') ∧ WF s' ∧
      ∀ v, held s' v = L.count v ∧ rc' v + held s v = rc v + held s' v := by
  unfold basisReference
  obtain ⟨rc1, h1, h2⟩ := refAll_ok L rc hL
  rw [h1]
  dsimp only
  obtain ⟨s2, rc2, h3, h4, h5⟩ := basisDestroy_ok s rc1 hw (fun v => by rw [h2]; have := h v; omega)
  rw [h3]
  dsimp only
  by_cases hl : 0 < L.length
  · rw [if_pos hl]
    have hheld : ∀ v, held ⟨-(L.length : Int), L⟩ v = L.count v := by
      intro v; unfold held; rw [if_pos (by simp; omega)]
    refine ⟨_, _, rfl, fun _ => by simp, fun v => ⟨hheld v, ?_⟩⟩
    rw [hheld, h5, h2]; have := h v; omega
  · rw [if_neg hl]
    have : L = [] := List.length_eq_zero_iff.1 (by omega)
    subst this
    refine ⟨_, _, rfl, wf_of_nonneg _ (by omega), fun v => ⟨?_, ?_⟩⟩
    · rw [held_of_nonneg _ (by omega)]; simp
    · rw [held_of_nonneg s2 (by omega), h5, h2]; have := h v; simp; omega

/-- The invariant: lists are well formed and every reference is accounted for. -/
def Good (s : St) : Prop :=
  WF s.defl ∧ WF s.ini ∧ WF s.inil ∧ ∀ v, s.rc v = s.user v + heldBy s v

theorem good_create : Good create := by
  refine ⟨wf_of_nonneg _ ?_, wf_of_nonneg _ ?_, wf_of_nonneg _ ?_, fun v => ?_⟩ <;> simp [create, heldBy, held]

theorem setDefl_good (L) (s : St) (h : Good s) (hL : ∀ v ∈ L, 0 < s.rc v) : ∃ s', setDefl L s = .ok s' ∧ Good s' := by
  obtain ⟨w1, w2, w3, hr⟩ := h
  unfold setDefl
  obtain ⟨d, rc, h1, h2, h3⟩ := basisReference_ok L s.defl s.rc hL w1
    (fun v => by rw [hr v]; unfold heldBy; omega)
  rw [h1]
  refine ⟨_, rfl, h2, w2, w3, fun v => ?_⟩
  have := (h3 v).2; have := hr v
  simp only [heldBy] at *; omega

theorem setIni_good (L) (s : St) (h : Good s) (hL : ∀ v ∈ L, 0 < s.rc v) : ∃ s', setIni L s = .ok s' ∧ Good s' := by
  obtain ⟨w1, w2, w3, hr⟩ := h
  unfold setIni
  obtain ⟨d, rc, h1, h2, h3⟩ := basisReference_ok L s.ini s.rc hL w2
    (fun v => by rw [hr v]; unfold heldBy; omega)
  rw [h1]
  refine ⟨_, rfl, w1, h2, w3, fun v => ?_⟩
  have := (h3 v).2; have := hr v
  simp only [heldBy] at *; omega

theorem setInil_good (L) (s : St) (h : Good s) (hL : ∀ v ∈ L, 0 < s.rc v) : ∃ s', setInil L s = .ok s' ∧ Good s' := by
  obtain ⟨w1, w2, w3, hr⟩ := h
  unfold setInil
  obtain ⟨d, rc, h1, h2, h3⟩ := basisReference_ok L s.inil s.rc hL w3
    (fun v => by rw [hr v]; unfold heldBy; omega)
  rw [h1]
  refine ⟨_, rfl, w1, w2, h2, fun v => ?_⟩
  have := (h3 v).2; have := hr v
  simp only [heldBy] at *; omega

theorem allocate_good (s : St) (h : Good s) :
    allocate s = .error .petsc ∨ ∃ s', allocate s = .ok s' ∧ Good s' := by
  unfold allocate
  by_cases hc : s.alloc = true ∧ 0 < s.nc
  · left; rw [if_pos hc]
  · right; rw [if_neg hc]; exact ⟨_, rfl, h⟩

theorem processDefl_good (k) (s : St) (h : Good s) :
    processDefl k s = .error .petsc ∨ ∃ s', processDefl k s = .ok s' ∧ Good s' := by
  unfold processDefl
  obtain ⟨w1, w2, w3, hr⟩ := h
  by_cases hm : s.defl.m < 0
  · rw [if_pos hm]
    by_cases hc : 0 < s.nc
    · left; rw [if_pos hc]
    · right; rw [if_neg hc]
      obtain ⟨d, rc, h1, h2, h3⟩ := basisDestroy_ok s.defl s.rc w1 (fun v => by rw [hr v]; unfold heldBy; omega)
      rw [h1]
      refine ⟨_, rfl, wf_of_nonneg _ (by simp), w2, w3, fun v => ?_⟩
      have := h3 v; have := hr v
      simp only [heldBy] at *
      rw [held_of_nonneg (⟨((min k (-s.defl.m).toNat : ℕ) : Int), d.W⟩ : Slot) (by simp)]
      omega
  · right; rw [if_neg hm]; exact ⟨s, rfl, w1, w2, w3, hr⟩

theorem processIni_good (k) (s : St) (h : Good s) : ∃ s', processIni k s = .ok s' ∧ Good s' := by
  unfold processIni
  obtain ⟨w1, w2, w3, hr⟩ := h
  by_cases hm : s.ini.m < 0
  · rw [if_pos hm]
    obtain ⟨d, rc, h1, h2, h3⟩ := basisDestroy_ok s.ini s.rc w2 (fun v => by rw [hr v]; unfold heldBy; omega)
    rw [h1]
    refine ⟨_, rfl, w1, wf_of_nonneg _ (by simp), w3, fun v => ?_⟩
    have := h3 v; have := hr v
    simp only [heldBy] at *
    rw [held_of_nonneg (⟨((min k (-s.ini.m).toNat : ℕ) : Int), d.W⟩ : Slot) (by simp)]
    omega
  · rw [if_neg hm]; exact ⟨s, rfl, w1, w2, w3, hr⟩

theorem processInil_good (k) (s : St) (h : Good s) : ∃ s', processInil k s = .ok s' ∧ Good s' := by
  unfold processInil
  obtain ⟨w1, w2, w3, hr⟩ := h
  by_cases hm : s.twosided = true ∧ s.inil.m < 0
  · rw [if_pos hm]
    obtain ⟨d, rc, h1, h2, h3⟩ := basisDestroy_ok s.inil s.rc w3 (fun v => by rw [hr v]; unfold heldBy; omega)
    rw [h1]
    refine ⟨_, rfl, w1, w2, wf_of_nonneg _ (by simp), fun v => ?_⟩
    have := h3 v; have := hr v
    simp only [heldBy] at *
    rw [held_of_nonneg (⟨((min k (-s.inil.m).toNat : ℕ) : Int), d.W⟩ : Slot) (by simp)]
    omega
  · rw [if_neg hm]; exact ⟨s, rfl, w1, w2, w3, hr⟩

/-- After a set-up that did not fail the right list holds no references any more. -/
theorem setUp_good (a b c) (s : St) (h : Good s) :
    setUp a b c s = .error .petsc ∨ ∃ s', setUp a b c s = .ok s' ∧ Good s' := by
  unfold setUp
  by_cases hs : s.stage ≠ .initial
  · right; rw [if_pos hs]; exact ⟨s, rfl, h⟩
  · rw [if_neg hs]
    rcases allocate_good s h with h1 | ⟨s1, h1, g1⟩
    · left; rw [h1]
    rw [h1]; dsimp only
    rcases processDefl_good a s1 g1 with h2 | ⟨s2, h2, g2⟩
    · left; rw [h2]
    rw [h2]; dsimp only
    obtain ⟨s3, h3, g3⟩ := processIni_good b s2 g2
    rw [h3]; dsimp only
    obtain ⟨s4, h4, g4⟩ := processInil_good c s3 g3
    rw [h4]
    exact Or.inr ⟨_, rfl, g4⟩

theorem allocate_eq {s s' : St} (h : allocate s = .ok s') :
    s' = { s with alloc := true, resize := false, vuser := s.vuser && !s.resize, wuser := s.wuser && !s.twosided } ∧
    ¬ (s.alloc = true ∧ 0 < s.nc) := by
  unfold allocate at h
  by_cases hc : s.alloc = true ∧ 0 < s.nc
  · rw [if_pos hc] at h; cases h
  · rw [if_neg hc] at h; exact ⟨(Except.ok.inj h).symm, hc⟩

theorem setUp_parts {a b c : ℕ} {s s' : St} (hs : s.stage = .initial) (h : setUp a b c s = .ok s') :
    ∃ s1 s2 s3 s4, allocate s = .ok s1 ∧ processDefl a s1 = .ok s2 ∧ processIni b s2 = .ok s3 ∧
      processInil c s3 = .ok s4 ∧ s' = { s4 with stage := .setup } := by
  unfold setUp at h
  rw [if_neg (by simp [hs])] at h
  cases h1 : allocate s with
  | error e => rw [h1] at h; cases h
  | ok s1 =>
    rw [h1] at h; dsimp only at h
    cases h2 : processDefl a s1 with
    | error e => rw [h2] at h; cases h
    | ok s2 =>
      rw [h2] at h; dsimp only at h
      cases h3 : processIni b s2 with
      | error e => rw [h3] at h; cases h
      | ok s3 =>
        rw [h3] at h; dsimp only at h
        cases h4 : processInil c s3 with
        | error e => rw [h4] at h; cases h
        | ok s4 =>
          rw [h4] at h
          exact ⟨s1, s2, s3, s4, rfl, h2, h3, h4, (Except.ok.inj h).symm⟩

theorem processDefl_eq {k : ℕ} {s s' : St} (h : processDefl k s = .ok s') :
    s'.ini = s.ini ∧ s'.inil = s.inil ∧ s'.twosided = s.twosided ∧ s'.stage = s.stage ∧ s'.log = s.log ∧
    s'.wuser = s.wuser ∧ s'.alloc = s.alloc ∧ s'.resize = s.resize ∧
    ((0 ≤ s.defl.m ∧ s' = s) ∨
     (s.defl.m < 0 ∧ s.nc = 0 ∧ s'.nc = min k (-s.defl.m).toNat ∧ s'.defl.m = s'.nc ∧ s'.vuser = false)) := by
  unfold processDefl at h
  by_cases hm : s.defl.m < 0
  · rw [if_pos hm] at h
    by_cases hc : 0 < s.nc
    · rw [if_pos hc] at h; cases h
    · rw [if_neg hc] at h
      cases h1 : basisDestroy s.defl s.rc with
      | error e => rw [h1] at h; cases h
      | ok p =>
        rw [h1] at h
        have := Except.ok.inj h
        subst this
        exact ⟨rfl, rfl, rfl, rfl, rfl, rfl, rfl, rfl, Or.inr ⟨hm, by omega, rfl, rfl, rfl⟩⟩
  · rw [if_neg hm] at h
    have := Except.ok.inj h
    subst this
    exact ⟨rfl, rfl, rfl, rfl, rfl, rfl, rfl, rfl, Or.inl ⟨by omega, rfl⟩⟩

theorem processIni_eq {k : ℕ} {s s' : St} (h : processIni k s = .ok s') :
    s'.defl = s.defl ∧ s'.inil = s.inil ∧ s'.twosided = s.twosided ∧ s'.stage = s.stage ∧ s'.log = s.log ∧
    s'.wuser = s.wuser ∧ s'.nc = s.nc ∧ s'.resize = s.resize ∧ s'.alloc = s.alloc ∧
    ((0 ≤ s.ini.m ∧ s' = s) ∨
     (s.ini.m < 0 ∧ s'.ini.m = (min k (-s.ini.m).toNat : ℕ) ∧ s'.vuser = decide (0 < min k (-s.ini.m).toNat))) := by
  unfold processIni at h
  by_cases hm : s.ini.m < 0
  · rw [if_pos hm] at h
    cases h1 : basisDestroy s.ini s.rc with
    | error e => rw [h1] at h; cases h
    | ok p =>
      rw [h1] at h
      have := Except.ok.inj h
      subst this
      exact ⟨rfl, rfl, rfl, rfl, rfl, rfl, rfl, rfl, rfl, Or.inr ⟨hm, rfl, rfl⟩⟩
  · rw [if_neg hm] at h
    have := Except.ok.inj h
    subst this
    exact ⟨rfl, rfl, rfl, rfl, rfl, rfl, rfl, rfl, rfl, Or.inl ⟨by omega, rfl⟩⟩

theorem processInil_eq {k : ℕ} {s s' : St} (h : processInil k s = .ok s') :
    s'.defl = s.defl ∧ s'.ini = s.ini ∧ s'.twosided = s.twosided ∧ s'.stage = s.stage ∧ s'.log = s.log ∧
    s'.vuser = s.vuser ∧ s'.nc = s.nc ∧ s'.resize = s.resize ∧ s'.alloc = s.alloc ∧
    ((¬ (s.twosided = true ∧ s.inil.m < 0) ∧ s' = s) ∨
     (s.twosided = true ∧ s.inil.m < 0 ∧ s'.inil.m = (min k (-s.inil.m).toNat : ℕ) ∧
       s'.wuser = decide (0 < min k (-s.inil.m).toNat))) := by
  unfold processInil at h
  by_cases hm : s.twosided = true ∧ s.inil.m < 0
  · rw [if_pos hm] at h
    cases h1 : basisDestroy s.inil s.rc with
    | error e => rw [h1] at h; cases h
    | ok p =>
      rw [h1] at h
      have := Except.ok.inj h
      subst this
      exact ⟨rfl, rfl, rfl, rfl, rfl, rfl, rfl, rfl, rfl, Or.inr ⟨hm.1, hm.2, rfl, rfl⟩⟩
  · rw [if_neg hm] at h
    have := Except.ok.inj h
    subst this
    exact ⟨rfl, rfl, rfl, rfl, rfl, rfl, rfl, rfl, rfl, Or.inl ⟨hm, rfl⟩⟩

/-- A pending initial list makes the next solve run the set-up: lists with references only exist in stage `initial`. -/
def Pend (s : St) : Prop := s.stage ≠ .initial → 0 ≤ s.defl.m ∧ 0 ≤ s.ini.m

theorem setUp_pend {a b c : ℕ} {s s' : St} (hp : Pend s) (h : setUp a b c s = .ok s') :
    s'.stage ≠ .initial ∧ 0 ≤ s'.defl.m ∧ 0 ≤ s'.ini.m := by
  by_cases hs : s.stage = .initial
  · obtain ⟨s1, s2, s3, s4, h1, h2, h3, h4, rfl⟩ := setUp_parts hs h
    have e2 := processDefl_eq h2
    have e3 := processIni_eq h3
    have e4 := processInil_eq h4
    refine ⟨by simp, ?_, ?_⟩
    · show 0 ≤ s4.defl.m
      rw [e4.1, e3.1]
      rcases e2.2.2.2.2.2.2.2.2 with ⟨h, e⟩ | ⟨_, _, _, h, _⟩
      · rw [e]; exact h
      · rw [h]; omega
    · show 0 ≤ s4.ini.m
      rw [e4.2.1]
      rcases e3.2.2.2.2.2.2.2.2.2 with ⟨h, e⟩ | ⟨_, h, _⟩
      · rw [e]; exact h
      · rw [h]; omega
  · unfold setUp at h
    rw [if_pos hs] at h
    have := Except.ok.inj h
    subst this
    exact ⟨hs, hp hs⟩

theorem solve_good (a b c) (s : St) (h : Good s) (hp : Pend s) :
    solve a b c s = .error .petsc ∨ ∃ s', solve a b c s = .ok s' ∧ Good s' ∧ Pend s' := by
  unfold solve
  by_cases hs : s.stage = .solved
  · right; rw [if_pos hs]; exact ⟨s, rfl, h, hp⟩
  · rw [if_neg hs]
    rcases setUp_good a b c s h with h1 | ⟨s1, h1, g1⟩
    · left; rw [h1]
    · right
      have hpd := setUp_pend hp h1
      rw [h1]
      obtain ⟨w1, w2, w3, hr⟩ := g1
      refine ⟨_, rfl, ⟨wf_of_nonneg _ (by simp [finish]), wf_of_nonneg _ (by simp [finish]), w3, fun v => ?_⟩, ?_⟩
      · have := hr v
        simp only [heldBy, finish] at *
        rw [held_of_nonneg s1.defl hpd.2.1, held_of_nonneg s1.ini hpd.2.2] at this
        rw [held_of_nonneg (⟨0, s1.defl.W⟩ : Slot) (by simp), held_of_nonneg (⟨0, s1.ini.W⟩ : Slot) (by simp)]
        exact this
      · intro _; simp [finish]

theorem epsDestroy_good (s : St) (h : Good s) :
    ∃ s', epsDestroy s = .ok s' ∧ Good s' ∧ s'.user = s.user ∧ s'.stage = .initial ∧ ∀ v, s'.rc v = s'.user v := by
  obtain ⟨w1, w2, w3, hr⟩ := h
  unfold epsDestroy
  have hr' : ∀ v, s.rc v = s.user v + (held s.defl v + held s.ini v + held s.inil v) := hr
  obtain ⟨d, r1, h1, m1, e1⟩ := basisDestroy_ok s.defl s.rc w1 (fun v => by rw [hr' v]; omega)
  rw [h1]; dsimp only
  obtain ⟨i, r2, h2, m2, e2⟩ := basisDestroy_ok s.ini r1 w2 (fun v => by rw [e1, hr' v]; omega)
  rw [h2]; dsimp only
  obtain ⟨l, r3, h3, m3, e3⟩ := basisDestroy_ok s.inil r2 w3 (fun v => by rw [e2, e1, hr' v]; omega)
  rw [h3]
  have key : ∀ v, r3 v = s.user v := fun v => by rw [e3, e2, e1, hr' v]; omega
  refine ⟨_, rfl, ⟨wf_of_nonneg _ (by show 0 ≤ d.m; omega), wf_of_nonneg _ (by show 0 ≤ i.m; omega),
    wf_of_nonneg _ (by show 0 ≤ l.m; omega), fun v => ?_⟩, rfl, rfl, key⟩
  show r3 v = s.user v + (held d v + held i v + held l v)
  rw [held_of_nonneg d (by omega), held_of_nonneg i (by omega), held_of_nonneg l (by omega), key v]
  omega

theorem pend_of_initial (s : St) (h : s.stage = .initial) : Pend s := fun h2 => absurd h h2

theorem basisReference_m {L : List ℕ} {s s' : Slot} {rc rc' : Rc} (h : basisReference L s rc = .ok (s', rc')) :
    (0 < L.length ∧ s'.m = -(L.length : Int)) ∨ (L = [] ∧ s'.m = 0) := by
  unfold basisReference at h
  cases h1 : refAll L rc with
  | error e => rw [h1] at h; cases h
  | ok r1 =>
    rw [h1] at h; dsimp only at h
    cases h2 : basisDestroy s r1 with
    | error e => rw [h2] at h; cases h
    | ok p =>
      rw [h2] at h; dsimp only at h
      by_cases hl : 0 < L.length
      · rw [if_pos hl] at h
        have := Except.ok.inj h
        left; refine ⟨hl, ?_⟩
        rw [← (Prod.mk.inj this).1]
      · rw [if_neg hl] at h
        have := Except.ok.inj h
        right; refine ⟨List.length_eq_zero_iff.1 (by omega), ?_⟩
        rw [← (Prod.mk.inj this).1]
        unfold basisDestroy at h2
        by_cases hm : s.m < 0
        · rw [if_pos hm] at h2
          by_cases hl2 : (s.W.length : Int) < -s.m
          · rw [if_pos hl2] at h2; cases h2
          · rw [if_neg hl2] at h2
            cases h3 : desAll (s.W.take (-s.m).toNat) r1 with
            | error e => rw [h3] at h2; cases h2
            | ok r => rw [h3] at h2; rw [← Except.ok.inj h2]
        · rw [if_neg hm] at h2; rw [← Except.ok.inj h2]

theorem step_good (o : Op) (s : St) (h : Good s) (hp : Pend s) (hl : Legal o s) :
    step o s = .error .petsc ∨ ∃ s', step o s = .ok s' ∧ Good s' ∧ Pend s' := by
  cases o with
  | vecCreate v =>
    right
    obtain ⟨w1, w2, w3, hr⟩ := h
    unfold step
    dsimp only
    by_cases hv : s.rc v = 0
    · rw [if_pos hv]
      refine ⟨_, rfl, ⟨w1, w2, w3, fun w => ?_⟩, hp⟩
      have := hr w
      show (if w = v then 1 else s.rc w) = (if w = v then 1 else s.user w) + heldBy s w
      by_cases hw : w = v
      · subst hw; simp; omega
      · simp [hw, this]
    · rw [if_neg hv]
      refine ⟨_, rfl, ⟨w1, w2, w3, fun w => ?_⟩, hp⟩
      have := hr w
      show (if w = v then s.rc w + 1 else s.rc w) = (if w = v then s.user w + 1 else s.user w) + heldBy s w
      by_cases hw : w = v
      · subst hw; simp; omega
      · simp [hw, this]
  | vecDestroy v =>
    right
    obtain ⟨w1, w2, w3, hr⟩ := h
    have hv : 0 < s.user v := hl
    have := hr v
    unfold step
    dsimp only
    have h1 : des1 s.rc v = .ok (fun w => if w = v then s.rc w - 1 else s.rc w) := by
      unfold des1; rw [if_neg (by omega)]
    rw [h1]
    refine ⟨_, rfl, ⟨w1, w2, w3, fun w => ?_⟩, hp⟩
    have := hr w
    show (if w = v then s.rc w - 1 else s.rc w) = (if w = v then s.user w - 1 else s.user w) + heldBy s w
    by_cases hw : w = v
    · subst hw; simp; omega
    · simp [hw, this]
  | setDefl L =>
    right
    obtain ⟨s', h1, h2⟩ := setDefl_good L s h hl
    refine ⟨s', h1, h2, ?_⟩
    unfold setDefl at h1
    cases hb : basisReference L s.defl s.rc with
    | error e => rw [hb] at h1; cases h1
    | ok p =>
      rw [hb] at h1
      rw [← Except.ok.inj h1]
      rcases basisReference_m hb with ⟨a, b⟩ | ⟨a, b⟩
      · exact pend_of_initial _ (by simp [a])
      · subst a
        intro hst
        exact ⟨by show 0 ≤ p.1.m; omega, (hp (by simpa using hst)).2⟩
  | setIni L =>
    right
    obtain ⟨s', h1, h2⟩ := setIni_good L s h hl
    refine ⟨s', h1, h2, ?_⟩
    unfold setIni at h1
    cases hb : basisReference L s.ini s.rc with
    | error e => rw [hb] at h1; cases h1
    | ok p =>
      rw [hb] at h1
      rw [← Except.ok.inj h1]
      rcases basisReference_m hb with ⟨a, b⟩ | ⟨a, b⟩
      · exact pend_of_initial _ (by simp [a])
      · subst a
        intro hst
        exact ⟨(hp (by simpa using hst)).1, by show 0 ≤ p.1.m; omega⟩
  | setInil L =>
    right
    obtain ⟨s', h1, h2⟩ := setInil_good L s h hl
    refine ⟨s', h1, h2, ?_⟩
    unfold setInil at h1
    cases hb : basisReference L s.inil s.rc with
    | error e => rw [hb] at h1; cases h1
    | ok p =>
      rw [hb] at h1
      rw [← Except.ok.inj h1]
      intro hst
      have : s.stage ≠ .initial := by
        intro h0
        apply hst
        show (if 0 < L.length then Stage.initial else s.stage) = .initial
        split_ifs <;> simp [h0]
      exact hp this
  | setTwoSided b =>
    right
    refine ⟨_, rfl, h, ?_⟩
    intro hst
    apply hp
    intro h0
    apply hst
    show (if s.twosided = b then s.stage else Stage.initial) = .initial
    split_ifs <;> simp [h0]
  | touch r => right; exact ⟨_, rfl, h, pend_of_initial _ rfl⟩
  | setUp a b c =>
    rcases setUp_good a b c s h with h1 | ⟨s', h1, g⟩
    · left; exact h1
    · right; exact ⟨s', h1, g, fun _ => (setUp_pend hp h1).2⟩
  | solve a b c => exact solve_good a b c s h hp
  | destroy =>
    right
    obtain ⟨s', h1, g, _, hst, _⟩ := epsDestroy_good s h
    exact ⟨s', h1, g, pend_of_initial _ hst⟩

theorem run_good (ops : List Op) : ∀ s, Good s → Pend s → LegalRun ops s →
    run ops s = .error .petsc ∨ ∃ s', run ops s = .ok s' ∧ Good s' ∧ Pend s' := by
  induction ops with
  | nil => intro s h hp _; exact Or.inr ⟨s, rfl, h, hp⟩
  | cons o os ih =>
    intro s h hp hl
    unfold run
    rcases step_good o s h hp hl.1 with h1 | ⟨s1, h1, g1, p1⟩
    · left; rw [h1]
    · rw [h1]; exact ih s1 g1 p1 (hl.2 s1 h1)

/-! ## C41 -/

/-- No history of legal calls, with any overlapping lists and any solves in between, ever touches a freed vector. -/
theorem C41_no_use_after_free (ops : List Op) (h : LegalRun ops create) : run ops create ≠ .error .ub := by
  rcases run_good ops create good_create (pend_of_initial _ rfl) h with h1 | ⟨s, h1, _⟩
  · rw [h1]; intro hh; cases hh
  · rw [h1]; intro hh; cases hh

/-- In every reachable state the count of a vector is what the caller holds plus what the solver's pending lists hold: a
vector that either still needs is alive, and nothing else keeps it alive. -/
theorem C41_balanced (ops : List Op) (h : LegalRun ops create) (s : St) (hs : run ops create = .ok s) (v : ℕ) :
    s.rc v = s.user v + heldBy s v := by
  rcases run_good ops create good_create (pend_of_initial _ rfl) h with h1 | ⟨s', h1, g, _⟩
  · rw [h1] at hs; cases hs
  · rw [h1] at hs
    have := Except.ok.inj hs
    subst this
    exact g.2.2.2 v

/-- Destroying the solver gives back every reference exactly once: only the caller's references remain. -/
theorem C41_released (ops : List Op) (h : LegalRun ops create) (s : St) (hs : run ops create = .ok s) :
    ∃ s', step .destroy s = .ok s' ∧ s'.user = s.user ∧ ∀ v, s'.rc v = s.user v := by
  rcases run_good ops create good_create (pend_of_initial _ rfl) h with h1 | ⟨s0, h1, g, _⟩
  · rw [h1] at hs; cases hs
  · rw [h1] at hs
    have := Except.ok.inj hs
    subst this
    obtain ⟨s', h2, _, h3, _, h4⟩ := epsDestroy_good s0 g
    exact ⟨s', h2, h3, fun v => by rw [h4 v, h3]⟩

/-- Passing a list again after dropping one's own references: the solver's reference keeps the vector alive throughout. -/
example : LegalRun [.vecCreate 7, .setIni [7, 7], .vecDestroy 7, .setIni [7], .solve 0 1 0, .destroy] create ∧
    ∃ s, run [.vecCreate 7, .setIni [7, 7], .vecDestroy 7, .setIni [7]] create = .ok s ∧ s.rc 7 = 1 := by
  refine ⟨?_, _, rfl, rfl⟩
  simp only [LegalRun]
  refine ⟨trivial, fun s1 h1 => ?_⟩
  have e1 := (Except.ok.inj h1); subst e1
  refine ⟨by simp [Legal, create], fun s2 h2 => ?_⟩
  have e2 := (Except.ok.inj h2); subst e2
  refine ⟨by simp [Legal, create], fun s3 h3 => ?_⟩
  have e3 := (Except.ok.inj h3); subst e3
  refine ⟨by simp [Legal, create], fun s4 h4 => ?_⟩
  refine ⟨trivial, fun s5 _ => ⟨trivial, fun _ _ => trivial⟩⟩

end Verif.Spaces
