import Verif.EPS.SpacesTheorems

/-!
# C74: vectors given to the solver serve the next solve and no other
-/
set_option linter.all false

namespace Verif.Spaces

/-! ## Specification: what the caller has asked for, read off the history of calls -/

/-- Is there a right initial space pending after call `o`? A new list replaces the old one, an empty list withdraws it,
a solve uses it up. -/
def pendIni (b : Bool) (o : Op) : Bool :=
  match o with
  | .setIni L => !L.isEmpty
  | .solve _ _ _ => false
  | .destroy => false
  | _ => b

/-- The same for the deflation space. -/
def pendDefl (b : Bool) (o : Op) : Bool :=
  match o with
  | .setDefl L => !L.isEmpty
  | .solve _ _ _ => false
  | .destroy => false
  | _ => b

def suppliedIni (ops : List Op) : Bool := ops.foldl pendIni false
def suppliedDefl (ops : List Op) : Bool := ops.foldl pendDefl false

/-- Calls for which the claim on initial vectors is proved: no change in the number of basis columns, no deflation
space, and a nonzero first vector (at least one independent vector in each non-empty list). -/
def RightOp : Op → Prop
  | .touch r => r = false
  | .setDefl L => L = []
  | .setUp _ b _ => 1 ≤ b
  | .solve _ b _ => 1 ≤ b
  | _ => True

/-- Calls for which the claim on deflation vectors is proved: the space is never withdrawn with an empty list. -/
def DeflOp : Op → Prop
  | .setDefl L => L ≠ []
  | .setUp a _ _ => 1 ≤ a
  | .solve a _ _ => 1 ≤ a
  | _ => True

/-! ## Lemmas -/

theorem setUp_skip {a b c : ℕ} {s s' : St} (hs : s.stage ≠ .initial) (h : setUp a b c s = .ok s') : s' = s := by
  unfold setUp at h
  rw [if_pos hs] at h
  exact (Except.ok.inj h).symm

theorem solve_parts {a b c : ℕ} {s s' : St} (h : solve a b c s = .ok s') :
    (s.stage = .solved ∧ s' = s) ∨ (s.stage ≠ .solved ∧ ∃ s1, setUp a b c s = .ok s1 ∧
      s' = finish { s1 with log := s1.log ++ [⟨start s1.ini.m s1.vuser,
        if s1.twosided then start s1.inil.m s1.wuser else .random, s1.nc⟩] }) := by
  unfold solve at h
  by_cases hs : s.stage = .solved
  · rw [if_pos hs] at h; exact Or.inl ⟨hs, (Except.ok.inj h).symm⟩
  · rw [if_neg hs] at h
    right
    refine ⟨hs, ?_⟩
    cases h1 : setUp a b c s with
    | error e => rw [h1] at h; cases h
    | ok s1 => rw [h1] at h; exact ⟨s1, rfl, (Except.ok.inj h).symm⟩

theorem setUp_log {a b c : ℕ} {s s' : St} (h : setUp a b c s = .ok s') : s'.log = s.log := by
  by_cases hs : s.stage = .initial
  · obtain ⟨s1, s2, s3, s4, h1, h2, h3, h4, rfl⟩ := setUp_parts hs h
    show s4.log = s.log
    rw [(processInil_eq h4).2.2.2.2.1, (processIni_eq h3).2.2.2.2.1, (processDefl_eq h2).2.2.2.2.1, (allocate_eq h1).1]
  · rw [setUp_skip hs h]

theorem setDefl_eq {L : List ℕ} {s s' : St} (h : setDefl L s = .ok s') :
    ∃ d rc, basisReference L s.defl s.rc = .ok (d, rc) ∧
      s' = { s with defl := d, rc := rc, stage := if 0 < L.length then .initial else s.stage } := by
  unfold setDefl at h
  cases hb : basisReference L s.defl s.rc with
  | error e => rw [hb] at h; cases h
  | ok p => rw [hb] at h; exact ⟨p.1, p.2, rfl, (Except.ok.inj h).symm⟩

theorem setIni_eq {L : List ℕ} {s s' : St} (h : setIni L s = .ok s') :
    ∃ d rc, basisReference L s.ini s.rc = .ok (d, rc) ∧
      s' = { s with ini := d, rc := rc, stage := if 0 < L.length then .initial else s.stage } := by
  unfold setIni at h
  cases hb : basisReference L s.ini s.rc with
  | error e => rw [hb] at h; cases h
  | ok p => rw [hb] at h; exact ⟨p.1, p.2, rfl, (Except.ok.inj h).symm⟩

theorem setInil_eq {L : List ℕ} {s s' : St} (h : setInil L s = .ok s') :
    ∃ d rc, basisReference L s.inil s.rc = .ok (d, rc) ∧
      s' = { s with inil := d, rc := rc, stage := if 0 < L.length then .initial else s.stage } := by
  unfold setInil at h
  cases hb : basisReference L s.inil s.rc with
  | error e => rw [hb] at h; cases h
  | ok p => rw [hb] at h; exact ⟨p.1, p.2, rfl, (Except.ok.inj h).symm⟩

theorem basisDestroy_m {s s' : Slot} {rc rc' : Rc} (h : basisDestroy s rc = .ok (s', rc')) : s'.m = 0 := by
  unfold basisDestroy at h
  by_cases hm : s.m < 0
  · rw [if_pos hm] at h
    by_cases hl2 : (s.W.length : Int) < -s.m
    · rw [if_pos hl2] at h; cases h
    · rw [if_neg hl2] at h
      cases h3 : desAll (s.W.take (-s.m).toNat) rc with
      | error e => rw [h3] at h; cases h
      | ok r => rw [h3] at h; rw [← (Prod.mk.inj (Except.ok.inj h)).1]
  · rw [if_neg hm] at h; rw [← (Prod.mk.inj (Except.ok.inj h)).1]

theorem epsDestroy_eq {s s' : St} (h : epsDestroy s = .ok s') :
    s'.defl.m = 0 ∧ s'.ini.m = 0 ∧ s'.nc = 0 ∧ s'.resize = s.resize := by
  unfold epsDestroy at h
  cases h1 : basisDestroy s.defl s.rc with
  | error e => rw [h1] at h; cases h
  | ok p1 =>
    rw [h1] at h; dsimp only at h
    cases h2 : basisDestroy s.ini p1.2 with
    | error e => rw [h2] at h; cases h
    | ok p2 =>
      rw [h2] at h; dsimp only at h
      cases h3 : basisDestroy s.inil p2.2 with
      | error e => rw [h3] at h; cases h
      | ok p3 =>
        rw [h3] at h
        rw [← Except.ok.inj h]
        exact ⟨basisDestroy_m h1, basisDestroy_m h2, rfl, rfl⟩

/-- Invariant for right initial vectors. -/
def RInv (b : Bool) (s : St) : Prop :=
  s.resize = false ∧ s.defl.m = 0 ∧ s.nc = 0 ∧
  (b = true → (s.ini.m < 0 ∧ s.stage = .initial) ∨ (0 < s.ini.m ∧ s.vuser = true ∧ s.stage ≠ .solved)) ∧
  (b = false → s.ini.m = 0)

theorem setUp_rinv {a b c : ℕ} {s s' : St} {p : Bool} (hb : 1 ≤ b) (hi : RInv p s) (h : setUp a b c s = .ok s') :
    RInv p s' ∧ (p = true → 0 < s'.ini.m ∧ s'.vuser = true) := by
  obtain ⟨r1, r2, r3, r4, r5⟩ := hi
  by_cases hs : s.stage = .initial
  · obtain ⟨s1, s2, s3, s4, h1, h2, h3, h4, rfl⟩ := setUp_parts hs h
    have e1 := (allocate_eq h1).1
    have e2 := processDefl_eq h2
    have e3 := processIni_eq h3
    have e4 := processInil_eq h4
    have d1 : s1.defl.m = 0 := by rw [e1]; exact r2
    have k2 : s2 = s1 := by
      rcases e2.2.2.2.2.2.2.2.2 with ⟨_, h⟩ | ⟨h, _⟩
      · exact h
      · omega
    subst k2
    have v1 : s2.vuser = s.vuser := by rw [e1]; simp [r1]
    have i1 : s2.ini = s.ini := by rw [e1]
    have key : p = true → 0 < s3.ini.m ∧ s3.vuser = true := by
      intro hp
      rcases e3.2.2.2.2.2.2.2.2.2 with ⟨h, e⟩ | ⟨h, k1, k2⟩
      · rcases r4 hp with ⟨q, _⟩ | ⟨q, q2, _⟩
        · rw [i1] at h; omega
        · rw [e, i1, v1]; exact ⟨q, q2⟩
      · have : 0 < min b (-s2.ini.m).toNat := by omega
        rw [k1, k2]; exact ⟨by exact_mod_cast this, by simpa using this⟩
    have key' : p = true → 0 < s4.ini.m ∧ s4.vuser = true := by
      intro hp; rw [e4.2.1, e4.2.2.2.2.2.1]; exact key hp
    refine ⟨⟨?_, ?_, ?_, ?_, ?_⟩, key'⟩
    · show s4.resize = false
      rw [e4.2.2.2.2.2.2.2.1, e3.2.2.2.2.2.2.2.1, e1]
    · show s4.defl.m = 0
      rw [e4.1, e3.1]; exact d1
    · show s4.nc = 0
      rw [e4.2.2.2.2.2.2.1, e3.2.2.2.2.2.2.1, e1]; exact r3
    · intro hp; right; exact ⟨(key' hp).1, (key' hp).2, by simp⟩
    · intro hp
      show s4.ini.m = 0
      rw [e4.2.1]
      have := r5 hp
      rcases e3.2.2.2.2.2.2.2.2.2 with ⟨h, e⟩ | ⟨h, k1, k2⟩
      · rw [e, i1]; exact this
      · rw [i1] at h; omega
  · rw [setUp_skip hs h]
    refine ⟨⟨r1, r2, r3, r4, r5⟩, fun hp => ?_⟩
    rcases r4 hp with ⟨_, q⟩ | ⟨q, q2, _⟩
    · exact absurd q hs
    · exact ⟨q, q2⟩

theorem step_rinv (o : Op) (s s' : St) (b : Bool) (ho : RightOp o) (h : RInv b s) (hs : step o s = .ok s') :
    RInv (pendIni b o) s' := by
  cases o with
  | vecCreate v =>
    unfold step at hs
    dsimp only at hs
    by_cases hv : s.rc v = 0
    · rw [if_pos hv] at hs; rw [← Except.ok.inj hs]; exact h
    · rw [if_neg hv] at hs; rw [← Except.ok.inj hs]; exact h
  | vecDestroy v =>
    unfold step at hs
    dsimp only at hs
    cases h1 : des1 s.rc v with
    | error e => rw [h1] at hs; cases hs
    | ok rc => rw [h1] at hs; rw [← Except.ok.inj hs]; exact h
  | setDefl L =>
    have hL : L = [] := ho
    subst hL
    obtain ⟨d, rc, hb, rfl⟩ := setDefl_eq hs
    obtain ⟨r1, r2, r3, r4, r5⟩ := h
    rcases basisReference_m hb with ⟨q, _⟩ | ⟨_, q⟩
    · simp at q
    · exact ⟨r1, q, r3, by simpa [pendIni] using r4, r5⟩
  | setIni L =>
    obtain ⟨d, rc, hb, rfl⟩ := setIni_eq hs
    obtain ⟨r1, r2, r3, r4, r5⟩ := h
    rcases basisReference_m hb with ⟨q, q2⟩ | ⟨q, q2⟩
    · have hne : L.isEmpty = false := by cases L <;> simp_all
      refine ⟨r1, r2, r3, fun _ => Or.inl ⟨?_, by simp [q]⟩, fun hf => ?_⟩
      · show d.m < 0; omega
      · simp [pendIni, hne] at hf
    · subst q
      refine ⟨r1, r2, r3, fun hf => ?_, fun _ => q2⟩
      simp [pendIni] at hf
  | setInil L =>
    obtain ⟨d, rc, hb, rfl⟩ := setInil_eq hs
    obtain ⟨r1, r2, r3, r4, r5⟩ := h
    refine ⟨r1, r2, r3, fun hp => ?_, r5⟩
    rcases r4 hp with ⟨q, q2⟩ | ⟨q, q2, q3⟩
    · left; refine ⟨q, ?_⟩
      show (if 0 < L.length then Stage.initial else s.stage) = .initial
      split_ifs <;> simp [q2]
    · right; refine ⟨q, q2, ?_⟩
      show (if 0 < L.length then Stage.initial else s.stage) ≠ .solved
      split_ifs <;> simp [q3]
  | setTwoSided t =>
    rw [← Except.ok.inj hs]
    obtain ⟨r1, r2, r3, r4, r5⟩ := h
    refine ⟨r1, r2, r3, fun hp => ?_, r5⟩
    rcases r4 hp with ⟨q, q2⟩ | ⟨q, q2, q3⟩
    · left; refine ⟨q, ?_⟩
      show (if s.twosided = t then s.stage else Stage.initial) = .initial
      split_ifs <;> simp [q2]
    · right; refine ⟨q, q2, ?_⟩
      show (if s.twosided = t then s.stage else Stage.initial) ≠ .solved
      split_ifs <;> simp [q3]
  | touch r =>
    have hr : r = false := ho
    subst hr
    rw [← Except.ok.inj hs]
    obtain ⟨r1, r2, r3, r4, r5⟩ := h
    refine ⟨by simp [r1], r2, r3, fun hp => ?_, r5⟩
    rcases r4 hp with ⟨q, q2⟩ | ⟨q, q2, q3⟩
    · exact Or.inl ⟨q, rfl⟩
    · exact Or.inr ⟨q, q2, by simp⟩
  | setUp a b' c => exact (setUp_rinv ho h hs).1
  | solve a b' c =>
    have hs' : solve a b' c s = .ok s' := hs
    rcases solve_parts hs' with ⟨q, rfl⟩ | ⟨q, s1, h1, rfl⟩
    · obtain ⟨r1, r2, r3, r4, r5⟩ := h
      refine ⟨r1, r2, r3, fun hf => by simp [pendIni] at hf, fun _ => ?_⟩
      cases b with
      | false => exact r5 rfl
      | true =>
        rcases r4 rfl with ⟨_, q2⟩ | ⟨_, _, q2⟩
        · rw [q] at q2; cases q2
        · exact absurd q q2
    · obtain ⟨⟨r1, r2, r3, r4, r5⟩, _⟩ := setUp_rinv ho h h1
      refine ⟨r1, rfl, ?_, fun hf => by simp [pendIni] at hf, fun _ => rfl⟩
      show (if s1.defl.m ≠ 0 then 0 else s1.nc) = 0
      rw [r3]; simp
  | destroy =>
    obtain ⟨q1, q2, q3, q4⟩ := epsDestroy_eq hs
    obtain ⟨r1, r2, r3, r4, r5⟩ := h
    exact ⟨by rw [q4, r1], q1, q3, fun hf => by simp [pendIni] at hf, fun _ => q2⟩

theorem run_rinv (ops : List Op) : ∀ (b : Bool) (s s' : St), (∀ o ∈ ops, RightOp o) → RInv b s → run ops s = .ok s' →
    RInv (ops.foldl pendIni b) s' := by
  induction ops with
  | nil => intro b s s' _ h hs; rw [← Except.ok.inj hs]; exact h
  | cons o os ih =>
    intro b s s' ho h hs
    unfold run at hs
    cases h1 : step o s with
    | error e => rw [h1] at hs; cases hs
    | ok s1 =>
      rw [h1] at hs
      exact ih (pendIni b o) s1 s' (fun o' h' => ho o' (by simp [h'])) (step_rinv o s s1 b (ho o (by simp)) h h1) hs

/-! ## Theorems -/

/-- After any history of the admitted calls, a solve that runs starts from the caller's initial vector if and only if one
has been supplied since the last solve (and not withdrawn); in particular never from a stale column. Missing for the full
claim: histories that change the number of columns or add a deflation space after a set-up; see the witnesses below. -/
theorem C74_right_partial (ops : List Op) (ho : ∀ o ∈ ops, RightOp o) (s s' : St) (a b c : ℕ) (hb : 1 ≤ b)
    (hs : run ops create = .ok s) (hn : s.stage ≠ .solved) (h : solve a b c s = .ok s') :
    ∃ u, s'.log = s.log ++ [u] ∧ u.right = if suppliedIni ops = true then .user else .random := by
  have hr := run_rinv ops false create s ho (by
    refine ⟨rfl, rfl, rfl, ?_, fun _ => rfl⟩
    intro h; cases h) hs
  rcases solve_parts h with ⟨q, _⟩ | ⟨_, s1, h1, rfl⟩
  · exact absurd q hn
  · obtain ⟨⟨_, _, _, r4, r5⟩, k⟩ := setUp_rinv hb hr h1
    refine ⟨_, by show s1.log ++ _ = _; rw [setUp_log h1], ?_⟩
    show start s1.ini.m s1.vuser = _
    unfold suppliedIni
    cases hp : ops.foldl pendIni false with
    | true =>
      obtain ⟨k1, k2⟩ := k hp
      unfold start
      rw [if_neg (by omega), k2]; simp
    | false =>
      unfold start
      rw [if_pos (r5 hp)]; simp

/-- A right initial space is used by the solve after a plain set-up, and the next solve starts at random. -/
example : (∀ o ∈ [Op.vecCreate 1, .setIni [1], .setUp 0 1 0], RightOp o) ∧
    ∃ s, run [.vecCreate 1, .setIni [1], .setUp 0 1 0, .solve 0 1 0, .touch false, .solve 0 1 0] create = .ok s ∧
      s.log = [⟨.user, .random, 0⟩, ⟨.random, .random, 0⟩] := by
  refine ⟨?_, _, rfl, rfl⟩
  intro o ho
  simp at ho
  rcases ho with rfl | rfl | rfl <;> simp [RightOp]

/-- Invariant for the deflation space. -/
def DInv (b : Bool) (s : St) : Prop :=
  (b = true → (s.defl.m < 0 ∧ s.stage = .initial) ∨ (0 < s.defl.m ∧ 0 < s.nc ∧ s.stage ≠ .solved)) ∧
  (b = false → s.defl.m = 0 ∧ s.nc = 0)

theorem setUp_dinv {a b c : ℕ} {s s' : St} {p : Bool} (ha : 1 ≤ a) (hi : DInv p s) (h : setUp a b c s = .ok s') :
    DInv p s' ∧ (p = true → 0 < s'.defl.m ∧ 0 < s'.nc) := by
  obtain ⟨r4, r5⟩ := hi
  by_cases hs : s.stage = .initial
  · obtain ⟨s1, s2, s3, s4, h1, h2, h3, h4, rfl⟩ := setUp_parts hs h
    have e1 := (allocate_eq h1).1
    have e2 := processDefl_eq h2
    have e3 := processIni_eq h3
    have e4 := processInil_eq h4
    have d1 : s1.defl = s.defl := by rw [e1]
    have n1 : s1.nc = s.nc := by rw [e1]
    have key : p = true → 0 < s2.defl.m ∧ 0 < s2.nc := by
      intro hp
      rcases e2.2.2.2.2.2.2.2.2 with ⟨h, e⟩ | ⟨h, k0, k1, k2, _⟩
      · rcases r4 hp with ⟨q, _⟩ | ⟨q, q2, _⟩
        · rw [d1] at h; omega
        · rw [e, d1, n1]; exact ⟨q, q2⟩
      · have : 0 < min a (-s1.defl.m).toNat := by omega
        rw [k2, k1]; exact ⟨by exact_mod_cast this, this⟩
    have key' : p = true → 0 < s4.defl.m ∧ 0 < s4.nc := by
      intro hp; rw [e4.1, e3.1, e4.2.2.2.2.2.2.1, e3.2.2.2.2.2.2.1]; exact key hp
    refine ⟨⟨fun hp => Or.inr ⟨(key' hp).1, (key' hp).2, by simp⟩, fun hp => ?_⟩, key'⟩
    show s4.defl.m = 0 ∧ s4.nc = 0
    rw [e4.1, e3.1, e4.2.2.2.2.2.2.1, e3.2.2.2.2.2.2.1]
    have := r5 hp
    rcases e2.2.2.2.2.2.2.2.2 with ⟨h, e⟩ | ⟨h, k1, k2⟩
    · rw [e, d1, n1]; exact this
    · rw [d1] at h; omega
  · rw [setUp_skip hs h]
    refine ⟨⟨r4, r5⟩, fun hp => ?_⟩
    rcases r4 hp with ⟨_, q⟩ | ⟨q, q2, _⟩
    · exact absurd q hs
    · exact ⟨q, q2⟩

theorem step_dinv (o : Op) (s s' : St) (b : Bool) (ho : DeflOp o) (h : DInv b s) (hs : step o s = .ok s') :
    DInv (pendDefl b o) s' := by
  cases o with
  | vecCreate v =>
    unfold step at hs
    dsimp only at hs
    by_cases hv : s.rc v = 0
    · rw [if_pos hv] at hs; rw [← Except.ok.inj hs]; exact h
    · rw [if_neg hv] at hs; rw [← Except.ok.inj hs]; exact h
  | vecDestroy v =>
    unfold step at hs
    dsimp only at hs
    cases h1 : des1 s.rc v with
    | error e => rw [h1] at hs; cases hs
    | ok rc => rw [h1] at hs; rw [← Except.ok.inj hs]; exact h
  | setDefl L =>
    have hL : L ≠ [] := ho
    obtain ⟨d, rc, hb, rfl⟩ := setDefl_eq hs
    rcases basisReference_m hb with ⟨q, q2⟩ | ⟨q, q2⟩
    · have hne : L.isEmpty = false := by cases L <;> simp_all
      refine ⟨fun _ => Or.inl ⟨?_, by simp [q]⟩, fun hf => ?_⟩
      · show d.m < 0; omega
      · simp [pendDefl, hne] at hf
    · exact absurd q hL
  | setIni L =>
    obtain ⟨d, rc, hb, rfl⟩ := setIni_eq hs
    obtain ⟨r4, r5⟩ := h
    refine ⟨fun hp => ?_, r5⟩
    rcases r4 hp with ⟨q, q2⟩ | ⟨q, q2, q3⟩
    · left; refine ⟨q, ?_⟩
      show (if 0 < L.length then Stage.initial else s.stage) = .initial
      split_ifs <;> simp [q2]
    · right; refine ⟨q, q2, ?_⟩
      show (if 0 < L.length then Stage.initial else s.stage) ≠ .solved
      split_ifs <;> simp [q3]
  | setInil L =>
    obtain ⟨d, rc, hb, rfl⟩ := setInil_eq hs
    obtain ⟨r4, r5⟩ := h
    refine ⟨fun hp => ?_, r5⟩
    rcases r4 hp with ⟨q, q2⟩ | ⟨q, q2, q3⟩
    · left; refine ⟨q, ?_⟩
      show (if 0 < L.length then Stage.initial else s.stage) = .initial
      split_ifs <;> simp [q2]
    · right; refine ⟨q, q2, ?_⟩
      show (if 0 < L.length then Stage.initial else s.stage) ≠ .solved
      split_ifs <;> simp [q3]
  | setTwoSided t =>
    rw [← Except.ok.inj hs]
    obtain ⟨r4, r5⟩ := h
    refine ⟨fun hp => ?_, r5⟩
    rcases r4 hp with ⟨q, q2⟩ | ⟨q, q2, q3⟩
    · left; refine ⟨q, ?_⟩
      show (if s.twosided = t then s.stage else Stage.initial) = .initial
      split_ifs <;> simp [q2]
    · right; refine ⟨q, q2, ?_⟩
      show (if s.twosided = t then s.stage else Stage.initial) ≠ .solved
      split_ifs <;> simp [q3]
  | touch r =>
    rw [← Except.ok.inj hs]
    obtain ⟨r4, r5⟩ := h
    refine ⟨fun hp => ?_, r5⟩
    rcases r4 hp with ⟨q, q2⟩ | ⟨q, q2, q3⟩
    · exact Or.inl ⟨q, rfl⟩
    · exact Or.inr ⟨q, q2, by simp⟩
  | setUp a b' c => exact (setUp_dinv ho h hs).1
  | solve a b' c =>
    have hs' : solve a b' c s = .ok s' := hs
    rcases solve_parts hs' with ⟨q, rfl⟩ | ⟨q, s1, h1, rfl⟩
    · obtain ⟨r4, r5⟩ := h
      refine ⟨fun hf => by simp [pendDefl] at hf, fun _ => ?_⟩
      cases b with
      | false => exact r5 rfl
      | true =>
        rcases r4 rfl with ⟨_, q2⟩ | ⟨_, _, q2⟩
        · rw [q] at q2; cases q2
        · exact absurd q q2
    · obtain ⟨⟨r4, r5⟩, k⟩ := setUp_dinv ho h h1
      refine ⟨fun hf => by simp [pendDefl] at hf, fun _ => ⟨rfl, ?_⟩⟩
      show (if s1.defl.m ≠ 0 then 0 else s1.nc) = 0
      cases b with
      | false => rw [(r5 rfl).2]; simp
      | true => have := (k rfl).1; rw [if_pos (by omega)]
  | destroy =>
    obtain ⟨q1, q2, q3, q4⟩ := epsDestroy_eq hs
    exact ⟨fun hf => by simp [pendDefl] at hf, fun _ => ⟨q1, q3⟩⟩

theorem run_dinv (ops : List Op) : ∀ (b : Bool) (s s' : St), (∀ o ∈ ops, DeflOp o) → DInv b s → run ops s = .ok s' →
    DInv (ops.foldl pendDefl b) s' := by
  induction ops with
  | nil => intro b s s' _ h hs; rw [← Except.ok.inj hs]; exact h
  | cons o os ih =>
    intro b s s' ho h hs
    unfold run at hs
    cases h1 : step o s with
    | error e => rw [h1] at hs; cases hs
    | ok s1 =>
      rw [h1] at hs
      exact ih (pendDefl b o) s1 s' (fun o' h' => ho o' (by simp [h'])) (step_dinv o s s1 b (ho o (by simp)) h h1) hs

/-- After any history in which the deflation space is never withdrawn by an empty list, a solve that runs deflates
something if and only if a deflation space has been supplied since the last solve, and afterwards no constraint is left. -/
theorem C74_deflation_partial (ops : List Op) (ho : ∀ o ∈ ops, DeflOp o) (s s' : St) (a b c : ℕ) (ha : 1 ≤ a)
    (hs : run ops create = .ok s) (hn : s.stage ≠ .solved) (h : solve a b c s = .ok s') :
    (∃ u, s'.log = s.log ++ [u] ∧ (0 < u.nc ↔ suppliedDefl ops = true)) ∧ s'.nc = 0 := by
  have hr := run_dinv ops false create s ho (by
    refine ⟨?_, fun _ => ⟨rfl, rfl⟩⟩
    intro h; cases h) hs
  rcases solve_parts h with ⟨q, _⟩ | ⟨_, s1, h1, rfl⟩
  · exact absurd q hn
  · obtain ⟨⟨r4, r5⟩, k⟩ := setUp_dinv ha hr h1
    unfold suppliedDefl
    cases hp : ops.foldl pendDefl false with
    | true =>
      obtain ⟨k1, k2⟩ := k hp
      refine ⟨⟨_, by show s1.log ++ _ = _; rw [setUp_log h1], by simpa using k2⟩, ?_⟩
      show (if s1.defl.m ≠ 0 then 0 else s1.nc) = 0
      rw [if_pos (by omega)]
    | false =>
      obtain ⟨k1, k2⟩ := r5 hp
      refine ⟨⟨_, by show s1.log ++ _ = _; rw [setUp_log h1], by simp [k2]⟩, ?_⟩
      show (if s1.defl.m ≠ 0 then 0 else s1.nc) = 0
      rw [k2]; simp

example : (∀ o ∈ [Op.vecCreate 1, .setDefl [1], .touch true], DeflOp o) ∧
    ∃ s, run [.vecCreate 1, .setDefl [1], .touch true, .solve 1 0 0, .touch true, .solve 1 0 0] create = .ok s ∧
      s.log = [⟨.random, .random, 1⟩, ⟨.random, .random, 0⟩] := by
  refine ⟨?_, _, rfl, rfl⟩
  intro o ho
  simp at ho
  rcases ho with rfl | rfl | rfl <;> simp [DeflOp]

/-- From a state where left vectors are pending and the mode is two-sided, the next solve that succeeds uses them. -/
theorem C74_left_first_partial (s s' : St) (a b c : ℕ) (hc : 1 ≤ c) (h2 : s.twosided = true) (hl : s.inil.m < 0)
    (hst : s.stage = .initial) (h : solve a b c s = .ok s') :
    ∃ u, s'.log = s.log ++ [u] ∧ u.left = .user := by
  rcases solve_parts h with ⟨q, _⟩ | ⟨_, s1, h1, rfl⟩
  · rw [hst] at q; cases q
  · have hlog := setUp_log h1
    obtain ⟨t1, t2, t3, t4, g1, g2, g3, g4, rfl⟩ := setUp_parts hst h1
    have e1 := (allocate_eq g1).1
    have e2 := processDefl_eq g2
    have e3 := processIni_eq g3
    have e4 := processInil_eq g4
    have i3 : t3.inil = s.inil := by rw [e3.2.1, e2.2.1, e1]
    have tw3 : t3.twosided = true := by rw [e3.2.2.1, e2.2.2.1, e1]; exact h2
    refine ⟨_, by show t4.log ++ _ = _; rw [← hlog], ?_⟩
    show (if t4.twosided = true then start t4.inil.m t4.wuser else .random) = .user
    rw [e4.2.2.1, tw3, if_pos rfl]
    rcases e4.2.2.2.2.2.2.2.2.2 with ⟨q, _⟩ | ⟨_, _, q1, q2⟩
    · exact absurd ⟨tw3, by rw [i3]; exact hl⟩ q
    · have : 0 < min c (-t3.inil.m).toNat := by rw [i3]; omega
      rw [q1, q2]
      unfold start
      rw [if_neg (by omega)]
      simp only [decide_eq_true_eq]
      rw [if_pos this]

example : (create).inil.m = 0 ∧ ∃ s, run [.vecCreate 1, .setTwoSided true, .setInil [1]] create = .ok s ∧
    s.twosided = true ∧ s.inil.m < 0 ∧ s.stage = .initial := ⟨rfl, _, rfl, rfl, by decide, rfl⟩

/-! ## Where the code does not keep the promise -/

/-- The left initial space does persist: the second two-sided solve takes a column it believes to be the caller's, but
the left basis has been created anew (the code then stops with "Left initial vector is zero"). -/
theorem C74_left_persists : ∃ s, run [.vecCreate 1, .setTwoSided true, .setInil [1], .solve 0 0 1, .touch false,
    .solve 0 0 1] create = .ok s ∧ s.log = [⟨.random, .user, 0⟩, ⟨.random, .stale, 0⟩] := ⟨_, rfl, rfl⟩

/-- An initial vector is lost when the number of columns changes between set-up and solve. -/
theorem C74_right_lost_resize : ∃ s, run [.vecCreate 1, .setIni [1], .setUp 0 1 0, .touch true, .solve 0 1 0] create
    = .ok s ∧ s.log = [⟨.stale, .random, 0⟩] := ⟨_, rfl, rfl⟩

/-- It is also lost when a deflation space is given between set-up and solve. -/
theorem C74_right_lost_deflation : ∃ s, run [.vecCreate 1, .vecCreate 2, .setIni [1], .setUp 0 1 0, .setDefl [2],
    .solve 1 1 0] create = .ok s ∧ s.log = [⟨.stale, .random, 1⟩] := ⟨_, rfl, rfl⟩

/-- A deflation space withdrawn after a set-up is still applied, and its constraint stays in the basis. -/
theorem C74_deflation_not_withdrawn : ∃ s, run [.vecCreate 1, .setDefl [1], .setUp 1 0 0, .setDefl [], .solve 1 0 0]
    create = .ok s ∧ s.log = [⟨.random, .random, 1⟩] ∧ s.nc = 1 := ⟨_, rfl, rfl, rfl⟩

/-- With a deflation space, any setter between set-up and solve makes the solve fail. -/
theorem C74_deflation_second_setup : run [.vecCreate 1, .setDefl [1], .setUp 1 0 0, .touch false, .solve 1 0 0] create
    = .error .petsc := rfl

end Verif.Spaces
