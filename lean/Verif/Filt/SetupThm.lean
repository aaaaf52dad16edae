import Verif.Filt.SetupModel
import Mathlib.Tactic

/-! # Theorems on the set-up of STFILTER -/

set_option linter.all false

namespace Verif.Filt

open Classical

variable {V : Type*} [AddCommGroup V] [Module ℝ V] {F C : Type*}

/-- The number of grid points on entry of the set-up. -/
def gridOf (s : FSt V F C) : ℕ := match s.data with | FData.filtlan g _ => g | _ => 200

/-- The operator for given parameters, or an error: what the set-up has to do. -/
noncomputable def outcome (E : FEnv F C) (p : FPar) (nmat grid : ℕ) (A : Option (V →ₗ[ℝ] V)) : Option (Oper V F C) :=
  match A with
  | none => none
  | some A =>
    if Checks E p nmat then
      let d := if p.degree = 0 then 100 else p.degree
      if p.type = some FType.cheb then some (Oper.cheb A (E.cf p.inta p.intb p.left p.right d p.damping) p.left p.right d)
      else (withFrame p (fun a a1 b1 b => E.gi a a1 b1 b d (max grid (withFrame p gridNeed)))).map (fun f => Oper.filtlan (shiftT p A) f d)
    else none

def PValid (p : FPar) : Prop := p.inta < p.intb ∧ (p.left < p.right ∨ (p.left = 0 ∧ p.right = 0))

/-- The data belong to the type. -/
def DataOk (t : Option FType) : FData F C → Prop
  | FData.empty => t = none
  | FData.filtlan g _ => t = some FType.filtlan ∧ 200 ≤ g
  | FData.cheb _ => t = some FType.cheb

structure FGood (E : FEnv F C) (s : FSt V F C) : Prop where
  ready : s.opready = true ↔ s.state = StState.setup
  valid : PValid s.par
  dat : DataOk s.par.type s.data
  kept : s.state ≠ StState.initial → s.par.degree ≠ 0 ∧ Checks E s.par s.nmat ∧ s.par.type ≠ none ∧ s.shell = s.par.type ∧
    (s.par.type = some FType.filtlan → s.filtch = false ∧ ∃ g f, s.data = FData.filtlan g (some f) ∧ withFrame s.par gridNeed ≤ g ∧
      withFrame s.par (fun a a1 b1 b => E.gi a a1 b1 b s.par.degree g) = some f)
  hasA : s.state ≠ StState.initial → s.A ≠ none
  now : s.state = StState.setup → oper s = outcome E s.par s.nmat (gridOf s) s.A ∧ oper s ≠ none

theorem touch_good (E : FEnv F C) (s : FSt V F C) (p : FPar) (hp : PValid p) (hd : DataOk p.type s.data) : FGood E (touch s p) :=
  ⟨⟨fun h => (nomatch h), fun h => (nomatch h)⟩, hp, hd, fun h => absurd rfl h, fun h => absurd rfl h, fun h => (nomatch h)⟩

theorem init_good (E : FEnv F C) (hE : 0 < E.maxReal) : FGood E (fInit E : FSt V F C) :=
  ⟨⟨fun h => (nomatch h), fun h => (nomatch h)⟩, ⟨by show -E.maxReal < E.maxReal; linarith, Or.inr ⟨rfl, rfl⟩⟩, rfl, fun h => absurd rfl h, fun h => absurd rfl h, fun h => (nomatch h)⟩

theorem setType_good (E : FEnv F C) (s : FSt V F C) (t : FType) (h : FGood E s) : FGood E (setType s t).1 := by
  rw [setType]
  by_cases h1 : s.par.type ≠ some t
  · rw [if_pos h1]
    refine touch_good E _ _ ⟨h.valid.1, Or.inr ⟨rfl, rfl⟩⟩ ?_
    cases t
    · exact ⟨rfl, le_rfl⟩
    · rfl
  · rw [if_neg h1]; exact h

theorem setInterval_good (E : FEnv F C) (s : FSt V F C) (a b : ℝ) (h : FGood E s) : FGood E (setInterval s a b).1 := by
  rw [setInterval]
  by_cases h1 : ¬ a < b
  · rw [if_pos h1]; exact h
  rw [if_neg h1]
  by_cases h2 : s.par.inta ≠ a ∨ s.par.intb ≠ b
  · rw [if_pos h2]; exact touch_good E _ _ ⟨not_not.1 h1, h.valid.2⟩ h.dat
  · rw [if_neg h2]; exact h

theorem setRange_good (E : FEnv F C) (s : FSt V F C) (a b : ℝ) (h : FGood E s) : FGood E (setRange s a b).1 := by
  rw [setRange]
  by_cases h1 : ¬ a < b
  · rw [if_pos h1]; exact h
  rw [if_neg h1]
  by_cases h2 : s.par.left ≠ a ∨ s.par.right ≠ b
  · rw [if_pos h2]; exact touch_good E _ _ ⟨h.valid.1, Or.inl (not_not.1 h1)⟩ h.dat
  · rw [if_neg h2]; exact h

theorem setDegree_good (E : FEnv F C) (s : FSt V F C) (d : Option ℤ) (h : FGood E s) : FGood E (setDegree s d).1 := by
  cases d with
  | none => exact touch_good E _ _ h.valid h.dat
  | some d =>
    rw [setDegree]
    by_cases h1 : ¬ 0 < d
    · rw [if_pos h1]; exact h
    rw [if_neg h1]
    by_cases h2 : (s.par.degree : ℤ) ≠ d
    · rw [if_pos h2]; exact touch_good E _ _ h.valid h.dat
    · rw [if_neg h2]; exact h

theorem setDamping_good (E : FEnv F C) (s : FSt V F C) (d : Damping) (h : FGood E s) : FGood E (setDamping s d).1 := by
  rw [setDamping]
  by_cases h1 : s.par.damping ≠ d
  · rw [if_pos h1]; exact touch_good E _ _ h.valid h.dat
  · rw [if_neg h1]; exact h

theorem stReset_good (E : FEnv F C) (s : FSt V F C) (h : FGood E s) : FGood E (stReset s) :=
  ⟨⟨fun h => (nomatch h), fun h => (nomatch h)⟩, ⟨h.valid.1, Or.inr ⟨rfl, rfl⟩⟩, h.dat, fun h => absurd rfl h, fun h => absurd rfl h, fun h => (nomatch h)⟩

theorem setMatrices_good (E : FEnv F C) (s : FSt V F C) (n k : ℕ) (A : V →ₗ[ℝ] V) (h : FGood E s) : FGood E (setMatrices s n k A).1 := by
  rw [setMatrices]
  by_cases hsame : s.state ≠ StState.initial ∧ n = s.nmat ∧ k = s.key
  · simp only [hsame, decide_true, not_true_eq_false, and_false, if_false, if_true]
    obtain ⟨h1, h2, h3⟩ := hsame
    simp only [h1, ne_eq, not_false_eq_true, true_and, and_self, decide_true, not_true_eq_false, if_false, if_true]
    obtain ⟨k2, k3, k4, k5, k6⟩ := h.kept h1
    refine ⟨⟨fun h => (nomatch h), fun h => (nomatch h)⟩, h.valid, h.dat, fun _ => ⟨k2, k3, k4, k5, k6⟩, fun _ h => (nomatch h), fun h => (nomatch h)⟩
  · simp only [hsame, decide_false, Bool.false_eq_true, not_false_eq_true, and_true, if_false]
    by_cases hi : s.state = StState.initial
    · simp only [hi, ne_eq, not_true_eq_false, if_false]
      exact ⟨⟨fun h => (nomatch h), fun h => (nomatch h)⟩, h.valid, h.dat, fun h => absurd rfl h, fun h => absurd rfl h, fun h => (nomatch h)⟩
    · simp only [hi, ne_eq, not_false_eq_true, if_true]
      have hr := stReset_good E s h
      exact ⟨⟨fun h => (nomatch h), fun h => (nomatch h)⟩, hr.valid, hr.dat, fun h => absurd rfl h, fun h => absurd rfl h, fun h => (nomatch h)⟩

/-- What the set-up returns. -/
def SetUpOk (E : FEnv F C) (s : FSt V F C) (r : FSt V F C × Bool) : Prop :=
  FGood E r.1 ∧ r.2 = (outcome E s.par s.nmat (gridOf s) s.A).isSome ∧
    (r.2 = true → oper r.1 = outcome E s.par s.nmat (gridOf s) s.A)

/-- Parameters with the default degree. -/
noncomputable def defDeg (p : FPar) : FPar := if p.degree = 0 then { p with degree := 100 } else p

theorem defDeg_degree (p : FPar) : (defDeg p).degree = if p.degree = 0 then 100 else p.degree := by
  rw [defDeg]; by_cases h : p.degree = 0
  · simp only [if_pos h]
  · simp only [if_neg h]

theorem defDeg_ne (p : FPar) : (defDeg p).degree ≠ 0 := by
  rw [defDeg_degree]; by_cases h : p.degree = 0
  · rw [if_pos h]; norm_num
  · rw [if_neg h]; exact h

theorem defDeg_rest (p : FPar) : (defDeg p).type = p.type ∧ (defDeg p).inta = p.inta ∧ (defDeg p).intb = p.intb ∧ (defDeg p).left = p.left ∧
    (defDeg p).right = p.right ∧ (defDeg p).damping = p.damping := by
  rw [defDeg]; by_cases h : p.degree = 0 <;> simp [h]

theorem withFrame_congr {α : Type*} {p q : FPar} (h1 : p.inta = q.inta) (h2 : p.intb = q.intb) (h3 : p.left = q.left) (h4 : p.right = q.right)
    (f : ℝ → ℝ → ℝ → ℝ → α) : withFrame p f = withFrame q f := by
  rw [withFrame, withFrame, h1, h2, h3, h4]

theorem shiftT_congr {p q : FPar} (h1 : p.inta = q.inta) (h3 : p.left = q.left) (h4 : p.right = q.right) (A : V →ₗ[ℝ] V) : shiftT p A = shiftT q A := by
  rw [shiftT, shiftT, h1, h3, h4]

theorem checks_congr (E : FEnv F C) {p q : FPar} (h1 : p.inta = q.inta) (h2 : p.intb = q.intb) (h3 : p.left = q.left) (h4 : p.right = q.right) (n : ℕ) :
    Checks E p n ↔ Checks E q n := by
  rw [Checks, Checks, h1, h2, h3, h4]

/-- The outcome depends on the parameters up to the defaults. -/
theorem outcome_def (E : FEnv F C) (p q : FPar) (n g : ℕ) (A : V →ₗ[ℝ] V) (hq : q = defDeg p ∨ q = { defDeg p with type := some FType.filtlan })
    (ht : p.type = some FType.cheb → q = defDeg p) : outcome E p n g (some A) = outcome E q n g (some A) := by
  obtain ⟨r1, r2, r3, r4, r5, r6⟩ := defDeg_rest p
  have hdeg : q.degree = (if p.degree = 0 then 100 else p.degree) := by
    rw [← defDeg_degree]; rcases hq with h | h <;> rw [h]
  have hdeg' : (if q.degree = 0 then 100 else q.degree) = (if p.degree = 0 then 100 else p.degree) := by
    rw [hdeg]
    by_cases h : p.degree = 0
    · simp [h]
    · simp [h]
  have e1 : p.inta = q.inta := by rcases hq with h | h <;> rw [h] <;> exact r2.symm
  have e2 : p.intb = q.intb := by rcases hq with h | h <;> rw [h] <;> exact r3.symm
  have e3 : p.left = q.left := by rcases hq with h | h <;> rw [h] <;> exact r4.symm
  have e4 : p.right = q.right := by rcases hq with h | h <;> rw [h] <;> exact r5.symm
  have e5 : p.damping = q.damping := by rcases hq with h | h <;> rw [h] <;> exact r6.symm
  have et : (p.type = some FType.cheb) = (q.type = some FType.cheb) := by
    by_cases h : p.type = some FType.cheb
    · rw [ht h, r1]
    · rcases hq with h' | h'
      · rw [h', r1]
      · rw [h']; simp [h]
  simp only [outcome, hdeg', propext (checks_congr E e1 e2 e3 e4 n), withFrame_congr e1 e2 e3 e4, shiftT_congr e1 e3 e4, et, e1, e2, e3, e4, e5]

/-- End of the set-up. -/
def finish (r : FSt V F C × Bool) : FSt V F C × Bool :=
  if r.2 then ({ r.1 with opready := true, state := StState.setup }, true) else r

theorem setUp_eq (E : FEnv F C) (s : FSt V F C) (A : V →ₗ[ℝ] V) (hA : s.A = some A) (h1 : s.state ≠ StState.setup) (h2 : s.opready = false) :
    setUp E s = finish (compute E (if s.state ≠ StState.updated then { s with shell := none } else s) A) := by
  unfold setUp
  rw [hA]
  dsimp only
  rw [if_neg h1]
  have e : (if s.state ≠ StState.updated ∧ ¬ s.opready = true then { s with shell := none } else s) = (if s.state ≠ StState.updated then { s with shell := none } else s) := by
    by_cases h : s.state ≠ StState.updated
    · rw [if_pos ⟨h, by rw [h2]; simp⟩, if_pos h]
    · rw [if_neg (fun hc => h hc.1), if_neg h]
  rw [← hA, e]
  have e2 : (if s.state ≠ StState.updated then { s with shell := none } else s).opready = false := by
    by_cases h : s.state ≠ StState.updated
    · rw [if_pos h]; exact h2
    · rw [if_neg h]; exact h2
  generalize (if s.state ≠ StState.updated then { s with shell := none } else s) = t at e2
  have e3 : computeOperator E t A = if (compute E t A).2 = true then ({ (compute E t A).1 with opready := true }, true) else compute E t A := by
    rw [computeOperator, e2]; rfl
  rw [e3, finish]
  by_cases h3 : (compute E t A).2 = true
  · simp only [if_pos h3, if_true]
  · simp only [if_neg h3]

/-- The state with the defaults. -/
noncomputable def normS (s : FSt V F C) : FSt V F C :=
  let s := if s.par.type = none then mkType s FType.filtlan else s
  if s.par.degree = 0 then { s with par := { s.par with degree := 100 } } else s

theorem normS_filtlan (s : FSt V F C) (ht : s.par.type ≠ some FType.cheb) (hd : DataOk s.par.type s.data) :
    ∃ g o, gridOf s = g ∧ 200 ≤ g ∧ normS s = { s with par := { defDeg s.par with type := some FType.filtlan }, data := FData.filtlan g o } := by
  cases h : s.par.type with
  | none =>
    have he : s.data = FData.empty := by
      rw [h] at hd
      cases hx : s.data with
      | empty => rfl
      | filtlan g f => rw [hx] at hd; cases hd.1
      | cheb c => rw [hx] at hd; cases hd
    refine ⟨200, none, by rw [gridOf, he], le_rfl, ?_⟩
    rw [normS, if_pos h, defDeg]
    by_cases h0 : s.par.degree = 0
    · rw [if_pos (show (mkType s FType.filtlan).par.degree = 0 from h0), if_pos h0]; rfl
    · rw [if_neg (show ¬ (mkType s FType.filtlan).par.degree = 0 from h0), if_neg h0]; rfl
  | some t =>
    cases t with
    | cheb => exact absurd h ht
    | filtlan =>
      rw [h] at hd
      cases hx : s.data with
      | empty => rw [hx] at hd; cases hd
      | cheb c => rw [hx] at hd; cases hd
      | filtlan g f =>
        rw [hx] at hd
        refine ⟨g, f, by rw [gridOf, hx], hd.2, ?_⟩
        have hnn : ¬ s.par.type = none := by rw [h]; simp
        simp only [normS, if_neg hnn, defDeg]
        by_cases h0 : s.par.degree = 0
        · simp only [if_pos h0, ← h, ← hx]
        · simp only [if_neg h0, ← h, ← hx]

theorem normS_cheb (s : FSt V F C) (ht : s.par.type = some FType.cheb) (hd : DataOk s.par.type s.data) :
    ∃ c, s.data = FData.cheb c ∧ normS s = { s with par := defDeg s.par } := by
  rw [ht] at hd
  cases hx : s.data with
  | empty => rw [hx] at hd; cases hd
  | filtlan g f => rw [hx] at hd; cases hd.1
  | cheb c =>
    refine ⟨c, rfl, ?_⟩
    have hnn : ¬ s.par.type = none := by rw [ht]; simp
    simp only [normS, if_neg hnn, defDeg]
    by_cases h0 : s.par.degree = 0
    · simp only [if_pos h0, ← hx]
    · simp only [if_neg h0, ← hx]

theorem compute_eq (E : FEnv F C) (s : FSt V F C) (A : V →ₗ[ℝ] V) (hc : Checks E s.par s.nmat) :
    compute E s A = match (normS s).data with | FData.filtlan g f => computeFiltlan E (normS s) A g f | FData.cheb _ => computeCheb E (normS s) A | FData.empty => (normS s, false) := by
  rw [compute, if_neg (not_not.2 hc)]
  rfl

/-- Set-up of a FILTLAN filter from the initial state. -/
theorem setUp_filtlan (E : FEnv F C) (s : FSt V F C) (h : FGood E s) (A : V →ₗ[ℝ] V) (hA : s.A = some A) (hi : s.state = StState.initial)
    (hc : Checks E s.par s.nmat) (ht : s.par.type ≠ some FType.cheb) : SetUpOk E s (setUp E s) := by
  have hnr : s.opready = false := by
    cases ho : s.opready
    · rfl
    · have := h.ready.1 ho; rw [hi] at this; cases this
  rw [setUp_eq E s A hA (by rw [hi]; simp) hnr, if_pos (by rw [hi]; simp)]
  obtain ⟨g, o, hg, hg2, hn⟩ := normS_filtlan { s with shell := none } ht h.dat
  obtain ⟨p, hp⟩ : ∃ p, p = { defDeg s.par with type := some FType.filtlan } := ⟨_, rfl⟩
  have hn' : normS { s with shell := none } = { s with shell := none, par := p, data := FData.filtlan g o } := by rw [hn, hp]
  have hgs : gridOf s = g := hg
  obtain ⟨r1, r2, r3, r4, r5, r6⟩ := defDeg_rest s.par
  have hpt : p.type = some FType.filtlan := by rw [hp]
  have hpd : p.degree ≠ 0 := by rw [hp]; exact defDeg_ne s.par
  have e1 : p.inta = s.par.inta := by rw [hp]; exact r2
  have e2 : p.intb = s.par.intb := by rw [hp]; exact r3
  have e3 : p.left = s.par.left := by rw [hp]; exact r4
  have e4 : p.right = s.par.right := by rw [hp]; exact r5
  have hv : PValid p := by rw [PValid, e1, e2, e3, e4]; exact h.valid
  have hcp : Checks E p s.nmat := (checks_congr E e1 e2 e3 e4 s.nmat).2 hc
  have ho : ∀ n g, outcome E s.par n g (some A) = outcome E p n g (some A) := fun n g => outcome_def E s.par p n g A (Or.inr hp) (fun hx => absurd hx ht)
  have ho2 : ∀ g', outcome E p s.nmat g' (some A) = (withFrame p (fun a a1 b1 b => E.gi a a1 b1 b p.degree (max g' (withFrame p gridNeed)))).map (fun f => Oper.filtlan (shiftT p A) f p.degree) := by
    intro g'
    simp only [outcome, if_pos hcp, if_neg hpd]
    rw [if_neg (by rw [hpt]; simp)]
  rw [compute_eq E { s with shell := none } A hc, hn']
  dsimp only
  rw [computeFiltlan, if_pos (Or.inl hi)]
  dsimp only
  rw [SetUpOk, hA, hgs, ho, ho2]
  cases hf : withFrame p (fun a a1 b1 b => E.gi a a1 b1 b p.degree (max g (withFrame p gridNeed))) with
  | none =>
    refine ⟨?_, rfl, fun hx => (nomatch hx)⟩
    exact ⟨⟨fun hx => absurd hx (by show ¬ s.opready = true; rw [hnr]; simp), fun hx => absurd (show s.state = StState.setup from hx) (by rw [hi]; simp)⟩, hv,
      ⟨hpt, le_trans hg2 (le_max_left _ _)⟩, fun hx => absurd hi hx, fun hx => absurd hi hx, fun hx => absurd (show s.state = StState.setup from hx) (by rw [hi]; simp)⟩
  | some f =>
    refine ⟨?_, rfl, fun hx => rfl⟩
    refine ⟨⟨fun _ => rfl, fun _ => rfl⟩, hv, ⟨hpt, le_trans hg2 (le_max_left _ _)⟩,
      fun _ => ⟨hpd, hcp, by show p.type ≠ none; rw [hpt]; simp, hpt.symm, fun _ => ⟨rfl, _, f, rfl, le_max_right _ _, hf⟩⟩, fun _ hx => ?_, fun _ => ⟨?_, fun hx => (nomatch hx)⟩⟩
    · have hx' : (some A : Option (V →ₗ[ℝ] V)) = none := hx
      cases hx'
    · show some (Oper.filtlan (shiftT p A) f p.degree) = outcome E p s.nmat (max g (withFrame p gridNeed)) (some A)
      rw [ho2, max_eq_left (le_max_right _ _), hf]; rfl

/-- Set-up of a Chebyshev filter from the initial or the updated state. -/
theorem setUp_cheb (E : FEnv F C) (s : FSt V F C) (h : FGood E s) (A : V →ₗ[ℝ] V) (hA : s.A = some A) (hns : s.state ≠ StState.setup)
    (hc : Checks E s.par s.nmat) (ht : s.par.type = some FType.cheb) : SetUpOk E s (setUp E s) := by
  have hnr : s.opready = false := by
    cases ho : s.opready
    · rfl
    · exact absurd (h.ready.1 ho) hns
  rw [setUp_eq E s A hA hns hnr]
  obtain ⟨t, htt⟩ : ∃ t, t = (if s.state ≠ StState.updated then { s with shell := none } else s) := ⟨_, rfl⟩
  have t1 : t.par = s.par ∧ t.nmat = s.nmat ∧ t.A = s.A ∧ t.data = s.data ∧ (t.shell = none ∨ t.shell = some FType.cheb) := by
    rw [htt]
    by_cases hu : s.state ≠ StState.updated
    · rw [if_pos hu]; exact ⟨rfl, rfl, rfl, rfl, Or.inl rfl⟩
    · rw [if_neg hu]
      refine ⟨rfl, rfl, rfl, rfl, Or.inr ?_⟩
      obtain ⟨k2, k3, k4, k5, k6⟩ := h.kept (by rw [not_not.1 hu]; simp)
      rw [k5, ht]
  rw [← htt]
  obtain ⟨t1, t2, t3, t4, t5⟩ := t1
  obtain ⟨c, hd, hn⟩ := normS_cheb t (by rw [t1]; exact ht) (by rw [t1, t4]; exact h.dat)
  obtain ⟨p, hp⟩ : ∃ p, p = defDeg s.par := ⟨_, rfl⟩
  rw [t1, ← hp] at hn
  obtain ⟨r1, r2, r3, r4, r5, r6⟩ := defDeg_rest s.par
  have hpt : p.type = some FType.cheb := by rw [hp, r1]; exact ht
  have hpd : p.degree ≠ 0 := by rw [hp]; exact defDeg_ne s.par
  have e1 : p.inta = s.par.inta := by rw [hp]; exact r2
  have e2 : p.intb = s.par.intb := by rw [hp]; exact r3
  have e3 : p.left = s.par.left := by rw [hp]; exact r4
  have e4 : p.right = s.par.right := by rw [hp]; exact r5
  have hv : PValid p := by rw [PValid, e1, e2, e3, e4]; exact h.valid
  have hcp : Checks E p s.nmat := (checks_congr E e1 e2 e3 e4 s.nmat).2 hc
  have ho : ∀ n g, outcome E s.par n g (some A) = outcome E p n g (some A) := fun n g => outcome_def E s.par p n g A (Or.inl hp) (fun _ => hp)
  have ho2 : ∀ g', outcome E p s.nmat g' (some A) = some (Oper.cheb A (E.cf p.inta p.intb p.left p.right p.degree p.damping) p.left p.right p.degree) := by
    intro g'
    simp only [outcome, if_pos hcp, if_neg hpd, if_pos hpt]
  rw [compute_eq E _ A (by rw [t1, t2]; exact hc), hn]
  have hd' : ({ t with par := p } : FSt V F C).data = FData.cheb c := hd
  rw [hd']
  dsimp only
  have hsh : (if ({ t with par := p } : FSt V F C).shell = none then some FType.cheb else ({ t with par := p } : FSt V F C).shell) = some FType.cheb := by
    rcases t5 with h5 | h5
    · rw [if_pos h5]
    · rw [if_neg (by show ¬ t.shell = none; rw [h5]; simp)]; exact h5
  rw [computeCheb, hsh, finish, if_pos rfl, SetUpOk, hA, ho, ho2]
  refine ⟨?_, rfl, fun hx => rfl⟩
  refine ⟨⟨fun _ => rfl, fun _ => rfl⟩, hv, hpt,
    fun _ => ⟨hpd, by show Checks E p t.nmat; rw [t2]; exact hcp, by show p.type ≠ none; rw [hpt]; simp, hpt.symm, fun hx => ?_⟩, fun _ hx => ?_, fun _ => ⟨?_, fun hx => (nomatch hx)⟩⟩
  · rw [show p.type = _ from hx] at hpt; cases hpt
  · rw [show t.A = none from hx] at t3; rw [← t3] at hA; cases hA
  · show some (Oper.cheb A (E.cf p.inta p.intb p.left p.right p.degree p.damping) p.left p.right p.degree) = outcome E p t.nmat 200 t.A
    rw [t2, t3, hA, ho2]

/-- Set-up of a FILTLAN filter from the updated state: the filter is not computed again. -/
theorem setUp_updated (E : FEnv F C) (s : FSt V F C) (h : FGood E s) (A : V →ₗ[ℝ] V) (hA : s.A = some A) (hu : s.state = StState.updated)
    (ht : s.par.type = some FType.filtlan) : SetUpOk E s (setUp E s) := by
  have hni : s.state ≠ StState.initial := by rw [hu]; simp
  have hns : s.state ≠ StState.setup := by rw [hu]; simp
  obtain ⟨k2, k3, k4, k5, k6⟩ := h.kept hni
  obtain ⟨k1, g, f, hd, hg, hf⟩ := k6 ht
  have hnr : s.opready = false := by
    cases ho : s.opready
    · rfl
    · exact absurd (h.ready.1 ho) hns
  have hgs : gridOf s = g := by rw [gridOf, hd]
  have hsh : s.shell = some FType.filtlan := by rw [k5, ht]
  have hnorm : normS s = s := by simp only [normS, if_neg k4, if_neg k2]
  have hr : computeFiltlan E s A g (some f) = ({ s with T := some (shiftT s.par A), filtch := false, shell := if s.shell = none then some FType.filtlan else s.shell }, true) := by
    rw [computeFiltlan, if_neg]
    rintro (hc | hc)
    · exact hni hc
    · rw [show s.filtch = true from hc] at k1; cases k1
  have ho2 : outcome E s.par s.nmat g (some A) = some (Oper.filtlan (shiftT s.par A) f s.par.degree) := by
    simp only [outcome, if_pos k3, if_neg k2, max_eq_left hg, hf]
    rw [if_neg (by rw [ht]; simp)]; rfl
  rw [setUp_eq E s A hA hns hnr, if_neg (by rw [hu]; simp), compute_eq E s A k3, hnorm, hd]
  dsimp only
  rw [hr, if_neg (by rw [hsh]; simp), finish, if_pos rfl, SetUpOk, hA, hgs, ho2]
  have hop : oper ({ s with T := some (shiftT s.par A), filtch := false, opready := true, state := StState.setup } : FSt V F C) = some (Oper.filtlan (shiftT s.par A) f s.par.degree) := by
    simp only [oper, hsh, hd]
  have hop' : oper ({ s with T := some (shiftT s.par A), filtch := false, opready := true, state := StState.setup, A := some A } : FSt V F C) = some (Oper.filtlan (shiftT s.par A) f s.par.degree) := hop
  refine ⟨⟨⟨fun _ => rfl, fun _ => rfl⟩, h.valid, h.dat, fun _ => ⟨k2, k3, k4, k5, fun _ => ⟨rfl, g, f, hd, hg, hf⟩⟩, fun _ hx => (nomatch hx), fun _ => ⟨?_, ?_⟩⟩, rfl, fun _ => hop'⟩
  · show oper ({ s with T := some (shiftT s.par A), filtch := false, opready := true, state := StState.setup, A := some A } : FSt V F C) = outcome E s.par s.nmat (gridOf s) (some A)
    rw [hop', hgs, ho2]
  · show oper ({ s with T := some (shiftT s.par A), filtch := false, opready := true, state := StState.setup, A := some A } : FSt V F C) ≠ none
    rw [hop']; simp

theorem setUp_spec (E : FEnv F C) (s : FSt V F C) (h : FGood E s) : SetUpOk E s (setUp E s) := by
  cases hA : s.A with
  | none =>
    have e : setUp E s = (s, false) := by unfold setUp; rw [hA]
    rw [e, SetUpOk, hA]
    exact ⟨h, rfl, fun h => (nomatch h)⟩
  | some A =>
    by_cases h1 : s.state = StState.setup
    · have e : setUp E s = (s, true) := by unfold setUp; rw [hA]; dsimp only; rw [if_pos h1]
      obtain ⟨n1, n2⟩ := h.now h1
      rw [e, SetUpOk, ← n1]
      exact ⟨h, (Option.isSome_iff_ne_none.2 n2).symm, fun _ => rfl⟩
    by_cases hc : Checks E s.par s.nmat
    · by_cases ht : s.par.type = some FType.cheb
      · exact setUp_cheb E s h A hA h1 hc ht
      · cases hs : s.state with
        | setup => exact absurd hs h1
        | initial => exact setUp_filtlan E s h A hA hs hc ht
        | updated =>
          obtain ⟨k2, k3, k4, k5, k6⟩ := h.kept (by rw [hs]; simp)
          refine setUp_updated E s h A hA hs ?_
          cases hx : s.par.type with
          | none => exact absurd hx k4
          | some t => cases t with
            | filtlan => rfl
            | cheb => exact absurd hx ht
    · have hi : s.state = StState.initial := by
        by_contra hi
        exact hc (h.kept hi).2.1
      have hnr : s.opready = false := by
        cases ho : s.opready
        · rfl
        · exact absurd (h.ready.1 ho) h1
      have e : setUp E s = ({ s with shell := none }, false) := by
        rw [setUp_eq E s A hA h1 hnr, if_pos (by rw [hi]; simp), compute, if_pos hc]; rfl
      rw [e, SetUpOk, hA]
      have ho : outcome E s.par s.nmat (gridOf s) (some A) = none := by simp only [outcome, if_neg hc]
      rw [ho]
      exact ⟨⟨h.ready, h.valid, h.dat, fun hx => absurd hi hx, fun hx => absurd hi hx, fun hx => absurd hx h1⟩, rfl, fun h => (nomatch h)⟩

/-- Calls without `STGetOperator`. -/
def NoGet : FOp V → Prop
  | FOp.getOperator => False
  | _ => True

theorem fStep_good (E : FEnv F C) (s : FSt V F C) (o : FOp V) (ho : NoGet o) (h : FGood E s) : FGood E (fStep E s o).1 := by
  cases o with
  | type t => exact setType_good E s t h
  | interval a b => exact setInterval_good E s a b h
  | range a b => exact setRange_good E s a b h
  | degree d => exact setDegree_good E s d h
  | damping d => exact setDamping_good E s d h
  | matrices n k A => exact setMatrices_good E s n k A h
  | reset => exact stReset_good E s h
  | setUp => exact (setUp_spec E s h).1
  | getOperator => exact ho.elim

theorem fRun_good (E : FEnv F C) : ∀ (ops : List (FOp V)), (∀ o ∈ ops, NoGet o) → ∀ s : FSt V F C, FGood E s → FGood E (fRun E ops s) := by
  intro ops
  induction ops with
  | nil => intro _ s h; exact h
  | cons o ops ih =>
    intro ho s h
    exact ih (fun o' h' => ho o' (List.mem_cons_of_mem _ h')) _ (fStep_good E s o (ho o List.mem_cons_self) h)

/-- The calls that give the parameters `p` and the matrix to a new object. -/
def freshOps (p : FPar) (n k : ℕ) (A : V →ₗ[ℝ] V) : List (FOp V) :=
  [FOp.matrices n k A] ++ (match p.type with | none => [] | some t => [FOp.type t]) ++
    [FOp.interval p.inta p.intb, FOp.range p.left p.right, FOp.degree (if p.degree = 0 then none else some p.degree), FOp.damping p.damping]

theorem fresh_state (E : FEnv F C) (p : FPar) (hp : PValid p) (n k : ℕ) (A : V →ₗ[ℝ] V) :
    (fRun E (freshOps p n k A) (fInit E : FSt V F C)).par = p ∧ (fRun E (freshOps p n k A) (fInit E : FSt V F C)).nmat = n ∧
    (fRun E (freshOps p n k A) (fInit E : FSt V F C)).A = some A ∧ gridOf (fRun E (freshOps p n k A) (fInit E : FSt V F C)) = 200 := by
  obtain ⟨s, hs⟩ : ∃ s : FSt V F C, s = fRun E ([FOp.matrices n k A] ++ (match p.type with | none => [] | some t => [FOp.type t])) (fInit E : FSt V F C) := ⟨_, rfl⟩
  have s0 : s.par.type = p.type ∧ s.par.left = 0 ∧ s.par.right = 0 ∧ s.nmat = n ∧ s.A = some A ∧ gridOf s = 200 := by
    rw [hs]
    cases ht : p.type with
    | none => exact ⟨rfl, rfl, rfl, rfl, rfl, rfl⟩
    | some t =>
      show (setType (setMatrices (fInit E : FSt V F C) n k A).1 t).1.par.type = some t ∧ _
      have e : (setMatrices (fInit E : FSt V F C) n k A).1.par.type ≠ some t := fun h => (nomatch h)
      simp only [List.cons_append, List.nil_append, fRun, List.foldl, fStep, setType, if_pos e]
      cases t <;> exact ⟨rfl, rfl, rfl, rfl, rfl, rfl⟩
  have hrun : fRun E (freshOps p n k A) (fInit E : FSt V F C) =
      (setDamping (setDegree (setRange (setInterval s p.inta p.intb).1 p.left p.right).1 (if p.degree = 0 then none else some p.degree)).1 p.damping).1 := by
    rw [hs, freshOps, fRun, List.foldl_append]; rfl
  rw [hrun]
  obtain ⟨t1, t2, t3, t4, t5, t6⟩ := s0
  have i1 : (setInterval s p.inta p.intb).1.par = { s.par with inta := p.inta, intb := p.intb } ∧ (setInterval s p.inta p.intb).1.nmat = s.nmat ∧
      (setInterval s p.inta p.intb).1.A = s.A ∧ gridOf (setInterval s p.inta p.intb).1 = gridOf s := by
    rw [setInterval, if_neg (not_not.2 hp.1)]
    by_cases h : s.par.inta ≠ p.inta ∨ s.par.intb ≠ p.intb
    · rw [if_pos h]; exact ⟨rfl, rfl, rfl, rfl⟩
    · rw [if_neg h]
      rw [not_or, not_not, not_not] at h
      refine ⟨?_, rfl, rfl, rfl⟩
      rw [← h.1, ← h.2]
  generalize (setInterval s p.inta p.intb).1 = u at i1
  have i2 : (setRange u p.left p.right).1.par = { u.par with left := p.left, right := p.right } ∧ (setRange u p.left p.right).1.nmat = u.nmat ∧
      (setRange u p.left p.right).1.A = u.A ∧ gridOf (setRange u p.left p.right).1 = gridOf u := by
    rw [setRange]
    rcases hp.2 with h2 | ⟨h2, h3⟩
    · rw [if_neg (not_not.2 h2)]
      by_cases h : u.par.left ≠ p.left ∨ u.par.right ≠ p.right
      · rw [if_pos h]; exact ⟨rfl, rfl, rfl, rfl⟩
      · rw [if_neg h]
        rw [not_or, not_not, not_not] at h
        refine ⟨?_, rfl, rfl, rfl⟩
        rw [← h.1, ← h.2]
    · rw [if_pos (by rw [h2, h3]; simp)]
      refine ⟨?_, rfl, rfl, rfl⟩
      rw [h2, h3]
      show u.par = _
      have e1 : u.par.left = 0 := by rw [i1.1]; exact t2
      have e2 : u.par.right = 0 := by rw [i1.1]; exact t3
      rw [← e1]
      nth_rw 2 [e1]
      rw [← e2]
  generalize (setRange u p.left p.right).1 = v at i2
  have i3 : (setDegree v (if p.degree = 0 then none else some (p.degree : ℤ))).1.par = { v.par with degree := p.degree } ∧ (setDegree v (if p.degree = 0 then none else some (p.degree : ℤ))).1.nmat = v.nmat ∧
      (setDegree v (if p.degree = 0 then none else some (p.degree : ℤ))).1.A = v.A ∧ gridOf (setDegree v (if p.degree = 0 then none else some (p.degree : ℤ))).1 = gridOf v := by
    by_cases h0 : p.degree = 0
    · rw [if_pos h0, h0]; exact ⟨rfl, rfl, rfl, rfl⟩
    · rw [if_neg h0]
      rw [setDegree, if_neg (by omega)]
      by_cases h : (v.par.degree : ℤ) ≠ (p.degree : ℤ)
      · rw [if_pos h]; exact ⟨rfl, rfl, rfl, rfl⟩
      · rw [if_neg h]
        refine ⟨?_, rfl, rfl, rfl⟩
        have : v.par.degree = p.degree := by omega
        rw [← this]
  generalize (setDegree v (if p.degree = 0 then none else some (p.degree : ℤ))).1 = w at i3
  have i4 : (setDamping w p.damping).1.par = { w.par with damping := p.damping } ∧ (setDamping w p.damping).1.nmat = w.nmat ∧
      (setDamping w p.damping).1.A = w.A ∧ gridOf (setDamping w p.damping).1 = gridOf w := by
    rw [setDamping]
    by_cases h : w.par.damping ≠ p.damping
    · rw [if_pos h]; exact ⟨rfl, rfl, rfl, rfl⟩
    · rw [if_neg h]
      refine ⟨?_, rfl, rfl, rfl⟩
      rw [← not_not.1 h]
  refine ⟨?_, by rw [i4.2.1, i3.2.1, i2.2.1, i1.2.1, t4], by rw [i4.2.2.1, i3.2.2.1, i2.2.2.1, i1.2.2.1, t5], by rw [i4.2.2.2, i3.2.2.2, i2.2.2.2, i1.2.2.2, t6]⟩
  rw [i4.1, i3.1, i2.1, i1.1]
  show ({ type := s.par.type, inta := p.inta, intb := p.intb, left := p.left, right := p.right, degree := p.degree, damping := p.damping } : FPar) = p
  rw [t1]

theorem fresh_noGet (p : FPar) (n k : ℕ) (A : V →ₗ[ℝ] V) : ∀ o ∈ freshOps p n k A, NoGet o := by
  intro o ho
  rw [freshOps] at ho
  cases ht : p.type <;> rw [ht] at ho <;> simp at ho <;> rcases ho with rfl | ho
  all_goals first | trivial | skip
  all_goals (rcases ho with rfl | ho) <;> try trivial
  all_goals (rcases ho with rfl | ho) <;> try trivial
  all_goals (rcases ho with rfl | ho) <;> try trivial
  all_goals (rcases ho with rfl | ho) <;> try trivial
  all_goals (subst ho; trivial)

/-- **C133** (partial) After any sequence of calls (set-ups that failed or succeeded included) the
set-up fails exactly when it would fail for a new object that is given the same matrix and the same
parameters, and otherwise the operator used is the one of the new object.

Missing: `STGetOperator` called between a change of the type and the set-up (`C133_stale`), and the
number of grid points kept from earlier set-ups of the same type, `hgrid` (`C133_grid`). -/
theorem C133_partial (E : FEnv F C) (hE : 0 < E.maxReal) (ops : List (FOp V)) (hops : ∀ o ∈ ops, NoGet o) (s : FSt V F C)
    (hs : s = fRun E ops (fInit E)) (A : V →ₗ[ℝ] V) (hA : s.A = some A)
    (hgrid : max (gridOf s) (withFrame s.par gridNeed) = max 200 (withFrame s.par gridNeed)) (k : ℕ) (t : FSt V F C)
    (ht : t = fRun E (freshOps s.par s.nmat k A) (fInit E)) :
    (setUp E s).2 = (setUp E t).2 ∧ ((setUp E s).2 = true → oper (setUp E s).1 = oper (setUp E t).1 ∧ oper (setUp E s).1 ≠ none) := by
  have gs : FGood E s := by rw [hs]; exact fRun_good E ops hops _ (init_good E hE)
  have gt : FGood E t := by rw [ht]; exact fRun_good E _ (fresh_noGet _ _ _ _) _ (init_good E hE)
  obtain ⟨f1, f2, f3, f4⟩ := fresh_state (F := F) (C := C) E s.par gs.valid s.nmat k A
  rw [← ht] at f1 f2 f3 f4
  obtain ⟨-, a1, a2⟩ := setUp_spec E s gs
  obtain ⟨-, b1, b2⟩ := setUp_spec E t gt
  rw [f1, f2, f3, f4] at b1 b2
  rw [hA] at a1 a2
  have e : outcome E s.par s.nmat (gridOf s) (some A) = outcome E s.par s.nmat 200 (some A) := by
    simp only [outcome, hgrid]
  rw [e] at a1 a2
  refine ⟨a1.trans b1.symm, fun h => ?_⟩
  have h' : (setUp E t).2 = true := by rw [b1, ← a1]; exact h
  refine ⟨(a2 h).trans (b2 h').symm, ?_⟩
  rw [a2 h]
  rw [h] at a1
  exact Option.isSome_iff_ne_none.1 a1.symm

/-- **C133** When the set-up fails: no matrix, an interval without any finite end, no range, an interval not inside the range,
or (FILTLAN) no filter found. -/
theorem C133_errors (E : FEnv F C) (hE : 0 < E.maxReal) (ops : List (FOp V)) (hops : ∀ o ∈ ops, NoGet o) (s : FSt V F C)
    (hs : s = fRun E ops (fInit E)) :
    (setUp E s).2 = false ↔ s.A = none ∨ s.nmat ≠ 1 ∨ (E.maxReal ≤ s.par.intb ∧ s.par.inta ≤ -E.maxReal) ∨ (s.par.left = 0 ∧ s.par.right = 0) ∨
      ¬ (s.par.left ≤ s.par.inta ∧ s.par.intb ≤ s.par.right) ∨
      (s.par.type ≠ some FType.cheb ∧ withFrame s.par (fun a a1 b1 b => E.gi a a1 b1 b (if s.par.degree = 0 then 100 else s.par.degree) (max (gridOf s) (withFrame s.par gridNeed))) = none) := by
  have gs : FGood E s := by rw [hs]; exact fRun_good E ops hops _ (init_good E hE)
  obtain ⟨-, a1, -⟩ := setUp_spec E s gs
  rw [a1]
  cases hA : s.A with
  | none => simp [outcome]
  | some A =>
    have hch : ¬ Checks E s.par s.nmat ↔ s.nmat ≠ 1 ∨ (E.maxReal ≤ s.par.intb ∧ s.par.inta ≤ -E.maxReal) ∨ (s.par.left = 0 ∧ s.par.right = 0) ∨
      ¬ (s.par.left ≤ s.par.inta ∧ s.par.intb ≤ s.par.right) := by
      rw [Checks]
      constructor
      · intro h
        by_contra hc
        simp only [not_or, not_not] at hc
        obtain ⟨c1, c2, c3, c4⟩ := hc
        refine h ⟨c1, ?_, ?_, c4⟩
        · by_contra hx
          rw [not_or, not_lt, not_lt] at hx
          exact c2 hx
        · by_contra hx
          rw [not_or, not_not, not_not] at hx
          exact c3 ⟨hx.2, hx.1⟩
      · rintro h ⟨c1, c2, c3, c4⟩
        rcases h with h | h | h | h
        · exact h c1
        · rcases c2 with c2 | c2 <;> linarith [h.1, h.2]
        · rcases c3 with c3 | c3
          · exact c3 h.2
          · exact c3 h.1
        · exact h c4
    by_cases hc : Checks E s.par s.nmat
    · simp only [outcome, if_pos hc]
      constructor
      · intro h
        by_cases ht : s.par.type = some FType.cheb
        · rw [if_pos ht] at h; cases h
        · rw [if_neg ht] at h
          right; right; right; right; right
          refine ⟨ht, ?_⟩
          cases hw : (withFrame s.par fun a a1 b1 b => E.gi a a1 b1 b (if s.par.degree = 0 then 100 else s.par.degree) (max (gridOf s) (withFrame s.par gridNeed)))
          · rfl
          · rw [hw] at h; cases h
      · rintro (h | h | h | h | h | ⟨h1, h2⟩)
        · cases h
        · exact absurd (Or.inl h) (fun hx => (hch.2 hx) hc)
        · exact absurd (Or.inr (Or.inl h)) (fun hx => (hch.2 hx) hc)
        · exact absurd (Or.inr (Or.inr (Or.inl h))) (fun hx => (hch.2 hx) hc)
        · exact absurd (Or.inr (Or.inr (Or.inr h))) (fun hx => (hch.2 hx) hc)
        · rw [if_neg h1, h2]; rfl
    · have ho : outcome E s.par s.nmat (gridOf s) (some A) = none := by simp only [outcome, if_neg hc]
      rw [ho]
      refine ⟨fun _ => ?_, fun _ => rfl⟩
      rcases hch.1 hc with h | h | h | h
      · exact Or.inr (Or.inl h)
      · exact Or.inr (Or.inr (Or.inl h))
      · exact Or.inr (Or.inr (Or.inr (Or.inl h)))
      · exact Or.inr (Or.inr (Or.inr (Or.inr (Or.inl h))))

end Verif.Filt
