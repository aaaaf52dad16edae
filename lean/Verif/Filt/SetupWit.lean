import Verif.Filt.SetupThm
import Verif.Filt.IntvWit

/-! # Parts of C133 that are false, and examples -/

set_option linter.all false

namespace Verif.Filt

open Classical

variable {V : Type*} [AddCommGroup V] [Module ℝ V] {F C : Type*}

/-- **C133** An interval without upper bound is never accepted with a finite range, whatever the
other parameters (likewise without lower bound), although filter.c:50 and krylovschur.c:71 let it pass. -/
theorem C133_onesided_false (E : FEnv F C) (hE : 0 < E.maxReal) (ops : List (FOp V)) (hops : ∀ o ∈ ops, NoGet o) (s : FSt V F C)
    (hs : s = fRun E ops (fInit E)) (hfin : -E.maxReal < s.par.left ∧ s.par.right < E.maxReal)
    (h : s.par.intb = E.maxReal ∨ s.par.inta = -E.maxReal) : (setUp E s).2 = false := by
  rw [C133_errors E hE ops hops s hs]
  right; right; right; right; left
  rintro ⟨h1, h2⟩
  rcases h with h | h
  · linarith [hfin.2, h2, h]
  · linarith [hfin.1, h1, h]

/-- **C133** A range given by the user is kept by the eigensolver, if no set-up of the same
eigensolver has estimated one before. -/
theorem C133_range_partial (E : FEnv F C) (est : (V →ₗ[ℝ] V) → ℝ × ℝ) (a b : ℝ) (s : FSt V F C) (h : s.par.left < s.par.right) :
    (epsFilter E est a b false s).1.par.left = s.par.left ∧ (epsFilter E est a b false s).1.par.right = s.par.right := by
  have hr : (setInterval s a b).1.par.left = s.par.left ∧ (setInterval s a b).1.par.right = s.par.right := by
    rw [setInterval]
    by_cases h1 : ¬ a < b
    · rw [if_pos h1]; exact ⟨rfl, rfl⟩
    rw [if_neg h1]
    by_cases h2 : s.par.inta ≠ a ∨ s.par.intb ≠ b
    · rw [if_pos h2]; exact ⟨rfl, rfl⟩
    · rw [if_neg h2]; exact ⟨rfl, rfl⟩
  unfold epsFilter
  cases s.A with
  | none => exact ⟨rfl, rfl⟩
  | some A =>
    dsimp only
    by_cases h1 : ¬ (b < E.maxReal ∨ -E.maxReal < a)
    · rw [if_pos h1]; exact ⟨rfl, rfl⟩
    rw [if_neg h1]
    by_cases h2 : ¬ (setInterval s a b).2 = true
    · rw [if_pos h2]; exact hr
    rw [if_neg h2]
    have h3 : ¬ ((setInterval s a b).1.par.left = 0 ∧ (setInterval s a b).1.par.right = 0) := by
      rw [hr.1, hr.2]; rintro ⟨x, y⟩; linarith
    simp only [h3, decide_false, Bool.false_eq_true, if_false]
    exact hr

/-- **C133** After a first set-up that estimated the range, a range given by the user is replaced by
the estimate in the next set-up, for any user range. -/
theorem C133_range_false (E : FEnv F C) (est : (V →ₗ[ℝ] V) → ℝ × ℝ) (a b : ℝ) (hab : a < b) (hfin : b < E.maxReal) (s : FSt V F C) (A : V →ₗ[ℝ] V)
    (hA : s.A = some A) (hest : (est A).1 < (est A).2) (h0 : s.par.left = 0 ∧ s.par.right = 0) (l r : ℝ) (hlr : l < r) :
    (epsFilter E est a b false s).2.1 = true ∧
    (epsFilter E est a b (epsFilter E est a b false s).2.1 (setRange (epsFilter E est a b false s).1 l r).1).1.par.left = (est A).1 ∧
    (epsFilter E est a b (epsFilter E est a b false s).2.1 (setRange (epsFilter E est a b false s).1 l r).1).1.par.right = (est A).2 := by
  have si : ∀ u : FSt V F C, (setInterval u a b).2 = true ∧ (setInterval u a b).1.A = u.A ∧ (setInterval u a b).1.par.left = u.par.left ∧ (setInterval u a b).1.par.right = u.par.right := by
    intro u
    rw [setInterval, if_neg (not_not.2 hab)]
    by_cases h2 : u.par.inta ≠ a ∨ u.par.intb ≠ b
    · rw [if_pos h2]; exact ⟨rfl, rfl, rfl, rfl⟩
    · rw [if_neg h2]; exact ⟨rfl, rfl, rfl, rfl⟩
  have sr : ∀ (u : FSt V F C) (l r : ℝ), l < r → (setRange u l r).2 = true ∧ (setRange u l r).1.A = u.A ∧ (setRange u l r).1.par.left = l ∧ (setRange u l r).1.par.right = r := by
    intro u l r hlr
    rw [setRange, if_neg (not_not.2 hlr)]
    by_cases h2 : u.par.left ≠ l ∨ u.par.right ≠ r
    · rw [if_pos h2]; exact ⟨rfl, rfl, rfl, rfl⟩
    · rw [if_neg h2]; rw [not_or, not_not, not_not] at h2; exact ⟨rfl, rfl, h2.1, h2.2⟩
  have key : ∀ (u : FSt V F C) (fl : Bool), u.A = some A → (fl = true ∨ (u.par.left = 0 ∧ u.par.right = 0)) →
      epsFilter E est a b fl u = ((setRange (setInterval u a b).1 (est A).1 (est A).2).1, true, true) := by
    intro u fl hu hfl
    unfold epsFilter
    rw [hu]
    dsimp only
    rw [if_neg (not_not.2 (Or.inl hfin)), if_neg (by rw [(si u).1]; simp)]
    have h3 : (if fl = true then true else decide ((setInterval u a b).1.par.left = 0 ∧ (setInterval u a b).1.par.right = 0)) = true := by
      rcases hfl with hfl | hfl
      · rw [if_pos hfl]
      · rw [(si u).2.2.1, (si u).2.2.2, hfl.1, hfl.2]; simp
    rw [if_pos h3, (sr _ _ _ hest).1, if_pos rfl]
  rw [key s false hA (Or.inr h0)]
  refine ⟨rfl, ?_⟩
  dsimp only
  rw [key _ true (by rw [(sr _ l r hlr).2.1, (sr _ _ _ hest).2.1, (si s).2.1]; exact hA) (Or.inl rfl)]
  exact ⟨(sr _ _ _ hest).2.2.1, (sr _ _ _ hest).2.2.2⟩

/-- **C132/C133** The matrix given to the FILTLAN iteration and the frame given to the choice of the
intervals belong together: an eigenvector of `A` is one of `T`, its eigenvalue `τ` is in the frame
`[0,b]` exactly if that of `A` is in the range, and in `[a1,b1]` exactly if it is in the interval. -/
theorem C133_frame (p : FPar) (A : V →ₗ[ℝ] V) (v : V) (lam : ℝ) (hv : A v = lam • v) :
    ∃ a1 b1 b tau : ℝ, (∀ {α : Type u} (f : ℝ → ℝ → ℝ → ℝ → α), withFrame p f = f 0 a1 b1 b) ∧ shiftT p A v = tau • v ∧
      ((p.inta ≤ lam ∧ lam ≤ p.intb) ↔ (a1 ≤ tau ∧ tau ≤ b1)) ∧ ((p.left ≤ lam ∧ lam ≤ p.right) ↔ (0 ≤ tau ∧ tau ≤ b)) := by
  by_cases h1 : p.left = p.inta
  · refine ⟨p.right - p.intb, p.right - p.inta, p.right - p.left, p.right - lam, ?_, ?_, ?_, ?_⟩
    · intro α f; rw [withFrame, if_pos h1, sub_self]
    · rw [shiftT, if_pos h1]; simp [hv, sub_smul]
    · constructor <;> rintro ⟨x, y⟩ <;> constructor <;> linarith
    · constructor <;> rintro ⟨x, y⟩ <;> constructor <;> linarith
  by_cases h2 : p.left = 0
  · refine ⟨p.inta, p.intb, p.right, lam, ?_, ?_, Iff.rfl, by rw [h2]⟩
    · intro α f; rw [withFrame, if_neg h1, if_pos h2, h2]
    · rw [shiftT, if_neg h1, if_pos h2]; exact hv
  · refine ⟨p.inta - p.left, p.intb - p.left, p.right - p.left, lam - p.left, ?_, ?_, ?_, ?_⟩
    · intro α f; rw [withFrame, if_neg h1, if_neg h2, sub_self]
    · rw [shiftT, if_neg h1, if_neg h2]; simp [hv, sub_smul]
    · constructor <;> rintro ⟨x, y⟩ <;> constructor <;> linarith
    · constructor <;> rintro ⟨x, y⟩ <;> constructor <;> linarith

/-- A change of the type forgets the range. -/
theorem C133_type_forgets_range (s : FSt V F C) (t : FType) (h : s.par.type ≠ some t) :
    (setType s t).1.par.left = 0 ∧ (setType s t).1.par.right = 0 := by
  rw [setType, if_pos h]; exact ⟨rfl, rfl⟩

/-- **C133** With the choice of intervals of the code: an interval equal to the range is an error for
FILTLAN, whatever the history. -/
theorem C133_all_filtlan (pe : ℕ → ℕ → Arr → ℝ → ℝ) (cf : ℝ → ℝ → ℝ → ℝ → ℕ → Damping → C) (mr : ℝ) (hE : 0 < mr)
    (E : FEnv (ℕ × Arr × ℝ) C) (hEq : E = ⟨fun a a1 b1 b d g => getIntervals (pe d) a a1 b1 b g, cf, mr⟩) (ops : List (FOp V)) (hops : ∀ o ∈ ops, NoGet o)
    (s : FSt V (ℕ × Arr × ℝ) C) (hs : s = fRun E ops (fInit E)) (ht : s.par.type ≠ some FType.cheb) (h1 : s.par.inta = s.par.left) (h2 : s.par.intb = s.par.right) :
    (setUp E s).2 = false := by
  rw [C133_errors E (by rw [hEq]; exact hE) ops hops s hs]
  right; right; right; right; right
  refine ⟨ht, ?_⟩
  rw [hEq]
  rw [withFrame, if_pos h1.symm, h1, h2]
  dsimp only
  rw [getIntervals]
  by_cases c1 : ¬ (s.par.right - s.par.right ≤ s.par.right - s.par.right ∧ s.par.right - s.par.right ≤ s.par.right - s.par.left ∧ s.par.right - s.par.left ≤ s.par.right - s.par.left)
  · rw [if_pos c1]
  rw [if_neg c1]
  by_cases c2 : s.par.right - s.par.right = s.par.right - s.par.left
  · rw [if_pos c2]
  rw [if_neg c2, if_pos rfl]

/-- **C133** The Chebyshev filter accepts an interval equal to the range. -/
theorem C133_all_cheb_false : ∃ (ops : List (FOp ℝ)) (E : FEnv Unit Unit), 0 < E.maxReal ∧ (∀ o ∈ ops, NoGet o) ∧
    (fRun E ops (fInit E : FSt ℝ Unit Unit)).par.inta = (fRun E ops (fInit E : FSt ℝ Unit Unit)).par.left ∧
    (fRun E ops (fInit E : FSt ℝ Unit Unit)).par.intb = (fRun E ops (fInit E : FSt ℝ Unit Unit)).par.right ∧ (setUp E (fRun E ops (fInit E : FSt ℝ Unit Unit))).2 = true := by
  obtain ⟨E, hE⟩ : ∃ E : FEnv Unit Unit, E = ⟨fun _ _ _ _ _ _ => none, fun _ _ _ _ _ _ => (), 1000⟩ := ⟨_, rfl⟩
  obtain ⟨p, hp⟩ : ∃ p : FPar, p = ⟨some FType.cheb, 1, 2, 1, 2, 10, Damping.none⟩ := ⟨_, rfl⟩
  have hv : PValid p := by rw [hp]; exact ⟨by norm_num, Or.inl (by norm_num)⟩
  have h0 : 0 < E.maxReal := by rw [hE]; norm_num
  obtain ⟨f1, f2, f3, f4⟩ := fresh_state (V := ℝ) E p hv 1 0 (LinearMap.id : ℝ →ₗ[ℝ] ℝ)
  refine ⟨freshOps p 1 0 (LinearMap.id : ℝ →ₗ[ℝ] ℝ), E, h0, fresh_noGet _ _ _ _, by rw [f1, hp], by rw [f1, hp], ?_⟩
  obtain ⟨-, a1, -⟩ := setUp_spec E _ (fRun_good E (freshOps p 1 0 (LinearMap.id : ℝ →ₗ[ℝ] ℝ)) (fresh_noGet _ _ _ _) _ (init_good E h0))
  rw [a1, f1, f2, f3, f4]
  have hc : Checks E p 1 := by rw [hp, hE, Checks]; norm_num
  simp only [outcome, if_pos hc]
  rw [if_pos (by rw [hp])]; rfl

/-- **C133** `STGetOperator` called after a change of the type, before the set-up, keeps the matrix created for the old type:
the following set-up succeeds and the operator applied is undefined (the multiplication of one filter with the data of the other). -/
theorem C133_stale (E : FEnv F C) (s : FSt V F C) (A : V →ₗ[ℝ] V) (hA : s.A = some A) (h1 : s.shell = some FType.cheb) (h2 : s.par.type = some FType.filtlan)
    (h3 : s.state = StState.initial) (h4 : s.opready = false) (h5 : s.hasOp = false) (hd : DataOk s.par.type s.data)
    (hc : Checks E s.par s.nmat) (f : F) (hgi : ∀ a a1 b1 b d g, E.gi a a1 b1 b d g = some f) :
    (getOperator E s).2 = true ∧ (setUp E (getOperator E s).1).2 = true ∧ oper (setUp E (getOperator E s).1).1 = none := by
  obtain ⟨t, ht⟩ : ∃ t : FSt V F C, t = { s with hasOp := true } := ⟨_, rfl⟩
  obtain ⟨g, o, hg, hg2, hn⟩ := normS_filtlan t (by rw [ht]; show s.par.type ≠ _; rw [h2]; simp) (by rw [ht]; exact hd)
  have hts : t.shell = some FType.cheb := by rw [ht]; exact h1
  have htst : t.state = StState.initial := by rw [ht]; exact h3
  have e1 : getOperator E s = computeOperator E t A := by
    unfold getOperator; rw [hA]; dsimp only; rw [h5, ht]; simp [hA]
  have e2 : ∃ u : FSt V F C, compute E t A = (u, true) ∧ u.shell = some FType.cheb ∧ u.A = some A ∧ u.state = StState.initial ∧ ∃ g, u.data = FData.filtlan g (some f) := by
    rw [compute_eq E t A (by rw [ht]; exact hc), hn]
    dsimp only
    rw [computeFiltlan, if_pos (Or.inl htst)]
    dsimp only
    have hw : withFrame ({ defDeg t.par with type := some FType.filtlan } : FPar) (fun a a1 b1 b => E.gi a a1 b1 b ({ defDeg t.par with type := some FType.filtlan } : FPar).degree
        (max g (withFrame ({ defDeg t.par with type := some FType.filtlan } : FPar) gridNeed))) = some f := by
      rw [withFrame]
      simp only [hgi]
      split_ifs <;> rfl
    rw [hw]
    refine ⟨_, rfl, ?_, ?_, htst, _, rfl⟩
    · show (if t.shell = none then some FType.filtlan else t.shell) = _
      rw [hts]; simp
    · rw [ht]; exact hA
  obtain ⟨u, hu, hu1, hu2, hu3, g', hu4⟩ := e2
  have hto : t.opready = false := by rw [ht]; exact h4
  have e3 : getOperator E s = ({ u with opready := true }, true) := by
    rw [e1, computeOperator, hto, hu]; rfl
  rw [e3]
  refine ⟨rfl, ?_⟩
  have e4 : setUp E { u with opready := true } = ({ u with opready := true, state := StState.setup }, true) := by
    simp [setUp, computeOperator, hu2, hu3]
  rw [e4]
  refine ⟨rfl, ?_⟩
  simp only [oper, hu1, hu4]
  cases u.T <;> rfl

theorem setUp_data (E : FEnv F C) (s : FSt V F C) (A : V →ₗ[ℝ] V) (hA : s.A = some A) (ht : s.par.type = some FType.filtlan) (hd : s.par.degree ≠ 0) (hi : s.state = StState.initial)
    (ho : s.opready = false) (g : ℕ) (o : Option F) (hda : s.data = FData.filtlan g o) (hc : Checks E s.par s.nmat) (f : F) 
    (hgi : withFrame s.par (fun a a1 b1 b => E.gi a a1 b1 b s.par.degree (max g (withFrame s.par gridNeed))) = some f) :
    (setUp E s).1 = { s with T := some (shiftT s.par A), data := FData.filtlan (max g (withFrame s.par gridNeed)) (some f), filtch := false, shell := some FType.filtlan, opready := true, state := StState.setup } ∧ (setUp E s).2 = true := by
  simp [setUp, computeOperator, compute, computeFiltlan, hA, hi, ho, ht, hd, hda, hc, hgi]

/-- The environment that shows the number of grid points used. -/
def gridEnv : FEnv ℕ Unit := ⟨fun _ _ _ _ _ g => some g, fun _ _ _ _ _ _ => (), 1000⟩

/-- The calls of `C133_grid`: set-up for a short interval, then a longer one. -/
def gridOps : List (FOp ℝ) :=
  [FOp.matrices 1 0 LinearMap.id, FOp.type FType.filtlan, FOp.interval 1 2, FOp.range 0 100, FOp.degree (some 10)]

theorem ctor1 : (none : Option FType) ≠ some FType.filtlan := by simp
theorem ctor2 : (none : Option FType) ≠ some FType.cheb := by simp
theorem ctor3 : FType.cheb ≠ FType.filtlan := by simp
theorem ctor4 : FType.filtlan ≠ FType.cheb := by simp
theorem ctor5 : StState.initial ≠ StState.setup := by simp
theorem ctor7 : some FType.cheb ≠ none := by simp
theorem ctor8 : Int.toNat 10 = 10 := rfl
theorem ctor6 : StState.initial ≠ StState.updated := by simp

theorem grid_before : fRun gridEnv gridOps (fInit gridEnv : FSt ℝ ℕ Unit) =
    { par := ⟨some FType.filtlan, 1, 2, 0, 100, 10, Damping.none⟩, filtch := true, state := StState.initial, opready := false, hasOp := false, nmat := 1, key := 0, A := some LinearMap.id, shell := none, T := none, data := FData.filtlan 200 none } := by
  norm_num [ctor1, ctor2, ctor3, ctor4, ctor5, ctor6, ctor7, ctor8, fRun, gridOps, fStep, fInit, setMatrices, setType, setInterval, setRange, setDegree, touch, mkType, resetFilter, gridEnv]

/-- **C133** The number of grid points of an earlier set-up is kept: the operator is not the one of a
new object with the same matrix and the same parameters. -/
theorem C133_grid : ∃ (ops : List (FOp ℝ)) (E : FEnv ℕ Unit), 0 < E.maxReal ∧ (∀ o ∈ ops, NoGet o) ∧ ∃ s : FSt ℝ ℕ Unit, s = fRun E ops (fInit E) ∧ ∃ A, s.A = some A ∧
    (setUp E s).2 = true ∧ ∀ k, oper (setUp E s).1 ≠ oper (setUp E (fRun E (freshOps s.par s.nmat k A) (fInit E))).1 := by
  have h0 : 0 < gridEnv.maxReal := by norm_num [gridEnv]
  have hw : ∀ (p : FPar) d g, withFrame p (fun a a1 b1 b => gridEnv.gi a a1 b1 b d g) = some g := by
    intro p d g; rw [withFrame]; simp only [gridEnv]; split_ifs <;> rfl
  have hops : ∀ o ∈ gridOps ++ [FOp.setUp, FOp.interval 1 50], NoGet o := by
    intro o ho
    simp [gridOps] at ho
    rcases ho with rfl | rfl | rfl | rfl | rfl | rfl | rfl <;> trivial
  refine ⟨gridOps ++ [FOp.setUp, FOp.interval 1 50], gridEnv, h0, hops, _, rfl, LinearMap.id, ?_⟩
  have n1 : gridNeed 0 1 2 100 = 4000 := by
    rw [gridNeed]; norm_num
  have n2 : gridNeed 0 1 50 100 = 81 := by
    rw [gridNeed]; norm_num; rw [Nat.floor_eq_iff (by norm_num)]; norm_num
  have e1 := (setUp_data gridEnv (fRun gridEnv gridOps (fInit gridEnv)) LinearMap.id (by rw [grid_before]) (by rw [grid_before]) (by rw [grid_before]; simp) (by rw [grid_before])
    (by rw [grid_before]) 200 none (by rw [grid_before]) (by rw [grid_before]; norm_num [Checks, gridEnv]) 4000 (by
      rw [hw, grid_before, withFrame, if_neg (by norm_num), if_pos rfl, n1]; norm_num)).1
  obtain ⟨s, hs⟩ : ∃ s, s = fRun gridEnv (gridOps ++ [FOp.setUp, FOp.interval 1 50]) (fInit gridEnv : FSt ℝ ℕ Unit) := ⟨_, rfl⟩
  have es : s.A = some LinearMap.id ∧ s.nmat = 1 ∧ s.par = ⟨some FType.filtlan, 1, 50, 0, 100, 10, Damping.none⟩ ∧ gridOf s = 4000 := by
    have : s = (setInterval (setUp gridEnv (fRun gridEnv gridOps (fInit gridEnv))).1 1 50).1 := by rw [hs, fRun, List.foldl_append]; rfl
    rw [this, e1, grid_before, setInterval, if_neg (by norm_num), if_pos (by right; norm_num)]
    refine ⟨rfl, rfl, rfl, ?_⟩
    show max 200 (withFrame _ gridNeed) = 4000
    rw [withFrame, if_neg (by norm_num), if_pos rfl, n1]
    norm_num
  rw [← hs]
  have gs : FGood gridEnv s := by rw [hs]; exact fRun_good _ _ hops _ (init_good _ h0)
  have hc : Checks gridEnv s.par 1 := by rw [es.2.2.1]; norm_num [Checks, gridEnv]
  have out : ∀ g, outcome gridEnv s.par 1 g (some (LinearMap.id : ℝ →ₗ[ℝ] ℝ)) = some (Oper.filtlan (shiftT s.par LinearMap.id) (max g (withFrame s.par gridNeed)) 10) := by
    intro g
    simp only [outcome, if_pos hc, hw]
    rw [if_neg (by rw [es.2.2.1]; simp), es.2.2.1]
    rfl
  have hn : withFrame s.par gridNeed = 81 := by
    rw [es.2.2.1, withFrame, if_neg (by norm_num), if_pos rfl, n2]
  obtain ⟨-, a1, a2⟩ := setUp_spec gridEnv s gs
  rw [es.1, es.2.1, es.2.2.2, out] at a1 a2
  refine ⟨es.1, by rw [a1]; rfl, fun k => ?_⟩
  have hv : PValid s.par := gs.valid
  obtain ⟨f1, f2, f3, f4⟩ := fresh_state (F := ℕ) (C := Unit) gridEnv s.par hv s.nmat k (LinearMap.id : ℝ →ₗ[ℝ] ℝ)
  obtain ⟨-, b1, b2⟩ := setUp_spec gridEnv _ (fRun_good gridEnv (freshOps s.par s.nmat k (LinearMap.id : ℝ →ₗ[ℝ] ℝ)) (fresh_noGet _ _ _ _) _ (init_good _ h0))
  rw [f1, f2, f3, f4, es.2.1, out] at b1 b2
  rw [a2 (by rw [a1]; rfl), es.2.1, b2 (by rw [b1]; rfl), hn]
  simp

/-- The grid points are those of a new object if every set-up so far needed at most 200, that is if
no interval was shorter than a fifth of the range; here a history with a failed set-up, a change of
matrix and of the type that meets the hypotheses of `C133_partial`. -/
example : ∃ s : FSt ℝ ℕ Unit, s = fRun gridEnv ([FOp.setUp] ++ gridOps ++ [FOp.interval 1 50]) (fInit gridEnv) ∧ s.A = some LinearMap.id ∧
    max (gridOf s) (withFrame s.par gridNeed) = max 200 (withFrame s.par gridNeed) := by
  refine ⟨_, rfl, ?_⟩
  have e0 : (fStep gridEnv (fInit gridEnv : FSt ℝ ℕ Unit) FOp.setUp).1 = fInit gridEnv := rfl
  have e : fRun gridEnv ([FOp.setUp] ++ gridOps ++ [FOp.interval 1 50]) (fInit gridEnv : FSt ℝ ℕ Unit) = (setInterval (fRun gridEnv gridOps (fInit gridEnv)) 1 50).1 := by
    rw [fRun, List.foldl_append, List.foldl_append]; show (fStep gridEnv (List.foldl _ (fStep gridEnv (fInit gridEnv : FSt ℝ ℕ Unit) FOp.setUp).1 gridOps) _).1 = _; rw [e0]; rfl
  rw [e, grid_before, setInterval, if_neg (by norm_num), if_pos (by right; norm_num)]
  exact ⟨rfl, rfl⟩

/-- A history that meets the hypotheses of `C133_stale`: set-up as Chebyshev filter, then the type and
the range are changed. -/
example : ∃ ops : List (FOp ℝ), ∃ s : FSt ℝ ℕ Unit, s = fRun gridEnv ops (fInit gridEnv) ∧ s.A = some LinearMap.id ∧ s.shell = some FType.cheb ∧
    s.par.type = some FType.filtlan ∧ s.state = StState.initial ∧ s.opready = false ∧ s.hasOp = false ∧ DataOk s.par.type s.data ∧ Checks gridEnv s.par s.nmat := by
  refine ⟨[FOp.matrices 1 0 LinearMap.id, FOp.type FType.cheb, FOp.interval 1 2, FOp.range 0 100, FOp.degree (some 10), FOp.setUp, FOp.type FType.filtlan, FOp.range 0 100], _, rfl, ?_⟩
  norm_num [ctor1, ctor2, ctor3, ctor4, ctor5, ctor6, ctor7, ctor8, fRun, fStep, fInit, setMatrices, setType, setInterval, setRange, setDegree, touch, mkType, resetFilter, gridEnv, setUp, computeOperator, compute, computeCheb, Checks, DataOk]

/-- Hypotheses of `C133_range_false`: a new object with a matrix. -/
example : ∃ s : FSt ℝ ℕ Unit, s = fRun gridEnv [FOp.matrices 1 0 LinearMap.id] (fInit gridEnv) ∧ s.A = some LinearMap.id ∧ s.par.left = 0 ∧ s.par.right = 0 :=
  ⟨_, rfl, rfl, rfl, rfl⟩

end Verif.Filt
