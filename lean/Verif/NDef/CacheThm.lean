import Verif.NDef.CacheModel

/-!
# C142: the operators of the deflated problem are those of the current parameter
-/

set_option linter.all false

namespace Verif.NDef.Cache

variable {L : Type} [DecidableEq L]

/-- the parts of a context belong together -/
def Good (s : Sh L) (N : ℕ) : Prop :=
  s.n ≤ N ∧ s.T = some s.theta ∧ (0 < s.n → s.U = some (s.theta, s.n) ∧ s.A = some (s.theta, s.n)) ∧ (s.hset = true → 0 < s.n ∧ s.h = some (s.theta, s.n))

def GoodO (s : Option (Sh L)) (N : ℕ) : Prop := ∀ x, s = some x → Good x N

theorem GoodO.mono {s : Option (Sh L)} {N M : ℕ} (h : GoodO s N) (hm : N ≤ M) : GoodO s M :=
  fun x hx => ⟨(h x hx).1.trans hm, (h x hx).2⟩

theorem compute_spec {simpU jac : Bool} {n : ℕ} {comp : Option (Sh L)} {mfU : Option (L × ℕ)} {s : Option (Sh L)} {l : L} (hc : GoodO comp n) (hs : GoodO s n)
    (hU : stale s l n = true → simpU = true → jac = true → n ≠ 0 → mfU = some (l, n)) :
    let r := compute simpU jac n comp mfU s l
    Good r n ∧ r.theta = l ∧ r.n = n := by
  intro r
  show Good (compute simpU jac n comp mfU s l) n ∧ (compute simpU jac n comp mfU s l).theta = l ∧ (compute simpU jac n comp mfU s l).n = n
  by_cases hst : stale s l n = true
  · -- recomputed
    have hT : newT s l n = some l := by
      unfold newT
      cases s with
      | none => simp
      | some x =>
        by_cases hx : x.theta = l
        · have := (hs x rfl).2.1
          simp [base, hx, this]
        · simp [base, hx]
    unfold compute
    rw [if_pos hst, hT]
    by_cases hn : n = 0
    · rw [if_pos hn]
      subst hn
      refine ⟨⟨le_refl _, rfl, fun h => absurd h (Nat.lt_irrefl _), ?_⟩, rfl, rfl⟩
      intro hset
      exfalso
      cases s with
      | none => simp [base] at hset
      | some x =>
        have h1 := (hs x rfl).2.2.2 hset
        have h2 := (hs x rfl).1
        omega
    · rw [if_neg hn]
      by_cases hsim : simpU = true
      · rw [if_pos hsim]
        have : (some l = some l ∧ (jac = false ∨ mfU = some (l, n))) := by
          refine ⟨rfl, ?_⟩
          cases hj : jac with
          | false => left; rfl
          | true => right; exact hU hst hsim hj hn
        rw [if_pos this]
        exact ⟨⟨le_refl _, rfl, fun _ => ⟨rfl, rfl⟩, by simp⟩, rfl, rfl⟩
      · rw [if_neg hsim]
        have hh : newH comp l n = some (l, n) := by
          unfold newH
          cases comp with
          | none => rfl
          | some c =>
            dsimp only
            by_cases hcc : (c.hset && decide (c.theta = l) && decide (c.n = n)) = true
            · rw [if_pos hcc]
              simp only [Bool.and_eq_true, decide_eq_true_eq] at hcc
              have := ((hc c rfl).2.2.2 hcc.1.1).2
              rw [this, hcc.1.2, hcc.2]
            · rw [if_neg hcc]
        rw [hh, if_pos rfl]
        exact ⟨⟨le_refl _, rfl, fun _ => ⟨rfl, rfl⟩, fun _ => ⟨Nat.pos_of_ne_zero hn, rfl⟩⟩, rfl, rfl⟩
  · cases s with
    | none => simp [stale] at hst
    | some x =>
      unfold compute
      rw [if_neg hst]
      simp only [stale, Bool.or_eq_true, Bool.not_eq_true', decide_eq_false_iff_not, not_or, not_not] at hst
      exact ⟨hs x rfl, hst.1, hst.2⟩

theorem good_fresh {s : Sh L} {l : L} {n : ℕ} (h : Good s n) (ht : s.theta = l) (hn : s.n = n) : Fresh s l n := by
  refine ⟨ht ▸ h.2.1, fun h0 => ?_⟩
  have := h.2.2.1 (by omega)
  rw [ht, hn] at this
  exact this

/-- the invariant -/
structure Inv (st : St L) : Prop where
  mf : GoodO st.MF st.n
  mj : GoodO st.MJ st.n
  stg : GoodO st.ST st.n
  sn : ∀ m, st.sn = some m → m ≤ st.n
  sol : st.sincf = false → ∀ m l, st.sn = some m → st.sth = some l → ∃ s, st.ST = some s ∧ s.theta = l ∧ s.n = m
  mm : st.ref = false → 0 < st.n → ∀ l, st.sn = some st.n → st.sth = some l → st.M = some (l, st.n)

theorem inv_init (simpU sincf : Bool) : Inv (St.init simpU sincf : St L) where
  mf := by intro x hx; simp [St.init] at hx
  mj := by intro x hx; simp [St.init] at hx
  stg := by intro x hx; simp [St.init] at hx
  sn := by intro m hm; simp [St.init] at hm
  sol := by intro _ m l hm; simp [St.init] at hm
  mm := by intro _ h0; simp [St.init] at h0

theorem fun_spec {st : St L} (h : Inv st) (l : L) : Inv (compFun st l) ∧ ∃ s, (compFun st l).MF = some s ∧ Good s st.n ∧ s.theta = l ∧ s.n = st.n := by
  have hsp := compute_spec (simpU := st.simpU) (jac := false) (mfU := none) (l := l) h.mj h.mf (by simp)
  refine ⟨⟨?_, h.mj, h.stg, h.sn, h.sol, h.mm⟩, _, rfl, hsp⟩
  intro x hx
  cases hx
  exact hsp.1

theorem jac_spec {st : St L} (h : Inv st) (l : L) : Inv (compJac st l) ∧ ∃ s, (compJac st l).MJ = some s ∧ Good s st.n ∧ s.theta = l ∧ s.n = st.n := by
  by_cases hc : (stale st.MJ l st.n && st.simpU && decide (st.n ≠ 0)) = true
  · obtain ⟨h1, s, hs, hg, ht, hn⟩ := fun_spec h l
    have hsp := compute_spec (simpU := st.simpU) (jac := true) (n := st.n) (comp := (compFun st l).MF) (mfU := (compFun st l).MF.bind fun s => s.U) (s := st.MJ) (l := l)
      h1.mf h.mj (by
        intro _ _ _ hn0
        rw [hs]
        have := (hg.2.2.1 (by omega)).1
        rw [ht, hn] at this
        exact this)
    have heq : compJac st l = { compFun st l with MJ := some (compute st.simpU true st.n (compFun st l).MF ((compFun st l).MF.bind fun s => s.U) st.MJ l) } := by
      unfold compJac
      rw [if_pos hc]; rfl
    rw [heq]
    refine ⟨⟨h1.mf, ?_, h.stg, h.sn, h.sol, h.mm⟩, _, rfl, hsp⟩
    intro x hx
    cases hx
    exact hsp.1
  · have hsp := compute_spec (simpU := st.simpU) (jac := true) (n := st.n) (comp := st.MF) (mfU := st.MF.bind fun s => s.U) (s := st.MJ) (l := l)
      h.mf h.mj (by
        intro a b _ hn0
        exfalso; apply hc; simp [a, b, hn0])
    have heq : compJac st l = { st with MJ := some (compute st.simpU true st.n st.MF (st.MF.bind fun s => s.U) st.MJ l) } := by
      unfold compJac
      rw [if_neg hc]
    rw [heq]
    refine ⟨⟨h.mf, ?_, h.stg, h.sn, h.sol, h.mm⟩, _, rfl, hsp⟩
    intro x hx
    cases hx
    exact hsp.1

/-- the state after the set-up of the solver -/
theorem setUp_spec {st : St L} (h : Inv st) (l : L) : Inv (setUp st l) ∧ (setUp st l).sth = some l ∧ (setUp st l).sn = some st.n ∧ (setUp st l).n = st.n ∧
    (setUp st l).ref = st.ref ∧ (setUp st l).sincf = st.sincf := by
  by_cases hc : st.sth = some l ∧ st.sn = some st.n
  · have : setUp st l = st := by unfold setUp; rw [if_pos hc]
    rw [this]
    exact ⟨h, hc.1, hc.2, rfl, rfl, rfl⟩
  · cases hf : st.sincf with
    | true =>
      obtain ⟨h1, s, hs, hg, ht, hn⟩ := fun_spec h l
      have heq : setUp st l = { compFun st l with
          sth := some l, sn := some st.n
          M := if st.ref = false ∧ st.n ≠ 0 then
              (if s.T = some l ∧ s.U = some (l, st.n) ∧ s.A = some (l, st.n) then some (l, st.n) else none) else st.M } := by
        have hsol : (compFun st l).solveSh = some s := by
          unfold St.solveSh
          rw [show (compFun st l).sincf = true from hf, if_pos rfl, hs]
        unfold setUp
        rw [if_neg hc, hf]
        simp only [if_true, hsol]
      rw [heq]
      refine ⟨⟨h1.mf, h1.mj, h1.stg, ?_, ?_, ?_⟩, rfl, rfl, rfl, rfl, hf⟩
      · intro m hm
        have : st.n = m := by simpa using hm
        exact this ▸ le_refl _
      · intro hfalse
        exfalso
        have : st.sincf = false := hfalse
        rw [hf] at this; cases this
      · intro hr h0 k _ hk
        have hk' : l = k := by simpa using hk
        subst hk'
        have hr' : st.ref = false := hr
        have h0' : 0 < st.n := h0
        show (if st.ref = false ∧ st.n ≠ 0 then _ else st.M) = some (l, st.n)
        rw [if_pos ⟨hr', by omega⟩]
        have hU := hg.2.2.1 (by omega)
        rw [ht, hn] at hU
        rw [if_pos ⟨ht ▸ hg.2.1, hU.1, hU.2⟩]
    | false =>
      have hsp := compute_spec (simpU := st.simpU) (jac := false) (mfU := none) (l := l) h.mj h.stg (by simp)
      obtain ⟨hg, ht, hn⟩ := hsp
      have heq : setUp st l = { st with
          ST := some (compute st.simpU false st.n st.MJ none st.ST l)
          sth := some l, sn := some st.n
          M := if st.ref = false ∧ st.n ≠ 0 then
              (if (compute st.simpU false st.n st.MJ none st.ST l).T = some l ∧ (compute st.simpU false st.n st.MJ none st.ST l).U = some (l, st.n) ∧
                (compute st.simpU false st.n st.MJ none st.ST l).A = some (l, st.n) then some (l, st.n) else none) else st.M } := by
        unfold setUp
        rw [if_neg hc]
        simp only [hf, Bool.false_eq_true, if_false, St.solveSh]
      rw [heq]
      refine ⟨⟨h.mf, h.mj, ?_, ?_, ?_, ?_⟩, rfl, rfl, rfl, rfl, hf⟩
      · intro x hx
        cases hx
        exact hg
      · intro m hm
        have : st.n = m := by simpa using hm
        exact this ▸ le_refl _
      · intro _ m k hm hk
        have hk' : l = k := by simpa using hk
        have hm' : st.n = m := by simpa using hm
        exact ⟨_, rfl, hk' ▸ ht, hm' ▸ hn⟩
      · intro hr h0 k _ hk
        have hk' : l = k := by simpa using hk
        subst hk'
        have hr' : st.ref = false := hr
        have h0' : 0 < st.n := h0
        show (if st.ref = false ∧ st.n ≠ 0 then _ else st.M) = some (l, st.n)
        rw [if_pos ⟨hr', by omega⟩]
        have hU := hg.2.2.1 (by omega)
        rw [ht, hn] at hU
        have hT1 := hg.2.1
        rw [ht] at hT1
        rw [if_pos ⟨hT1, hU.1, hU.2⟩]

/-- refinement is switched off only together with the acceptance of a pair -/
def NoRefOff (ops : List (Op L)) : Prop := ∀ o ∈ ops, o ≠ Op.refOff

theorem inv_step {st : St L} (h : Inv st) {o : Op L} (ho : o ≠ Op.refOff) : Inv (step st o) := by
  cases o with
  | fn l => exact (fun_spec h l).1
  | jac l => exact (jac_spec h l).1
  | setup l => exact (setUp_spec h l).1
  | refOn => exact ⟨h.mf, h.mj, h.stg, h.sn, h.sol, fun hr => by cases hr⟩
  | refOff => exact absurd rfl ho
  | accept =>
    refine ⟨h.mf.mono (Nat.le_succ _), h.mj.mono (Nat.le_succ _), h.stg.mono (Nat.le_succ _), fun m hm => (h.sn m hm).trans (Nat.le_succ _), h.sol, ?_⟩
    intro _ _ l hs
    have := h.sn _ hs
    exact absurd this (by show ¬(st.n + 1 ≤ st.n); omega)

theorem inv_run {st : St L} (h : Inv st) {ops : List (Op L)} (ho : NoRefOff ops) : Inv (run st ops) := by
  induction ops generalizing st with
  | nil => exact h
  | cons o os ih =>
    exact ih (inv_step h (ho o (List.mem_cons_self ..))) fun x hx => ho x (List.mem_cons_of_mem _ hx)

/-- the invariant of the shell matrices alone holds for every history -/
structure InvS (st : St L) : Prop where
  mf : GoodO st.MF st.n
  mj : GoodO st.MJ st.n
  stg : GoodO st.ST st.n

theorem invS_step {st : St L} (h : InvS st) (o : Op L) : InvS (step st o) := by
  -- forget the parameters of the solver
  have h0 : Inv ({ st with sth := none, sn := none } : St L) :=
    { mf := h.mf, mj := h.mj, stg := h.stg, sn := (by intro m hm; simp at hm), sol := (by intro _ m l hm; simp at hm), mm := (by intro _ _ l hm; simp at hm) }
  cases o with
  | fn l => have := (fun_spec h0 l).1; exact ⟨this.mf, this.mj, this.stg⟩
  | jac l =>
    have := (jac_spec h0 l).1
    have e1 : (compJac ({ st with sth := none, sn := none } : St L) l).MF = (compJac st l).MF ∧
        (compJac ({ st with sth := none, sn := none } : St L) l).MJ = (compJac st l).MJ ∧
        (compJac ({ st with sth := none, sn := none } : St L) l).ST = (compJac st l).ST ∧
        (compJac ({ st with sth := none, sn := none } : St L) l).n = (compJac st l).n := by
      unfold compJac
      by_cases hc : (stale st.MJ l st.n && st.simpU && decide (st.n ≠ 0)) = true
      · simp only [hc, if_true]; exact ⟨rfl, rfl, rfl, rfl⟩
      · simp only [hc]; exact ⟨rfl, rfl, rfl, rfl⟩
    obtain ⟨a, b, c, d⟩ := e1
    show InvS (compJac st l)
    exact ⟨by rw [← a, ← d]; exact this.mf, by rw [← b, ← d]; exact this.mj, by rw [← c, ← d]; exact this.stg⟩
  | setup l =>
    show InvS (setUp st l)
    by_cases hc : st.sth = some l ∧ st.sn = some st.n
    · have : setUp st l = st := by unfold setUp; rw [if_pos hc]
      rw [this]; exact h
    · unfold setUp
      rw [if_neg hc]
      cases hf : st.sincf with
      | true =>
        have := (fun_spec h0 l).1
        exact ⟨this.mf, this.mj, this.stg⟩
      | false =>
        have hsp := compute_spec (simpU := st.simpU) (jac := false) (mfU := none) (l := l) h.mj h.stg (by simp)
        refine ⟨h.mf, h.mj, ?_⟩
        intro x hx
        cases hx
        exact hsp.1
  | refOn => exact ⟨h.mf, h.mj, h.stg⟩
  | refOff => exact ⟨h.mf, h.mj, h.stg⟩
  | accept => exact ⟨h.mf.mono (Nat.le_succ _), h.mj.mono (Nat.le_succ _), h.stg.mono (Nat.le_succ _)⟩

theorem invS_run {st : St L} (h : InvS st) (ops : List (Op L)) : InvS (run st ops) := by
  induction ops generalizing st with
  | nil => exact h
  | cons o os ih => exact ih (invS_step h o)

theorem run_append (st : St L) (a b : List (Op L)) : run st (a ++ b) = run (run st a) b := List.foldl_append ..

/-- **C142** (function and Jacobian).  After any history whatsoever, the function computed for `l` is the deflated operator of `l` with all pairs locked so far, and so is the
    Jacobian. -/
theorem C142_operators (simpU sincf : Bool) (ops : List (Op L)) (l : L) :
    (∃ s, (run (St.init simpU sincf) (ops ++ [.fn l])).MF = some s ∧ Fresh s l (run (St.init simpU sincf) ops : St L).n) ∧
    ∃ s, (run (St.init simpU sincf) (ops ++ [.jac l])).MJ = some s ∧ Fresh s l (run (St.init simpU sincf) ops : St L).n := by
  have hI : InvS (run (St.init simpU sincf) ops : St L) := invS_run ⟨(inv_init simpU sincf).mf, (inv_init simpU sincf).mj, (inv_init simpU sincf).stg⟩ ops
  rw [run_append, run_append]
  generalize (run (St.init simpU sincf) ops : St L) = st at *
  have h0 : Inv ({ st with sth := none, sn := none } : St L) :=
    { mf := hI.mf, mj := hI.mj, stg := hI.stg, sn := (by intro m hm; simp at hm), sol := (by intro _ m l hm; simp at hm), mm := (by intro _ _ l hm; simp at hm) }
  constructor
  · obtain ⟨_, s, hs, hg, ht, hn⟩ := fun_spec h0 l
    exact ⟨s, hs, good_fresh hg ht hn⟩
  · obtain ⟨_, s, hs, hg, ht, hn⟩ := jac_spec h0 l
    refine ⟨s, ?_, good_fresh hg ht hn⟩
    have : (compJac ({ st with sth := none, sn := none } : St L) l).MJ = (compJac st l).MJ := by
      unfold compJac
      by_cases hc : (stale st.MJ l st.n && st.simpU && decide (st.n ≠ 0)) = true
      · simp only [hc, if_true]; rfl
      · simp only [hc]; rfl
    rw [this] at hs
    exact hs

/-- operations that do not change the number of locked pairs and do not prepare the solver for another parameter -/
def Harmless (o : Op L) : Prop := (∃ l, o = .fn l) ∨ (∃ l, o = .jac l) ∨ o = .refOn

theorem keep_step {st : St L} (h : Inv st) (hf : st.sincf = false) {o : Op L} (ho : Harmless o) {l : L} (hl : st.sth = some l) (hn : st.sn = some st.n) :
    Inv (step st o) ∧ (step st o).sincf = false ∧ (step st o).sth = some l ∧ (step st o).sn = some (step st o).n := by
  rcases ho with ⟨k, rfl⟩ | ⟨k, rfl⟩ | rfl
  · exact ⟨(fun_spec h k).1, hf, hl, hn⟩
  · refine ⟨(jac_spec h k).1, ?_⟩
    show (compJac st k).sincf = false ∧ (compJac st k).sth = some l ∧ (compJac st k).sn = some (compJac st k).n
    unfold compJac
    by_cases hc : (stale st.MJ k st.n && st.simpU && decide (st.n ≠ 0)) = true
    · simp only [hc, if_true]; exact ⟨hf, hl, hn⟩
    · simp only [hc]; exact ⟨hf, hl, hn⟩
  · exact ⟨inv_step h (by simp), hf, hl, hn⟩

/-- **C142** (solver with its own matrix, as in NEPRII and NEPNARNOLDI; partial).  After any history, once the solver has been prepared for `l`, the solves use the
    deflated operator of `l` and of all pairs locked so far, whatever functions and Jacobians are computed in between, until another pair is accepted.  Partial: refinement is
    switched off only when a pair is accepted (`C142_refine_false`). -/
theorem C142_solver_partial (simpU : Bool) {ops more : List (Op L)} (ho : NoRefOff ops) (hm : ∀ o ∈ more, Harmless o) (l : L) :
    SolveFresh (run (St.init simpU false) (ops ++ [.setup l] ++ more)) l := by
  rw [run_append, run_append]
  have h0 := inv_run (inv_init simpU false) ho
  have hf0 : (run (St.init simpU false) ops : St L).sincf = false := by
    suffices h : ∀ (ops : List (Op L)) (st : St L), st.sincf = false → (run st ops).sincf = false from h ops _ rfl
    intro ops
    induction ops with
    | nil => intro st h; exact h
    | cons o os ih =>
      intro st h
      refine ih _ ?_
      cases o with
      | fn l => exact h
      | jac l =>
        show (compJac st l).sincf = false
        unfold compJac
        by_cases hc : (stale st.MJ l st.n && st.simpU && decide (st.n ≠ 0)) = true
        · simp only [hc, if_true]; exact h
        · simp only [hc]; exact h
      | setup l =>
        show (setUp st l).sincf = false
        unfold setUp
        by_cases hc : st.sth = some l ∧ st.sn = some st.n
        · rw [if_pos hc]; exact h
        · rw [if_neg hc]; simp [h]
      | refOn => exact h
      | refOff => exact h
      | accept => exact h
  generalize (run (St.init simpU false) ops : St L) = st0 at h0 hf0
  obtain ⟨h1, a1, a2, a3, a4, a5⟩ := setUp_spec h0 l
  have hb : (setUp st0 l).sn = some (setUp st0 l).n := by rw [a3]; exact a2
  have hf1 : (setUp st0 l).sincf = false := by rw [a5]; exact hf0
  show SolveFresh (run (setUp st0 l) more) l
  clear ho a2 a3 a4 a5 h0 hf0
  generalize setUp st0 l = st at *
  suffices hk : Inv (run st more) ∧ (run st more).sincf = false ∧ (run st more).sth = some l ∧ (run st more).sn = some (run st more).n by
    obtain ⟨hI, hf, hs, hn⟩ := hk
    obtain ⟨s, hs1, hs2, hs3⟩ := hI.sol hf _ _ hn hs
    have hg := hI.stg s hs1
    refine ⟨s, ?_, hs2 ▸ hg.2.1, ?_⟩
    · unfold St.solveSh; rw [hf]; simpa using hs1
    · intro hr h0
      refine ⟨?_, hI.mm hr h0 l hn hs, hs⟩
      have := (hg.2.2.1 (by omega)).2
      rw [hs2, hs3] at this
      exact this
  induction more generalizing st with
  | nil => exact ⟨h1, hf1, a1, hb⟩
  | cons o os ih =>
    obtain ⟨b1, b2, b3, b4⟩ := keep_step h1 hf1 (hm o (List.mem_cons_self ..)) a1 hb
    exact ih (fun x hx => hm x (List.mem_cons_of_mem _ hx)) (step st o) b1 b3 b4 b2

/-- **C142** (solver that shares the matrix of the function, as in NEPSLP; partial).  After any history, when the function is computed for `l` and the solver is prepared for `l`
    right after (slp.c:173,138), the solves use the deflated operator of `l` and of all pairs locked so far.  Partial: not in any other order (`C142_shared_false`). -/
theorem C142_shared_partial (simpU : Bool) {ops : List (Op L)} (ho : NoRefOff ops) (l : L) :
    SolveFresh (run (St.init simpU true) (ops ++ [.fn l, .setup l])) l := by
  rw [run_append]
  have h0 := inv_run (inv_init simpU true) ho
  have hf0 : (run (St.init simpU true) ops : St L).sincf = true := by
    suffices h : ∀ (ops : List (Op L)) (st : St L), st.sincf = true → (run st ops).sincf = true from h ops _ rfl
    intro ops
    induction ops with
    | nil => intro st h; exact h
    | cons o os ih =>
      intro st h
      refine ih _ ?_
      cases o with
      | fn l => exact h
      | jac l =>
        show (compJac st l).sincf = true
        unfold compJac
        by_cases hc : (stale st.MJ l st.n && st.simpU && decide (st.n ≠ 0)) = true
        · simp only [hc, if_true]; exact h
        · simp only [hc]; exact h
      | setup l =>
        show (setUp st l).sincf = true
        unfold setUp
        by_cases hc : st.sth = some l ∧ st.sn = some st.n
        · rw [if_pos hc]; exact h
        · rw [if_neg hc]; simp [h, compFun]
      | refOn => exact h
      | refOff => exact h
      | accept => exact h
  generalize (run (St.init simpU true) ops : St L) = st0 at h0 hf0
  show SolveFresh (setUp (compFun st0 l) l) l
  obtain ⟨h1, s, hs, hg, ht, hn⟩ := fun_spec h0 l
  obtain ⟨h2, a1, a2, a3, a4, a5⟩ := setUp_spec h1 l
  have hnn : (compFun st0 l).n = st0.n := rfl
  have hMF : ∃ s', (setUp (compFun st0 l) l).MF = some s' ∧ Good s' st0.n ∧ s'.theta = l ∧ s'.n = st0.n := by
    by_cases hc : (compFun st0 l).sth = some l ∧ (compFun st0 l).sn = some (compFun st0 l).n
    · have : setUp (compFun st0 l) l = compFun st0 l := by unfold setUp; rw [if_pos hc]
      rw [this]; exact ⟨s, hs, hg, ht, hn⟩
    · obtain ⟨_, s', hs', hg', ht', hn'⟩ := fun_spec h1 l
      refine ⟨s', ?_, hg', ht', hn'⟩
      unfold setUp
      rw [if_neg hc, show (compFun st0 l).sincf = true from hf0]
      exact hs'
  obtain ⟨s', hs', hg', ht', hn'⟩ := hMF
  refine ⟨s', ?_, ht' ▸ hg'.2.1, ?_⟩
  · unfold St.solveSh; rw [a5, show (compFun st0 l).sincf = true from hf0, if_pos rfl]; exact hs'
  · intro hr hp
    refine ⟨?_, h2.mm hr hp l (by rw [a2, a3]) a1, a1⟩
    have hp' : 0 < st0.n := by rw [a3] at hp; exact hp
    have := (hg'.2.2.1 (by omega)).2
    rw [ht', hn'] at this
    rw [a3]
    exact this

/-- **C142** (negation with a shared matrix).  The solver is prepared for `a`, the function is computed for `b`, the solver is prepared for `a` again: it does not notice that the
    matrix of its linear systems is now that of `b`. -/
theorem C142_shared_false (simpU : Bool) {a b : L} (h : a ≠ b) :
    ¬SolveFresh (run (St.init simpU true) [.setup a, .fn b, .setup a]) a := by
  rintro ⟨s, hs, hT, _⟩
  simp [run, step, setUp, compFun, compute, St.init, St.solveSh, stale, base, newT, newH, h] at hs
  rw [← hs] at hT
  simp at hT
  exact h hT.symm

/-- **C142** (negation for refinement).  One pair is locked; the solver is prepared for `a` in refinement mode; after refinement has been switched off, preparing it for `a` does nothing and
    the dense matrix of the solves has not been computed. -/
theorem C142_refine_false (simpU : Bool) (a : L) :
    ¬SolveFresh (run (St.init simpU false) [.accept, .refOn, .setup a, .refOff, .setup a]) a := by
  rintro ⟨s, hs, hT, h2⟩
  have := (h2 (by simp [run, step, setUp, compFun, compute, St.init, St.solveSh, stale, base, newT, newH]) (by simp [run, step, setUp, compFun, compute, St.init, St.solveSh, stale, base, newT, newH])).2.1
  cases simpU <;> simp [run, step, setUp, compFun, compute, St.init, St.solveSh, stale, base, newT, newH] at this

/-- the mode asked for by a history: that of the last operation that says anything about refinement; accepting a pair ends the refinement of that pair -/
def refining (ops : List (Op L)) : Bool :=
  ops.foldl (fun b o => match o with | .refOn => true | .refOff => false | .accept => false | _ => b) false

/-- number of pairs accepted in a history -/
def accepted (ops : List (Op L)) : ℕ := (ops.filter fun o => match o with | .accept => true | _ => false).length

/-- **C142** (the state follows the history).  The number of pairs that the operators of `C142_solver_partial` deflate is the number of pairs accepted in the history, and the operators
    are undeflated only while the pair at hand is being refined: the refinement mode is never carried over to the next pair. -/
theorem C142_mode (simpU sincf : Bool) (ops : List (Op L)) :
    (run (St.init simpU sincf) ops : St L).n = accepted ops ∧ (run (St.init simpU sincf) ops : St L).ref = refining ops := by
  induction ops using List.reverseRecOn with
  | nil => exact ⟨rfl, rfl⟩
  | append_singleton os o ih =>
    obtain ⟨h1, h2⟩ := ih
    rw [run_append]
    have hr : ∀ st : St L, run st [o] = step st o := fun _ => rfl
    rw [hr]
    generalize (run (St.init simpU sincf) os : St L) = st at *
    have hj : ∀ l, (compJac st l).n = st.n ∧ (compJac st l).ref = st.ref := by
      intro l
      unfold compJac
      by_cases hc : (stale st.MJ l st.n && st.simpU && decide (st.n ≠ 0)) = true
      · simp only [hc, if_true]; exact ⟨rfl, rfl⟩
      · simp only [hc]; exact ⟨rfl, rfl⟩
    have hs : ∀ l, (setUp st l).n = st.n ∧ (setUp st l).ref = st.ref := by
      intro l
      unfold setUp
      by_cases hc : st.sth = some l ∧ st.sn = some st.n
      · rw [if_pos hc]; exact ⟨rfl, rfl⟩
      · rw [if_neg hc]
        cases hf : st.sincf <;> exact ⟨rfl, rfl⟩
    have ha : accepted (os ++ [o]) = accepted os + accepted [o] := by simp [accepted]
    rw [ha, refining, List.foldl_append]
    change _ ∧ _ = List.foldl _ (refining os) [o]
    cases o with
    | fn l => exact ⟨h1, h2⟩
    | jac l => exact ⟨(hj l).1.trans h1, (hj l).2.trans h2⟩
    | setup l => exact ⟨(hs l).1.trans h1, (hs l).2.trans h2⟩
    | refOn => exact ⟨h1, rfl⟩
    | refOff => exact ⟨h1, rfl⟩
    | accept => exact ⟨by show st.n + 1 = _; rw [h1]; rfl, rfl⟩

/-- the histories of the theorems contain those of the solvers, with two pairs accepted -/
example : NoRefOff ([.setup (0 : ℤ), .fn 1, .jac 1, .refOn, .fn 2, .accept, .setup 0, .fn 3, .jac 3, .setup 3, .accept] : List (Op ℤ)) ∧
    ∀ o ∈ ([.fn 4, .jac 4, .refOn] : List (Op ℤ)), Harmless o := by
  refine ⟨by intro o ho; simp at ho; rcases ho with rfl | rfl | rfl | rfl | rfl | rfl | rfl | rfl | rfl | rfl | rfl <;> simp, ?_⟩
  intro o ho
  simp at ho
  rcases ho with rfl | rfl | rfl
  · exact Or.inl ⟨_, rfl⟩
  · exact Or.inr (Or.inl ⟨_, rfl⟩)
  · exact Or.inr (Or.inr rfl)

end Verif.NDef.Cache
