import Verif.MFN.StateModel
/-!
C85: a matrix function solver works with its current operator and function.

The specification reads the history of calls, most recent first: the operator last given and not removed by a
reset, the function last given.
-/
set_option linter.all false
namespace Verif.MFN.State
variable {M F : Type}

/-- The operator in force after a history. -/
def curOp : List (Call M F) → Option M
  | [] => none
  | .setOperator A :: _ => some A
  | .reset :: _ => none
  | _ :: h => curOp h

/-- The function in force after a history. -/
def curFn : List (Call M F) → Option F
  | [] => none
  | .setFN f :: _ => some f
  | _ :: h => curFn h

/-- The solver type in force after a history. -/
def curTy : List (Call M F) → Option Ty
  | [] => none
  | .setType t :: _ => some t
  | _ :: h => curTy h

/-- The operator in force at the first transposed solve, if there was one. -/
def firstT : List (Call M F) → Option M
  | [] => none
  | .solveT :: h => (firstT h).or (curOp h)
  | _ :: h => firstT h

theorem setUp_spec (e : Env M F) (s s' : St M F) (h : setUp e s = some s') :
    s'.A = s.A ∧ s'.AT = s.AT ∧ s'.setup = true ∧ (s.fn = none → s.setup = false → s'.fn = some e.dflt) ∧ (∀ f, s.fn = some f → s'.fn = some f) ∧
      (∀ t, s.ty = some t → s'.ty = some t) ∧ (s.setup = true → s' = s) ∧ (s.setup = false → s'.ty = some (s.ty.getD .krylov)) ∧
      (s.setup = false → s'.ty = some .expokit → ∃ f, s'.fn = some f ∧ e.isexp f = true) := by
  unfold setUp at h
  by_cases hs : s.setup = true
  · rw [if_pos hs] at h
    obtain rfl := Option.some.inj h
    have hn : s.setup = false → False := by
      intro hh; rw [hs] at hh; cases hh
    exact ⟨rfl, rfl, hs, fun _ hh => (hn hh).elim, fun _ hh => hh, fun _ hh => hh, fun _ => rfl,
      fun hh => (hn hh).elim, fun hh => (hn hh).elim⟩
  · rw [if_neg hs] at h
    dsimp only at h
    rw [Bool.not_eq_true] at hs
    cases hA : s.A with
    | none => rw [hA] at h; cases h
    | some A =>
      rw [hA] at h
      dsimp only at h
      by_cases hc : s.ty.getD .krylov = .expokit ∧ e.isexp (s.fn.getD e.dflt) = false
      · rw [if_pos hc] at h; cases h
      · rw [if_neg hc] at h
        obtain rfl := Option.some.inj h
        refine ⟨rfl, rfl, rfl, fun h _ => by dsimp only; rw [h]; rfl, fun f h => by dsimp only; rw [h]; rfl, fun t h => by dsimp only; rw [h]; rfl,
          (by intro hh; rw [hs] at hh; cases hh), fun _ => rfl, fun _ h => ?_⟩
        refine ⟨_, rfl, ?_⟩
        have ht : s.ty.getD .krylov = .expokit := Option.some.inj h
        by_contra hx
        exact hc ⟨ht, by rwa [Bool.not_eq_true] at hx⟩

/-- What the state says about the history. -/
structure Rep (e : Env M F) (h : List (Call M F)) (s : St M F) : Prop where
  A : s.A = curOp h
  fn : ∀ f, curFn h = some f → s.fn = some f
  fn0 : curFn h = none → s.fn = none ∨ s.fn = some e.dflt
  ty : ∀ t, curTy h = some t → s.ty = some t
  ty0 : curTy h = none → s.ty = none ∨ s.ty = some .krylov
  AT : s.AT = firstT h
  set : s.setup = true → s.ty.isSome ∧ s.fn.isSome ∧ s.A.isSome

theorem solvePrivate_some (e : Env M F) (s : St M F) (op : St M F → Option (Op M)) (s' : St M F)
    (h : (solvePrivate e s op).1 = some s') : setUp e s = some s' ∧ ∃ A o ty fn, s'.A = some A ∧ op s' = some o ∧ s'.ty = some ty ∧
      s'.fn = some fn ∧ s'.vrows = some (e.size A) ∧ (solvePrivate e s op).2 = .ran ty o fn := by
  unfold solvePrivate at h ⊢
  cases hs : setUp e s with
  | none => rw [hs] at h; cases h
  | some t =>
    rw [hs] at h
    dsimp only at h ⊢
    cases h1 : t.A with
    | none => rw [h1] at h; cases h
    | some A =>
      cases h2 : op t with
      | none => rw [h1, h2] at h; cases h
      | some o =>
        cases h3 : t.ty with
        | none => rw [h1, h2, h3] at h; cases h
        | some ty =>
          cases h4 : t.fn with
          | none => rw [h1, h2, h3, h4] at h; cases h
          | some fn =>
            rw [h1, h2, h3, h4] at h
            dsimp only at h ⊢
            by_cases hv : t.vrows = some (e.size A)
            · rw [if_pos hv] at h
              obtain rfl := Option.some.inj h
              rw [if_pos hv]
              exact ⟨rfl, A, o, ty, fn, h1, h2, h3, h4, hv, rfl⟩
            · rw [if_neg hv] at h; cases h

theorem Rep.after_setUp {e : Env M F} {h : List (Call M F)} {s s' : St M F} (r : Rep e h s) (hs : setUp e s = some s') :
    s'.A = curOp h ∧ (∀ f, curFn h = some f → s'.fn = some f) ∧ (curFn h = none → s'.fn = some e.dflt) ∧
      (∀ t, curTy h = some t → s'.ty = some t) ∧ (curTy h = none → s'.ty = some .krylov) ∧ s'.AT = firstT h ∧
      (s'.setup = true → s'.ty.isSome ∧ s'.fn.isSome ∧ s'.A.isSome) := by
  obtain ⟨a1, a2, a3, a4, a5, a6, a7, a8, a9⟩ := setUp_spec e s s' hs
  have hfn0 : curFn h = none → s'.fn = some e.dflt := by
    intro hn
    rcases r.fn0 hn with h0 | h0
    · cases hst : s.setup with
      | true => have := (r.set hst).2.1; rw [h0] at this; cases this
      | false => exact a4 h0 hst
    · exact a5 _ h0
  have hty0 : curTy h = none → s'.ty = some .krylov := by
    intro hn
    rcases r.ty0 hn with h0 | h0
    · cases hst : s.setup with
      | true => have := (r.set hst).1; rw [h0] at this; cases this
      | false => rw [a8 hst, h0]; rfl
    · exact a6 _ h0
  refine ⟨a1.trans r.A, fun f hf => a5 f (r.fn f hf), hfn0, fun t ht => a6 t (r.ty t ht), hty0, a2.trans r.AT, fun _ => ⟨?_, ?_, ?_⟩⟩
  · cases hc : curTy h with
    | none => rw [hty0 hc]; rfl
    | some t => rw [a6 t (r.ty t hc)]; rfl
  · cases hc : curFn h with
    | none => rw [hfn0 hc]; rfl
    | some t => rw [a5 t (r.fn t hc)]; rfl
  · rw [a1]
    unfold setUp at hs
    by_cases hst : s.setup = true
    · exact (r.set hst).2.2
    · rw [if_neg hst] at hs
      cases hA : s.A with
      | none => rw [hA] at hs; cases hs
      | some A => rfl

theorem rep (e : Env M F) (h : List (Call M F)) (s : St M F) (hr : run e h = some s) : Rep e h s := by
  induction h generalizing s with
  | nil =>
    obtain rfl := Option.some.inj hr
    exact ⟨rfl, (by intro f h; cases h), fun _ => Or.inl rfl, (by intro t h; cases h), fun _ => Or.inl rfl, rfl, (by intro h; cases h)⟩
  | cons c h ih =>
    unfold run at hr
    cases hs : run e h with
    | none => rw [hs] at hr; cases hr
    | some t =>
      rw [hs] at hr
      have r := ih t hs
      change (step e t c).1 = some s at hr
      cases c with
      | setType ty =>
        obtain rfl := Option.some.inj hr
        unfold setType
        by_cases hc : t.ty = some ty
        · rw [if_pos hc]
          exact ⟨r.A, r.fn, r.fn0, (by intro t' h'; change some ty = some t' at h'; rw [← h']; exact hc), (by intro h'; cases h'), r.AT, r.set⟩
        · rw [if_neg hc]
          exact ⟨r.A, r.fn, r.fn0, (by intro t' h'; exact h'), (by intro h'; cases h'), r.AT, (by intro h'; cases h')⟩
      | setFN f =>
        obtain rfl := Option.some.inj hr
        exact ⟨r.A, (by intro f' h'; exact h'), (by intro h'; cases h'), r.ty, r.ty0, r.AT, fun h' => ⟨(r.set h').1, rfl, (r.set h').2.2⟩⟩
      | setDims =>
        obtain rfl := Option.some.inj hr
        exact ⟨r.A, r.fn, r.fn0, r.ty, r.ty0, r.AT, (by intro h'; cases h')⟩
      | reset =>
        obtain rfl := Option.some.inj hr
        exact ⟨rfl, r.fn, r.fn0, r.ty, r.ty0, r.AT, (by intro h'; cases h')⟩
      | setOperator A =>
        obtain rfl := Option.some.inj hr
        unfold setOperator reset
        dsimp only
        by_cases hc : t.setup = true
        · rw [if_pos hc]
          exact ⟨rfl, r.fn, r.fn0, r.ty, r.ty0, r.AT, (by intro h'; cases h')⟩
        · rw [if_neg hc]
          exact ⟨rfl, r.fn, r.fn0, r.ty, r.ty0, r.AT, (by intro h'; cases h')⟩
      | solve =>
        obtain ⟨q, _⟩ := solvePrivate_some e t _ s hr
        obtain ⟨b1, b2, b3, b4, b5, b6, b7⟩ := r.after_setUp q
        exact ⟨b1, b2, fun h' => Or.inr (b3 h'), b4, fun h' => Or.inr (b5 h'), b6, b7⟩
      | solveT =>
        change (solveT e t).1 = some s at hr
        unfold solveT at hr
        cases hAT : t.AT with
        | some X =>
          rw [hAT] at hr
          obtain ⟨q, _⟩ := solvePrivate_some e t _ s hr
          obtain ⟨b1, b2, b3, b4, b5, b6, b7⟩ := r.after_setUp q
          refine ⟨b1, b2, fun h' => Or.inr (b3 h'), b4, fun h' => Or.inr (b5 h'), ?_, b7⟩
          show s.AT = (firstT h).or (curOp h)
          rw [b6, ← r.AT, hAT]; rfl
        | none =>
          rw [hAT] at hr
          dsimp only at hr
          cases hA : t.A with
          | none => rw [hA] at hr; cases hr
          | some A =>
            rw [hA] at hr
            dsimp only at hr
            obtain ⟨q, _⟩ := solvePrivate_some e _ _ s hr
            obtain ⟨a1, a2, a3, a4, a5, a6, a7, a8, a9⟩ := setUp_spec e _ s q
            have hq : ∃ u, setUp e t = some u ∧ u.A = s.A ∧ u.fn = s.fn ∧ u.ty = s.ty ∧ u.setup = s.setup := by
              unfold setUp at q ⊢
              dsimp only at q ⊢
              by_cases hst : t.setup = true
              · rw [if_pos hst] at q ⊢
                obtain rfl := Option.some.inj q
                exact ⟨t, rfl, hA, rfl, rfl, rfl⟩
              · rw [if_neg hst] at q ⊢
                rw [hA]
                dsimp only at q ⊢
                by_cases hc : t.ty.getD .krylov = .expokit ∧ e.isexp (t.fn.getD e.dflt) = false
                · rw [if_pos hc] at q; cases q
                · rw [if_neg hc] at q ⊢
                  obtain rfl := Option.some.inj q
                  exact ⟨_, rfl, rfl, rfl, rfl, rfl⟩
            obtain ⟨u, u1, u2, u3, u4, u5⟩ := hq
            obtain ⟨b1, b2, b3, b4, b5, b6, b7⟩ := r.after_setUp u1
            rw [u2] at b1
            rw [u3] at b2 b3
            rw [u4] at b4 b5
            rw [u2, u3, u4, u5] at b7
            refine ⟨b1, b2, fun h' => Or.inr (b3 h'), b4, fun h' => Or.inr (b5 h'), ?_, b7⟩
            show s.AT = (firstT h).or (curOp h)
            rw [a2, ← r.AT, hAT, ← r.A, hA]; rfl

/-- **C85, solve.** After any sequence of calls, if `MFNSolve` runs then it runs the solver type last set (by default
Krylov) on the operator last given, with the function last given (or the default one). -/
theorem C85_solve (e : Env M F) (h : List (Call M F)) (s : St M F) (hr : run e h = some s) (ty : Ty) (op : Op M) (f : F)
    (ho : (solve e s).2 = .ran ty op f) :
    (∃ A, curOp h = some A ∧ op = .plain A) ∧ f = (curFn h).getD e.dflt ∧ ty = (curTy h).getD .krylov := by
  have r := rep e h s hr
  have hsome : ∃ s', (solve e s).1 = some s' := by
    revert ho
    unfold solve solvePrivate
    cases setUp e s with
    | none => intro ho; cases ho
    | some t =>
      dsimp only
      split
      · split_ifs
        · exact fun _ => ⟨_, rfl⟩
        · intro ho; cases ho
      · intro ho; cases ho
  obtain ⟨s', hs'⟩ := hsome
  obtain ⟨q, A, o, ty', fn, c1, c2, c3, c4, _, c5⟩ := solvePrivate_some e s _ s' hs'
  have c5' : (solve e s).2 = .ran ty' o fn := c5
  rw [ho] at c5'
  injection c5' with d1 d2 d3
  subst d1 d2 d3
  obtain ⟨b1, b2, b3, b4, b5, b6, b7⟩ := r.after_setUp q
  refine ⟨⟨A, by rw [← b1, c1], ?_⟩, ?_, ?_⟩
  · rw [c1] at c2; exact (Option.some.inj c2).symm
  · cases hc : curFn h with
    | none => have := b3 hc; rw [c4] at this; exact Option.some.inj this
    | some g => have := b2 g hc; rw [c4] at this; exact Option.some.inj this
  · cases hc : curTy h with
    | none => have := b5 hc; rw [c3] at this; exact Option.some.inj this
    | some g => have := b4 g hc; rw [c3] at this; exact Option.some.inj this

/-- **C85, partial, transposed solve.** If `MFNSolveTranspose` runs, it uses the function last given, and the transpose of the
operator that was in force at the first transposed solve: the right one provided that the operator was not
changed since then. Missing: `C85_transpose_false`. -/
theorem C85_transpose_partial (e : Env M F) (h : List (Call M F)) (s : St M F) (hr : run e h = some s) (ty : Ty) (op : Op M) (f : F)
    (ho : (solveT e s).2 = .ran ty op f) :
    (∃ A, (firstT h).or (curOp h) = some A ∧ op = .transp A) ∧ f = (curFn h).getD e.dflt ∧ ty = (curTy h).getD .krylov := by
  have r := rep e h s hr
  have hsome : ∃ s', (solveT e s).1 = some s' := by
    revert ho
    have key : ∀ t o, (solvePrivate e t o).2 = .ran ty op f → ∃ s', (solvePrivate e t o).1 = some s' := by
      intro t o
      unfold solvePrivate
      cases setUp e t with
      | none => intro ho; cases ho
      | some t =>
        dsimp only
        split
        · split_ifs
          · exact fun _ => ⟨_, rfl⟩
          · intro ho; cases ho
        · intro ho; cases ho
    unfold solveT
    cases s.AT with
    | some X => exact key _ _
    | none =>
      cases s.A with
      | none => intro ho; cases ho
      | some A => exact key _ _
  obtain ⟨s', hs'⟩ := hsome
  have hr' : run e (.solveT :: h) = some s' := by
    unfold run; rw [hr]; exact hs'
  have r' := rep e _ s' hr'
  have hout : ∃ A ty' fn, s'.AT = some A ∧ s'.ty = some ty' ∧ s'.fn = some fn ∧ (solveT e s).2 = .ran ty' (.transp A) fn := by
    unfold solveT at hs' ⊢
    cases hAT : s.AT with
    | some X =>
      rw [hAT] at hs'
      dsimp only at hs' ⊢
      obtain ⟨q, A, o, ty', fn, c1, c2, c3, c4, _, c5⟩ := solvePrivate_some e s _ s' hs'
      cases hx : s'.AT with
      | none => rw [hx] at c2; cases c2
      | some Y => rw [hx] at c2; obtain rfl := Option.some.inj c2; exact ⟨Y, ty', fn, rfl, c3, c4, c5⟩
    | none =>
      rw [hAT] at hs'
      cases hA : s.A with
      | none => rw [hA] at hs'; cases hs'
      | some A =>
        rw [hA] at hs'
        dsimp only at hs' ⊢
        obtain ⟨q, A, o, ty', fn, c1, c2, c3, c4, _, c5⟩ := solvePrivate_some e _ _ s' hs'
        cases hx : s'.AT with
        | none => rw [hx] at c2; cases c2
        | some Y => rw [hx] at c2; obtain rfl := Option.some.inj c2; exact ⟨Y, ty', fn, rfl, c3, c4, c5⟩
  obtain ⟨A, ty', fn, e1, e2, e3, e4⟩ := hout
  rw [ho] at e4
  injection e4 with d1 d2 d3
  subst d1 d2 d3
  have hset : s'.setup = true := by
    unfold solveT at hs'
    cases hAT : s.AT with
    | some X => rw [hAT] at hs'; exact (setUp_spec e _ _ (solvePrivate_some e s _ s' hs').1).2.2.1
    | none =>
      rw [hAT] at hs'
      cases hA : s.A with
      | none => rw [hA] at hs'; cases hs'
      | some A => rw [hA] at hs'; exact (setUp_spec e _ _ (solvePrivate_some e _ _ s' hs').1).2.2.1
  have hself : setUp e s' = some s' := by unfold setUp; rw [if_pos hset]
  obtain ⟨b1, b2, b3, b4, b5, b6, b7⟩ := r'.after_setUp hself
  refine ⟨⟨A, by rw [← e1, b6]; rfl, rfl⟩, ?_, ?_⟩
  · cases hc : curFn h with
    | none => have := b3 (show curFn (Call.solveT :: h) = none from hc); rw [e3] at this; exact Option.some.inj this
    | some g => have := b2 g (show curFn (Call.solveT :: h) = some g from hc); rw [e3] at this; exact Option.some.inj this
  · cases hc : curTy h with
    | none => have := b5 (show curTy (Call.solveT :: h) = none from hc); rw [e2] at this; exact Option.some.inj this
    | some g => have := b4 g (show curTy (Call.solveT :: h) = some g from hc); rw [e2] at this; exact Option.some.inj this

/-- **C85, partial, restricted solver.** Whenever the set-up is actually done in a solve (it was not done
before, or an option was changed since), the exponential solver only runs with the exponential.
Missing: `C85_function_false`. -/
theorem C85_restricted_partial (e : Env M F) (s : St M F) (hn : s.setup = false) (op : Op M) (f : F)
    (ho : (solve e s).2 = .ran .expokit op f) : e.isexp f = true := by
  have hsome : ∃ s', (solve e s).1 = some s' := by
    revert ho
    unfold solve solvePrivate
    cases setUp e s with
    | none => intro ho; cases ho
    | some t =>
      dsimp only
      split
      · split_ifs
        · exact fun _ => ⟨_, rfl⟩
        · intro ho; cases ho
      · intro ho; cases ho
  obtain ⟨s', hs'⟩ := hsome
  obtain ⟨q, A, o, ty', fn, c1, c2, c3, c4, _, c5⟩ := solvePrivate_some e s _ s' hs'
  have c5' : (solve e s).2 = .ran ty' o fn := c5
  rw [ho] at c5'
  injection c5' with d1 d2 d3
  subst d1 d2 d3
  obtain ⟨g, g1, g2⟩ := (setUp_spec e s s' q).2.2.2.2.2.2.2.2 hn c3
  rw [c4] at g1
  obtain rfl := Option.some.inj g1
  exact g2

/-- Sizes and functions for the examples: two matrices of size 3 and one of size 4; the function `true` is the exponential. -/
def env : Env Nat Bool := ⟨fun A => if A = 2 then 4 else 3, id, true⟩

/-- Runs that meet the hypotheses of the theorems above: a solve and a transposed solve succeed. -/
example : ∃ s, run env [.solveT, .solve, .setFN true, .setType .expokit, .setOperator 0] = some s ∧
    (solve env s).2 = .ran .expokit (.plain 0) true ∧ (solveT env s).2 = .ran .expokit (.transp 0) true := ⟨_, rfl, rfl, rfl⟩

/-- **C85 is false of the code (transposed solve).** After a transposed solve, giving another operator of the same size and
calling `MFNSolveTranspose` again uses the transpose of the first operator; `MFNReset` does not help. -/
theorem C85_transpose_false : ∃ (h : List (Call Nat Bool)) (s : St Nat Bool), run env h = some s ∧ curOp h = some 1 ∧
    (solveT env s).2 = .ran .krylov (.transp 0) true :=
  ⟨[.setOperator 1, .reset, .solveT, .setOperator 0], _, rfl, rfl, rfl⟩

/-- **C85 is false of the code (restricted solver).** Giving another function after a first solve makes the exponential
solver run with that function: it is the set-up that checks the function, and `MFNSetFN` does not ask for a new set-up. -/
theorem C85_function_false : ∃ (h : List (Call Nat Bool)) (s : St Nat Bool), run env h = some s ∧
    (solve env s).2 = .ran .expokit (.plain 0) false ∧ env.isexp false = false :=
  ⟨[.setFN false, .solve, .setType .expokit, .setFN true, .setOperator 0], _, rfl, rfl, rfl⟩

/-- **C85, sizes.** Not only may the wrong operator be used: a valid sequence of calls fails. If the dimensions are set
between a solve and giving an operator of a different size, the basis keeps the old number of rows. -/
theorem C85_size_false : ∃ (h : List (Call Nat Bool)) (s : St Nat Bool), run env h = some s ∧ curOp h = some 2 ∧ (solve env s).2 = .error :=
  ⟨[.setOperator 2, .setDims, .solve, .setOperator 0], _, rfl, rfl, rfl⟩

end Verif.MFN.State
