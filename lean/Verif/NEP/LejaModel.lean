import Verif.NEP.NleigsModel
import Mathlib.Analysis.RCLike.Basic

/-!
Model of `NEPNLEIGSLejaBagbyPoints` (nleigs.c:344-410): greedy selection of interpolation nodes and poles in discrete sets.

Simplified: exact arithmetic. The discretization of the target set `ds` (length `ndpt`) and the singularities `dxi` (length `ndptx`) are given
(lines 356-382 not modelled). A quotient with zero denominator (infinite or not a number in the code) is a distinct value.
-/
set_option linter.all false

namespace Verif.NEP

/-- What the selection of points does. -/
inductive LejaResult (F : Type*)
  /-- the arrays `s`, `beta`, `xi` have been filled -/
  | ok (N : Nodes F)
  /-- some `s[k]` or `xi[k]` has not been assigned -/
  | unset
  /-- a point of the target set is a pole, a running product is infinite -/
  | infinite
  /-- error raised because a singularity is nearly zero (nleigs.c:386, 404) -/
  | error

variable {F : Type*} [RCLike F]

/-- Search of the largest entry with a strict comparison, starting from zero (nleigs.c:393, 397): value and position. -/
noncomputable def scanMax (n : ℕ) (v : ℕ → ℝ) : ℝ × Option ℕ :=
  (List.range n).foldl (fun r i => if r.1 < v i then (v i, some i) else r) (0, none)

/-- Search of the smallest entry from index one with a strict comparison (nleigs.c:394, 400-403); `none` is an infinite entry. -/
noncomputable def scanMin (n : ℕ) (v : ℕ → Option ℝ) : Option (ℝ × ℕ) :=
  (List.range n).foldl (fun r i =>
    if i = 0 then r else
      match v i, r with
      | none, r => r
      | some x, none => some (x, i)
      | some x, some (m, j) => if x < m then some (x, i) else some (m, j)) none

/-- Arrays `s`, `beta`, `xi` (reciprocals), `nrs`, `nrxi` of the function. -/
structure LejaState (F : Type*) where
  N : Nodes F
  nrs : ℕ → F
  nrxi : ℕ → Option F

/-- Update of a running product (nleigs.c:401). -/
noncomputable def nrxiUpd (N : Nodes F) (dxi : ℕ → F) (k : ℕ) (nrxi : ℕ → Option F) (i : ℕ) : Option F :=
  match nrxi i with
  | none => none
  | some x => if 1 - dxi i * N.rxi (k-1) = 0 then none
    else some (x * (((dxi i - N.s (k-1)) / (1 - dxi i * N.rxi (k-1))) / N.beta (k-1)))

/-- Selection of the pole `xi[k]` (nleigs.c:399-405): the new reciprocal and running products, or a failure. `tiny` is
`10*PETSC_MACHINE_EPSILON`. -/
noncomputable def poleStep (tiny : ℝ) (dxi : ℕ → F) (ndptx k : ℕ) (st : LejaState F) : LejaResult F ⊕ (F × (ℕ → Option F)) :=
  if k < ndptx then
    match scanMin ndptx (fun i => (nrxiUpd st.N dxi k st.nrxi i).map (fun x => ‖x‖)) with
    | none => .inl .unset
    | some (_, i) => if ‖dxi i‖ < tiny then .inl .error else .inr (1 / dxi i, nrxiUpd st.N dxi k st.nrxi)
  else .inr (0, st.nrxi)

/-- One iteration of the loop (nleigs.c:392-407). -/
noncomputable def lejaStep (tiny : ℝ) (ds dxi : ℕ → F) (ndpt ndptx k : ℕ) (st : LejaState F) : LejaResult F ⊕ LejaState F :=
  if ∃ i < ndpt, 1 - ds i * st.N.rxi (k-1) = 0 then .inl .infinite
  else
    let nrs := fun i => st.nrs i * (((ds i - st.N.s (k-1)) / (1 - ds i * st.N.rxi (k-1))) / st.N.beta (k-1))
    match scanMax ndpt (fun i => ‖nrs i‖), poleStep tiny dxi ndptx k st with
    | (_, none), _ => .inl .unset
    | (m, some j), .inl r => .inl r
    | (m, some j), .inr (r, nrxi) =>
      .inr ⟨⟨fun i => if i = k then ds j else st.N.s i, fun i => if i = k then (m : F) else st.N.beta i,
        fun i => if i = k then r else st.N.rxi i⟩, nrs, nrxi⟩

/-- The loop from iteration `k`, with `m` iterations left. -/
noncomputable def lejaLoop (tiny : ℝ) (ds dxi : ℕ → F) (ndpt ndptx : ℕ) : ℕ → ℕ → LejaState F → LejaResult F
  | 0, k, st => .ok st.N
  | m+1, k, st => match lejaStep tiny ds dxi ndpt ndptx k st with
    | .inl r => r
    | .inr st' => lejaLoop tiny ds dxi ndpt ndptx m (k+1) st'

/-- Initial arrays (nleigs.c:384-391). -/
noncomputable def lejaInit (ds dxi : ℕ → F) (ndptx : ℕ) : LejaState F :=
  ⟨⟨fun _ => ds 0, fun _ => 1, fun _ => if 0 < ndptx then 1 / dxi 0 else 0⟩, fun _ => 1, fun _ => some 1⟩

/-- `NEPNLEIGSLejaBagbyPoints`. -/
noncomputable def lejaBagby (tiny : ℝ) (ds dxi : ℕ → F) (ndpt ndptx ddmaxit : ℕ) : LejaResult F :=
  if 0 < ndptx ∧ ‖dxi 0‖ < tiny then .error
  else lejaLoop tiny ds dxi ndpt ndptx (ddmaxit-1) 1 (lejaInit ds dxi ndptx)

end Verif.NEP
