import Mathlib.Tactic
import Mathlib.Analysis.SpecialFunctions.Sqrt
import Mathlib.Analysis.Complex.Basic

/-!
# Model of EPSSubspaceFindGroup (subspace.c:118-152) and of the acceptance loop (subspace.c:264-274), complex scalars
-/

set_option linter.all false

namespace Verif.Iter

open Finset

/-- loop of lines 128-139 with complex scalars (`wi = 0`): `f` entries remain from index `i`; returns the number of entries accepted and the last `ctr` -/
noncomputable def scan (w : ℕ → ℂ) (g rmod : ℝ) : ℕ → ℕ → ℝ → ℕ × ℝ
  | 0, _, ctr => (0, ctr)
  | f + 1, i, ctr =>
    if |rmod - ‖w i‖| > g * (rmod + ‖w i‖) then (0, ctr)
    else ((scan w g rmod f (i + 1) ((rmod + ‖w i‖) / 2)).1 + 1, (scan w g rmod f (i + 1) ((rmod + ‖w i‖) / 2)).2)

/-- output of EPSSubspaceFindGroup -/
structure Grp where
  n : ℕ
  ctr : ℝ
  ae : ℝ
  arsd : ℝ

/-- EPSSubspaceFindGroup (subspace.c:118-152) -/
noncomputable def findGroup (l m : ℕ) (w : ℕ → ℂ) (rsd : ℕ → ℝ) (g : ℝ) : Grp :=
  let s := scan w g ‖w l‖ (m - l) l 0
  if s.1 = 0 then ⟨0, s.2, 0, 0⟩
  else ⟨s.1, s.2, (∑ i ∈ Ico l (l + s.1), (w i).re) / s.1, Real.sqrt ((∑ i ∈ Ico l (l + s.1), rsd i * rsd i) / s.1)⟩

/-- data of the acceptance loop: current and previous values and residual norms, difference of the iteration counters, and the constants `grptol`, `cnvtol` and `eps->tol` -/
structure AccIn where
  w : ℕ → ℂ
  rsd : ℕ → ℝ
  ow : ℕ → ℂ
  orsd : ℕ → ℝ
  d : ℕ → ℝ
  g : ℝ
  cnvtol : ℝ
  tol : ℝ

/-- the tests of lines 268-271 -/
def AccIn.pass (x : AccIn) (nv k : ℕ) : Prop :=
  (findGroup k nv x.w x.rsd x.g).n = (findGroup k nv x.ow x.orsd x.g).n ∧ (findGroup k nv x.w x.rsd x.g).n ≠ 0 ∧
    ¬|(findGroup k nv x.w x.rsd x.g).ae - (findGroup k nv x.ow x.orsd x.g).ae| > (findGroup k nv x.w x.rsd x.g).ctr * x.cnvtol * x.d k ∧
    ¬(findGroup k nv x.w x.rsd x.g).arsd > (findGroup k nv x.w x.rsd x.g).ctr * x.tol

open Classical in
/-- the loop of lines 264-274 (`f`: bound on the number of passes, `nv - nconv` suffices); returns the new `eps->nconv` -/
noncomputable def acceptLoop (x : AccIn) (nv : ℕ) : ℕ → ℕ → ℕ
  | 0, k => k
  | f + 1, k =>
    if x.pass nv k then
      if k + (findGroup k nv x.w x.rsd x.g).n ≥ nv then k + (findGroup k nv x.w x.rsd x.g).n
      else acceptLoop x nv f (k + (findGroup k nv x.w x.rsd x.g).n)
    else k

end Verif.Iter
