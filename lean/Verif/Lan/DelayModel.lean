import Verif.Iter.SubspaceModel
import Mathlib.Tactic

/-!
# Arnoldi with delayed normalization and reorthogonalization

Models EPSDelayedArnoldi and EPSDelayedArnoldi1 (src/eps/impls/krylov/epskrylov.c:24-155) in exact
arithmetic, with the unnormalized columns and the work vectors `u`, `t` as in the code.  The inner
product stands for that of the BV object and for VecDot (the code mixes both, lines 50 and 46).
`H c i` is the entry in column `c` and row `i`.
-/
set_option linter.all false

namespace Verif.Lan

open Finset

variable {E : Type} [NormedAddCommGroup E] [InnerProductSpace ℂ E]

/-- Columns, matrix and work vectors; `none` for a vector that has not been assigned. -/
structure DSt (E : Type) where
  V : ℕ → E
  H : ℕ → ℕ → ℂ
  t : Option E
  u : Option E

/-- Column `j` of H after lines 46, 66-67 (and 136-143): products with the new vector `w = A v_j`, divided by
the norm of the unnormalized column `v_j` (its square for the last one). -/
noncomputable def hcol (k : ℕ) (V : ℕ → E) (w : E) (j i : ℕ) : ℂ :=
  if k < j then (if i = j then inner ℂ (V j) w / ((‖V j‖ ^ 2 : ℝ) : ℂ) else inner ℂ (V i) w / ((‖V j‖ : ℝ) : ℂ))
  else inner ℂ (V i) w

/-- Columns after lines 42, 69-70 and 73 (and 132, 140, 144, 150). -/
noncomputable def vcol (A : E →ₗ[ℂ] E) (k : ℕ) (V : ℕ → E) (j : ℕ) : ℕ → E :=
  let w := A (V j)
  let r : ℂ := if k < j then ((1 / ‖V j‖ : ℝ) : ℂ) else 1
  let V2 := Function.update V j (r • V j)
  Function.update V2 (j + 1) (r • w - ∑ i ∈ range (j + 1), hcol k V w j i • V2 i)

open Classical in
/-- One pass of the loop of EPSDelayedArnoldi (lines 39-91); `none` for a division by zero
(lines 66, 69, 86).  `u` is assigned in all passes but the last (line 90). -/
noncomputable def dstep (A : E →ₗ[ℂ] E) (k m : ℕ) (s : DSt E) (j : ℕ) : Option (DSt E) :=
  let V3 := vcol A k s.V j
  let lhh : ℕ → ℂ := fun i => inner ℂ (s.V i) (s.V j)
  let t' : Option E := if k < j then some (s.V j - ∑ i ∈ range j, lhh i • s.V i) else s.t
  let u : E := s.u.getD 0
  let n2 : ℝ := ‖u‖
  if k < j ∧ s.V j = 0 then none
  else if k + 1 < j ∧ n2 = 0 then none
  else some
    { V := if k + 1 < j then Function.update V3 (j - 1) (((1 / n2 : ℝ) : ℂ) • u) else V3
      H := fun c i =>
        if c = j then (if i ≤ j then hcol k s.V (A (s.V j)) j i else s.H c i)
        else if c + 1 = j ∧ k < j ∧ i < j then s.H c i + lhh i
        else if c + 2 = j ∧ k + 1 < j ∧ i + 1 = j then (n2 : ℂ)
        else s.H c i
      t := t'
      u := if j + 1 < m then t' else s.u }

/-- `g` passes from `j` on. -/
noncomputable def dloop (A : E →ₗ[ℂ] E) (k m : ℕ) : ℕ → ℕ → DSt E → Option (DSt E)
  | 0, _, s => some s
  | g + 1, j, s => match dstep A k m s j with
    | none => none
    | some s' => dloop A k m g (j + 1) s'

/-- Possible outcomes: a work vector is used without having been assigned, a division by zero
(both unnoticed by the code, which reports no breakdown, line 108), or columns, matrix and residual norm. -/
inductive DOut (E : Type)
  | uninit
  | div0
  | ok (V : ℕ → E) (H : ℕ → ℕ → ℂ) (beta : ℝ)

open Classical in
/-- Lines 98-107: entry below the diagonal, orthogonalization and normalization of the last column. -/
noncomputable def dfinal (m : ℕ) (V : ℕ → E) (norm2 : ℝ) (H : ℕ → ℕ → ℂ) : DOut E :=
  let lhh : ℕ → ℂ := fun i => inner ℂ (V i) (V m)
  let f := V m - ∑ i ∈ range m, lhh i • V i
  if f = 0 then .div0
  else .ok (Function.update V m (((1 / ‖f‖ : ℝ) : ℂ) • f))
    (fun c i => if c + 2 = m ∧ i + 1 = m then (norm2 : ℂ) else if c + 1 = m ∧ i < m then H c i + lhh i else H c i)
    ‖f‖

open Classical in
/-- EPSDelayedArnoldi (lines 24-114) with `k` given columns and `m` columns; after the loop the last
column is replaced by the normalized work vector `t` (lines 93-97). -/
noncomputable def delayed (A : E →ₗ[ℂ] E) (k m : ℕ) (V : ℕ → E) (H : ℕ → ℕ → ℂ) : DOut E :=
  match dloop A k m (m - k) k { V := V, H := H, t := none, u := none } with
  | none => .div0
  | some s =>
    match s.t with
    | none => .uninit
    | some t =>
      if ‖t‖ = 0 then .div0
      else dfinal m (Function.update s.V (m - 1) (((1 / ‖t‖ : ℝ) : ℂ) • t)) ‖t‖ s.H

/-- State of EPSDelayedArnoldi1: columns, matrix and `*beta` (`none` if not assigned). -/
structure D1St (E : Type) where
  V : ℕ → E
  H : ℕ → ℕ → ℂ
  beta : Option ℝ

open Classical in
/-- One pass of the loop of EPSDelayedArnoldi1 (lines 129-151). -/
noncomputable def d1step (A : E →ₗ[ℂ] E) (k : ℕ) (s : D1St E) (j : ℕ) : Option (D1St E) :=
  if k < j ∧ s.V j = 0 then none
  else some
    { V := vcol A k s.V j
      H := fun c i =>
        if c = j then (if i ≤ j then hcol k s.V (A (s.V j)) j i else s.H c i)
        else if c + 1 = j ∧ k < j ∧ i = j then (‖s.V j‖ : ℂ)
        else s.H c i
      beta := if k < j then some ‖s.V j‖ else s.beta }

/-- EPSDelayedArnoldi1 (lines 120-155), `g` passes from `j` on; `none` for a division by zero. -/
noncomputable def d1loop (A : E →ₗ[ℂ] E) (k : ℕ) : ℕ → ℕ → D1St E → Option (D1St E)
  | 0, _, s => some s
  | g + 1, j, s => match d1step A k s j with
    | none => none
    | some s' => d1loop A k g (j + 1) s'

noncomputable def delayed1 (A : E →ₗ[ℂ] E) (k m : ℕ) (V : ℕ → E) (H : ℕ → ℕ → ℂ) : Option (D1St E) :=
  d1loop A k (m - k) k { V := V, H := H, beta := none }

end Verif.Lan
