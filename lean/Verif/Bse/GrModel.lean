import Verif.Bse.Model

/-!
Lanczos bidiagonalization of the variant GRUNING (ks-bse.c:217-402). The dense solver DSSVD of the restart is an input constrained by its
specification, no locked columns. Complex scalars, exact arithmetic; root of a negative number is `none`.
-/
set_option linter.all false

namespace Verif.Bse

open Finset Matrix

variable {n : ℕ}

/-- Four bases and the arrays `beta1`, `beta2` (columns of DS_MAT_T). -/
structure Gz (n : ℕ) where
  U : ℕ → Vc n
  V : ℕ → Vc n
  HU : ℕ → Vc n
  HV : ℕ → Vc n
  b1 : ℕ → ℝ
  b2 : ℕ → ℝ

/-- ks-bse.c:217-253 Orthog_Gruning: the vector updated (the accumulated coefficients are not used by the caller). -/
noncomputable def orthogG (s : Gz n) (j : ℕ) (x : Vc n) : Vc n :=
  x + (-2 : ℂ) • ∑ i ∈ range j, ((dot (s.HU i) x).re : ℂ) • s.U i + (-2 : ℂ) • ∑ i ∈ range j, (⟨0, (dot (s.HV i) x).im⟩ : ℂ) • s.V i

/-- ks-bse.c:345-348, 273-279: column of `V` before normalization. -/
noncomputable def newV (k j : ℕ) (s : Gz n) : Vc n :=
  s.HU j - ∑ i ∈ Ico (if j + 1 = k + 1 then 0 else j + 1 - 2) j, (s.b2 i : ℂ) • s.V i

/-- ks-bse.c:353-356: argument of the square root. -/
noncomputable def gamV (app : ℝ → Vc n → Vc n) (k j : ℕ) (s : Gz n) : ℝ := (2 * dot (app (-1) (newV k j s)) (newV k j s)).re

/-- ks-bse.c:342-367: first half of a pass (no scaling if the root is 0). -/
noncomputable def stepV (app : ℝ → Vc n → Vc n) (k j : ℕ) (s : Gz n) : Gz n :=
  let be := Real.sqrt (gamV app k j s)
  let sc : ℝ := if be = 0 then 1 else 1 / be
  { s with
    V := Function.update s.V j ((sc : ℂ) • newV k j s)
    HV := Function.update s.HV j ((sc : ℂ) • app (-1) (newV k j s))
    b1 := Function.update s.b1 j be }

/-- ks-bse.c:373-376, 264-271: next column of `U` before normalization. -/
noncomputable def newU (j : ℕ) (s : Gz n) : Vc n := orthogG s (j + 1) (s.HV j - (s.b1 j : ℂ) • s.U j)

/-- ks-bse.c:381-384: argument of the square root. -/
noncomputable def gamU (app : ℝ → Vc n → Vc n) (j : ℕ) (s : Gz n) : ℝ := (2 * dot (app 1 (newU j s)) (newU j s)).re

/-- ks-bse.c:370-395: second half of a pass. -/
noncomputable def stepU (app : ℝ → Vc n → Vc n) (j : ℕ) (s : Gz n) : Gz n :=
  let be := Real.sqrt (gamU app j s)
  let sc : ℝ := if be = 0 then 1 else 1 / be
  { s with
    U := Function.update s.U (j + 1) ((sc : ℂ) • newU j s)
    HU := Function.update s.HU (j + 1) ((sc : ℂ) • app 1 (newU j s))
    b2 := Function.update s.b2 j be }

/-- How the loop ended: all columns computed, `beta1[j]` zero, `beta2[j]` zero. -/
inductive GEnd
  | full | zero1 | zero2
  deriving DecidableEq

/-- Result of a factorization: bases, number of columns `*M`, and how it ended (the flag `breakdown` is set unless it is `full`). -/
structure OutG (n : ℕ) where
  s : Gz n
  m : ℕ
  e : GEnd

open Classical in
/-- ks-bse.c:340-396: loop over `j`, at most `t` passes. -/
noncomputable def lanczosG (app : ℝ → Vc n → Vc n) (k : ℕ) : ℕ → ℕ → Gz n → Option (OutG n)
  | 0, j, s => some ⟨s, j, .full⟩
  | t + 1, j, s =>
    if gamV app k j s < 0 then none
    else if Real.sqrt (gamV app k j s) = 0 then some ⟨stepV app k j s, j + 1, .zero1⟩
    else if gamU app j (stepV app k j s) < 0 then none
    else if Real.sqrt (gamU app j (stepV app k j s)) = 0 then some ⟨stepU app j (stepV app k j s), j + 1, .zero2⟩
    else lanczosG app k t (j + 1) (stepU app j (stepV app k j s))

/-- ks-bse.c:325-326. -/
noncomputable def gamG0 (app : ℝ → Vc n → Vc n) (s : Gz n) : ℝ := (2 * dot (app 1 (s.U 0)) (s.U 0)).re

/-- ks-bse.c:333-334. -/
noncomputable def normG0 (app : ℝ → Vc n → Vc n) (s : Gz n) : Gz n :=
  { s with
    U := Function.update s.U 0 (((1 / Real.sqrt (gamG0 app s) : ℝ) : ℂ) • s.U 0)
    HU := Function.update s.HU 0 (((1 / Real.sqrt (gamG0 app s) : ℝ) : ℂ) • app 1 (s.U 0)) }

open Classical in
/-- ks-bse.c:315-396 EPSBSELanczos_Gruning with `k = 0`. -/
noncomputable def gruning0 (app : ℝ → Vc n → Vc n) (m : ℕ) (s : Gz n) : Option (OutG n) :=
  if gamG0 app s < 0 then none
  else if Real.sqrt (gamG0 app s) = 0 then some ⟨{ s with HU := Function.update s.HU 0 (app 1 (s.U 0)) }, 1, .zero2⟩
  else lanczosG app 0 m 0 (normG0 app s)

/-- dssvd.c:66-79 (DSSwitchFormat_SVD): the matrix represented by the arrays with `ds->k = k`. -/
def bidi (k : ℕ) (b1 b2 : ℕ → ℝ) (l i : ℕ) : ℝ :=
  if l = i then b1 i else if (l < k ∧ i = k) ∨ (k ≤ l ∧ i = l + 1) then b2 l else 0

/-- Specification of DSSolve for DSSVD: `T = Q diag(sg) Z^T` with orthogonal `Q` and `Z`, in the form of the two products. -/
structure Svd (T : ℕ → ℕ → ℝ) (m : ℕ) (Q Z : ℕ → ℕ → ℝ) (sg : ℕ → ℝ) : Prop where
  orthoQ : ∀ i < m, ∀ l < m, ∑ r ∈ range m, Q r i * Q r l = if i = l then 1 else 0
  orthoZ : ∀ i < m, ∀ l < m, ∑ r ∈ range m, Z r i * Z r l = if i = l then 1 else 0
  right : ∀ i < m, ∀ r < m, ∑ c ∈ range m, T r c * Z c i = sg i * Q r i
  left : ∀ i < m, ∀ c < m, ∑ r ∈ range m, T r c * Q r i = sg i * Z c i

/-- Restart of EPSSolve_KrylovSchur_BSE_Gruning: `U` and `HU` times `Z`, `V` and `HV` times `Q`, column `m` of `U` and `HU` to position
`p`, DSUpdateExtraRow_SVD (dssvd.c:203-206) and DSTruncate_SVD. -/
noncomputable def restartG (Q Z : ℕ → ℕ → ℝ) (sg : ℕ → ℝ) (m p : ℕ) (s : Gz n) : Gz n where
  U := fun i => if i < p then ∑ r ∈ range m, (Z r i : ℂ) • s.U r else if i = p then s.U m else s.U i
  HU := fun i => if i < p then ∑ r ∈ range m, (Z r i : ℂ) • s.HU r else if i = p then s.HU m else s.HU i
  V := fun i => if i < p then ∑ r ∈ range m, (Q r i : ℂ) • s.V r else s.V i
  HV := fun i => if i < p then ∑ r ∈ range m, (Q r i : ℂ) • s.HV r else s.HV i
  b1 := sg
  b2 := fun i => s.b2 (m - 1) * Q (m - 1) i

/-- States after complete factorizations of `m` columns, `k` columns kept by the last restart. -/
inductive RunG (app : ℝ → Vc n → Vc n) (m : ℕ) (s0 : Gz n) : ℕ → Gz n → Prop
  | first (s : Gz n) : gruning0 app m s0 = some ⟨s, m, .full⟩ → RunG app m s0 0 s
  | next (k p : ℕ) (s s' : Gz n) (Q Z : ℕ → ℕ → ℝ) (sg : ℕ → ℝ) : RunG app m s0 k s → Svd (bidi k s.b1 s.b2) m Q Z sg → 0 < p → p < m →
      lanczosG app p (m - p) p (restartG Q Z sg m p s) = some ⟨s', m, .full⟩ → RunG app m s0 p s'

end Verif.Bse
