import Mathlib.Tactic

/-!
# EPSLANCZOS: the residual norm returned by the variants

Models the assignments of `beta`, `norm`, `*breakdown` and `*M` in EPSLocalLanczos,
EPSSelectiveLanczos and EPSPartialLanczos (src/eps/impls/krylov/lanczos/lanczos.c:106-116, 197-252,
370-431) and `*betam = beta[*m-1]` in EPSBasicLanczos (lines 471, 485, 493).  The results of the
orthogonalizations are inputs.
-/
set_option linter.all false

namespace Verif.Lan

/-- What the orthogonalizations of one step return: norm and breakdown of the first and, if there is
one, of the second; whether the norm is tiny (line 421); whether to switch to full reorthogonalization (line 425). -/
structure Orth where
  norm1 : ℝ
  brk1 : Bool
  second : Bool
  norm2 : ℝ
  brk2 : Bool
  tiny : Bool
  toFro : Bool

/-- Array `beta`, flag `fro`, norm of the last residual vector, and `*M` if the loop has been left. -/
structure BSt where
  beta : ℕ → ℝ
  fro : Bool
  norm : ℝ
  left : Option ℕ

/-- One step of EPSPartialLanczos (lines 372-430); in mode `fro` there is only one orthogonalization. -/
noncomputable def pstep (s : BSt) (j : ℕ) (o : Orth) : BSt :=
  let norm := if s.fro then o.norm1 else if o.second then o.norm2 else o.norm1
  let brk := if s.fro then o.brk1 else if o.second then o.brk2 else o.brk1
  let beta1 := if s.fro then s.beta else Function.update s.beta j o.norm1
  if brk || o.tiny then { beta := beta1, fro := s.fro, norm := norm, left := some (j + 1) }
  else { beta := Function.update beta1 j norm, fro := s.fro || o.toFro, norm := norm, left := none }

/-- One step of EPSSelectiveLanczos (lines 204-251); the second orthogonalization is that against nearly
converged Ritz vectors. -/
noncomputable def sstep (s : BSt) (j : ℕ) (o : Orth) : BSt :=
  let beta1 := Function.update s.beta j o.norm1
  if o.brk1 then { s with beta := beta1, norm := o.norm1, left := some (j + 1) }
  else if o.second then
    (if o.brk2 then { s with beta := beta1, norm := o.norm2, left := some (j + 1) }
    else { s with beta := beta1, norm := o.norm2, left := none })
  else { s with beta := beta1, norm := o.norm1, left := none }

/-- One step of EPSLocalLanczos (lines 110-115). -/
noncomputable def lbstep (s : BSt) (j : ℕ) (o : Orth) : BSt :=
  { s with beta := Function.update s.beta j o.norm1, norm := o.norm1, left := if o.brk1 then some (j + 1) else none }

/-- The loop over `j`, `g` steps, left when a step says so. -/
def bloop (step : BSt → ℕ → Orth → BSt) (o : ℕ → Orth) : ℕ → ℕ → BSt → BSt
  | 0, _, s => s
  | g + 1, j, s => match (step s j (o j)).left with
    | some _ => step s j (o j)
    | none => bloop step o g (j + 1) (step s j (o j))

/-- The value `*betam` of EPSBasicLanczos, with `m` columns requested. -/
def betam (m : ℕ) (s : BSt) : ℝ := s.beta (s.left.getD m - 1)

end Verif.Lan
