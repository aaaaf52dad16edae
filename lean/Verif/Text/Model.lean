import Mathlib.Analysis.Complex.Basic
import Mathlib.Algebra.BigOperators.Fin
/-!
Model of `PEPExtractVectors_TOAR` (src/pep/impls/krylov/pepkrylov.c:18-168) in complex arithmetic. A Ritz vector of the linearization is given by its blocks `u j` (`V*S_j*X(:,i)`, lines 57, 70, 93, 142 and 162).
-/
set_option linter.all false
namespace Verif.Text
noncomputable section
open Classical

variable {V : Type} [AddCommGroup V] [Module ℂ V]

/-- One converged value: `th` is the value at which the basis is evaluated (`er[i]`, pepkrylov.c:42-46), `u j` block `j` of the vector of the linearization, `res j` the norm computed
by `PEPComputeResidualNorm_Private` for block `j` (pepkrylov.c:99, not modelled). -/
structure Item (V : Type) where
  th : ℂ
  u : ℕ → V
  res : ℕ → ℝ

/-- `PEPExtract` (include/slepcpep.h) -/
inductive Extract
  | none | norm | residual | structured

/-- Update of `max` and `idxcpy` if a quantity is larger (pepkrylov.c:68, 100). -/
def upd (q : ℕ → ℝ) (s : ℝ × ℕ) (j : ℕ) : ℝ × ℕ := if s.1 < q j then (q j, j) else s

/-- Block selected by `PEP_EXTRACT_NORM` (pepkrylov.c:65-69); `idx` is the value of `idxcpy` left by the values before. -/
def normIdx (phi : ℕ → ℂ → ℂ) (deg : ℕ) (th : ℂ) (idx : ℕ) : ℕ :=
  ((List.range' 1 (deg - 1)).foldl (upd fun j => ‖phi j th‖) (1, idx)).2

/-- Block selected by `PEP_EXTRACT_RESIDUAL` (pepkrylov.c:91-101). -/
def resIdx (deg : ℕ) (res : ℕ → ℝ) (idx : ℕ) : ℕ := ((List.range deg).foldl (upd res) (0, idx)).2

/-- Structured extraction (pepkrylov.c:122-149): the sum of the blocks with the conjugate values, divided by `t`. -/
def structuredVec (phi : ℕ → ℂ → ℂ) (deg : ℕ) (a : Item V) : V :=
  (((∑ j ∈ Finset.range deg, ‖phi j a.th‖ ^ 2 : ℝ) : ℂ)⁻¹) • ∑ j ∈ Finset.range deg, (starRingEnd ℂ) (phi j a.th) • a.u j

/-- Loop over the converged values (pepkrylov.c:56-155); `idx` is `idxcpy`, set to 0 at the beginning (line 20) only. `PEP_EXTRACT_NONE`, also used with multiple refinement, takes block 0 (line 57). -/
def extractFrom (phi : ℕ → ℂ → ℂ) (deg : ℕ) (e : Extract) : ℕ → List (Item V) → List V
  | _, [] => []
  | idx, a :: l =>
    match e with
    | .none => a.u 0 :: extractFrom phi deg e idx l
    | .norm => a.u (normIdx phi deg a.th idx) :: extractFrom phi deg e (normIdx phi deg a.th idx) l
    | .residual => a.u (resIdx deg a.res idx) :: extractFrom phi deg e (resIdx deg a.res idx) l
    | .structured => structuredVec phi deg a :: extractFrom phi deg e idx l

/-- `PEPExtractVectors_TOAR` (pepkrylov.c:18-168). -/
def extract (phi : ℕ → ℂ → ℂ) (deg : ℕ) (e : Extract) (l : List (Item V)) : List V := extractFrom phi deg e 0 l

end
end Verif.Text
