import Verif.Cg.LineModel
import Verif.Cg.ResetModel
import Verif.Iter.RsvdModel

/-!
# EPSRQCG: one iteration

Models the main loop of EPSSolve_RQCG (src/eps/impls/cg/rqcg/rqcg.c:96-238) for standard problems in
exact arithmetic.  All columns of the basis are taken to exist from the beginning (lines 100-103); the
preconditioner (STApply, line 182) is a linear map; a division by zero is a failure.
-/
set_option linter.all false

namespace Verif.Cg

open Finset

variable {E : Type*} [NormedAddCommGroup E] [InnerProductSpace ℂ E]

/-- Columns of V, values, error estimates, columns of P, array gamma, eps->nconv. -/
structure RSt (E : Type*) where
  V : ℕ → E
  eigr : ℕ → ℝ
  errest : ℕ → ℝ
  P : ℕ → E
  gamma : ℕ → ℂ
  nconv : ℕ

/-- Options: eps->nev, ncv, mpd, max_it, tol and the convergence criterion (value, residual norm). -/
structure RCfg where
  nev : ℕ
  ncv : ℕ
  mpd : ℕ
  maxit : ℕ
  tol : ℝ
  conv : ℝ → ℝ → ℝ

/-- Line 98. -/
def RCfg.nv (c : RCfg) (nconv : ℕ) : ℕ := min (nconv + c.mpd) c.ncv

/-- Vectors at line 150; `rs`: eigenvector matrix and values of the dense solver if there is a reset (lines 106-137). -/
noncomputable def vecsAt (l n : ℕ) (rs : Option ((ℕ → ℕ → ℂ) × (ℕ → ℝ))) (V : ℕ → E) : ℕ → E :=
  match rs with
  | some (Q, _) => rotate V l n Q
  | none => V

/-- Values at line 150; without reset `diag(V'*A*V)` (lines 138-148). -/
noncomputable def valsAt (A : E →ₗ[ℂ] E) (l n : ℕ) (rs : Option ((ℕ → ℕ → ℂ) × (ℕ → ℝ))) (V : ℕ → E) (old : ℕ → ℝ) (i : ℕ) : ℝ :=
  if l ≤ i ∧ i < n then (match rs with | some (_, th) => th i | none => (inner ℂ (V i) (A (V i))).re) else old i

/-- Lines 153-163: gradient. -/
noncomputable def grad (A : E →ₗ[ℂ] E) (V : ℕ → E) (eigr : ℕ → ℝ) (i : ℕ) : E := A (V i) - (eigr i : ℂ) • V i

/-- Lines 164-166. -/
noncomputable def errAt (c : RCfg) (A : E →ₗ[ℂ] E) (l n : ℕ) (V : ℕ → E) (eigr old : ℕ → ℝ) (i : ℕ) : ℝ :=
  if l ≤ i ∧ i < n then c.conv (eigr i) ‖grad A V eigr i‖ else old i

open Classical in
/-- Lines 151-169: first index from `i` on, among `g`, with `errest>=tol`. -/
noncomputable def firstBad (tol : ℝ) (err : ℕ → ℝ) : ℕ → ℕ → ℕ
  | i, 0 => i
  | i, g + 1 => if tol ≤ err i then i else firstBad tol err (i + 1) g

/-- Line 170 with EPSStoppingBasic. -/
def stopB (c : RCfg) (its k : ℕ) : Bool := decide (c.nev ≤ k) || decide (c.maxit ≤ its)

/-- Lines 182-183: `g`. -/
noncomputable def gamAt (A K : E →ₗ[ℂ] E) (V : ℕ → E) (eigr : ℕ → ℝ) (j : ℕ) : ℂ := inner ℂ (grad A V eigr j) (K (grad A V eigr j))

/-- Lines 185-192: direction number `i` of the arrays, for vector `l+i`; orthogonalized against the vectors before it. -/
noncomputable def dirAt (A K : E →ₗ[ℂ] E) (V : ℕ → E) (eigr : ℕ → ℝ) (cg : Bool) (gamma : ℕ → ℂ) (P : ℕ → E) (l i : ℕ) : E :=
  Iter.gsCol V (i + l) (K (grad A V eigr (l + i)) + (if cg then gamAt A K V eigr (l + i) / gamma i else 0) • P i)

open Classical in
/-- Line 232: BVOrthonormalizeColumn; `rnd` replaces a zero vector. -/
noncomputable def normCol (V rnd : ℕ → E) (j : ℕ) (x : E) : E :=
  if Iter.gsCol V j x = 0 then rnd j else ((1 / ‖Iter.gsCol V j x‖ : ℝ) : ℂ) • Iter.gsCol V j x

/-- Lines 197-233: the first `g` vectors of the active ones, one after the other. -/
noncomputable def moves (A : E →ₗ[ℂ] E) (P rnd : ℕ → E) (l : ℕ) : ℕ → (ℕ → E) → (ℕ → E)
  | 0, V => V
  | g + 1, V => Function.update (moves A P rnd l g V) (l + g) (normCol (moves A P rnd l g V) rnd (l + g) (lineMove A LinearMap.id (moves A P rnd l g V (l + g)) (P g)))

open Classical in
/-- One iteration (lines 96-237) with number `its`; the result tells if the loop has ended. -/
noncomputable def iter (c : RCfg) (A K : E →ₗ[ℂ] E) (its : ℕ) (rs : Option ((ℕ → ℕ → ℂ) × (ℕ → ℝ))) (rnd : ℕ → E) (st : RSt E) : Option (RSt E × Bool) :=
  let n := c.nv st.nconv
  let V := vecsAt st.nconv n rs st.V
  let eigr := valsAt A st.nconv n rs st.V st.eigr
  let errest := errAt c A st.nconv n V eigr st.errest
  let k := firstBad c.tol errest st.nconv (n - st.nconv)
  let cg := rs.isNone && decide (1 < its)
  if stopB c its k then some ({ st with V := V, eigr := eigr, errest := errest, nconv := k }, true)
  else if cg = true ∧ ∃ i < n - st.nconv, st.gamma i = 0 then none
  else
    let P := fun i => if i < n - st.nconv then dirAt A K V eigr cg st.gamma st.P st.nconv i else st.P i
    some ({ V := moves A P rnd st.nconv (n - st.nconv) V, eigr := eigr, errest := errest, P := P,
            gamma := fun i => if i < n - st.nconv then gamAt A K V eigr (st.nconv + i) else st.gamma i, nconv := k }, false)

/-- The runs: any resets and replacements; the index is the number of iterations. -/
inductive Runs (c : RCfg) (A K : E →ₗ[ℂ] E) : ℕ → RSt E → ℕ → RSt E → Prop
  | refl (i : ℕ) (st : RSt E) : Runs c A K i st i st
  | step (i : ℕ) (st : RSt E) (j : ℕ) (st1 st2 : RSt E) (rs : Option ((ℕ → ℕ → ℂ) × (ℕ → ℝ))) (rnd : ℕ → E) (b : Bool) :
      Runs c A K i st j st1 → iter c A K (j + 1) rs rnd st1 = some (st2, b) → Runs c A K i st (j + 1) st2

end Verif.Cg
