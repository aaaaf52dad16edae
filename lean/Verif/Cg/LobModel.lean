import Mathlib.Tactic
import Mathlib.Analysis.InnerProductSpace.Basic
import Mathlib.Analysis.Complex.Basic
import Mathlib.LinearAlgebra.Matrix.ConjTranspose
import Mathlib.LinearAlgebra.Matrix.NonsingularInverse

/-!
# EPSLOBPCG: one iteration on a block

Models src/eps/impls/cg/lobpcg/lobpcg.c:336-378 (Gram matrices, projected problem, Ritz vectors) in
exact arithmetic.  The dense solver DSGHEP is given by its specification.
-/
set_option linter.all false

namespace Verif.Cg

open Matrix Finset

variable {E : Type*} [NormedAddCommGroup E] [InnerProductSpace ℂ E]

/-- Lines 337-345: columns of `Z`; with soft locking `ini` columns of `R` and `P` are left out. -/
def zcols (X R P : ℕ → E) (bs ini : ℕ) (i : ℕ) : E :=
  if i < bs then X i else if i < 2 * bs - ini then R (ini + (i - bs)) else P (ini + (i - (2 * bs - ini)))

/-- Lines 347-348. -/
def nvOf (bs ini its : ℕ) : ℕ := if its > 1 then 3 * bs - 2 * ini else 2 * bs - ini

/-- Lines 353, 357: `BVMatProject(Z,C,Z,M)`. -/
noncomputable def gram (C : E →ₗ[ℂ] E) (Z : ℕ → E) (nv : ℕ) : Matrix (Fin nv) (Fin nv) ℂ := fun i j => inner ℂ (Z i) (C (Z j))

/-- Lines 353-354: projection of `A`, with the sign changed to compute largest eigenvalues. -/
noncomputable def projA (flip : Bool) (A : E →ₗ[ℂ] E) (Z : ℕ → E) (nv : ℕ) : Matrix (Fin nv) (Fin nv) ℂ := if flip then -gram A Z nv else gram A Z nv

/-- Contract of DSSolve, DSSort and DSVectors for a definite pencil (lines 361-366): values in ascending order (line 107 for `flip`), orthonormal vectors. -/
structure SolvedG {nv : ℕ} (H G : Matrix (Fin nv) (Fin nv) ℂ) (eigr : Fin nv → ℝ) (M : Matrix (Fin nv) (Fin nv) ℂ) : Prop where
  eig : Mᴴ * H * M = diagonal (fun i => (eigr i : ℂ))
  orth : Mᴴ * G * M = 1
  sorted : Monotone eigr

/-- Line 365: value stored for the user. -/
def valueOf (flip : Bool) (x : ℝ) : ℝ := if flip then -x else x

/-- Lines 370-372: new directions, from the columns of `Z` after the first `bs`. -/
noncomputable def ritzP (Z : ℕ → E) (bs nv : ℕ) (M : Matrix (Fin nv) (Fin nv) ℂ) (j : ℕ) : E :=
  ∑ r : Fin nv with bs ≤ r.val, (if h : j < nv then M r ⟨j, h⟩ else 0) • Z r

/-- Lines 373-376: new iterates, the directions plus the combination of the first `bs` columns. -/
noncomputable def ritzX (Z : ℕ → E) (bs nv : ℕ) (M : Matrix (Fin nv) (Fin nv) ℂ) (j : ℕ) : E :=
  ritzP Z bs nv M j + ∑ r : Fin nv with ¬ bs ≤ r.val, (if h : j < nv then M r ⟨j, h⟩ else 0) • Z r

/-- Iterations on the same block: any preconditioned residuals `R` and any directions `P` (their values are those of lines 293-334). -/
inductive Iterated (A B : E →ₗ[ℂ] E) (flip : Bool) (bs : ℕ) : (ℕ → E) → (ℕ → ℝ) → (ℕ → E) → (ℕ → ℝ) → Prop
  | refl (X : ℕ → E) (t : ℕ → ℝ) : Iterated A B flip bs X t X t
  | step (X : ℕ → E) (t : ℕ → ℝ) (X1 : ℕ → E) (t1 : ℕ → ℝ) (R P : ℕ → E) (ini its : ℕ) (M : Matrix (Fin (nvOf bs ini its)) (Fin (nvOf bs ini its)) ℂ)
      (eigr : Fin (nvOf bs ini its) → ℝ) (t2 : ℕ → ℝ) : Iterated A B flip bs X t X1 t1 → ini ≤ bs →
      SolvedG (projA flip A (zcols X1 R P bs ini) (nvOf bs ini its)) (gram B (zcols X1 R P bs ini) (nvOf bs ini its)) eigr M →
      (∀ j : Fin (nvOf bs ini its), t2 j = valueOf flip (eigr j)) →
      Iterated A B flip bs X t (ritzX (zcols X1 R P bs ini) bs (nvOf bs ini its) M) t2

end Verif.Cg
