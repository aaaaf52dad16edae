import Mathlib.Tactic
import Mathlib.Analysis.Complex.Basic

/-!
# DSSort of the two-sided dense problem: matching of eigenvalues

Models src/sys/classes/ds/impls/nhepts/dsnhepts.c:212-225 (DSSort_NHEPTS): the permutation `p` handed to DSSortWithPermutation (C59), position `i` receives the left
eigenvalue of old position `p i`. `l` are the left eigenvalues (already conjugated), `r` the right ones. All distances are below PETSC_MAX_REAL.
-/
set_option linter.all false

namespace Verif.Ts

/-- Lines 220-221: search for the smallest distance, the first one if repeated. -/
noncomputable def best (d : ℕ → ℝ) : ℕ → List ℕ → ℕ
  | b, [] => b
  | b, j :: js => if d j < d b then best d j js else best d b js

/-- Lines 219-224: each position of the list takes the closest of the positions still available (`idx2[j]!=-1`). -/
noncomputable def greedy (d : ℕ → ℕ → ℝ) : List ℕ → List ℕ → (ℕ → ℕ) → ℕ → ℕ
  | [], _, p => p
  | _ :: _, [], p => p
  | i :: is, a :: av, p => greedy d is ((a :: av).erase (best (d i) a av)) (Function.update p i (best (d i) a av))

/-- Distance between the left value of position `j` and the right value of position `i`. -/
noncomputable def dist' (l r : ℕ → ℂ) (i j : ℕ) : ℝ := ‖l j - r i‖

/-- Lines 213-216: positions where both values differ by more than the tolerance. -/
noncomputable def mismatch (tol : ℝ) (n : ℕ) (l r : ℕ → ℂ) : List ℕ := (List.range n).filter fun i => decide (dist' l r i i > tol)

/-- Lines 212-225: the permutation; positions without mismatch are kept. -/
noncomputable def matchPerm (tol : ℝ) (n : ℕ) (l r : ℕ → ℂ) : ℕ → ℕ := greedy (dist' l r) (mismatch tol n l r) (mismatch tol n l r) id

end Verif.Ts
