import Mathlib.Tactic
import Mathlib.Analysis.InnerProductSpace.Basic
import Mathlib.Analysis.InnerProductSpace.Symmetric
import Mathlib.Analysis.Complex.Basic

/-!
# EPSRQCG: the reset

Models src/eps/impls/cg/rqcg/rqcg.c:106-137 (Rayleigh-Ritz projection of the active vectors) together
with the way the dense solver DSHEP reads and leaves its matrix
(src/sys/classes/ds/impls/hep/dshep.c:297-308, 410-417, 338-342) and lines 172-175 of rqcg.c.
-/
set_option linter.all false

namespace Verif.Cg

open Finset

variable {E : Type*} [NormedAddCommGroup E] [InnerProductSpace ℂ E]

/-- Lines 116-118: column `i` of the array, rows `l..i` (`BVDotVec` with active columns `l..i`). -/
noncomputable def fillCol (A : E →ₗ[ℂ] E) (V : ℕ → E) (l i : ℕ) (C : ℕ → ℕ → ℂ) : ℕ → ℕ → ℂ :=
  fun r c => if c = i ∧ l ≤ r ∧ r ≤ i then inner ℂ (V r) (A (V i)) else C r c

/-- Line 120: `for (j=nconv;j<i-1;j++) C[i+j*ld] = conj(C[j+i*ld])`. -/
noncomputable def fillRow (l i : ℕ) (C : ℕ → ℕ → ℂ) : ℕ → ℕ → ℂ :=
  fun r c => if r = i ∧ l ≤ c ∧ c < i - 1 then star (C c i) else C r c

/-- Lines 115-121, `g` passes from `i = l` on. -/
noncomputable def fill (A : E →ₗ[ℂ] E) (V : ℕ → E) (l : ℕ) : ℕ → (ℕ → ℕ → ℂ) → (ℕ → ℕ → ℂ)
  | 0, C => C
  | g + 1, C => fillRow l (l + g) (fillCol A V l (l + g) (fill A V l g C))

/-- dshep.c:300, 307: the reduction to tridiagonal form reads the lower triangle (`"L"`). -/
noncomputable def readL (C : ℕ → ℕ → ℂ) (i j : ℕ) : ℂ := if j ≤ i then C i j else star (C j i)

/-- Contract of the dense solver on the block `l..n-1` of a Hermitian matrix: unitary eigenvector matrix. -/
structure Solved (M : ℕ → ℕ → ℂ) (l n : ℕ) (th : ℕ → ℝ) (Q : ℕ → ℕ → ℂ) : Prop where
  eig : ∀ i, l ≤ i → i < n → ∀ j, l ≤ j → j < n → ∑ r ∈ Ico l n, M i r * Q r j = Q i j * (th j : ℂ)
  cols : ∀ i, l ≤ i → i < n → ∀ j, l ≤ j → j < n → ∑ r ∈ Ico l n, star (Q r i) * Q r j = if i = j then 1 else 0
  rows : ∀ i, l ≤ i → i < n → ∀ j, l ≤ j → j < n → ∑ r ∈ Ico l n, Q i r * star (Q j r) = if i = j then 1 else 0

/-- Line 132: `BVMultInPlace(V,Q,nconv,nv)`. -/
noncomputable def rotate (V : ℕ → E) (l n : ℕ) (Q : ℕ → ℕ → ℂ) : ℕ → E :=
  fun j => if l ≤ j ∧ j < n then ∑ i ∈ Ico l n, Q i j • V i else V j

/-- dshep.c:414-415 and 340: the block is zeroed and the eigenvalues are stored on the diagonal. -/
noncomputable def leaveDiag (l n : ℕ) (th : ℕ → ℝ) (C : ℕ → ℕ → ℂ) : ℕ → ℕ → ℂ :=
  fun r c => if l ≤ r ∧ r < n ∧ l ≤ c ∧ c < n then (if r = c then (th r : ℂ) else 0) else C r c

/-- rqcg.c:174: `C[i+i*ld] = eigr[i]` for `nconv<=i<k`. -/
noncomputable def storeDiag (l k : ℕ) (th : ℕ → ℝ) (C : ℕ → ℕ → ℂ) : ℕ → ℕ → ℂ :=
  fun r c => if l ≤ r ∧ r < k ∧ r = c then (th r : ℂ) else C r c

/-- Contents of the array when a reset with `nconv = l` begins: zero after DSAllocate; changed by resets with smaller or
equal `nconv` and by the stores on the diagonal. -/
inductive ArrayAt (A : E →ₗ[ℂ] E) : ℕ → (ℕ → ℕ → ℂ) → Prop
  | init : ArrayAt A 0 (fun _ _ => 0)
  | reset (l n : ℕ) (V : ℕ → E) (th : ℕ → ℝ) (C : ℕ → ℕ → ℂ) : ArrayAt A l C → ArrayAt A l (leaveDiag l n th (fill A V l (n - l) C))
  | store (l k : ℕ) (th : ℕ → ℝ) (C : ℕ → ℕ → ℂ) : ArrayAt A l C → ArrayAt A l (storeDiag l k th C)
  | lock (l k : ℕ) (C : ℕ → ℕ → ℂ) : ArrayAt A l C → l ≤ k → ArrayAt A k C

end Verif.Cg
