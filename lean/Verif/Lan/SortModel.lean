import Mathlib.Tactic

/-!
# EPSLANCZOS: marking and placement of converged Ritz values

Models the part of EPSSolve_Lanczos after the projected problem has been solved
(src/eps/impls/krylov/lanczos/lanczos.c:556-664).  The arrays `ritz`, `bnd`, `conv` and the
columns of `Y` (or of `V`) are one array of records, since the code always swaps them together.
-/
set_option linter.all false

namespace Verif.Lan

/-- One Ritz pair: value and vector (`val`), error estimate `bnd[i]` and mark `conv[i]`
(lanczos.c:449-454, 561-566). -/
structure Rec (β : Type) where
  val : β
  est : ℝ
  mark : Char

/-- `while (j<n && !p(j)) j++` with at most `n-j` steps; `none` when the end is reached
(lanczos.c:600-602, 648-650); for the search of line 612-613, which has no bound, `none` means that
the end of the array is passed. -/
def srch (p : ℕ → Bool) : ℕ → ℕ → Option ℕ
  | 0, _ => none
  | g + 1, j => if p j then some j else srch p g (j + 1)

/-- Swap of two entries (lanczos.c:603, 615-622, 652-660). -/
def swp {α : Type} (f : ℕ → α) (a b : ℕ) : ℕ → α :=
  fun i => if i = a then f b else if i = b then f a else f i

/-- The loop that moves entries satisfying `P` to the front (lanczos.c:598-605 on the array `perm`
and 646-663 on the records themselves); returns the array and the final loop index. -/
def part {α : Type} (P : α → Bool) (n : ℕ) : ℕ → ℕ → (ℕ → α) → (ℕ → α) × ℕ
  | 0, k, f => (f, k)
  | g + 1, k, f =>
    if P (f k) then part P n g (k + 1) f
    else match srch (fun j => P (f j)) (n - (k + 1)) (k + 1) with
      | none => (f, k)
      | some j => part P n g (k + 1) (swp f k j)

/-- The loop that applies the permutation in place (lanczos.c:609-624); `none` if the search for the
entry equal to `i` leaves the array. -/
def place {α : Type} (n : ℕ) : ℕ → ℕ → (ℕ → ℕ) → (ℕ → α) → Option (ℕ → α)
  | 0, _, _, a => some a
  | g + 1, i, perm, a =>
    if perm i = i then place n g (i + 1) perm a
    else match srch (fun j => decide (perm j = i)) (n - (i + 1)) (i + 1) with
      | none => none
      | some j =>
        place n g (i + 1) (Function.update (Function.update perm j (perm i)) i i) (swp a (perm i) i)

/-- Count and put converged values first (lanczos.c:597-624). -/
def sortConv {α : Type} (P : α → Bool) (nconv n : ℕ) (a : ℕ → α) : Option ((ℕ → α) × ℕ) :=
  let pk := part (fun i => P (a i)) n (n - nconv) nconv id
  (place n (pk.2 - nconv) nconv pk.1 a).map (fun b => (b, pk.2))

variable {β : Type}

/-- The test `conv[i]=='C'`. -/
def isC (r : Rec β) : Bool := r.mark == 'C'

/-- Re-evaluation of accepted pairs with the residual of the normalized vector
(lanczos.c:634-645); `res` is the error computed from value and vector. -/
noncomputable def spur (tol : ℝ) (res : β → ℝ) (nconv k : ℕ) (a : ℕ → Rec β) : ℕ → Rec β := by
  classical
  exact fun i => if nconv ≤ i ∧ i < k then
    { val := (a i).val, est := res (a i).val, mark := if tol ≤ res (a i).val then 'S' else (a i).mark }
    else a i

/-- Lines 597-664: sort, and with local reorthogonalization discard spurious values. -/
noncomputable def settle (tol : ℝ) (loc : Bool) (res : β → ℝ) (nconv n : ℕ) (a : ℕ → Rec β) :
    Option ((ℕ → Rec β) × ℕ) :=
  match sortConv isC nconv n a with
  | none => none
  | some (b, k) =>
    if loc then some (part isC k (k - nconv) nconv (spur tol res nconv k b)) else some (b, k)

/-- Marks before sorting (lanczos.c:564-565). -/
noncomputable def mark0 (tol : ℝ) (est : ℕ → ℝ) : ℕ → Char := by
  classical
  exact fun i => if est i < tol then 'C' else 'N'

/-- Purge of repeated values with local reorthogonalization (lanczos.c:570-574): the loop over `i`
from `nconv+1` on; each step changes only `conv[i]` and reads only `conv[i]` and the values. -/
noncomputable def markR (tol : ℝ) (ritz : ℕ → ℝ) (nconv : ℕ) (c : ℕ → Char) : ℕ → Char := by
  classical
  exact fun i => if nconv + 1 ≤ i ∧ c i = 'C' ∧ |(ritz i - ritz (i - 1)) / ritz i| < tol then 'R' else c i

/-- Choice of the Ritz vector for the restart (lanczos.c:584-589): replaced by each later unconverged
one that is strictly preferred.  Simplified: the sorting criterion is the comparison of a key. -/
noncomputable def restartLoop (c : ℕ → Char) (key : ℕ → ℝ) : ℕ → ℕ → ℕ → ℕ
  | 0, _, r => r
  | g + 1, i, r => by
    classical
    exact restartLoop c key g (i + 1) (if c i = 'N' ∧ key r < key i then i else r)

/-- First unconverged one, then the loop; `none` if there is none, in which case breakdown is set
(lanczos.c:579-593). -/
noncomputable def restartIdx (c : ℕ → Char) (key : ℕ → ℝ) (nconv n : ℕ) : Option ℕ :=
  match srch (fun j => c j == 'N') (n - nconv) nconv with
  | none => none
  | some r => some (restartLoop c key (n - (r + 1)) (r + 1) r)

end Verif.Lan
