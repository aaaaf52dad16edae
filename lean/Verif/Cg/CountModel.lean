import Mathlib.Tactic
import Mathlib.Data.Real.Basic
import Mathlib.Algebra.Order.Floor.Semiring

/-!
# EPSLOBPCG: dimensions and counters

Models EPSSetDimensions_LOBPCG, the computation of the number of guard vectors and the counters of
EPSSolve_LOBPCG (src/eps/impls/cg/lobpcg/lobpcg.c:40-54, 63-76, 113-138, 164-220, 236-253, 347-348, 383) with
EPSStoppingBasic (src/eps/interface/epsdefault.c:286-298).  The number of converged vectors counted in each pass is an input.
-/
set_option linter.all false

namespace Verif.Cg

/-- Lines 46-52 (nev already at least 1, mpd = 3*bs); `user`: ncv given by the user; `none`: error. -/
def ncvOf (nev bs : ℕ) (user : Option ℕ) : Option ℕ :=
  match user with
  | some ncv => if max (3 * bs) (((nev - 1) / bs + 3) * bs) ≤ ncv then some ncv else none
  | none => some (max (3 * bs) (((nev - 1) / bs + 3) * bs))

/-- Lines 75-76: number of guard vectors. -/
noncomputable def guardOf (bs : ℕ) (restart : ℝ) : ℕ := if bs = 1 then 0 else min ⌊(1 - restart) * bs + 0.45⌋₊ (bs - 1)

/-- Parameters: nev, block size, number of columns, guard vectors, deflation vectors, soft locking, maximum number of iterations. -/
structure LCfg where
  nev : ℕ
  bs : ℕ
  ncv : ℕ
  guard : ℕ
  nc : ℕ
  lock : Bool
  maxit : ℕ

/-- Counters `locked`, `nconv`, `its`, `eps->its`; number of expansions of the search space and of blocks locked so far. -/
structure LSt where
  locked : ℕ
  nconv : ℕ
  its : ℕ
  epsits : ℤ
  exps : ℕ
  locks : ℕ

/-- Lines 164-166. -/
def lstart : LSt := ⟨0, 0, 0, 0, 0, 0⟩

/-- Line 178. -/
def LSt.ini (c : LCfg) (s : LSt) : ℕ := if c.lock then s.nconv else 0

/-- Line 207 with EPSStoppingBasic; `k`: vectors of the block counted as converged. -/
def lstop (c : LCfg) (s : LSt) (k : ℕ) : Prop := c.nev ≤ s.locked + k ∨ (c.maxit : ℤ) ≤ s.epsits + s.its

/-- Lines 208, 215, 220: the block is locked. -/
def lhard (c : LCfg) (k : ℕ) : Prop := c.bs - c.guard ≤ k

instance (c : LCfg) (s : LSt) (k : ℕ) : Decidable (lstop c s k) := inferInstanceAs (Decidable (_ ∨ _))
instance (c : LCfg) (k : ℕ) : Decidable (lhard c k) := inferInstanceAs (Decidable (_ ≤ _))

/-- One pass of the main loop that does not end it (lines 204-281, 284-379). -/
def lpass (c : LCfg) (s : LSt) (k : ℕ) : LSt :=
  if lhard c k then { locked := s.locked + k, nconv := 0, its := 0, epsits := s.epsits + (s.its - 1), exps := s.exps, locks := s.locks + 1 }
  else { locked := s.locked, nconv := k, its := s.its + 1, epsits := s.epsits, exps := s.exps + 1, locks := s.locks }

/-- Line 383: iteration number at the end. -/
def LSt.result (s : LSt) : ℤ := s.epsits + s.its

/-- States at the beginning of a pass; the second argument is the number of passes done. -/
inductive LReach (c : LCfg) : LSt → ℕ → Prop
  | init : LReach c lstart 0
  | pass (s : LSt) (p k : ℕ) : LReach c s p → s.ini c ≤ k → k ≤ c.bs → ¬ lstop c s k → LReach c (lpass c s k) (p + 1)

/-- Number of columns of V that hold a vector: those generated in lines 134-137. -/
def LCfg.gen (c : LCfg) : ℕ := c.ncv - c.bs

/-- Accesses of a pass with `k` vectors counted: values and error estimates (lines 184, 197), copy to V (lines 209-211), when locking the basis Y exists
(line 122) and has enough columns (line 223) and the new initial vectors have been generated (line 237), columns of Z and size of the projected problem (lines 343-351). -/
def Within (c : LCfg) (s : LSt) (k : ℕ) : Prop :=
  s.locked + c.bs ≤ c.ncv ∧ s.locked + k ≤ c.ncv ∧
  (¬ lstop c s k → lhard c k → (0 < c.nc ∨ c.bs - c.guard < c.nev) ∧ c.nc + s.locked + k ≤ c.nc + c.nev ∧ s.locked + c.bs + k ≤ c.gen) ∧
  (¬ lstop c s k → ¬ lhard c k → 3 * c.bs - 2 * (if c.lock then k else 0) ≤ 3 * c.bs)

/-- Parameters as accepted by the set-up. -/
structure SetUpL (c : LCfg) : Prop where
  nev : 0 < c.nev
  bs : 0 < c.bs
  ncv : ∃ user, ncvOf c.nev c.bs user = some c.ncv
  guard : ∃ restart : ℝ, 0.1 ≤ restart ∧ restart ≤ 1 ∧ c.guard = guardOf c.bs restart

end Verif.Cg
