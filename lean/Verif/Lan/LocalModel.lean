import Verif.Iter.SubspaceModel
import Mathlib.Tactic

/-!
# EPSLANCZOS: Lanczos steps with local reorthogonalization

Models EPSLocalLanczos (src/eps/impls/krylov/lanczos/lanczos.c:89-120) in exact arithmetic.  The
inner product of the space stands for that of the BV object (with or without matrix B).
-/
set_option linter.all false

namespace Verif.Lan

open Finset Verif.Iter

variable {E : Type} [NormedAddCommGroup E] [InnerProductSpace ℂ E]

/-- Modified Gram-Schmidt against the columns `p < i` selected by `which`
(BVOrthogonalizeMGS1, src/sys/classes/bv/interface/bvorthog.c:52-88, one pass). -/
noncomputable def mgs (V : ℕ → E) (which : ℕ → Bool) : ℕ → E → E
  | 0, w => w
  | i + 1, w => if which i then mgs V which i w - inner ℂ (V i) (mgs V which i w) • V i else mgs V which i w

/-- State of the loop: basis, array `which`, `alpha`, `beta`, `*breakdown`, `*M`. -/
structure LSt (E : Type) where
  V : ℕ → E
  which : ℕ → Bool
  al : ℕ → ℝ
  be : ℕ → ℝ
  brk : Bool
  M : ℕ

/-- Selection used at step `j` (lanczos.c:108-109). -/
def wsel (k : ℕ) (which : ℕ → Bool) (j : ℕ) : ℕ → Bool :=
  if k + 2 ≤ j then Function.update (Function.update which j true) (j - 2) false
  else Function.update which j true

open Classical in
/-- One step (lanczos.c:107-115).  Simplified: breakdown is an exactly zero norm; refinement passes
of the orthogonalization, which change nothing in exact arithmetic, are left out. -/
noncomputable def lstep (A : E →ₗ[ℂ] E) (k : ℕ) (s : LSt E) (j : ℕ) : LSt E :=
  let wh := wsel k s.which j
  let w := mgs s.V wh (j + 1) (A (s.V j))
  { V := if w = 0 then s.V else Function.update s.V (j + 1) (((1 / ‖w‖ : ℝ) : ℂ) • w)
    which := wh
    al := Function.update s.al j (inner ℂ (s.V j) (mgs s.V wh j (A (s.V j)))).re
    be := Function.update s.be j ‖w‖
    brk := decide (w = 0)
    M := if w = 0 then j + 1 else s.M }

/-- The loop (lanczos.c:106-116), `g` steps from `j` on. -/
noncomputable def lloop (A : E →ₗ[ℂ] E) (k : ℕ) : ℕ → ℕ → LSt E → LSt E
  | 0, _, s => s
  | g + 1, j, s => if (lstep A k s j).brk then lstep A k s j else lloop A k g (j + 1) (lstep A k s j)

/-- State before the loop (lanczos.c:102); entries of `which` from `k` on are set before use. -/
def linit (V : ℕ → E) (k m : ℕ) (al be : ℕ → ℝ) : LSt E :=
  { V := V, which := fun i => decide (i < k), al := al, be := be, brk := false, M := m }

/-- EPSLocalLanczos with `k` locked columns and `m` columns in total. -/
noncomputable def localLanczos (A : E →ₗ[ℂ] E) (k m : ℕ) (V : ℕ → E) (al be : ℕ → ℝ) : LSt E :=
  lloop A k (m - k) k (linit V k m al be)

end Verif.Lan
