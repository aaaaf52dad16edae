import Mathlib.Analysis.Complex.Basic
import Mathlib.Data.Matrix.Mul
import Mathlib.LinearAlgebra.Matrix.ConjTranspose

/-! Model of `NEPApplyResolvent` (src/nep/interface/nepresolv.c). The scalars are `K` (complex, or real with the trivial conjugation). A vector is
known to the code by its object id and state; `content id state` are its entries. -/
set_option linter.all false
noncomputable section
open Classical

namespace Verif.NEP.Resolv

variable {K : Type} [Field K] [StarRing K] {ι : Type} [Fintype ι]

/-- The solved problem: number of converged pairs, values `eigr`, columns of `V` and `W`, and the Jacobian `T'` (nepresolv.c:47-52). -/
structure Solved (K ι : Type) where
  nconv : ℕ
  eigr : ℕ → K
  x : ℕ → ι → K
  y : ℕ → ι → K
  jac : K → Matrix ι ι K

/-- `NEP_RESOLVENT_MATSHELL` (nepresolv.c:16-26); an entry is available iff it is `some`. `PetscNew` and `PetscCalloc4` (122, 124) set everything to
zero. -/
structure Ctx (K : Type) where
  nfactor : ℕ → Option K
  dots : ℕ → Option K
  vid : ℕ
  vstate : ℕ

/-- New context (nepresolv.c:122-124). -/
def Ctx.new : Ctx K := ⟨fun _ => none, fun _ => none, 0, 0⟩

/-- `VecDot(v,y)`: `y^* v`. -/
def vecDot (v y : ι → K) : K := ∑ i, star (y i) * v i

/-- The body of the loop for one index (nepresolv.c:48-65); `inside` is the value of `RGCheckInside` or 1. -/
def body (S : Solved K ι) (omega : K) (inside : ℕ → Int) (v : ι → K) (st : Ctx K × (ι → K)) (i : ℕ) : Ctx K × (ι → K) :=
  if 0 ≤ inside i then
    let w := (S.jac (S.eigr i)).mulVec (S.x i)
    let d := (st.1.dots i).getD (vecDot v (S.y i))
    let n := (st.1.nfactor i).getD (vecDot w (S.y i))
    let alpha := d / (n * (omega - S.eigr i))
    (⟨Function.update st.1.nfactor i (some n), Function.update st.1.dots i (some d), st.1.vid, st.1.vstate⟩, st.2 + alpha • S.x i)
  else st

/-- Invalidation of the inner products (nepresolv.c:41-45). -/
def check (c : Ctx K) (id state : ℕ) : Ctx K :=
  if id ≠ c.vid ∨ state ≠ c.vstate then ⟨c.nfactor, fun _ => none, id, state⟩ else c

/-- `MatMult_Resolvent` (nepresolv.c:28-68). -/
def matMult (S : Solved K ι) (omega : K) (inside : ℕ → Int) (content : ℕ → ℕ → ι → K) (id state : ℕ) (c : Ctx K) : Ctx K × (ι → K) :=
  (List.range S.nconv).foldl (body S omega inside (content id state)) (check c id state, 0)

/-- A call of `NEPApplyResolvent`. -/
structure Call (K : Type) where
  omega : K
  inside : ℕ → Int
  id : ℕ
  state : ℕ

/-- Context after a list of calls (last first); it is created by the first one (nepresolv.c:121-128). -/
def after (S : Solved K ι) (content : ℕ → ℕ → ι → K) : List (Call K) → Ctx K
  | [] => Ctx.new
  | k :: l => (matMult S k.omega k.inside content k.id k.state (after S content l)).1

/-- Result of a call after other ones. -/
def result (S : Solved K ι) (content : ℕ → ℕ → ι → K) (l : List (Call K)) (k : Call K) : ι → K :=
  (matMult S k.omega k.inside content k.id k.state (after S content l)).2

end Verif.NEP.Resolv
