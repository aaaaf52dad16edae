import Mathlib.Analysis.Complex.Norm
import Mathlib.Data.Real.Sqrt

/-!
Model of the composite vectors (src/sys/vec/veccomp.c, veccomp0.h).

A vector held by one process is a list of components, each the list of its local entries; a parallel
composite vector is the list of these over the processes.  The components' own local operations
(`VecDot_Seq`, `VecNorm_Seq`, ...) are modelled by their mathematical definition; scalars are complex
and exact, but a quotient 0/0 is a distinct outcome (`none`), since in floating point it is a NaN which
no later operation removes.  `MPI_Allreduce` combines the contributions of the processes along an
arbitrary binary tree, in any order.
-/
set_option linter.all false

namespace Verif.VecComp

/-- Local part of a composite vector: entries of each component. -/
abbrev Local := List (List ℂ)

/-- A reduction order: a binary tree over the contributions. -/
inductive Tree (α : Type) where
  | leaf : α → Tree α
  | node : Tree α → Tree α → Tree α

/-- The contributions of a tree. -/
def Tree.leaves {α : Type} : Tree α → List α
  | .leaf a => [a]
  | .node l r => l.leaves ++ r.leaves

/-- `MPI_Allreduce` with an operation, which may be undefined. -/
def Tree.reduce {α : Type} (op : α → α → Option α) : Tree α → Option α
  | .leaf a => some a
  | .node l r => (l.reduce op).bind fun a => (r.reduce op).bind fun b => op a b

/-- Entrywise products of two local arrays: `VecDot_Seq(x,y)` is `y^H x`. -/
def dotSeq (x y : List ℂ) : ℂ := (List.zipWith (fun a b => a * star b) x y).sum

/-- `VecTDot_Seq`: no conjugation. -/
def tdotSeq (x y : List ℂ) : ℂ := (List.zipWith (fun a b => a * b) x y).sum

/-- The loop of `VecDot_Comp`/`VecTDot_Comp`, veccomp0.h:31-35 (109-113). -/
def dotLoop (dot : List ℂ → List ℂ → ℂ) (a b : Local) : ℂ :=
  (List.zip a b).foldl (fun sum p => sum + dot p.1 p.2) 0

/-- `VecMDot_Comp`/`VecMTDot_Comp`, veccomp0.h:61-86 (139-164): `r[i]` for `n` vectors `b[i]`.  The
early return of line 61-63 sets only `z[0]`; the others keep the incoming `z`. -/
def mdotLoop (dot : List ℂ → List ℂ → ℂ) (a : Local) (b : ℕ → Local) (z : ℕ → ℂ) : ℕ → ℂ :=
  if a.length = 0 then fun i => if i = 0 then 0 else z i
  else (List.range a.length).foldl
    (fun r j => fun i => r i + dot (a.getD j []) ((b i).getD j [])) (fun _ => 0)

/-- The norms of PETSc. -/
inductive NormType where
  | one | two | inf | oneAndTwo
  deriving DecidableEq

/-- `VecNorm_Seq` 1-norm. -/
noncomputable def norm1Seq (x : List ℂ) : ℝ := (x.map (‖·‖)).sum

/-- `VecNorm_Seq` 2-norm. -/
noncomputable def norm2Seq (x : List ℂ) : ℝ := Real.sqrt ((x.map (‖·‖ ^ 2)).sum)

/-- `VecNorm_Seq` infinity norm. -/
noncomputable def normInfSeq (x : List ℂ) : ℝ := (x.map (‖·‖)).foldl max 0

/-- `AddNorm2`, veccomp.c:48-62; state is `(ssq, scale)`. -/
noncomputable def addNorm2 (s : ℝ × ℝ) (x : ℝ) : ℝ × ℝ :=
  if x ≠ 0 then
    if s.2 < |x| then (1 + s.1 * (s.2 / |x|) * (s.2 / |x|), |x|)
    else (s.1 + (|x| / s.2) * (|x| / s.2), s.2)
  else s

/-- A division, undefined for a zero divisor. -/
noncomputable def divide (a b : ℝ) : Option ℝ := if b = 0 then none else some (a / b)

/-- `SumNorm2`, veccomp.c:30-41: `a` is combined into `b`; pairs are `(ssq, scale)`. -/
noncomputable def sumNorm2 (a b : ℝ × ℝ) : Option (ℝ × ℝ) :=
  if a.2 > b.2 then (divide b.2 a.2).map fun q => (a.1 + q * q * b.1, a.2)
  else (divide a.2 b.2).map fun q => (b.1 + q * q * a.1, b.2)

/-- `GetNorm2`, veccomp.c:43-46. -/
noncomputable def getNorm2 (s : ℝ × ℝ) : ℝ := s.2 * Real.sqrt s.1

/-- The loop of `VecNorm_Comp` for the 2-norm in one process, veccomp0.h:192-213. -/
noncomputable def norm2Loop (x : Local) : ℝ × ℝ :=
  x.foldl (fun s c => addNorm2 s (norm2Seq c)) (1, 0)

/-- The loop for the 1-norm, veccomp0.h:188-210. -/
noncomputable def norm1Loop (x : Local) : ℝ := x.foldl (fun s c => s + norm1Seq c) 0

/-- The loop for the infinity norm, veccomp0.h:189-220. -/
noncomputable def normInfLoop (x : Local) : ℝ := x.foldl (fun s c => max s (normInfSeq c)) 0

/-- `VecNorm_Comp_Seq`: 2-norm with the correction of veccomp0.h:262-265. -/
noncomputable def norm2CompSeq (x : Local) : ℝ := getNorm2 (norm2Loop x)

/-- `VecNorm_Comp_MPI`, 2-norm, components with local norms: reduction of the pairs along `t`
(veccomp0.h:235-241). -/
noncomputable def norm2CompMPI (t : Tree Local) : Option ℝ :=
  let rec go : Tree Local → Tree (ℝ × ℝ)
    | .leaf x => .leaf (norm2Loop x)
    | .node l r => .node (go l) (go r)
  ((go t).reduce sumNorm2).map getNorm2

/-- `VecNorm_Comp_MPI`, 2-norm, components *without* local norms: the parallel norms `ws` of the
components are accumulated, and veccomp0.h:226-255 performs no correction. -/
noncomputable def norm2CompMPINoLocal (ws : List ℝ) : ℝ := (ws.foldl addNorm2 (1, 0)).1

/-- The same in `VecNorm_Comp_Seq`, with the correction. -/
noncomputable def norm2CompSeqNoLocal (ws : List ℝ) : ℝ := getNorm2 (ws.foldl addNorm2 (1, 0))

/-- MPI sum. -/
def sumTree {α : Type} (f : α → ℂ) : Tree α → ℂ
  | .leaf x => f x
  | .node l r => sumTree f l + sumTree f r

/-- MPI sum of reals. -/
noncomputable def sumTreeR {α : Type} (f : α → ℝ) : Tree α → ℝ
  | .leaf x => f x
  | .node l r => sumTreeR f l + sumTreeR f r

/-- MPI max. -/
noncomputable def maxTree {α : Type} (f : α → ℝ) : Tree α → ℝ
  | .leaf x => f x
  | .node l r => max (maxTree f l) (maxTree f r)

/-- `VecDot_Comp_MPI` (31-39): local sums, then a sum over the processes; the tree carries the local
parts of both vectors. -/
def dotCompMPI (dot : List ℂ → List ℂ → ℂ) (t : Tree (Local × Local)) : ℂ :=
  sumTree (fun p => dotLoop dot p.1 p.2) t

/-- `VecNorm_Comp_MPI`, 1-norm (230-234). -/
noncomputable def norm1CompMPI (t : Tree Local) : ℝ := sumTreeR norm1Loop t

/-- `VecNorm_Comp_MPI`, infinity norm (250-253). -/
noncomputable def normInfCompMPI (t : Tree Local) : ℝ := maxTree normInfLoop t

/-- `VecDotNorm2_Comp` (286-307), local part: the two sums. -/
def dotNorm2Loop (v w : Local) : ℂ × ℂ :=
  (List.zip v w).foldl (fun s p => (s.1 + dotSeq p.1 p.2, s.2 + dotSeq p.2 p.2)) (0, 0)

/-- `VecMax` of a component: index of the first largest entry and its value. -/
noncomputable def vecMax : List ℝ → Option (ℕ × ℝ)
  | [] => none
  | a :: l => match vecMax l with
    | none => some (0, a)
    | some (i, b) => if a < b then some (i + 1, b) else some (0, a)

/-- State of the loop of `VecMax_Comp`: `s`, `zp` and `*idx` (`none` while not written). -/
structure MaxState where
  s : ℕ
  zp : ℝ
  idx : Option ℕ

/-- The loop of `VecMax_Comp`, veccomp.c:615-623; the list carries the size of the previous component
and `VecMax` of the current one. -/
noncomputable def maxLoop (st : MaxState) : List (ℕ × (ℕ × ℝ)) → MaxState
  | [] => st
  | (s0, (idxp, z0)) :: l =>
    let s := st.s + s0
    maxLoop (if st.zp < z0 then ⟨s, z0, some (s + idxp)⟩ else ⟨s, st.zp, st.idx⟩) l

/-- `VecMax_Comp`, veccomp.c:599-626, for components (real) with at least one entry each and at least
one component. -/
noncomputable def maxComp (x : List (List ℝ)) : Option MaxState :=
  match x with
  | [] => none
  | c :: cs => (vecMax c).bind fun m =>
    ((List.zip (c :: cs) cs).mapM fun p => (vecMax p.2).map fun v => (p.1.length, v)).map
      fun l => maxLoop ⟨0, m.2, none⟩ l

/-- The elementwise operations on two vectors (`VecAXPY_Comp`, `VecAYPX_Comp`, `VecAXPBY_Comp`,
`VecCopy_Comp`, pointwise operations, veccomp.c:490-571, 736-761): the same operation on each
component. -/
def zipComp {α : Type} (f : α → α → α) (v w : List (List α)) : List (List α) :=
  List.zipWith (List.zipWith f) v w

end Verif.VecComp
