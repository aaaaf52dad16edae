import Mathlib.Analysis.RCLike.Basic
import Mathlib.LinearAlgebra.SesquilinearForm.Basic
import Mathlib.Analysis.Real.Sqrt
/-!
Model of Gram-Schmidt orthogonalization in BV objects
(src/sys/classes/bv/interface/bvorthog.c, include/slepc/private/bvimpl.h), in exact arithmetic.

The inner product is a form `f`, conjugate linear in its first argument: `f x y` is `x^* B y`, that is
`VecDot(By,x)`.  A `Slot` is a column to orthogonalize against (constraints first, then columns
`0..j-1`) with its sign, whether it is selected (`which`), and the entries of the two coefficient arrays
that belong to it.
-/
set_option linter.all false
namespace Verif.BV
noncomputable section
variable {𝕜 : Type} [RCLike 𝕜] {E : Type} [AddCommGroup E] [Module 𝕜 E]

structure Slot (𝕜 E : Type) where
  v : E
  om : ℝ
  sel : Bool
  c : 𝕜
  h : 𝕜

/-- `BV_SafeSqrt`, bvimpl.h:121-141, of `f w w`: the norm of a vector (`BVNormVec`, `BVNormColumn` and
`BV_SquareRoot`), negative for a vector of negative square in an indefinite inner product.  The
error for a negative square in the definite case is not modelled. -/
def nrmOf (f : E →ₗ⋆[𝕜] E →ₗ[𝕜] 𝕜) (indef : Bool) (w : E) : ℝ :=
  let r := RCLike.re (f w w)
  if indef then (if r < 0 then -Real.sqrt (-r) else Real.sqrt r) else (if r < 0 then 0 else Real.sqrt r)

/-- The loop of `BVOrthogonalizeMGS1`, bvorthog.c:65-79. -/
def mgsLoop (f : E →ₗ⋆[𝕜] E →ₗ[𝕜] 𝕜) (indef : Bool) : List (Slot 𝕜 E) → E → E × List (Slot 𝕜 E)
  | [], w => (w, [])
  | s :: ss, w =>
    if s.sel then
      let dot := f s.v w
      let r := mgsLoop f indef ss (w - (if indef then dot / (s.om : 𝕜) else dot) • s.v)
      (r.1, { s with c := dot } :: r.2)
    else
      let r := mgsLoop f indef ss w
      (r.1, s :: r.2)

/-- The products with all columns, bvorthog.c:97-109. -/
def cgsDots (f : E →ₗ⋆[𝕜] E →ₗ[𝕜] 𝕜) (ss : List (Slot 𝕜 E)) (w : E) : List (Slot 𝕜 E) :=
  ss.map fun s => { s with c := f s.v w }

/-- `BV_ApplySignature`, bvimpl.h:362-380, with `inverse`. -/
def divSign (ss : List (Slot 𝕜 E)) : List (Slot 𝕜 E) := ss.map fun s => { s with c := s.c / (s.om : 𝕜) }

/-- `BV_ApplySignature` without `inverse`. -/
def mulSign (ss : List (Slot 𝕜 E)) : List (Slot 𝕜 E) := ss.map fun s => { s with c := s.c * (s.om : 𝕜) }

/-- `BVMultVec(bv,-1,1,v,c)`, bvorthog.c:113-114. -/
def subComb (ss : List (Slot 𝕜 E)) (w : E) : E := w - (ss.map fun s => s.c • s.v).sum

/-- `BV_SquareSum`, bvimpl.h:343-355. -/
def squareSum (ss : List (Slot 𝕜 E)) : ℝ := (ss.map fun s => ‖s.c‖ ^ 2).sum

/-- `BV_AddCoefficients`, bvimpl.h:305-319. -/
def addCoeffs (ss : List (Slot 𝕜 E)) : List (Slot 𝕜 E) := ss.map fun s => { s with h := s.h + s.c }

/-- `BV_CleanCoefficients`, bvimpl.h:287-299. -/
def cleanCoeffs (ss : List (Slot 𝕜 E)) : List (Slot 𝕜 E) := ss.map fun s => { s with h := 0 }

/-- What a pass returns: the vector, the slots, the norms before and after. -/
structure Pass (𝕜 E : Type) where
  w : E
  ss : List (Slot 𝕜 E)
  onrm : ℝ
  nrm : ℝ

/-- `BVOrthogonalizeMGS1`, bvorthog.c:52-85 (the norms are computed always, although only used by the
caller if requested). -/
def mgs1 (f : E →ₗ⋆[𝕜] E →ₗ[𝕜] 𝕜) (indef : Bool) (ss : List (Slot 𝕜 E)) (w : E) : Pass 𝕜 E :=
  let r := mgsLoop f indef ss w
  ⟨r.1, addCoeffs r.2, nrmOf f indef w, nrmOf f indef r.1⟩

/-- The norm estimate, bvorthog.c:120-129. -/
def cgsNorm (f : E →ₗ⋆[𝕜] E →ₗ[𝕜] 𝕜) (indef : Bool) (beta : ℝ) (ss : List (Slot 𝕜 E)) (w' : E) : ℝ :=
  if indef then nrmOf f indef w'
  else if beta * beta - squareSum ss ≤ 0 then nrmOf f indef w'
  else Real.sqrt (beta * beta - squareSum ss)

/-- `BVOrthogonalizeCGS1`, bvorthog.c:91-132 (`which` is not used). -/
def cgs1 (f : E →ₗ⋆[𝕜] E →ₗ[𝕜] 𝕜) (indef : Bool) (ss : List (Slot 𝕜 E)) (w : E) : Pass 𝕜 E :=
  let s1 := cgsDots f ss w
  let beta := nrmOf f indef w
  let s2 := if indef then divSign s1 else s1
  let w' := subComb s2 w
  let s3 := if indef then mulSign s2 else s2
  ⟨w', addCoeffs s3, beta, cgsNorm f indef beta s3 w'⟩

/-- The macro `BVOrthogonalizeGS1`, bvorthog.c:134. -/
def gs1 (f : E →ₗ⋆[𝕜] E →ₗ[𝕜] 𝕜) (indef mgs : Bool) (ss : List (Slot 𝕜 E)) (w : E) : Pass 𝕜 E :=
  if mgs then mgs1 f indef ss w else cgs1 f indef ss w

/-- `BVOrthogRefineType`. -/
inductive Refine | ifneeded | never | always
deriving DecidableEq

/-- The loop of bvorthog.c:180-184; `fuel` is `3-l`. -/
def refineLoop (f : E →ₗ⋆[𝕜] E →ₗ[𝕜] 𝕜) (indef mgs : Bool) (eta : ℝ) : Nat → Pass 𝕜 E → Pass 𝕜 E
  | 0, p => p
  | fuel + 1, p =>
    if p.nrm ≠ 0 ∧ |p.nrm| < eta * |p.onrm| then
      let q := gs1 f indef mgs p.ss p.w
      refineLoop f indef mgs eta fuel { q with onrm := if mgs || indef then p.nrm else q.onrm }
    else p

/-- The result of `BVOrthogonalizeGS`: vector, slots with coefficients `h`, norm, linear dependence. -/
structure GSOut (𝕜 E : Type) where
  w : E
  ss : List (Slot 𝕜 E)
  nrm : ℝ
  lindep : Bool

/-- `BVOrthogonalizeGS`, bvorthog.c:145-217, when norm and linear dependence are requested. -/
def gs (f : E →ₗ⋆[𝕜] E →ₗ[𝕜] 𝕜) (indef mgs : Bool) (eta : ℝ) (ref : Refine) (ss : List (Slot 𝕜 E)) (w : E) :
    GSOut 𝕜 E :=
  let s0 := cleanCoeffs ss
  let p1 := gs1 f indef mgs s0 w
  match ref with
  | .ifneeded =>
    let p := refineLoop f indef mgs eta 2 p1
    ⟨p.w, p.ss, p.nrm, !indef && !(decide (p.nrm ≠ 0 ∧ |p.nrm| ≥ eta * |p.onrm|))⟩
  | .never =>
    let nrm := nrmOf f indef p1.w
    ⟨p1.w, p1.ss, nrm, !indef && !(decide (nrm ≠ 0))⟩
  | .always =>
    let p := gs1 f indef mgs p1.ss p1.w
    ⟨p.w, p.ss, p.nrm, !indef && !(decide (p.nrm ≠ 0 ∧ |p.nrm| ≥ eta * |p.onrm|))⟩

/-- The sign stored for the new column, bvorthog.c:204-208 (1 is the default in the definite case). -/
def newSign (indef : Bool) (nrm : ℝ) : ℝ := if indef then (if nrm < 0 then -1 else 1) else 1

/-- The coefficient array of column `j` after the call (rows counted after the constraints), with the norm
next to the coefficients, bvorthog.c:209-215. -/
def bufferColumn (nc : Nat) (r : GSOut 𝕜 E) : List 𝕜 :=
  (r.ss.drop nc).map Slot.h ++ [if r.lindep then 0 else (r.nrm : 𝕜)]

/-- The entries of the user's array `H` written by `BVOrthogonalizeColumn`
(`BV_StoreCoefficients`, bvimpl.h:401-416, after `l` has been restored, bvorthog.c:333-335): pairs of
position and value. -/
def storeH (l j : Nat) (buf : List 𝕜) : List (Nat × 𝕜) :=
  (List.range' l (j - l)).filterMap fun i => (buf[i]?).map fun x => (i - l, x)

/-- `BVOrthonormalizeColumn` without `replace`, bvorthog.c:379-426: the new column. -/
def orthonormalize (f : E →ₗ⋆[𝕜] E →ₗ[𝕜] 𝕜) (indef mgs : Bool) (eta : ℝ) (ref : Refine) (ss : List (Slot 𝕜 E))
    (w : E) : E × GSOut 𝕜 E :=
  let r := gs f indef mgs eta ref ss w
  (if r.nrm ≠ 1 ∧ r.nrm ≠ 0 then ((1 / r.nrm : ℝ) : 𝕜) • r.w else r.w, r)

/-- The slot of a column once finished. -/
def mkSlot (v : E) (om : ℝ) : Slot 𝕜 E := ⟨v, om, true, 0, 0⟩

/-- `BVOrthogonalize_GS`, bvorthog.c:516-558: the slots of the finished columns, the columns of `R`
(coefficients and norm); `none` is the breakdown error. -/
def orthogonalizeGS (f : E →ₗ⋆[𝕜] E →ₗ[𝕜] 𝕜) (indef mgs : Bool) (eta : ℝ) (ref : Refine) :
    List (Slot 𝕜 E) → List E → Option (List (Slot 𝕜 E) × List (List 𝕜))
  | done, [] => some (done, [])
  | done, v :: vs =>
    let r := gs f indef mgs eta ref done v
    if r.nrm = 0 then none
    else
      (orthogonalizeGS f indef mgs eta ref
        (r.ss ++ [mkSlot (((1 / r.nrm : ℝ) : 𝕜) • r.w) (newSign indef r.nrm)]) vs).map fun q =>
        (q.1, (r.ss.map Slot.h ++ [(r.nrm : 𝕜)]) :: q.2)

end
end Verif.BV
