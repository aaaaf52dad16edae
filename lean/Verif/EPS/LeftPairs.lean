import Verif.EPS.ConvTheorems
import Mathlib.Tactic
/-!
Left eigenvectors of conjugate pairs in real arithmetic, when they are computed in the loop at the end of `EPSSolve` or later: model and second part of C68.
-/
set_option linter.all false
namespace Verif.EPS.LeftPairs
noncomputable section
open Classical

variable {V : Type} [AddCommGroup V] [Module ℝ V]

/-- A converged real value or conjugate pair: real part, imaginary part of the first value, and the columns of W (one or two). -/
inductive Blk (V : Type)
  | real (er : ℝ) (w : V)
  | pair (er ei : ℝ) (w1 w2 : V)

/-- Sign change at the end of `EPSComputeVectors_Schur` (src/eps/interface/epsdefault.c:160-165) in one block; `W` holds `W*Y`, corrected and normalized. -/
def conjW : Blk V → Blk V
  | .real er w => .real er w
  | .pair er ei w1 w2 => if 0 < ei then .pair er ei w1 (-w2) else .pair er ei w1 w2

/-- `EPSComputeVectors` (src/eps/interface/epssolve.c:21-23): nothing is done if the vectors are already computed. -/
def computeVectors (s : Bool × List (Blk V)) : Bool × List (Blk V) := if s.1 then s else (true, s.2.map conjW)

/-- `eigi[i] = -eigi[i]` in both positions (src/eps/interface/epssolve.c:185-186). -/
def flip : Blk V → Blk V
  | .real er w => .real er w
  | .pair er ei w1 w2 => .pair er (-ei) w1 w2

/-- `BVScaleColumn(eps->W,i+1,-1.0)` (src/eps/interface/epssolve.c:190). -/
def scale : Blk V → Blk V
  | .real er w => .real er w
  | .pair er ei w1 w2 => .pair er ei w1 (-w2)

/-- Pair with negative imaginary part in the first position (src/eps/interface/epssolve.c:182-184, not Hamiltonian). -/
def isNeg : Blk V → Prop
  | .real _ _ => False
  | .pair _ ei _ _ => ei < 0

/-- One step of the loop (src/eps/interface/epssolve.c:181-194) at block `i`. The flag says whether the vectors have been computed. -/
def stepAt (s : Bool × List (Blk V)) (i : ℕ) : Bool × List (Blk V) :=
  match s.2[i]? with
  | some b =>
    if isNeg b then
      let t := computeVectors (s.1, s.2.modify i flip)
      (t.1, t.2.modify i scale)
    else s
  | none => s

/-- State after the loop. -/
def loop (s : Bool × List (Blk V)) : Bool × List (Blk V) := (List.range s.2.length).foldl stepAt s

/-- Values and left vectors the user gets: the vectors are computed when first asked for (src/eps/interface/epssolve.c:638, EPSGetLeftEigenvector). -/
def final (bs : List (Blk V)) : List (Blk V) := (computeVectors (loop (false, bs))).2

/-- Specification: `w1 + i w2`, as computed by the solver, is an eigenvector of the transposed pencil for the value itself. -/
def Raw (At Bt : V →ₗ[ℝ] V) : Blk V → Prop
  | .real er w => At w = er • Bt w
  | .pair er ei w1 w2 => PencilPair At Bt er ei w1 w2

/-- Specification: positive imaginary part first, and `w1 + i w2` is a left eigenvector, i.e. an eigenvector of the transposed pencil for the conjugate value. -/
def Good (At Bt : V →ₗ[ℝ] V) : Blk V → Prop
  | .real er w => At w = er • Bt w
  | .pair er ei w1 w2 => 0 < ei ∧ PencilPair At Bt er (-ei) w1 w2

/-- Specification: the value is not zero in a pair. -/
def Proper : Blk V → Prop
  | .real _ _ => True
  | .pair _ ei _ _ => ei ≠ 0

/-- What the calls do with block `i` if the first block to be exchanged is `f`. -/
def result (f : Option ℕ) (i : ℕ) (b : Blk V) : Blk V :=
  if isNeg b then (if f = some i then flip b else scale (flip b)) else conjW b

end
end Verif.EPS.LeftPairs
