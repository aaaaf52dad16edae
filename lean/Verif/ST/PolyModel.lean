import Mathlib.Algebra.Module.Basic
import Mathlib.Data.Matrix.Mul
import Mathlib.LinearAlgebra.Matrix.ConjTranspose
/-!
# Model of `STCoeffs_Monomial`, `STMatMAXPY_Private` and the shell matrix

C arrays of scalars are functions `ℕ → K` (initial contents arbitrary); matrices are elements of an
arbitrary `K`-module `V` in the explicit case, and square matrices for the shell operations.
-/
set_option linter.all false
namespace Verif.ST.Poly

section
variable {K V : Type} [Field K] [DecidableEq K] [AddCommGroup V] [Module K V]

/-- Array store `c[i] = v`. -/
def upd (c : ℕ → K) (i : ℕ) (v : K) : ℕ → K := fun j => if j = i then v else c j

/-- Inner loop of `STCoeffs_Monomial` (stsolve.c:652), `i = 1 .. k-1`. -/
def coeffInner (ini inip : ℕ) (k : ℕ) (c : ℕ → K) : ℕ → K :=
  (List.range' 1 (k - 1)).foldl (fun c i => upd c (ini + i) (c (ini + i - 1) + c (inip + i - 1))) c

/-- Outer loop of `STCoeffs_Monomial` (stsolve.c:648-653), `k` counting down to 1. -/
def coeffOuter : ℕ → ℕ → (ℕ → K) → (ℕ → K)
  | 0, _, c => c
  | k + 1, ini, c =>
    let inip := ini + 1
    let ini := ((k + 1) * k) / 2
    coeffOuter k ini (coeffInner ini inip (k + 1) (upd c ini 1))

/-- `STCoeffs_Monomial` (stsolve.c:640-655) started on an array with contents `c`. -/
def coeffsMonomial (nmat : ℕ) (c : ℕ → K) : ℕ → K :=
  let ini := (nmat * (nmat - 1)) / 2
  let c := (List.range nmat).foldl (fun c i => upd c (ini + i) 1) c
  coeffOuter (nmat - 1) ini c

/-- Search of the first nonzero coefficient (stsolve.c:599-602): returns `ini` (or `none` for -1) and
the accumulated `t`. -/
def findIni (c : ℕ → K) (alpha : K) : ℕ → ℕ → K → Option ℕ × K
  | 0, _, t => (none, t)
  | fuel + 1, i, t => if c i ≠ 0 then (some i, t) else findIni c alpha fuel (i + 1) (t * alpha)

/-- `STMatMAXPY_Private` in copy mode (stsolve.c:597-629).  `one` is the identity matrix (MatShift).
The result is the content of `*S`; `none` is the out-of-bounds access `coeffs[-1]` (line 603) when all
coefficients vanish. -/
def maxpyCopy (nmat : ℕ) (A : ℕ → V) (one : V) (alpha : K) (k : ℕ) (coeffs : Option (ℕ → K)) :
    Option V :=
  let n := nmat - k
  let r : Option (ℕ × K × Bool) :=
    match coeffs with
    | none => some (0, 1, true)
    | some c =>
      match findIni c alpha n 0 1 with
      | (none, _) => none
      | (some ini, t) =>
        some (ini, t, decide (c ini ≠ 1) || (List.range' (ini + 1) (n - (ini + 1))).any (fun i => decide (c i ≠ 0)))
  r.map fun (ini, t, nz) =>
    if (alpha = 0 ∨ nz = false) ∧ t = 1 then A (k + ini)
    else
      let s := match coeffs with
        | none => A (k + ini)
        | some c => if c ini ≠ 1 then c ini • A (k + ini) else A (k + ini)
      ((List.range' (ini + k + 1) (max 2 nmat - (ini + k + 1))).foldl (fun (p : K × V) i =>
        let t := p.1 * alpha
        let ta : K := match coeffs with
          | none => t
          | some c => t * c (i - k)
        if ta ≠ 0 then (t, if nmat > 1 then p.2 + ta • A i else p.2 + ta • one) else (t, p.2))
        (t, s)).2

/-- `T[j]` after `STSetUp_Shift` for a polynomial problem (shift.c:162-177). -/
def shiftT (nmat : ℕ) (A : ℕ → V) (one : V) (sigma : K) (c0 : ℕ → K) (j : ℕ) : Option V :=
  if j = nmat - 1 then some (A (nmat - 1))
  else maxpyCopy nmat A one sigma j
    (some fun i => coeffsMonomial nmat c0 (((nmat - j) * (nmat - j - 1)) / 2 + i))

/-- `T[k]` after `STSetUp_Sinvert` for a polynomial problem (sinvert.c:127-142). -/
def sinvertT (nmat : ℕ) (A : ℕ → V) (one : V) (sigma : K) (c0 : ℕ → K) (k : ℕ) : Option V :=
  if k = 0 then some (A (nmat - 1))
  else maxpyCopy nmat A one sigma (nmat - k - 1)
    (some fun i => coeffsMonomial nmat c0 ((k * (k + 1)) / 2 + i))
end

section
variable {K : Type} [Field K] [DecidableEq K] {n : Type} [Fintype n] [DecidableEq n]
open Matrix

/-- Coefficient of the `i`-th matrix: `c = coeffs ? t*coeffs[i] : t`. -/
def shellCoef (coeffs : Option (ℕ → K)) (t : K) (i : ℕ) : K :=
  match coeffs with
  | none => t
  | some c => t * c i

/-- `if (ctx->coeffs && ctx->coeffs[0]!=1.0) VecScale(y,coeffs[0])` (stshellmat.c:52,76,101,127). -/
def shellFirst (cj : K → K) (coeffs : Option (ℕ → K)) (y : n → K) : n → K :=
  match coeffs with
  | none => y
  | some c => if c 0 ≠ 1 then cj (c 0) • y else y

/-- Common shape of `MatMult_Shell` (stshellmat.c:41-63), `MatMultTranspose_Shell` (65-87) and
`MatMultHermitianTranspose_Shell` (90-112): `mul i x` is the product by the `i`-th matrix (or its
transpose), `cj` is the identity or the conjugation. -/
def shellMult (cj : K → K) (nm : ℕ) (mul : ℕ → (n → K) → (n → K)) (alpha : K)
    (coeffs : Option (ℕ → K)) (x : n → K) : n → K :=
  let y := shellFirst cj coeffs (mul 0 x)
  if alpha ≠ 0 then
    let y := ((List.range' 1 (nm - 1)).foldl (fun (p : K × (n → K)) i =>
      let t := p.1 * alpha
      (t, p.2 + cj (shellCoef coeffs t i) • mul i x)) (1, y)).2
    if nm = 1 then y + cj alpha • x else y
  else y

/-- `MatGetDiagonal_Shell` (stshellmat.c:115-142); line 136 is `VecAYPX(diag,c,diagb)`, that is
`diag = diagb + c*diag`. -/
def shellDiag (nm : ℕ) (A : ℕ → Matrix n n K) (alpha : K) (coeffs : Option (ℕ → K)) : n → K :=
  let d := shellFirst id coeffs (A 0).diag
  if alpha ≠ 0 then
    if nm = 1 then fun i => d i + alpha
    else
      ((List.range' 1 (nm - 1)).foldl (fun (p : K × (n → K)) i =>
        let t := p.1 * alpha
        (t, (A i).diag + shellCoef coeffs t i • p.2)) (1, d)).2
  else d
end
end Verif.ST.Poly
