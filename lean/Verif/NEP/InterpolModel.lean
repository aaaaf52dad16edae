import Mathlib.Analysis.RCLike.Basic
import Mathlib.Analysis.SpecialFunctions.Trigonometric.Basic

/-! # Model of NEPINTERPOL

Source: `src/nep/impls/interpol/interpol.c`. Exact arithmetic; `K` is the type of scalars (real or complex), `E` the space of matrices. The
polynomial eigensolver is not modelled: its converged eigenvalues are a parameter. -/
set_option linter.all false
noncomputable section
open Classical

namespace Verif.NEP.Interpol

variable {K E : Type*} [RCLike K] [AddCommGroup E] [Module K E]

/-- Angle number `j` (interpol.c:108). -/
def angle (d j : ℕ) : ℝ := ((2 * j + 1) * Real.pi) / (2 * (d + 1))

/-- Node number `j` (interpol.c:109). -/
def node (d : ℕ) (a b : ℝ) (j : ℕ) : ℝ := (a + b) / 2 + ((b - a) / 2) * Real.cos (angle d j)

/-- Entry of the table of cosines (interpol.c:110). -/
def dct (d j i : ℕ) : ℝ := Real.cos (i * angle d j)

/-- Coefficient `k` of the function with values `fx` at the nodes (interpol.c:146-149, 154-157). -/
def coef (d : ℕ) (fx : ℕ → K) (k : ℕ) : K :=
  let t := (List.range (d+1)).foldl (fun t i => t + fx i * ((dct d i k : ℝ) : K)) 0
  let t := t * (((2 : ℝ) / (d + 1) : ℝ) : K)
  if k = 0 then t / 2 else t

/-- Estimate of the norm of coefficient `k` (interpol.c:150, 158). -/
def aprox (d nt : ℕ) (fx : ℕ → ℕ → K) (matnorm : ℕ → ℝ) (k : ℕ) : ℝ :=
  (List.range (nt-1)).foldl (fun s j => s + matnorm (j+1) * ‖coef d (fx (j+1)) k‖) (matnorm 0 * ‖coef d (fx 0) k‖)

/-- Matrix coefficient `k` (interpol.c:144-161). -/
def matCoef (d nt : ℕ) (fx : ℕ → ℕ → K) (A : ℕ → E) (k : ℕ) : E :=
  (List.range (nt-1)).foldl (fun s j => s + coef d (fx (j+1)) k • A (j+1)) (coef d (fx 0) k • A 0)

/-- Degree used (interpol.c:143, 163), starting at index `k` with `n` indices left; a quotient by zero is infinite or undefined, so that
the comparison is false. -/
def degLoop (tol : ℝ) (ap : ℕ → ℝ) (d : ℕ) : ℕ → ℕ → ℕ
  | _, 0 => d
  | k, n+1 => if 1 < k ∧ ap 0 ≠ 0 ∧ ap k / ap 0 < tol then k else degLoop tol ap d (k+1) n

/-- Degree of the matrix polynomial built by `NEPSolve_Interpol` (interpol.c:142-164). -/
def degree (tol : ℝ) (ap : ℕ → ℝ) (d : ℕ) : ℕ := degLoop tol ap d 0 (d+1)

/-- Values of the functions at the nodes (interpol.c:136-138). -/
def values (d : ℕ) (a b : ℝ) (f : ℕ → K → K) (j i : ℕ) : K := f j ((node d a b i : ℝ) : K)

/-! ### Maps between the interval and `[-1,1]` -/

/-- Target and region given to the polynomial eigensolver (interpol.c:81-84, 87). -/
def mapTarget (a b : ℝ) (target : K) : K := (target - (((a + b) / 2 : ℝ) : K)) * ((2 / (b - a) : ℝ) : K)

/-- End points in the imaginary direction (interpol.c:82-83). -/
def mapImag (a b c : ℝ) : ℝ := c * (2 / (b - a))

/-- Back map of the eigenvalue in the complex build (interpol.c:187-188). -/
def backC (a b : ℝ) (z : ℂ) : ℂ := z / ((2 / (b - a) : ℝ) : ℂ) + (((a + b) / 2 : ℝ) : ℂ)

/-- Back maps of the two parts in the real build (interpol.c:187-189). -/
def backRe (a b x : ℝ) : ℝ := x / (2 / (b - a)) + (a + b) / 2
def backIm (a b y : ℝ) : ℝ := y / (2 / (b - a))

/-- Arrays of the solver object in the real build: eigenvalues and the index of the part of an eigenvector of the polynomial
eigensolver stored in each column (`(i, false)` is the real part of the vector returned for `i`, `(i, true)` its imaginary part). -/
structure RealState where
  eigr : ℕ → ℝ
  eigi : ℕ → ℝ
  vec : ℕ → Option (ℕ × Bool)

/-- Copy of the eigenpairs in the real build (interpol.c:185-194); `pr`, `pi` are the eigenvalues of the polynomial eigensolver in its order. -/
def copyReal (a b : ℝ) (pr pi : ℕ → ℝ) (nconv : ℕ) : ℕ → ℕ → RealState → RealState
  | _, 0, s => s
  | i, n+1, s =>
    if nconv ≤ i then s
    else
      let s1 : RealState := ⟨Function.update s.eigr i (backRe a b (pr i)), Function.update s.eigi i (backIm a b (pi i)), Function.update s.vec i (some (i, false))⟩
      if backIm a b (pi i) ≠ 0 then copyReal a b pr pi nconv (i+2) n { s1 with vec := Function.update s1.vec (i+1) (some (i, true)) }
      else copyReal a b pr pi nconv (i+1) n s1

/-- Copy of the eigenpairs in the complex build. -/
def copyComplex (a b : ℝ) (p : ℕ → ℂ) (i : ℕ) : ℂ := backC a b (p i)

end Verif.NEP.Interpol
