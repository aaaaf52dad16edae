import Verif.NEP.NleigsModel
import Mathlib.Algebra.Module.LinearMap.Defs

/-!
Model of the operators of NEPNLEIGS: `MatMult_FullBasis_Sinvert`, `MatMultTranspose_FullBasis_Sinvert`, `NEPNLEIGSExtract_None`
(nleigs-fullb.c), `NEPTOARExtendBasis`, `NEPTOARCoefficients`, `NEPNLEIGSBackTransform` (nleigs.c).

Simplified: exact arithmetic. A vector of the linearization is a sequence of `d` blocks (`d = nmat-1`) in a vector space `V`. The linear
solver (`KSPSolve`) is a function `ksp`. The functions read the arrays at `d-2`, so for `d < 2` they are out of range (`none`).
-/
set_option linter.all false

namespace Verif.NEP

variable {F V : Type*} [Field F] [AddCommGroup V] [Module F V]

/-- Blocks of the first stage, from the last one upwards (nleigs-fullb.c:39-61): entry `j` is block `d-2-j`. -/
def backRow (N : Nodes F) (σ : F) (d : ℕ) (x : ℕ → V) : ℕ → V
  | 0 => (1 / (N.s (d-2) - σ)) • (x (d-2) + (N.beta (d-1) * N.rxi (d-2)) • x (d-1))
  | j+1 => (1 / (N.s (d-3-j) - σ)) • (x (d-3-j) + (N.beta (d-3-j+1) * N.rxi (d-3-j)) • x (d-3-j+1)
      + (-N.beta (d-3-j+1) * (1 - σ * N.rxi (d-3-j))) • backRow N σ d x j)

/-- Right-hand side of the inner system, split form (nleigs-fullb.c:62-76). `c i k` is `coeffD[k+nt*i]`, `y` the blocks of the first
stage. -/
def rhsSplit (N : Nodes F) (d nt : ℕ) (c : ℕ → ℕ → F) (A : ℕ → V →ₗ[F] V) (x y : ℕ → V) : V :=
  (List.range nt).foldl (fun w k => w + A k
    ((List.range (d-1)).foldl (fun ww i => ww + (-c i k) • y i) ((-c d k / N.beta d) • x (d-1)))) 0

/-- Right-hand side of the inner system, callback form (nleigs-fullb.c:77-88). -/
def rhsCallback (N : Nodes F) (d : ℕ) (D : ℕ → V →ₗ[F] V) (x y : ℕ → V) : V :=
  (List.range (d-1)).foldl (fun w i => w + (-1 : F) • D i (y i)) ((-1 / N.beta d) • D d (x (d-1)))

/-- The two user interfaces (`nep->fui`). -/
inductive Form (F V : Type*) [Field F] [AddCommGroup V] [Module F V]
  | split (nt : ℕ) (c : ℕ → ℕ → F) (A : ℕ → V →ₗ[F] V)
  | callback (D : ℕ → V →ₗ[F] V)

/-- Right-hand side of the inner system. -/
def rhs (N : Nodes F) (d : ℕ) (p : Form F V) (x y : ℕ → V) : V :=
  match p with
  | .split nt c A => rhsSplit N d nt c A x y
  | .callback D => rhsCallback N d D x y

/-- `MatMult_FullBasis_Sinvert` (nleigs-fullb.c:17-103). -/
def fullMult (N : Nodes F) (σ : F) (d : ℕ) (p : Form F V) (ksp : V → V) (x : ℕ → V) : Option (ℕ → V) :=
  if d < 2 then none
  else
    let y0 := fun i => backRow N σ d x (d-2-i)
    let v := ksp (rhs N d p x y0)
    some fun i => if i < d-1 then y0 i + evalNRT N σ i • v else evalNRT N σ (d-1) • v

/-- `NEPNLEIGSBackTransform`, complex scalars or real values (nleigs.c:42, 51). -/
def backTransform (target θ : F) : F := 1 / θ + target

/-! ### Compact form -/

/-- Coefficients of the first stage of `NEPTOARExtendBasis` (nleigs.c:936-938, 946-948): entry `m` is block `d-2-m`, coefficient `j`.
`S b j` is `S[b*ls+j]`. -/
def toarRow (N : Nodes F) (σ : F) (d : ℕ) (S : ℕ → ℕ → F) : ℕ → ℕ → F
  | 0, j => (S (d-2) j + (N.beta (d-1) * N.rxi (d-2)) * S (d-1) j) / (N.s (d-2) - σ)
  | m+1, j => (S (d-3-m) j + (N.beta (d-2-m) * N.rxi (d-3-m)) * S (d-2-m) j
      - N.beta (d-2-m) * (1 - σ * N.rxi (d-3-m)) * toarRow N σ d S m j) / (N.s (d-3-m) - σ)

/-- Combination of the first `nv` columns of the basis (`BVMultVec`). -/
def comb (U : ℕ → V) (nv : ℕ) (c : ℕ → F) : V := ∑ j ∈ Finset.range nv, c j • U j

/-- Columns of `W` (nleigs.c:940-945, 949-951). -/
def toarW (N : Nodes F) (σ : F) (d nv : ℕ) (U : ℕ → V) (S : ℕ → ℕ → F) (k : ℕ) : V :=
  if k = d-1 then (1 / N.beta d) • comb U nv (S (d-1)) else comb U nv (toarRow N σ d S (d-2-k))

/-- New vector `t` of `NEPTOARExtendBasis` (nleigs.c:953-982). -/
def toarVec (N : Nodes F) (σ : F) (d nv : ℕ) (p : Form F V) (ksp : V → V) (U : ℕ → V) (S : ℕ → ℕ → F) : V :=
  match p with
  | .split nt c A =>
    -- columns `0..d-2` with the coefficients of the same index, column `d-1` with the last ones
    let v := fun k => ∑ j ∈ Finset.range d, (if j < d-1 then c j k else c d k) • toarW N σ d nv U S j
    (-1 : F) • ksp ((List.range (nt-1)).foldl (fun q k => q + A (k+1) (v (k+1))) (A 0 (v 0)))
  | .callback D =>
    (-1 : F) • ksp (∑ j ∈ Finset.range d, (1 : F) • (if j < d-1 then D j (toarW N σ d nv U S j) else D d (toarW N σ d nv U S j)))

/-- `NEPTOARCoefficients` (nleigs.c:990-1003): coefficients of block `k` of the new vector; `r0` are the coefficients of the first stage
(with whatever the array holds after them), `x` those of the vector `t` after orthogonalization. -/
def toarCoef (N : Nodes F) (σ : F) (d nv : ℕ) (r0 : ℕ → ℕ → F) (x : ℕ → F) (k j : ℕ) : F :=
  if k < d-1 then (if j ≤ nv then r0 k j + evalNRT N σ k * x j else r0 k j)
  else (if j ≤ nv then evalNRT N σ (d-1) * x j else r0 k j)

/-! ### Transposed operator -/

/-- One product with a transposed coefficient in `MatMultTranspose_FullBasis_Sinvert`, index `i`: in split form the code multiplies by the
matrices `A[k]` themselves (nleigs-fullb.c:140-146, 154-160, 171-177). `tr` is the transposition. -/
def tProd (p : Form F V) (tr : (V →ₗ[F] V) → V →ₗ[F] V) (i : ℕ) (z : V) : V :=
  match p with
  | .split nt c A => (List.range nt).foldl (fun y k => y + c i k • A k z) 0
  | .callback D => tr (D i) z

/-- Forward recurrence (nleigs-fullb.c:139-169): blocks `0..d-2` before the last correction. -/
def fwdRow (N : Nodes F) (σ : F) (q : ℕ → V) (x : ℕ → V) : ℕ → V
  | 0 => (-1 / (N.s 0 - σ)) • (q 0 + (-1 : F) • x 0)
  | i+1 => (-1 / (N.s (i+1) - σ)) • (q (i+1) + (N.beta (i+1) * (1 - σ * N.rxi i)) • fwdRow N σ q x i + (-1 : F) • x (i+1))

/-- `MatMultTranspose_FullBasis_Sinvert` (nleigs-fullb.c:105-196); `kspT` is `KSPSolveTranspose`. -/
def fullMultT (N : Nodes F) (σ : F) (d : ℕ) (p : Form F V) (tr : (V →ₗ[F] V) → V →ₗ[F] V) (kspT : V → V) (x : ℕ → V) :
    Option (ℕ → V) :=
  if d < 2 then none
  else
    let w := (List.range (d-1)).foldl (fun w i => w + evalNRT N σ i • x i) (evalNRT N σ (d-1) • x (d-1))
    let z := kspT w
    let g := fwdRow N σ (fun i => tProd p tr i z) x
    some fun i => if i = 0 then g 0
      else if i < d-1 then g i + (N.beta i * N.rxi (i-1)) • g (i-1)
      else (-1 / N.beta d) • tProd p tr d z + (N.beta (d-1) * N.rxi (d-2)) • g (d-2)

/-- Left vector extracted in `NEPNLEIGSExtract_None` from the left eigenvector with blocks `x` (nleigs-fullb.c:356-370), before the
normalization; `cj` and `cjv` are the conjugations of scalars and vectors. -/
def extractLeft (N : Nodes F) (σ : F) (d : ℕ) (cj : F → F) (cjv : V → V) (kspT : V → V) (x : ℕ → V) : V :=
  cjv (kspT (cjv ((List.range (d-1)).foldl (fun w i => w + cj (evalNRT N σ i) • x i) (cj (evalNRT N σ (d-1)) • x (d-1)))))

end Verif.NEP
