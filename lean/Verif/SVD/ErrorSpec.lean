import Verif.EPS.ResidualModel

/-!
# What the user relies on: singular values and exact triplets
-/
set_option linter.all false

namespace Verif.SVD

open Verif.EPS (norm2)
open Matrix

variable {𝕜 : Type*} [RCLike 𝕜] {m n p : Type*} [Fintype m] [Fintype n] [Fintype p]

/-- `s` is a singular value of `A`: `A v = s u` and `A^H u = s v` with unit vectors. -/
def IsSingularValue (A : Matrix m n 𝕜) (s : ℝ) : Prop :=
  0 ≤ s ∧ ∃ (u : m → 𝕜) (v : n → 𝕜), norm2 u = 1 ∧ norm2 v = 1 ∧
    A.mulVec v = (s : 𝕜) • u ∧ Aᴴ.mulVec u = (s : 𝕜) • v

/-- `(c/s,u,v,x)` is a quadruple of the GSVD `U^H A X = C`, `V^H B X = S` with `C^2+S^2=I`: `w` is the corresponding
column of `X^{-H}`. -/
def IsGsvd (A : Matrix m n 𝕜) (B : Matrix p n 𝕜) (c s : ℝ) (u : m → 𝕜) (v : p → 𝕜) (x : n → 𝕜) : Prop :=
  0 ≤ c ∧ 0 < s ∧ c ^ 2 + s ^ 2 = 1 ∧ A.mulVec x = (c : 𝕜) • u ∧ B.mulVec x = (s : 𝕜) • v ∧
  ∃ w : n → 𝕜, Aᴴ.mulVec u = (c : 𝕜) • w ∧ Bᴴ.mulVec v = (s : 𝕜) • w

/-- `(sigma,u,v)` is a triplet of the hyperbolic SVD with signature `omega`, `sign` its computed signature element. -/
def IsHsvd (A : Matrix m n 𝕜) (omega : m → 𝕜) (sigma sign : ℝ) (u : m → 𝕜) (v : n → 𝕜) : Prop :=
  A.mulVec v = (sigma : 𝕜) • u ∧ Aᴴ.mulVec (fun i => omega i * u i) = ((sigma * sign : ℝ) : 𝕜) • v

end Verif.SVD
