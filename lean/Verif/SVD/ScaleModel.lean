import Verif.SVD.ErrorModel

/-!
# Model of scaling and swapping of the matrices of a generalized SVD in TRLANCZOS

`src/svd/impls/trlanczos/trlanczos.c`. Matrices `A` (M rows), `B` (P rows) with N columns; exact arithmetic.
-/
set_option linter.all false

namespace Verif.SVD

open Matrix

variable {𝕜 : Type*} [RCLike 𝕜]

/-- The scale factor of the second block of Z (trlanczos.c:103, 754): inverted if the matrices have been swapped. -/
noncomputable def zscale (swapped : Bool) (scalef : ℝ) : ℝ := if swapped then 1 / scalef else scalef

/-- `MatMult_Z` (trlanczos.c:150-169): the two blocks of `Z x`; `A1`, `B1` are `svd->A`, `svd->B`, which are the user's
matrices or, if swapped (trlanczos.c:221-225), in the other order. -/
def multZ {m n p : Type*} [Fintype n] (A1 : Matrix m n 𝕜) (B1 : Matrix p n 𝕜) (f : ℝ) (x : n → 𝕜) : (m → 𝕜) × (p → 𝕜) :=
  (A1.mulVec x, (f : 𝕜) • B1.mulVec x)

/-- `MatMultTranspose_Z` (trlanczos.c:171-190). -/
def multZT {m n p : Type*} [Fintype m] [Fintype p] (A1 : Matrix m n 𝕜) (B1 : Matrix p n 𝕜) (f : ℝ)
    (y : (m → 𝕜) × (p → 𝕜)) : n → 𝕜 :=
  let x := B1ᴴ.mulVec y.2
  let x := (f : 𝕜) • x
  A1ᴴ.mulVec y.1 + x

/-- `SVDLanczosBackTransform` (trlanczos.c:747-772) for one value and the column of V, when it overwrites the values. -/
noncomputable def backTransform {n : Type*} (swapped : Bool) (scalef sigma : ℝ) (x : n → 𝕜) : ℝ × (n → 𝕜) :=
  let z := zscale swapped scalef
  let x' := if z ≠ 1 then
      let s := 1 / Real.sqrt (1 + sigma * sigma)
      let c := sigma * s
      let r := s / z
      let f := 1 / Real.sqrt (c * c + r * r)
      (f : 𝕜) • x
    else x
  let sg := sigma * z
  (if swapped then 1 / sg else sg, x')

/-- The same when a separate array is given (trlanczos.c:763-765), used for the monitor and the stopping test. -/
noncomputable def backTransformOut (swapped : Bool) (scalef sigma : ℝ) : ℝ :=
  let z := zscale swapped scalef
  if swapped then 1 / (sigma * z) else sigma * z

/-- The column of `svd->U` from those of `U1`, `U2` with `r1`, `r2` rows: exchange (trlanczos.c:1682) and
`SVDLeftSingularVectors` (trlanczos.c:1289-1318). Arrays of one process. -/
def leftStack (swapped : Bool) (r1 r2 : ℕ) (U1 U2 : ℕ → 𝕜) (k : ℕ) : 𝕜 :=
  let a := if swapped then U2 else U1
  let b := if swapped then U1 else U2
  let m := if swapped then r2 else r1
  if k < m then a k else b (k - m)

end Verif.SVD
