import Verif.BV.OrthoModel
/-!
Model of `BVMatArnoldi` and `BVMatLanczos` (src/sys/classes/bv/interface/bvkrylov.c), in exact arithmetic, on top of
the model of Gram-Schmidt of `OrthoModel.lean`.

The columns of the BV are a list of slots (the `nc` constraints first); slot `nc+j` is column `j`.  The buffer of
orthogonalization coefficients (`BVGetBufferVec`) is a function of row (after the constraints) and column, with
whatever content it had before.  The argument checks are not modelled.
-/
set_option linter.all false
namespace Verif.BV
noncomputable section
variable {𝕜 : Type} [RCLike 𝕜] {E : Type} [AddCommGroup E] [Module 𝕜 E]

/-- Orthogonalization options of a BV: `orthog_type`, `orthog_eta`, `orthog_ref`. -/
structure OrthOpts where
  mgs : Bool
  eta : ℝ
  ref : Refine

/-- Write the leading entries of a column of the buffer. -/
def writeCol (buf : Nat → Nat → 𝕜) (c : Nat) (xs : List 𝕜) : Nat → Nat → 𝕜 :=
  fun i j => if j = c ∧ i < xs.length then xs.getD i 0 else buf i j

/-- The columns, buffer, and the values `m`, `beta` and `lindep` at the end of the loop. -/
structure Arn (𝕜 E : Type) where
  ss : List (Slot 𝕜 E)
  buf : Nat → Nat → 𝕜
  m : Nat
  beta : ℝ
  lindep : Bool

/-- The vector in the last slot. -/
def lastCol (ss : List (Slot 𝕜 E)) : E := (ss.getLast?.map Slot.v).getD 0

/-- The loop of `BVMatArnoldi`, bvkrylov.c:88-96 (the same as bvkrylov.c:198-206 in `BVMatLanczos`): `fuel` is
`m-j`, `N` the dimension of the space, `beta` the value of the previous iteration.  In the last step of a full basis
`BV_OrthogonalizeColumn_Safe` is used (bvimpl.h:452-465): one pass without refinement, neither the norm nor
the scaling of the column. -/
def arnLoop (f : E →ₗ⋆[𝕜] E →ₗ[𝕜] 𝕜) (o : OrthOpts) (A : E →ₗ[𝕜] E) (N nc : Nat) :
    Nat → Nat → List (Slot 𝕜 E) → (Nat → Nat → 𝕜) → ℝ → Arn 𝕜 E
  | 0, j, ss, buf, beta => ⟨ss, buf, j, beta, false⟩
  | fuel + 1, j, ss, buf, beta =>
    let w := A (lastCol ss)
    if j + 1 = N then
      let r := gs f false o.mgs o.eta .never ss w
      ⟨r.ss ++ [mkSlot r.w 1], writeCol buf (j + 1) ((r.ss.drop nc).map Slot.h), j + 1, 0, true⟩
    else
      let q := orthonormalize f false o.mgs o.eta o.ref ss w
      let ss' := q.2.ss ++ [mkSlot q.1 1]
      let buf' := writeCol buf (j + 1) (bufferColumn nc q.2)
      if q.2.lindep then ⟨ss', buf', j + 1, q.2.nrm, true⟩
      else arnLoop f o A N nc fuel (j + 1) ss' buf' q.2.nrm

/-- The part of `H` that is overwritten, bvkrylov.c:100-109; `h0` is its content before and `ldh` its leading
dimension. -/
def arnH (k m ldh : Nat) (buf h0 : Nat → Nat → 𝕜) : Nat → Nat → 𝕜 := fun i j =>
  if k ≤ j ∧ j < m - 1 ∧ i < j + 2 then buf i (j + 1)
  else if j = m - 1 ∧ i < m then buf i m
  else if ldh > m ∧ i = m ∧ j = m - 1 then buf m m
  else h0 i j

/-- What `BVMatArnoldi` returns. -/
structure ArnOut (𝕜 E : Type) where
  ss : List (Slot 𝕜 E)
  buf : Nat → Nat → 𝕜
  H : Nat → Nat → 𝕜
  m : Nat
  beta : ℝ
  breakdown : Bool

/-- `BVMatArnoldi`, bvkrylov.c:56-113. The slots `ss` hold the constraints and columns `0..k`. -/
def matArnoldi (f : E →ₗ⋆[𝕜] E →ₗ[𝕜] 𝕜) (o : OrthOpts) (A : E →ₗ[𝕜] E) (N nc k m ldh : Nat)
    (ss : List (Slot 𝕜 E)) (buf h0 : Nat → Nat → 𝕜) : ArnOut 𝕜 E :=
  let r := arnLoop f o A N nc (m - k) k ss buf 0
  ⟨r.ss, r.buf, arnH k r.m ldh r.buf h0, r.m, r.beta, r.lindep⟩

/-- What `BVMatLanczos` returns: the diagonal and the subdiagonal of `T`. -/
structure LanOut (𝕜 E : Type) where
  ss : List (Slot 𝕜 E)
  buf : Nat → Nat → 𝕜
  alpha : Nat → ℝ
  betat : Nat → ℝ
  m : Nat
  beta : ℝ
  breakdown : Bool

/-- `BVMatLanczos`, bvkrylov.c:165-226, the arrays being written at bvkrylov.c:216-219. -/
def matLanczos (f : E →ₗ⋆[𝕜] E →ₗ[𝕜] 𝕜) (o : OrthOpts) (A : E →ₗ[𝕜] E) (N nc k m : Nat)
    (ss : List (Slot 𝕜 E)) (buf : Nat → Nat → 𝕜) (alpha0 betat0 : Nat → ℝ) : LanOut 𝕜 E :=
  let r := arnLoop f o A N nc (m - k) k ss buf 0
  ⟨r.ss, r.buf, fun j => if k ≤ j ∧ j < r.m then RCLike.re (r.buf j (j + 1)) else alpha0 j,
    fun j => if k ≤ j ∧ j < r.m then RCLike.re (r.buf (j + 1) (j + 1)) else betat0 j, r.m, r.beta, r.lindep⟩

end
end Verif.BV
