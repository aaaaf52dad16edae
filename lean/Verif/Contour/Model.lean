import Mathlib.Analysis.Complex.Basic
import Mathlib.Data.List.Range

/-!
Model of the contour-integral support code: distribution of the integration points
(src/sys/slepccontour.c), the quadrature sums (src/sys/classes/bv/interface/bvcontour.c), the block
Hankel matrix (include/slepc/private/slepccontour.h) and the parameter and set-up logic of
src/eps/impls/ciss/ciss.c.

Simplifications: scalars are exact complex numbers (complex build; in the real build `useconj` is
never set and `PetscRealPart` is the identity).  A vector is a function from global row indices to
scalars.  The linear solves are abstract: the columns of `Y` are inputs.  A partition of the
communicator is identified by its colour; the redundant vectors of all partitions together form
`xdup`, partition `c` holding the global entries `c*m .. c*m+m-1`.
-/
set_option linter.all false

namespace Verif.Contour

/-- `contour->npoints`, slepccontour.c:30-31. -/
def npoints (n npart color : ℕ) : ℕ := if n % npart > color then n / npart + 1 else n / npart

/-- `p_id`, bvcontour.c:17, ciss.c:86,120, pciss.c:107,133. -/
def pid (npart color i : ℕ) : ℕ := i * npart + color

/-! ### Scatter -/

/-- Ownership ranges of a distributed vector with local sizes `ls`, first range starting at `s`
(`VecGetOwnershipRange`, used in slepccontour.c:138). -/
def ranges : ℕ → List ℕ → List (ℕ × ℕ)
  | _, [] => []
  | s, l :: ls => (s, s + l) :: ranges (s + l) ls

/-- The index pairs `(idx1,idx2)` of `SlepcContourScatterCreate`, slepccontour.c:141-147, over all
processes. -/
def scatterPairs (m npart : ℕ) (ls : List ℕ) : List (ℕ × ℕ) :=
  (ranges 0 ls).flatMap fun r =>
    (List.range npart).flatMap fun k => (List.range' r.1 (r.2 - r.1)).map fun i => (i, i + m * k)

/-- `VecScatter(...,ADD_VALUES,SCATTER_REVERSE)` of bvcontour.c:137-138, 296-297: adds into the
destination. -/
def scatterReverseAdd (pairs : List (ℕ × ℕ)) (xdup sj : ℕ → ℂ) : ℕ → ℂ :=
  pairs.foldl (fun s p => Function.update s p.1 (s p.1 + xdup p.2)) sj

/-- `VecScatter(...,INSERT_VALUES,SCATTER_FORWARD)` of bvcontour.c:57-58. -/
def scatterForward (pairs : List (ℕ × ℕ)) (v xdup : ℕ → ℂ) : ℕ → ℂ :=
  pairs.foldl (fun x p => Function.update x p.2 (v p.1)) xdup

/-- The vector on the contiguous parent made of the vectors of the partitions
(slepccontour.c:130-135). -/
def dup (m : ℕ) (v : ℕ → ℕ → ℂ) : ℕ → ℂ := fun t => v (t / m) (t % m)

/-! ### Quadrature sums -/

/-- The array `ppk` after `k` rounds of bvcontour.c:142 (and 228). -/
def ppk (zn : ℕ → ℂ) (npart color : ℕ) : ℕ → ℕ → ℂ
  | 0, _ => 1
  | k + 1, i => ppk zn npart color k i * zn (pid npart color i)

/-- The vector `v` accumulated in bvcontour.c:125-129 by one partition. -/
def sumLocal (Y : ℕ → ℕ → ℂ) (w zn : ℕ → ℂ) (Lmax npts npart color k j : ℕ) : ℕ → ℂ :=
  (List.range npts).foldl
    (fun v i t => (ppk zn npart color k i * w (pid npart color i)) * Y (i * Lmax + j) t + v t)
    (fun _ => 0)

/-- bvcontour.c:130-134. -/
def realify (useconj : Bool) (v : ℕ → ℂ) : ℕ → ℂ :=
  if useconj then fun t => ((2 * (v t).re : ℝ) : ℂ) else v

/-- `BVSumQuadrature`, bvcontour.c:108-147: column `k*L+j` of `S`, for all partitions together.
`Y c` are the columns computed by partition `c`, `S` the previous contents of that column.  The
scatter exists exactly if there is more than one partition (slepccontour.c:93, ciss.c:311-313). -/
def sumQuadrature (m n npart : ℕ) (ls : List ℕ) (Y : ℕ → ℕ → ℕ → ℂ) (w zn : ℕ → ℂ) (Lmax : ℕ)
    (useconj : Bool) (k j : ℕ) (S : ℕ → ℂ) : ℕ → ℂ :=
  let v := fun c => realify useconj (sumLocal (Y c) w zn Lmax (npoints n npart c) npart c k j)
  if 1 < npart then scatterReverseAdd (scatterPairs m npart ls) (dup m v) S
  else v 0

/-- `temp2[s+(j+k*L)*L]` before the reduction in one process of a partition, bvcontour.c:217-229;
`H s q` is entry `(s,q)` of the matrix of inner products `V^H Y` of bvcontour.c:207. -/
noncomputable def dotLocal (H : ℕ → ℕ → ℂ) (w zn : ℕ → ℂ) (Lmax npts npart color : ℕ) (useconj : Bool)
    (k j s : ℕ) : ℂ :=
  (List.range npts).foldl (fun acc i =>
    let alp := ppk zn npart color k i * w (pid npart color i)
    if useconj then acc + ((2 * (alp * H s (i * Lmax + j)).re : ℝ) : ℂ)
    else acc + alp * H s (i * Lmax + j)) 0

/-- `BVDotQuadrature`, bvcontour.c:187-237: entry `Mu[s+(j+k*L)*L]`.  `size c` is the number of
processes of partition `c`; every one of them contributes to the sum over the parent
communicator (line 233) after the division of line 230. -/
noncomputable def dotQuadrature (n npart : ℕ) (size : ℕ → ℕ) (H : ℕ → ℕ → ℕ → ℂ) (w zn : ℕ → ℂ) (Lmax : ℕ)
    (useconj : Bool) (k j s : ℕ) : ℂ :=
  ((List.range npart).flatMap fun c => (List.range (size c)).map fun _ =>
    dotLocal (H c) w zn Lmax (npoints n npart c) npart c useconj k j s / (size c : ℂ)).sum

/-- `VecDot(x,y) = y^H x` on vectors of length `m`. -/
noncomputable def vecDot (m : ℕ) (x y : ℕ → ℂ) : ℂ := ∑ t ∈ Finset.range m, x t * starRingEnd ℂ (y t)

/-- The loop over `j` in `BVTraceQuadrature`, bvcontour.c:288-303; the state is `(yall,sum)`. -/
noncomputable def traceLoop (m n npart : ℕ) (ls : List ℕ) (Y : ℕ → ℕ → ℕ → ℂ) (V : ℕ → ℕ → ℂ)
    (w : ℕ → ℂ) (Lmax : ℕ) (useconj : Bool) : ℕ → (ℕ → ℂ) × ℂ
  | 0 => (fun _ => 0, 0)
  | j + 1 =>
    let st := traceLoop m n npart ls Y V w Lmax useconj j
    let y := fun c => sumLocal (Y c) w (fun _ => 0) Lmax (npoints n npart c) npart c 0 j
    let yall := if 1 < npart then scatterReverseAdd (scatterPairs m npart ls) (dup m y) st.1
      else st.1
    let dot := if 1 < npart then vecDot m (V j) yall else vecDot m (V j) (y 0)
    (yall, if useconj then st.2 + ((2 * dot.re : ℝ) : ℂ) else st.2 + dot)

/-- `BVTraceQuadrature`, bvcontour.c:275-308. -/
noncomputable def traceQuadrature (m n npart : ℕ) (ls : List ℕ) (Y : ℕ → ℕ → ℕ → ℂ)
    (V : ℕ → ℕ → ℂ) (w : ℕ → ℂ) (L Lmax : ℕ) (useconj : Bool) : ℝ :=
  ‖(traceLoop m n npart ls Y V w Lmax useconj L).2‖ / L

/-! ### Block Hankel matrix and growing of the bases -/

/-- `CISS_BlockHankel`, slepccontour.h:19-29: the array writes in program order. -/
def hankelWrites (Mu : ℕ → ℂ) (s L M : ℕ) : List (ℕ × ℂ) :=
  (List.range (L * M)).flatMap fun k => (List.range M).flatMap fun j => (List.range L).map fun i =>
    (j * L + i + k * L * M, Mu (i + k * L + (j + s) * L * L))

/-- Performing a list of array writes. -/
def runWrites {α : Type} (a : ℕ → α) (l : List (ℕ × α)) : ℕ → α :=
  l.foldl (fun a p => Function.update a p.1 p.2) a

/-- One step of the loop of `BVCISSResizeBases`: `BVCopyColumn(Y,i*Lold+j,i*Lnew+j)`. -/
def copyColumn {α : Type} (Y : ℕ → α) (src dst : ℕ) : ℕ → α := Function.update Y dst (Y src)

/-- The interleaving loop of `BVCISSResizeBases`, bvcontour.c:600-602 (`BVResize(Y,...,TRUE)` keeps
the old columns). -/
def resizeY {α : Type} (Lold Lnew npts : ℕ) (Y : ℕ → α) : ℕ → α :=
  (List.range npts).reverse.foldl (fun Y i =>
    (List.range Lold).reverse.foldl (fun Y j => copyColumn Y (i * Lold + j) (i * Lnew + j)) Y) Y

/-- The count of nonnegligible singular values, slepccontour.c:232-235, bvcontour.c:387-390. -/
noncomputable def rankCount (delta : ℝ) (sigma : ℕ → ℝ) (ml : ℕ) : ℕ :=
  (List.range ml).foldl (fun r i => if delta < sigma i / max (sigma 0) 1 then r + 1 else r) 0

/-! ### Parameters and set-up -/

/-- An integer argument: `PETSC_CURRENT`, `PETSC_DETERMINE` or a value. -/
inductive Arg
  | current
  | determine
  | val (v : ℤ)

/-- The size parameters of `EPS_CISS`, ciss.c:31-66 (initial values ciss.c:1495-1499). -/
structure Sizes where
  (N L M npart Lmax : ℤ)
  isreal : Bool
  deriving DecidableEq

/-- The defaults, ciss.c:1495-1501. -/
def Sizes.init : Sizes := ⟨32, 16, 32 / 4, 1, 64, false⟩

/-- `EPSCISSSetSizes_CISS`, ciss.c:658-711; `size` is the number of processes, `none` an error
return. -/
def setSizes (size : ℤ) (c : Sizes) (ip bs ms np bsmax : Arg) (realmats : Bool) : Option Sizes :=
  let c1? : Option Sizes := match ip with
    | .determine => some (if c.N ≠ 32 then { c with N := 32, M := 32 / 4 } else c)
    | .current => some c
    | .val v => if ¬ v > 0 then none else if ¬ v % 2 = 0 then none
        else some (if c.N ≠ v then { c with N := v, M := v / 4 } else c)
  c1?.bind fun c1 =>
  let c2? : Option Sizes := match bs with
    | .determine => some { c1 with L := 16 }
    | .current => some c1
    | .val v => if ¬ v > 0 then none else some { c1 with L := v }
  c2?.bind fun c2 =>
  let c3? : Option Sizes := match ms with
    | .determine => some { c2 with M := c2.N / 4 }
    | .current => some c2
    | .val v => if ¬ v > 0 then none else if ¬ v ≤ c2.N then none else some { c2 with M := v }
  c3?.bind fun c3 =>
  let c4? : Option Sizes := match np with
    | .determine => some { c3 with npart := 1 }
    | .current => some c3
    | .val v => if ¬ (v > 0 ∧ v ≤ size) then none else some { c3 with npart := v }
  c4?.bind fun c4 =>
  let c5? : Option Sizes := match bsmax with
    | .determine => some { c4 with Lmax := 64 }
    | .current => some c4
    | .val v => if ¬ v > 0 then none else some { c4 with Lmax := max v c4.L }
  c5?.bind fun c5 => some { c5 with isreal := realmats }

/-- What set-up knows about the region: its identity and state counter, and whether conjugates can
be used (`RGCanUseConjugates`). -/
structure Region where
  id : ℕ
  state : ℕ
  canConj : Bool

/-- The part of the solver context concerned with the contour: `contour` holds `npoints` of the
contour data structure as the total number of points it was created for. -/
structure Ctx where
  contour : Option ℕ
  useconj : Bool
  rgid : ℕ
  rgstate : ℕ

/-- Fresh context (`PetscNew` zeroes it), ciss.c:1462. -/
def Ctx.init : Ctx := ⟨none, false, 0, 0⟩

/-- The part of `EPSSetUp_CISS` concerned with the contour, ciss.c:259-267 and 282-285. -/
def setUp (N : ℕ) (c : Ctx) (rg : Region) : Ctx :=
  let c := if c.rgid ≠ 0 ∧ (rg.id ≠ c.rgid ∨ rg.state ≠ c.rgstate) then
      { c with contour := none, rgid := rg.id, rgstate := rg.state } else c
  match c.contour with
  | some _ => c
  | none => { c with useconj := rg.canConj, contour := some (if rg.canConj then N / 2 else N) }

end Verif.Contour
