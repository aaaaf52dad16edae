import Verif.Slice.Model
/-!
Model of the parts of ks-slice.c that deal with several partitions, and of `EPSSliceGetInertias`.

The messages of the set-up are modelled as if every buffer still had its value when it is sent (see `Verif.Slice.Witness` for the other case).
-/
set_option linter.all false
namespace Verif.Slice
noncomputable section
open Classical

/-- `EPSSliceGetInertias`, inner loop of lines 613-619 for one `i`: `x` is the entry at position `i`; the entries after it, exchanged if smaller. -/
def exPass (x : ℝ × ℤ) : List (ℝ × ℤ) → (ℝ × ℤ) × List (ℝ × ℤ)
  | [] => (x, [])
  | y :: t =>
    if y.1 < x.1 then ((exPass y t).1, x :: (exPass y t).2)
    else ((exPass x t).1, y :: (exPass x t).2)

/-- `EPSSliceGetInertias`, lines 611-620; the first argument is the number of passes. -/
def exSort : ℕ → List (ℝ × ℤ) → List (ℝ × ℤ)
  | 0, l => l
  | _ + 1, [] => []
  | n + 1, x :: t => (exPass x t).1 :: exSort n (exPass x t).2

/-- `EPSSliceGetInertias`, lines 584-607: all shifts and the second end.  Without eigenvalues in the interval there is no list of shifts
(`s0` null) and lines 594-597 give the same as the list with one shift. -/
def shiftsRaw (S : SR) (st : St) : List (ℝ × ℤ) := (chain st).map (fun e => (e.value, e.inertia)) ++ [(S.int1, S.inertia1)]

/-- `EPSSliceGetInertias`, line 609. -/
def dropDup (l : List (ℝ × ℤ)) : List (ℝ × ℤ) :=
  if (l.getD (l.length - 1) (0, 0)).1 = (l.getD (l.length - 2) (0, 0)).1 then l.dropLast else l

/-- `EPSSliceGetInertias`, lines 571-622. -/
def getInertias (S : SR) (st : St) : List (ℝ × ℤ) :=
  let l := dropDup (shiftsRaw S st)
  exSort l.length l

/-- `EPSSliceGetEPS`, lines 178-184: the ends of the uniform subintervals. -/
def uniform (a b : ℝ) (npart i : ℕ) : ℝ := if i = npart then b else a + (i : ℝ) * ((b - a) / (npart : ℝ))

/-- `EPSSetUp_KrylovSchur_Slice`, lines 402-421 without options: the first shift of a partition, moved if it is an eigenvalue and neither an end of
the global interval (line 412) nor given by the user (line 413). -/
def firstShift (P : Par) (spec : Multiset ℝ) (subintset : Bool) (a b x : ℝ) : R ℝ :=
  if zerosAt P spec x ≠ 0 then
    if x = a ∨ x = b then .err
    else if subintset = true then .err
    else if zerosAt P spec (x * (1 + P.ptol)) ≠ 0 then .err
    else .ok (x * (1 + P.ptol))
  else .ok x

/-- Is the partition the last one in the direction of traversal?  Lines 394, 451. -/
def isLast (dir : ℤ) (npart c : ℕ) : Bool := decide ((0 < dir ∧ c = npart - 1) ∨ (dir < 0 ∧ c = 0))

/-- `EPSSetUp_KrylovSchur_Slice`, lines 387-467 for partition `c`; `t` are the ends of the subintervals after lines 402-421 (the second end is received from
the neighbour, lines 432-446, or computed, line 452). -/
def partSR (P : Par) (spec : Multiset ℝ) (dir : ℤ) (hasEnd : Bool) (npart : ℕ) (t : ℕ → ℝ) (c : ℕ) : SR :=
  let i0 := if dir = 1 then t c else t (c + 1)
  let i1 := if dir = 1 then t (c + 1) else t c
  let he := if isLast dir npart c = true then hasEnd else true
  let n0 := inertiaAt P spec i0
  let n1 := inertiaAt P spec i1
  if isLast dir npart c = true ∧ he = true then ⟨-dir, i1, i0, he, n1, n0, -dir * (n0 - n1)⟩
  else ⟨dir, i0, i1, he, n0, n1, dir * (n1 - n0)⟩

/-- `EPSSliceGatherSolution`, lines 700-703: offsets are added to the entries of `perm` from the second partition on; `prev` is
`nconv_loc[i-1]`. -/
def updPerm (prev off : ℕ) : List ℕ → List ℕ → List ℕ
  | [], p => p
  | n :: ns, p => (p.take n).map (· + (off + prev)) ++ updPerm n (off + prev) ns (p.drop n)

/-- `EPSSliceGatherSolution`, lines 672-673 and 699-703: eigenvalues and permutation of all partitions. -/
def gather (parts : List (List ℝ × List ℕ)) : List ℝ × List ℕ :=
  let e := (parts.map Prod.fst).flatten
  let p := (parts.map Prod.snd).flatten
  match parts.map (fun q => q.1.length) with
  | [] => (e, p)
  | n :: ns => (e, p.take n ++ updPerm n 0 ns (p.drop n))

/-- The values returned by `EPSGetEigenpair` after gathering. -/
def gathered (parts : List (List ℝ × List ℕ)) : List ℝ :=
  (List.range (gather parts).1.length).map (fun i => at' (gather parts).1 ((gather parts).2.getD i i))

/-- `EPSSliceGatherSolution`, lines 641-648: the shift shared with the neighbour is removed (the last one, or for `dir<0` the first one). -/
def trimShifts (dir : ℤ) (npart c : ℕ) (S : SR) (l : List (ℝ × ℤ)) : List (ℝ × ℤ) :=
  if 0 < dir ∧ (l.getD (l.length - 1) (0, 0)).1 = S.int1 ∧ c < npart - 1 then l.dropLast
  else if dir < 0 ∧ (l.getD (l.length - 1) (0, 0)).1 = S.int0 ∧ 0 < c then l.tail
  else l

end
end Verif.Slice
