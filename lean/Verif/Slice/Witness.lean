import Verif.Slice.PartsThm
/-!
Concrete runs: an instance of the theorems on partitions, and the witnesses of the false parts of C109, C110 and C111.
-/
set_option linter.all false
namespace Verif.Slice
noncomputable section
open Classical

/-! Two partitions of (1,10): (1,5.5) traversed upwards and (5.5,10) traversed downwards. -/
section two

theorem two_sr0 : partSR exP exSpec 1 true 2 (uniform 1 10 2) 0 = ⟨1, 1, 5.5, true, 0, 1, 1⟩ := by
  have e1 := ex_inertia 1 (by norm_num) (by norm_num) (by norm_num)
  have e2 := ex_inertia 5.5 (by norm_num) (by norm_num) (by norm_num)
  norm_num at e1 e2
  norm_num [partSR, isLast, uniform, e1, e2]

theorem two_sr1 : partSR exP exSpec 1 true 2 (uniform 1 10 2) 1 = ⟨-1, 10, 5.5, true, 2, 1, 1⟩ := by
  have e1 := ex_inertia 10 (by norm_num) (by norm_num) (by norm_num)
  have e2 := ex_inertia 5.5 (by norm_num) (by norm_num) (by norm_num)
  norm_num at e1 e2
  norm_num [partSR, isLast, uniform, e1, e2]

def twoS0 : SR := ⟨1, 1, 5.5, true, 0, 1, 1⟩
def twoS1 : SR := ⟨-1, 10, 5.5, true, 2, 1, 1⟩
def twoSt0 : St := ⟨[], ⟨1, 1, 0, 0, 1⟩, [], [], some 1, 2, [2], [0], 0⟩
def twoSt1 : St := ⟨[], ⟨1, 10, 2, 0, 1⟩, [], [], some 1, 2, [8.7], [0], 0⟩

theorem two_work0 : work exP twoS0 [2] (start twoS0) = .ok twoSt0 := by
  have n0 : nsch0 exP twoS0 (start twoS0) = 0 := rfl
  have n1 : nsch1 exP twoS0 (start twoS0) = 1 := by simp [nsch1, start, twoS0]
  have f0 : found0 twoS0 (start twoS0) [2] = 0 := by norm_num [found0, start, twoS0, ext0]
  have f1 : found1 exP twoS0 (start twoS0) [2] = 1 := by norm_num [found1, start, twoS0, ext1]
  have hacc : accepted exP twoS0 (start twoS0) [2] = [2] := by
    norm_num [accepted, sortReal, insRev, at', start, twoS0, ext0, ext1]
  have hst : store exP twoS0 (start twoS0) [2] = .ok twoSt0 := by
    unfold store
    rw [hacc]
    simp [start, twoS0, sortReal, insRev, twoSt0]
  unfold work
  rw [n0, n1, f0, f1, hst]
  simp [start, R.bind, doRight, doLeft]

theorem two_work1 : work exP twoS1 [8.7] (start twoS1) = .ok twoSt1 := by
  have n0 : nsch0 exP twoS1 (start twoS1) = 0 := rfl
  have n1 : nsch1 exP twoS1 (start twoS1) = 1 := by simp [nsch1, start, twoS1]
  have f0 : found0 twoS1 (start twoS1) [8.7] = 0 := by norm_num [found0, start, twoS1, ext0]
  have f1 : found1 exP twoS1 (start twoS1) [8.7] = 1 := by norm_num [found1, start, twoS1, ext1]
  have hacc : accepted exP twoS1 (start twoS1) [8.7] = [8.7] := by
    norm_num [accepted, sortReal, insRev, at', start, twoS1, ext0, ext1]
  have hst : store exP twoS1 (start twoS1) [8.7] = .ok twoSt1 := by
    unfold store
    rw [hacc]
    simp [start, twoS1, sortReal, insRev, twoSt1]
  unfold work
  rw [n0, n1, f0, f1, hst]
  simp [start, R.bind, doRight, doLeft]

def twoCs (c : ℕ) : List (List ℝ) := if c = 0 then [[2]] else [[8.7]]
def twoRes (c : ℕ) : St := if c = 0 then twoSt0 else { twoSt1 with perm := [0] }

theorem two_run : PartRun exP exSpec 1 true 2 (uniform 1 10 2) twoCs twoRes := by
  refine ⟨(uniform_cover 1 10 (by norm_num) 2 (by norm_num)).2.2.1, ?_, fun h => by simp at h, ?_, ?_⟩
  · intro i hi
    interval_cases i <;> norm_num [uniform, exSpec]
  · intro c hc
    interval_cases c
    · rw [two_sr0]
      refine ⟨?_, ?_⟩
      · have : deflated exP ⟨1, 1, 5.5, true, 0, 1, 1⟩ (start ⟨1, 1, 5.5, true, 0, 1, 1⟩) = [] := by simp [deflated, tailVals, start]
        unfold Sound
        rw [this, Multiset.coe_nil, add_zero, Multiset.coe_singleton, Multiset.singleton_le]
        simp [exSpec]
      · intro s1 h1 s2 h2
        have h1' : work exP twoS0 [2] (start twoS0) = .ok s1 := h1
        rw [two_work0] at h1'
        injection h1' with h1'
        subst h1'
        simp [extract, twoSt0] at h2
    · rw [two_sr1]
      refine ⟨?_, ?_⟩
      · have : deflated exP ⟨-1, 10, 5.5, true, 2, 1, 1⟩ (start ⟨-1, 10, 5.5, true, 2, 1, 1⟩) = [] := by simp [deflated, tailVals, start]
        unfold Sound
        rw [this, Multiset.coe_nil, add_zero, Multiset.coe_singleton, Multiset.singleton_le]
        simp [exSpec]
      · intro s1 h1 s2 h2
        have h1' : work exP twoS1 [8.7] (start twoS1) = .ok s1 := h1
        rw [two_work1] at h1'
        injection h1' with h1'
        subst h1'
        simp [extract, twoSt1] at h2
  · intro c hc
    interval_cases c
    · rw [two_sr0]
      show solveLocal exP exSpec twoS0 [[2]] = .ok twoSt0
      unfold solveLocal
      rw [if_neg (by norm_num [twoS0])]
      unfold loop
      rw [two_work0]
      simp [R.bind, extract, twoSt0, twoS0]
    · rw [two_sr1]
      show solveLocal exP exSpec twoS1 [[8.7]] = .ok { twoSt1 with perm := [0] }
      unfold solveLocal
      rw [if_neg (by norm_num [twoS1])]
      unfold loop
      rw [two_work1]
      simp [R.bind, extract, twoSt1, twoS1]

theorem two_bounds : Bounds exP exSpec false 1 1 10 2 (uniform 1 10 2) (uniform 1 10 2) := by
  refine ⟨(uniform_cover 1 10 (by norm_num) 2 (by norm_num)).1, (uniform_cover 1 10 (by norm_num) 2 (by norm_num)).2.1, fun _ => ⟨?_, rfl⟩, fun h => by simp at h⟩
  intro c hc
  simp [firstShift, zerosAt, exP]

example : (gathered ((List.range 2).map fun c => ((twoRes c).eigr, (twoRes c).perm)) : Multiset ℝ) = exSpec.filter (fun l => (1 : ℝ) < l ∧ l < 10) :=
  (parts_union_partial ex_hyp false 1 (Or.inl rfl) true 1 10 2 (by norm_num) _ _ two_bounds twoCs twoRes two_run).1

end two

/-! ### C111: what goes wrong -/

/-- Constants of double precision: `ptol` and `narrow` are 1 and 100 times 2^-26 (with a smaller largest number, which does not matter). -/
def dblP (detect : Bool) : Par := ⟨10 ^ 200, 1 / 2 ^ 26, 100 / 2 ^ 26, 1 / 10 ^ 5, 2, detect⟩

/-- **C111, negation**: with detection the internal end of a uniform subdivision that hits an eigenvalue is moved by a relative amount
(line 417), even beyond the end of the interval; then the subintervals overlap. -/
theorem moved_bound_outside :
    ∃ (spec : Multiset ℝ) (a b : ℝ) (t1 : ℝ), a < b ∧ a ∉ spec ∧ b ∉ spec
      ∧ firstShift (dblP true) spec false a b (uniform a b 2 1) = .ok t1 ∧ b < t1 := by
  refine ⟨{10 ^ 9 + 1 / 2}, 10 ^ 9, 10 ^ 9 + 1, (10 ^ 9 + 1 / 2) * (1 + 1 / 2 ^ 26), by norm_num, by norm_num, by norm_num, ?_, by norm_num⟩
  have hu : uniform (10 ^ 9) (10 ^ 9 + 1) 2 1 = 10 ^ 9 + 1 / 2 := by norm_num [uniform]
  rw [hu]
  unfold firstShift
  have z1 : zerosAt (dblP true) {10 ^ 9 + 1 / 2} (10 ^ 9 + 1 / 2) = 1 := by
    unfold zerosAt
    rw [if_pos (show (dblP true).detect = true from rfl), if_neg (by norm_num [dblP]), if_neg (by norm_num [dblP])]
    unfold nz
    rw [if_neg (by norm_num)]
    simp
  have z2 : zerosAt (dblP true) {10 ^ 9 + 1 / 2} ((10 ^ 9 + 1 / 2) * (1 + (dblP true).ptol)) = 0 := by
    unfold zerosAt
    rw [if_pos (show (dblP true).detect = true from rfl), if_neg (by norm_num [dblP]), if_neg (by norm_num [dblP])]
    unfold nz
    rw [if_neg (by norm_num [dblP])]
    rw [Multiset.count_eq_zero]
    norm_num [dblP]
  rw [z1, z2, if_pos (by norm_num), if_neg (by norm_num), if_neg (by norm_num), if_neg (by norm_num)]
  rfl

/-- What the neighbour of the last partition receives as its second end and inertia: the send of lines 429-430 is not waited for, and lines 460-463
exchange the contents of the buffers.  `late`: the data are read after the exchange. -/
def received (late : Bool) (i0 i1 : ℝ) (n0 n1 : ℤ) : ℝ × ℤ := if late = true then (i1, n1) else (i0, n0)

/-- The number of eigenvalues of the last but one partition, lines 434-435 and 467 (`dir=1`). -/
def numEigsRecv (P : Par) (spec : Multiset ℝ) (late : Bool) (t0 t1 t2 : ℝ) : ℤ :=
  (received late t1 t2 (inertiaAt P spec t1) (inertiaAt P spec t2)).2 - inertiaAt P spec t0

/-- The number of eigenvalues of the last partition. -/
def numEigsLast (P : Par) (spec : Multiset ℝ) (t1 t2 : ℝ) : ℤ := inertiaAt P spec t2 - inertiaAt P spec t1

/-- **C111**, messages: if the data are read when they are sent, the sum over two partitions is right. -/
theorem race_free {P : Par} {spec : Multiset ℝ} (H : Hyp P spec) (t0 t1 t2 : ℝ) (h02 : t0 ≤ t2) (h0 : t0 ∉ spec) (h2 : t2 ∉ spec) :
    numEigsRecv P spec false t0 t1 t2 + numEigsLast P spec t1 t2 = (spec.countP (fun l => t0 < l ∧ l < t2) : ℤ) := by
  have := inertia_diff H 1 (Or.inl rfl) t0 t2 (by push_cast; linarith) h0 h2
  unfold numEigsRecv numEigsLast received
  simp only [Bool.false_eq_true, if_false]
  rw [one_mul] at this
  have h3 : spec.countP (fun l => t0 < l ∧ l < t2) = spec.countP (btw 1 t0 t2) := by
    apply Multiset.countP_congr rfl
    intro l _
    unfold btw
    push_cast
    simp
  rw [h3]
  linarith

example : numEigsRecv exP exSpec false 1 5.5 10 + numEigsLast exP exSpec 5.5 10 = (exSpec.countP (fun l => (1 : ℝ) < l ∧ l < 10) : ℤ) :=
  race_free ex_hyp 1 5.5 10 (by norm_num) (by norm_num [exSpec]) (by norm_num [exSpec])

/-- **C111, negation**: if the data are read after the exchange, eigenvalues are counted twice. -/
theorem race_double_count :
    numEigsRecv exP exSpec true 1 5.5 10 + numEigsLast exP exSpec 5.5 10 = 3
      ∧ exSpec.countP (fun l => (1 : ℝ) < l ∧ l < 10) = 2 := by
  have e1 := ex_inertia 1 (by norm_num) (by norm_num) (by norm_num)
  have e2 := ex_inertia 5.5 (by norm_num) (by norm_num) (by norm_num)
  have e3 := ex_inertia 10 (by norm_num) (by norm_num) (by norm_num)
  norm_num at e1 e2 e3
  constructor
  · norm_num [numEigsRecv, numEigsLast, received, e1, e2, e3]
  · unfold exSpec
    simp only [Multiset.insert_eq_cons, Multiset.countP_cons, ← Multiset.cons_zero, Multiset.countP_zero]
    norm_num

end
end Verif.Slice
