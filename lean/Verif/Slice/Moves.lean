import Verif.Slice.Witness
/-!
C109 (a shift that is an eigenvalue) and C110 (selection of the next shift).
-/
set_option linter.all false
namespace Verif.Slice
noncomputable section
open Classical

/-- **C109** (partial).  A shift which is an eigenvalue and has both neighbours is moved to another value strictly between them, if the
distances to the neighbours are larger than the relative perturbation.  Missing: the false cases below. -/
theorem moved_between_partial (P : Par) (S : SR) (hd : S.dir = 1 ∨ S.dir = -1) (hp : 0 < P.ptol) (v n0 n1 : ℝ) (hv : v ≠ 0)
    (h0 : 0 < (S.dir : ℝ) * (v - n0)) (h1 : 0 < (S.dir : ℝ) * (n1 - v)) (g0 : P.ptol * |v| < |v - n0|) (g1 : P.ptol * |v| < |n1 - v|) :
    0 < (S.dir : ℝ) * (moved P S v n0 n1 - n0) ∧ 0 < (S.dir : ℝ) * (n1 - moved P S v n0 n1) ∧ moved P S v n0 n1 ≠ v := by
  unfold moved
  dsimp only
  obtain ⟨q, hq⟩ : ∃ q, min P.ptol (min |n0 - v| |n1 - v| / 2) = q := ⟨_, rfl⟩
  rw [hq]
  have hne0 : n0 ≠ v := by rintro rfl; simp at h0
  have hne1 : n1 ≠ v := by rintro rfl; simp at h1
  have hq0 : 0 < q := by
    rw [← hq]
    exact lt_min hp (by
      have := lt_min (abs_pos.mpr (sub_ne_zero.mpr hne0)) (abs_pos.mpr (sub_ne_zero.mpr hne1))
      linarith)
  have hqp : q ≤ P.ptol := by rw [← hq]; exact min_le_left _ _
  have hqv : q * |v| ≤ P.ptol * |v| := mul_le_mul_of_nonneg_right hqp (abs_nonneg v)
  have hva : 0 < |v| := abs_pos.mpr hv
  have hqv0 : 0 < q * |v| := mul_pos hq0 hva
  have hs : |v * (1 + q) - v| = q * |v| := by
    rw [show v * (1 + q) - v = q * v by ring, abs_mul, abs_of_pos hq0]
  have hsv : v * (1 + q) ≠ v := by
    intro h
    rw [h, sub_self, abs_zero] at hs
    linarith
  have b := abs_le.mp hs.le
  rcases hd with hd | hd
  · rw [hd] at h0 h1 ⊢
    push_cast at h0 h1 ⊢
    rw [one_mul] at h0 h1
    rw [abs_of_pos h0] at g0
    rw [abs_of_pos h1] at g1
    rw [if_neg (by split_ifs <;> simp), if_neg (by rw [one_mul]; linarith [b.1, b.2])]
    refine ⟨?_, ?_, hsv⟩ <;> rw [one_mul] <;> linarith [b.1, b.2]
  · rw [hd] at h0 h1 ⊢
    push_cast at h0 h1 ⊢
    have k0 : v - n0 < 0 := by linarith
    have k1 : n1 - v < 0 := by linarith
    rw [abs_of_neg k0] at g0
    rw [abs_of_neg k1] at g1
    have hsn : v * (1 + q) - n0 ≠ 0 := by
      intro h
      linarith [b.1, b.2]
    rw [if_pos (by rw [if_pos hsn]; norm_num)]
    refine ⟨by linarith, by linarith, fun h => by linarith⟩

/-- The hypotheses of `moved_between_partial` hold for every shift obtained by division of an interval that is not too narrow: `c` and `n` are the shift processed and its
neighbour, in either order. -/
theorem bisected_wide (P : Par) (hn : 0 < P.narrow) (hp : 0 ≤ P.ptol) (hs : P.ptol * (1 + P.narrow) < P.narrow) (c n : ℝ)
    (hm : middle P c n ≠ c) :
    P.ptol * |middle P c n| < |middle P c n - c| ∧ P.ptol * |middle P c n| < |n - middle P c n| := by
  unfold middle at hm ⊢
  split_ifs at hm ⊢ with h
  · exact absurd rfl hm
  · push Not at h
    obtain ⟨m, hmm⟩ : ∃ m, (c + n) / 2 = m := ⟨_, rfl⟩
    rw [hmm] at h ⊢
    have e1 : |n - m| = |c - m| := by
      rw [← hmm, show n - (c + n) / 2 = -(c - (c + n) / 2) by ring, abs_neg]
    have e2 : |m - c| = |c - m| := abs_sub_comm _ _
    rw [e1, e2]
    have hm' : |m| ≤ |c| + |c - m| := by
      have := abs_sub_abs_le_abs_sub m c
      rw [abs_sub_comm m c] at this
      linarith
    have hg : 0 < |c - m| := lt_of_le_of_lt (mul_nonneg hn.le (abs_nonneg c)) h
    have key : P.narrow * (P.ptol * |m|) < P.narrow * |c - m| := by
      have h1 : P.narrow * |m| ≤ (1 + P.narrow) * |c - m| := by nlinarith
      have h2 : P.ptol * (P.narrow * |m|) ≤ P.ptol * ((1 + P.narrow) * |c - m|) := mul_le_mul_of_nonneg_left h1 hp
      have h3 : (P.ptol * (1 + P.narrow)) * |c - m| < P.narrow * |c - m| := mul_lt_mul_of_pos_right hs hg
      nlinarith
    have := lt_of_mul_lt_mul_left key hn.le
    exact ⟨this, this⟩

/-- The constants of double precision satisfy the hypotheses. -/
example : 0 < (dblP true).narrow ∧ 0 ≤ (dblP true).ptol ∧ (dblP true).ptol * (1 + (dblP true).narrow) < (dblP true).narrow := by
  norm_num [dblP]

/-- A shift at 3, found by dividing (2,4), in both directions. -/
example (S : SR) (hd : S.dir = 1) :
    0 < (S.dir : ℝ) * (moved (dblP true) S 3 2 4 - 2) ∧ 0 < (S.dir : ℝ) * (4 - moved (dblP true) S 3 2 4) ∧ moved (dblP true) S 3 2 4 ≠ 3 :=
  moved_between_partial _ S (Or.inl hd) (by norm_num [dblP]) 3 2 4 (by norm_num) (by rw [hd]; norm_num) (by rw [hd]; norm_num)
    (by norm_num [dblP]) (by norm_num [dblP])

/-- **C109, negation** (first part): the condition of line 825 never holds for `dir=1`, so that the new value may be beyond the left neighbour.
(The case is not reached in a run, see `bisected_wide`.) -/
theorem moved_passes_neighbour :
    ∃ (P : Par) (S : SR) (v n0 n1 : ℝ), S.dir = 1 ∧ P.ptol = 1 / 100 ∧ n0 < v ∧ v < n1 ∧ moved P S v n0 n1 < n0 := by
  refine ⟨exP, twoS0, -1000, -1001, -999, rfl, rfl, by norm_num, by norm_num, ?_⟩
  norm_num [moved, exP, twoS0]

/-! **C109, negation** (second part): a complete run with detection in which a shift without a right neighbour hits an eigenvalue; line 822 dereferences
a null pointer. -/
section nullrun

def nuP : Par := ⟨1000, 1 / 100, 1 / 10, 1 / 10, 2, true⟩
def nuSpec : Multiset ℝ := {2, 8.7, 7.7}
def nuS : SR := ⟨-1, 10, 1, true, 3, 0, 3⟩

theorem nu_zeros (v : ℝ) (h0 : v ≠ 0) (h1 : -1000 < v) (h2 : v < 1000) :
    zerosAt nuP nuSpec v = (if v = 2 then 1 else 0) + (if v = 8.7 then 1 else 0) + (if v = 7.7 then 1 else 0) := by
  unfold zerosAt
  rw [if_pos (show nuP.detect = true from rfl), if_neg (by simp [nuP]; linarith), if_neg (by simp [nuP]; linarith)]
  unfold nz
  rw [if_neg h0]
  unfold nuSpec
  simp only [Multiset.insert_eq_cons, Multiset.count_cons, ← Multiset.cons_zero, Multiset.count_zero]
  ring

theorem nu_inertia (v : ℝ) (h0 : v ≠ 0) (h1 : -1000 < v) (h2 : v < 1000) :
    inertiaAt nuP nuSpec v = ((if 2 < v then 1 else 0) + (if 8.7 < v then 1 else 0) + (if 7.7 < v then 1 else 0) : ℤ) := by
  unfold inertiaAt
  rw [if_neg (by simp [nuP]; linarith), if_neg (by simp [nuP]; linarith)]
  unfold nz
  rw [if_neg h0]
  unfold nuSpec
  simp only [Multiset.insert_eq_cons, Multiset.countP_cons, ← Multiset.cons_zero, Multiset.countP_zero]
  push_cast
  ring_nf

theorem nu_setup : setup nuP nuSpec 1 10 = .ok nuS := by
  have e1 := nu_inertia 1 (by norm_num) (by norm_num) (by norm_num)
  have e2 := nu_inertia 10 (by norm_num) (by norm_num) (by norm_num)
  have z1 := nu_zeros 1 (by norm_num) (by norm_num) (by norm_num)
  have z2 := nu_zeros 10 (by norm_num) (by norm_num) (by norm_num)
  norm_num at e1 e2 z1 z2
  unfold setup
  have hf : -nuP.maxReal < 1 ∨ nuP.maxReal ≤ 10 := by norm_num [nuP]
  have hm : ¬ nuP.maxReal ≤ 10 := by norm_num [nuP]
  simp only [z1, z2, if_pos hf, e1, e2, decide_eq_false hm]
  simp [nuS]

def nuSt : St := ⟨[], ⟨1, 10, 3, 0, 1⟩, [⟨2, 7.7, 0, 0, 0⟩], [2], none, 3, [8.7], [0], 0⟩

theorem nu_work : work nuP nuS [8.7] (start nuS) = .ok nuSt := by
  have n0 : nsch0 nuP nuS (start nuS) = 0 := rfl
  have n1 : nsch1 nuP nuS (start nuS) = 3 := by simp [nsch1, start, nuS]
  have f0 : found0 nuS (start nuS) [8.7] = 0 := by norm_num [found0, start, nuS, ext0]
  have f1 : found1 nuP nuS (start nuS) [8.7] = 1 := by norm_num [found1, start, nuS, ext1]
  have hacc : accepted nuP nuS (start nuS) [8.7] = [8.7] := by
    norm_num [accepted, sortReal, insRev, at', start, nuS, ext0, ext1]
  have hst : store nuP nuS (start nuS) [8.7] = .ok ⟨[], ⟨1, 10, 3, 0, 1⟩, [], [], some 1, 2, [8.7], [0], 0⟩ := by
    unfold store
    rw [hacc]
    simp [start, nuS, sortReal, insRev]
  unfold work
  rw [n0, n1, f0, f1, hst]
  have hr : newRight nuP nuS ⟨[], ⟨1, 10, 3, 0, 1⟩, [], [], some 1, 2, [8.7], [0], 0⟩ [8.7]
      = .ok (7.7, ⟨[], ⟨1, 10, 3, 0, 1⟩, [], [], some 1, 2, [8.7], [0], 0⟩) := by
    norm_num [newRight, cap, stepAccepted, dPrev, prevDiff, at', nuS, nuP]
  have hc : createRight ⟨[], ⟨1, 10, 3, 0, 1⟩, [], [], some 1, 2, [8.7], [0], 0⟩ 7.7 = .ok nuSt := by
    unfold createRight
    rw [if_neg (by rintro (h | ⟨n, h, -⟩)
                   · norm_num at h
                   · cases h)]
    rfl
  simp [start, R.bind, doRight, doLeft, hr, hc]

/-- **C109, negation** (second part). -/
theorem slice_null_dereference :
    Hyp nuP nuSpec ∧ (1 : ℝ) ∉ nuSpec ∧ (10 : ℝ) ∉ nuSpec ∧ Sound nuP nuSpec nuS (start nuS) [8.7]
      ∧ setup nuP nuSpec 1 10 = .ok nuS ∧ ∀ rest, solve nuP nuSpec 1 10 ([8.7] :: rest) = .null := by
  refine ⟨⟨by norm_num [nuP], ?_, ?_⟩, by norm_num [nuSpec], by norm_num [nuSpec], ?_, nu_setup, ?_⟩
  · intro l hl
    simp [nuSpec] at hl
    rcases hl with rfl | rfl | rfl <;> norm_num [nuP, abs_lt]
  · intro l hl
    simp [nuSpec] at hl
    rcases hl with rfl | rfl | rfl <;> norm_num [nuP]
  · have : deflated nuP nuS (start nuS) = [] := by simp [deflated, tailVals, start]
    unfold Sound
    rw [this, Multiset.coe_nil, add_zero, Multiset.coe_singleton, Multiset.singleton_le]
    simp [nuSpec]
  · intro rest
    have z := nu_zeros 7.7 (by norm_num) (by norm_num) (by norm_num)
    norm_num at z
    have hx : extract nuP nuSpec nuS nuSt = .null := by
      norm_num [extract, nuSt, chain, locate, place, R.bind, z]
    unfold solve
    rw [nu_setup]
    simp only [R.bind]
    unfold solveLocal
    rw [if_neg (by norm_num [nuS])]
    unfold loop
    rw [nu_work]
    simp only [R.bind]
    rw [hx]

end nullrun

/-! ### C110 -/

/-- **C110** (partial), selection: with pending shifts, the next shift is the one scheduled last; it is one of the shifts of the list and the
others remain scheduled. -/
theorem extract_scheduled_partial {P : Par} {spec : Multiset ℝ} {S : SR} {st : St}
    (h : PI P spec S (chain st) st.pend st.next (st.eigr : Multiset ℝ)) (s2 : St) (hx : extract P spec S st = .ok (some s2)) :
    st.pend = s2.cur.id :: s2.pend ∧ (∃ e ∈ chain st, e.id = s2.cur.id) ∧ (chain s2).map Shift.id = (chain st).map Shift.id := by
  unfold extract at hx
  cases hp : st.pend with
  | nil => rw [hp] at hx; simp at hx
  | cons t ps =>
    rw [hp] at hx
    dsimp only at hx
    by_cases ht : t = st.cur.id
    · rw [if_pos ht] at hx
      injection hx with hx
      injection hx with hx
      subst hx
      exact ⟨by rw [ht], ⟨st.cur, by simp [chain], rfl⟩, rfl⟩
    · rw [if_neg ht] at hx
      cases hl : locate t [] (chain st) with
      | none => rw [hl] at hx; simp at hx
      | some q =>
        obtain ⟨l, e, r⟩ := q
        rw [hl] at hx
        dsimp only at hx
        obtain ⟨e', hpl, hx⟩ := R.bind_ok hx
        injection hx with hx
        injection hx with hx
        obtain ⟨q1, q2⟩ := locate_spec t [] (chain st) l r e hl
        obtain ⟨r1, r2, r3⟩ := place_spec l r e e' hpl
        rw [List.reverse_nil, List.nil_append] at q1
        subst hx
        refine ⟨by rw [r1, q2], ⟨e, by rw [q1]; simp, r1.symm⟩, ?_⟩
        rw [q1]
        simp [chain, r1]

theorem locate_some (t : ℕ) (acc C : List Shift) (h : t ∈ C.map Shift.id) : locate t acc C ≠ none := by
  induction C generalizing acc with
  | nil => simp at h
  | cons a C ih =>
    unfold locate
    by_cases ha : a.id = t
    · rw [if_pos ha]; simp
    · rw [if_neg ha]
      apply ih
      rw [List.map_cons, List.mem_cons] at h
      exact h.resolve_left (fun h => ha h.symm)

/-- **C110** (partial), the pointer taken from the stack is one of the list; the only null pointers are the neighbours in line 822. -/
theorem extract_null_only_place {P : Par} {spec : Multiset ℝ} {S : SR} {st : St}
    (h : PI P spec S (chain st) st.pend st.next (st.eigr : Multiset ℝ)) (hx : extract P spec S st = .null) :
    ∃ l e r, chain st = l.reverse ++ e :: r ∧ zerosAt P spec e.value ≠ 0 ∧ (l = [] ∨ r = []) := by
  unfold extract at hx
  cases hp : st.pend with
  | nil => rw [hp] at hx; simp at hx
  | cons t ps =>
    rw [hp] at hx
    dsimp only at hx
    by_cases ht : t = st.cur.id
    · rw [if_pos ht] at hx; simp at hx
    · rw [if_neg ht] at hx
      have hmem : t ∈ (chain st).map Shift.id := h.sub.subset (by rw [hp]; exact List.mem_cons_self)
      cases hl : locate t [] (chain st) with
      | none => exact absurd hl (locate_some t [] _ hmem)
      | some q =>
        obtain ⟨l, e, r⟩ := q
        rw [hl] at hx
        dsimp only at hx
        obtain ⟨q1, q2⟩ := locate_spec t [] (chain st) l r e hl
        rw [List.reverse_nil, List.nil_append] at q1
        refine ⟨l, e, r, q1, ?_⟩
        have hpl : place P spec S l e r = .null := by
          cases hpl : place P spec S l e r with
          | ok x => rw [hpl] at hx; simp [R.bind] at hx
          | null => rfl
          | err => rw [hpl] at hx; simp [R.bind] at hx
          | stale => rw [hpl] at hx; simp [R.bind] at hx
          | running => rw [hpl] at hx; simp [R.bind] at hx
        unfold place at hpl
        by_cases hz : zerosAt P spec e.value ≠ 0
        · rw [if_pos hz] at hpl
          refine ⟨hz, ?_⟩
          cases l with
          | nil => exact Or.inl rfl
          | cons n0 l =>
            cases r with
            | nil => exact Or.inr rfl
            | cons n1 r =>
              dsimp only at hpl
              split_ifs at hpl
        · rw [if_neg hz] at hpl; simp at hpl

/-- **C110** (partial), narrow intervals: when the interval to the right of the shift is too narrow (and nothing else is incomplete) the same shift, with the same list, is processed again. -/
theorem narrow_searched_again {P : Par} {spec : Multiset ℝ} {S : SR} {st : St} (hslot : st.slot = some st.cur.id) (n1 : Shift) (t : List Shift)
    (hr : st.right = n1 :: t) (conv : List ℝ) (n f : ℤ) (hf : f < n) (hm : |st.cur.value - (st.cur.value + n1.value) / 2| ≤ P.narrow * |st.cur.value|) :
    ∃ s2, doRight P S n f conv st = .ok s2 ∧ ∃ s3, extract P spec S s2 = .ok (some s3) ∧ chain s3 = chain st ∧ s3.cur = st.cur
      ∧ s3.pend = st.pend ∧ s3.slot = some st.cur.id ∧ s3.eigr = st.eigr := by
  have h1 : newRight P S st conv = .ok (st.cur.value, st) := by
    unfold newRight
    rw [hr]
    dsimp only
    unfold middle
    rw [if_pos hm]
  have h2 : createRight st st.cur.value = .ok { st with pend := st.cur.id :: st.pend, slot := none } := by
    unfold createRight repush
    rw [if_pos (Or.inl rfl), hslot]
  refine ⟨{ st with pend := st.cur.id :: st.pend, slot := none }, ?_, { st with slot := some st.cur.id }, ?_, rfl, rfl, rfl, rfl, rfl⟩
  · unfold doRight
    rw [if_pos hf, h1]
    exact h2
  · unfold extract
    dsimp only
    rw [if_pos rfl]

/-! **C110, negation**: a run, with the constants of double precision, in which the shift processed has both sides incomplete and the left one is too narrow: the new shift to
the right has overwritten the entry of the array, and incrementing the counter alone schedules whatever is in the next entry. -/
section stale

def slP : Par := dblP false
/-- Eigenvalues 2, and two between 10 - 1.15e-5 and 10. -/
def slSpec : Multiset ℝ := {2, 10 - 0.0000065, 10 - 0.00001}
def slS : SR := ⟨-1, 10, 1, true, 3, 0, 3⟩

theorem sl_inertia (v : ℝ) (h0 : v ≠ 0) (h1 : -1000 < v) (h2 : v < 1000) :
    inertiaAt slP slSpec v = ((if 2 < v then 1 else 0) + (if 10 - 0.0000065 < v then 1 else 0) + (if 10 - 0.00001 < v then 1 else 0) : ℤ) := by
  unfold inertiaAt
  rw [if_neg (by simp [slP, dblP]; linarith), if_neg (by simp [slP, dblP]; linarith)]
  unfold nz
  rw [if_neg h0]
  unfold slSpec
  simp only [Multiset.insert_eq_cons, Multiset.countP_cons, ← Multiset.cons_zero, Multiset.countP_zero]
  push_cast
  ring_nf

theorem sl_setup : setup slP slSpec 1 10 = .ok slS := by
  have e1 := sl_inertia 1 (by norm_num) (by norm_num) (by norm_num)
  have e2 := sl_inertia 10 (by norm_num) (by norm_num) (by norm_num)
  norm_num at e1 e2
  unfold setup
  have hz : ∀ v, zerosAt slP slSpec v = 0 := by intro v; simp [zerosAt, slP, dblP]
  have hf : -slP.maxReal < 1 ∨ slP.maxReal ≤ 10 := by norm_num [slP, dblP]
  have hm : ¬ slP.maxReal ≤ 10 := by norm_num [slP, dblP]
  simp only [hz, if_pos hf, e1, e2, decide_eq_false hm]
  simp [slS]

def slE : ℝ := 10 - 0.0000065
def slV : ℝ := 10 - 0.0000115
def slW : ℝ := 10 - 0.0000115 - 0.000115
def slSt1 : St := ⟨[], ⟨1, 10, 3, 0, 1⟩, [⟨2, slV, 0, 0, 0⟩], [2], none, 3, [slE], [0], 0⟩

theorem sl_work1 : work slP slS [slE] (start slS) = .ok slSt1 := by
  have n0 : nsch0 slP slS (start slS) = 0 := rfl
  have n1 : nsch1 slP slS (start slS) = 3 := by simp [nsch1, start, slS]
  have f0 : found0 slS (start slS) [slE] = 0 := by norm_num [found0, start, slS, ext0, slE]
  have f1 : found1 slP slS (start slS) [slE] = 1 := by norm_num [found1, start, slS, ext1, slE]
  have hacc : accepted slP slS (start slS) [slE] = [slE] := by
    norm_num [accepted, sortReal, insRev, at', start, slS, ext0, ext1, slE]
  have hst : store slP slS (start slS) [slE] = .ok ⟨[], ⟨1, 10, 3, 0, 1⟩, [], [], some 1, 2, [slE], [0], 0⟩ := by
    unfold store
    rw [hacc]
    simp [start, slS, sortReal, insRev]
  unfold work
  rw [n0, n1, f0, f1, hst]
  have hr : newRight slP slS ⟨[], ⟨1, 10, 3, 0, 1⟩, [], [], some 1, 2, [slE], [0], 0⟩ [slE]
      = .ok (slV, ⟨[], ⟨1, 10, 3, 0, 1⟩, [], [], some 1, 2, [slE], [0], 0⟩) := by
    norm_num [newRight, cap, stepAccepted, dPrev, prevDiff, at', slS, slP, dblP, slE, slV]
  have hc : createRight ⟨[], ⟨1, 10, 3, 0, 1⟩, [], [], some 1, 2, [slE], [0], 0⟩ slV = .ok slSt1 := by
    unfold createRight
    rw [if_neg (by rintro (h | ⟨n, h, -⟩)
                   · norm_num [slV] at h
                   · cases h)]
    rfl
  simp [start, R.bind, doRight, doLeft, hr, hc]

def slSt2 : St := ⟨[⟨1, 10, 3, 0, 1⟩], ⟨2, slV, 1, 0, 0⟩, [], [], some 2, 3, [slE], [0], 0⟩

theorem sl_extract1 : extract slP slSpec slS slSt1 = .ok (some slSt2) := by
  have e1 := sl_inertia slV (by norm_num [slV]) (by norm_num [slV]) (by norm_num [slV])
  have e2 : inertiaAt slP slSpec slV = 1 := by rw [e1]; norm_num [slV]
  have hz : ∀ v, zerosAt slP slSpec v = 0 := by intro v; simp [zerosAt, slP, dblP]
  simp [extract, slSt1, chain, locate, place, hz, R.bind, e2, slSt2]

theorem sl_known2 : known slP slS slSt2 = (1, 0) := by
  norm_num [known, tailVals, slSt2, scan, ini, slS, ext1, at', slE, slV]

theorem sl_work2 : work slP slS [] slSt2 = .stale := by
  have n0 : nsch0 slP slS slSt2 = 1 := by simp [nsch0, sl_known2]; simp [slSt2, slS]
  have n1 : nsch1 slP slS slSt2 = 1 := by simp [nsch1, slSt2, slS]
  have f0 : found0 slS slSt2 [] = 0 := by simp [found0]
  have f1 : found1 slP slS slSt2 [] = 0 := by simp [found1]
  have hacc : accepted slP slS slSt2 [] = [] := by simp [accepted, sortReal]
  obtain ⟨s1, hs1⟩ : ∃ s1 : St, s1 = ⟨[⟨1, 10, 3, 0, 1⟩], ⟨2, slV, 1, 1, 0⟩, [], [], some 2, 3, [slE], [0], 0⟩ := ⟨_, rfl⟩
  have hst : store slP slS slSt2 [] = .ok s1 := by
    unfold store
    rw [hacc, hs1]
    simp [slSt2, slS, sortReal, insRev]
  have hr : newRight slP slS s1 [] = .ok (slW, { s1 with nleap := 1 }) := by
    rw [hs1]
    norm_num [newRight, cap, slS, slV, slW]
  have hc : createRight { s1 with nleap := 1 } slW = .ok { s1 with right := [⟨3, slW, 0, 0, 0⟩], pend := [3], slot := none, next := 4, nleap := 1 } := by
    unfold createRight
    rw [hs1]
    rw [if_neg (by rintro (h | ⟨n, h, -⟩)
                   · norm_num [slV, slW] at h
                   · cases h)]
  have hl : newLeft slP { s1 with right := [⟨3, slW, 0, 0, 0⟩], pend := [3], slot := none, next := 4, nleap := 1 } = .ok slV := by
    rw [hs1]
    unfold newLeft
    dsimp only
    unfold middle
    rw [if_pos (by norm_num [slV, slP, dblP, abs_le])]
  have hcl : createLeft { s1 with right := [⟨3, slW, 0, 0, 0⟩], pend := [3], slot := none, next := 4, nleap := 1 } slV = .stale := by
    rw [hs1]
    unfold createLeft
    rw [if_pos (Or.inr rfl)]
    rfl
  unfold work
  rw [n0, n1, f0, f1, hst]
  rw [if_neg (by simp), if_neg (by simp)]
  simp only [R.bind, doRight, doLeft]
  rw [if_pos (by norm_num), hr]
  simp only [R.bind]
  rw [hc]
  simp only [R.bind]
  rw [if_pos (by norm_num), hl]
  simp only [R.bind]
  rw [hcl]

/-- **C110, negation**. -/
theorem slice_stale_entry :
    Hyp slP slSpec ∧ (1 : ℝ) ∉ slSpec ∧ (10 : ℝ) ∉ slSpec ∧ Sound slP slSpec slS (start slS) [slE] ∧ Sound slP slSpec slS slSt2 []
      ∧ setup slP slSpec 1 10 = .ok slS ∧ ∀ rest, solve slP slSpec 1 10 ([slE] :: [] :: rest) = .stale := by
  refine ⟨⟨by norm_num [slP, dblP], ?_, ?_⟩, by norm_num [slSpec], by norm_num [slSpec], ?_, ?_, sl_setup, ?_⟩
  · intro l hl
    simp [slSpec] at hl
    rcases hl with rfl | rfl | rfl <;> norm_num [slP, dblP, abs_lt]
  · intro l hl
    simp [slSpec] at hl
    rcases hl with rfl | rfl | rfl <;> norm_num [slP, dblP]
  · have : deflated slP slS (start slS) = [] := by simp [deflated, tailVals, start]
    unfold Sound
    rw [this, Multiset.coe_nil, add_zero, Multiset.coe_singleton, Multiset.singleton_le]
    simp [slSpec, slE]
  · have : deflated slP slS slSt2 = [slE] := by
      unfold deflated
      rw [sl_known2]
      simp [tailVals, slSt2, ini, slS, at']
    unfold Sound
    rw [this, Multiset.coe_nil, zero_add, Multiset.coe_singleton, Multiset.singleton_le]
    simp [slSpec, slE]
  · intro rest
    unfold solve
    rw [sl_setup]
    simp only [R.bind]
    unfold solveLocal
    rw [if_neg (by norm_num [slS])]
    unfold loop
    rw [sl_work1]
    simp only [R.bind]
    rw [sl_extract1]
    simp only [R.bind]
    unfold loop
    rw [sl_work2]
    simp only [R.bind]

end stale
end
end Verif.Slice
