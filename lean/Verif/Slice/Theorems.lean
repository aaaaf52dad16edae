import Verif.Slice.Run
/-!
C106, C107: what a finished run of spectrum slicing returns.

Specification: the eigenvalues of the open interval are `spec.filter (a < · < b)`, a multiset.
-/
set_option linter.all false
namespace Verif.Slice
noncomputable section
open Classical

/-- The eigenvalues of the problem in the interval, with their multiplicities. -/
def inInterval (spec : Multiset ℝ) (a b : ℝ) : Multiset ℝ := spec.filter (fun l => a < l ∧ l < b)

/-- Assumptions on the run started at the first shift: at every shift the Lanczos process delivers eigenvalues, no more of each than there are besides the
deflated ones, and every further shift, after having been moved in case it hit an eigenvalue, is not an eigenvalue and lies
between its neighbours. -/
def LegalRun (P : Par) (spec : Multiset ℝ) (a b : ℝ) (cs : List (List ℝ)) : Prop :=
  ∀ S, setup P spec a b = .ok S → Legal P spec S cs (start S)

theorem range_getD (p : List ℕ) (f : ℕ → ℝ) : (List.range p.length).map (fun i => f (p.getD i i)) = p.map f := by
  apply List.ext_getElem
  · simp
  · intro i h1 h2
    have : i < p.length := by simpa using h2
    simp [List.getD_eq_getElem?_getD, this]

theorem final_perm {P : Par} {spec : Multiset ℝ} (H : Hyp P spec) (a b : ℝ) (hab : a ≤ b) (ha : a ∉ spec) (hb : b ∉ spec)
    (cs : List (List ℝ)) (hL : LegalRun P spec a b cs) (out : List ℝ) (h : solve P spec a b cs = .ok out) :
    (out : Multiset ℝ) = inInterval spec a b ∧ out.Pairwise (· ≤ ·) := by
  unfold solve at h
  obtain ⟨S, hS, h⟩ := R.bind_ok h
  obtain ⟨st, hst, h⟩ := R.bind_ok h
  injection h with h
  obtain ⟨E, hbt⟩ := setup_spec H a b hab ha hb S hS
  have hfil : spec.filter (btw S.dir S.int0 S.int1) = inInterval spec a b := by
    unfold inInterval
    exact Multiset.filter_congr (fun l _ => hbt l)
  have hnum : S.numEigs = ((inInterval spec a b).card : ℤ) := by
    rw [E.num, ← hfil, ← Multiset.countP_eq_card_filter, E.n0, E.n1]
    exact inertia_diff H S.dir E.hd S.int0 S.int1 E.ord E.i0 E.i1
  unfold solveLocal at hst
  by_cases hz : S.numEigs = 0
  · rw [if_pos hz] at hst
    rw [hz] at h
    have h0 : (inInterval spec a b).card = 0 := by omega
    rw [Multiset.card_eq_zero] at h0
    simp at h
    rw [h, h0]
    exact ⟨rfl, List.Pairwise.nil⟩
  · rw [if_neg hz] at hst
    obtain ⟨sf, hl, hst⟩ := R.bind_ok hst
    injection hst with hst
    obtain ⟨hp, ho⟩ := loop_spec E cs (start_inv E) (hL S hS) sf hl
    have hK := PI_final E hp
    rw [hfil] at hK
    have hlen : sf.eigr.length = S.numEigs.toNat := by
      rw [hnum, ← hK]; simp
    have hlp : sf.perm.length = sf.eigr.length := by rw [ho.perm.length_eq, List.length_range]
    have heig : st.eigr = sf.eigr := by rw [← hst]
    have hperm : st.perm = if S.dir < 0 then sf.perm.reverse else sf.perm := by rw [← hst]
    have hpl : st.perm.length = S.numEigs.toNat := by
      rw [hperm, ← hlen, ← hlp]; split_ifs <;> simp
    rw [← hpl, range_getD] at h
    rw [heig, hperm] at h
    constructor
    · rw [← hK, ← h, Multiset.coe_eq_coe]
      refine List.Perm.trans (List.Perm.map _ ?_) ho.vals
      split_ifs
      · exact List.reverse_perm _
      · exact List.Perm.refl _
    · rw [← h]
      have hs := ho.srt
      unfold Srt at hs
      rcases E.hd with hd | hd
      · rw [hd, if_neg (by decide)]
        rw [hd] at hs
        exact hs.imp (fun h => by push_cast at h; linarith)
      · rw [hd, if_pos (by decide), List.map_reverse, List.pairwise_reverse]
        rw [hd] at hs
        exact hs.imp (fun h => by push_cast at h; linarith)

/-- **C106** (partial).  The eigenvalues returned are those of the interval with their multiplicities, and their number is the number of converged
eigenvalues.  Missing: rounding and tolerances, Sylvester's law and the Lanczos process are assumed (`LegalRun`), endpoints are not eigenvalues. -/
theorem slice_exact_partial {P : Par} {spec : Multiset ℝ} (H : Hyp P spec) (a b : ℝ) (hab : a ≤ b) (ha : a ∉ spec) (hb : b ∉ spec)
    (cs : List (List ℝ)) (hL : LegalRun P spec a b cs) (out : List ℝ) (h : solve P spec a b cs = .ok out) :
    (out : Multiset ℝ) = spec.filter (fun l => a < l ∧ l < b) ∧ out.length = spec.countP (fun l => a < l ∧ l < b) := by
  have := (final_perm H a b hab ha hb cs hL out h).1
  refine ⟨this, ?_⟩
  rw [Multiset.countP_eq_card_filter]
  have h2 := congrArg Multiset.card this
  simpa [inInterval] using h2

/-- **C107** (partial, same assumptions).  The values are returned in increasing order for both directions of traversal. -/
theorem slice_ordered_partial {P : Par} {spec : Multiset ℝ} (H : Hyp P spec) (a b : ℝ) (hab : a ≤ b) (ha : a ∉ spec) (hb : b ∉ spec)
    (cs : List (List ℝ)) (hL : LegalRun P spec a b cs) (out : List ℝ) (h : solve P spec a b cs = .ok out) :
    out.Pairwise (· ≤ ·) := (final_perm H a b hab ha hb cs hL out h).2

/-! A concrete run: eigenvalues 2 and 8.7 (and 20), interval (1,10), two shifts (10 and 7.7). -/
section example1

def exP : Par := ⟨1000, 1 / 100, 1 / 10, 1 / 10, 2, false⟩
def exSpec : Multiset ℝ := {2, 8.7, 20}
def exS : SR := ⟨-1, 10, 1, true, 2, 0, 2⟩

theorem ex_hyp : Hyp exP exSpec := by
  refine ⟨by norm_num [exP], ?_, ?_⟩
  · intro l hl
    simp [exSpec] at hl
    rcases hl with rfl | rfl | rfl <;> norm_num [exP, abs_lt]
  · intro l hl
    simp [exSpec] at hl
    rcases hl with rfl | rfl | rfl <;> norm_num [exP]

theorem ex_inertia (v : ℝ) (h0 : v ≠ 0) (h1 : -1000 < v) (h2 : v < 1000) :
    inertiaAt exP exSpec v = ((if 2 < v then 1 else 0) + (if 8.7 < v then 1 else 0) + (if 20 < v then 1 else 0) : ℤ) := by
  unfold inertiaAt
  rw [if_neg (by simp [exP]; linarith), if_neg (by simp [exP]; linarith)]
  unfold nz
  rw [if_neg h0]
  unfold exSpec
  simp only [Multiset.insert_eq_cons, Multiset.countP_cons, ← Multiset.cons_zero, Multiset.countP_zero]
  push_cast
  ring_nf

theorem ex_setup : setup exP exSpec 1 10 = .ok exS := by
  have e1 := ex_inertia 1 (by norm_num) (by norm_num) (by norm_num)
  have e2 := ex_inertia 10 (by norm_num) (by norm_num) (by norm_num)
  norm_num at e1 e2
  unfold setup
  have hz : ∀ v, zerosAt exP exSpec v = 0 := by intro v; simp [zerosAt, exP]
  have hf : -exP.maxReal < 1 ∨ exP.maxReal ≤ 10 := by norm_num [exP]
  have hm : ¬ exP.maxReal ≤ 10 := by norm_num [exP]
  simp only [hz, if_pos hf, e1, e2, decide_eq_false hm]
  simp [exS]

def exSt1 : St := ⟨[], ⟨1, 10, 2, 0, 1⟩, [⟨2, 7.7, 0, 0, 0⟩], [2], none, 3, [8.7], [0], 0⟩

theorem ex_work1 : work exP exS [8.7] (start exS) = .ok exSt1 := by
  have k : known exP exS (start exS) = (0, 0) := by simp [known, tailVals, start, scan]
  have n0 : nsch0 exP exS (start exS) = 0 := rfl
  have n1 : nsch1 exP exS (start exS) = 2 := by simp [nsch1, start, exS]
  have f0 : found0 exS (start exS) [8.7] = 0 := by norm_num [found0, start, exS, ext0]
  have f1 : found1 exP exS (start exS) [8.7] = 1 := by norm_num [found1, start, exS, ext1]
  have hacc : accepted exP exS (start exS) [8.7] = [8.7] := by
    norm_num [accepted, sortReal, insRev, at', start, exS, ext0, ext1]
  have hst : store exP exS (start exS) [8.7]
      = .ok ⟨[], ⟨1, 10, 2, 0, 1⟩, [], [], some 1, 2, [8.7], [0], 0⟩ := by
    unfold store
    rw [hacc]
    simp [start, exS, sortReal, insRev]
  unfold work
  rw [n0, n1, f0, f1, hst]
  have hr : newRight exP exS ⟨[], ⟨1, 10, 2, 0, 1⟩, [], [], some 1, 2, [8.7], [0], 0⟩ [8.7]
      = .ok (7.7, ⟨[], ⟨1, 10, 2, 0, 1⟩, [], [], some 1, 2, [8.7], [0], 0⟩) := by
    norm_num [newRight, cap, stepAccepted, dPrev, prevDiff, at', exS, exP]
  have hc : createRight ⟨[], ⟨1, 10, 2, 0, 1⟩, [], [], some 1, 2, [8.7], [0], 0⟩ 7.7 = .ok exSt1 := by
    unfold createRight
    rw [if_neg (by rintro (h | ⟨n, h, -⟩)
                   · norm_num at h
                   · cases h)]
    rfl
  simp [start, R.bind, doRight, doLeft, hr, hc]

def exSt2 : St := ⟨[⟨1, 10, 2, 0, 1⟩], ⟨2, 7.7, 1, 0, 0⟩, [], [], some 2, 3, [8.7], [0], 0⟩

theorem ex_extract1 : extract exP exSpec exS exSt1 = .ok (some exSt2) := by
  have e1 := ex_inertia 7.7 (by norm_num) (by norm_num) (by norm_num)
  norm_num at e1
  have hz : ∀ v, zerosAt exP exSpec v = 0 := by intro v; simp [zerosAt, exP]
  norm_num [extract, exSt1, chain, locate, place, hz, R.bind, e1, exSt2]

theorem ex_known2 : known exP exS exSt2 = (1, 0) := by
  norm_num [known, tailVals, exSt2, scan, ini, exS, ext1, at']

def exSt3 : St := ⟨[⟨1, 10, 2, 0, 1⟩], ⟨2, 7.7, 1, 1, 1⟩, [], [], some 2, 3, [8.7, 2], [0, 1], 0⟩

theorem ex_work2 : work exP exS [2] exSt2 = .ok exSt3 := by
  have n0 : nsch0 exP exS exSt2 = 0 := by simp [nsch0, ex_known2]; simp [exSt2, exS]
  have n1 : nsch1 exP exS exSt2 = 1 := by simp [nsch1, exSt2, exS]
  have f0 : found0 exS exSt2 [2] = 0 := by norm_num [found0, exSt2, exS, ext0]
  have f1 : found1 exP exS exSt2 [2] = 1 := by norm_num [found1, exSt2, exS, ext1]
  have hacc : accepted exP exS exSt2 [2] = [2] := by
    norm_num [accepted, sortReal, insRev, at', exSt2, exS, ext0, ext1]
  have hst : store exP exS exSt2 [2] = .ok exSt3 := by
    unfold store
    rw [hacc]
    norm_num [exSt2, exS, sortReal, insRev, exSt3, at', List.range']
  unfold work
  rw [n0, n1, f0, f1, hst]
  simp [exSt2, R.bind, doRight, doLeft]

theorem ex_extract2 : extract exP exSpec exS exSt3 = .ok none := rfl

/-- The run of the example satisfies the assumptions and finishes with the eigenvalues 2 and 8.7. -/
theorem ex_legal : LegalRun exP exSpec 1 10 [[8.7], [2]] := by
  intro S hS
  rw [ex_setup] at hS
  injection hS with hS
  subst hS
  refine ⟨?_, ?_⟩
  · unfold Sound
    have : deflated exP exS (start exS) = [] := by simp [deflated, tailVals, start]
    rw [this]
    unfold exSpec
    rw [Multiset.coe_nil, add_zero, Multiset.coe_singleton, Multiset.singleton_le]
    simp
  · intro s1 h1 s2 h2
    rw [ex_work1] at h1
    injection h1 with h1
    subst h1
    rw [ex_extract1] at h2
    injection h2 with h2
    injection h2 with h2
    subst h2
    refine ⟨?_, ?_, ?_, ?_⟩
    · norm_num [exSt2, exSpec]
    · exact ⟨by norm_num [exSt2, exS], fun n hn => by cases hn⟩
    · unfold Sound
      have : deflated exP exS exSt2 = [8.7] := by
        unfold deflated
        rw [ex_known2]
        simp [tailVals, exSt2, ini, exS, at']
      rw [this]
      unfold exSpec
      exact Multiset.coe_le.mpr (List.Sublist.subperm (by simp : [2, (8.7 : ℝ)].Sublist [2, 8.7, 20]))
    · intro s1 h1 s2 h2
      rw [ex_work2] at h1
      injection h1 with h1
      subst h1
      rw [ex_extract2] at h2
      simp at h2

theorem ex_solve : solve exP exSpec 1 10 [[8.7], [2]] = .ok [2, 8.7] := by
  unfold solve
  rw [ex_setup]
  show R.bind (solveLocal exP exSpec exS [[8.7], [2]]) _ = _
  unfold solveLocal
  rw [if_neg (by norm_num [exS])]
  have : loop exP exSpec exS [[8.7], [2]] (start exS) = .ok exSt3 := by
    unfold loop
    rw [ex_work1]
    simp only [R.bind]
    rw [ex_extract1]
    simp only [R.bind]
    unfold loop
    rw [ex_work2]
    simp only [R.bind]
    rw [ex_extract2]
  rw [this]
  have hn : exS.numEigs.toNat = 2 := rfl
  show R.ok ((List.range exS.numEigs.toNat).map _) = _
  rw [hn]
  simp [List.range_succ, exSt3, exS, at']

example : (([2, 8.7] : List ℝ) : Multiset ℝ) = exSpec.filter (fun l => (1 : ℝ) < l ∧ l < 10) :=
  (slice_exact_partial ex_hyp 1 10 (by norm_num) (by norm_num [exSpec]) (by norm_num [exSpec]) _ ex_legal _ ex_solve).1

end example1
end
end Verif.Slice
