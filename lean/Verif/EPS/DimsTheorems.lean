import Verif.EPS.DimsModel

/-!
# C33, C62: dimensions after set-up
-/
set_option linter.all false

namespace Verif.EPS

/-- Dimensions as the user may give them: positive numbers (`EPSSetDimensions` refuses others); `nev`
is 0 only when never given. -/
def UserDims (d : Dims) : Prop := (∀ c, d.ncv = some c → 1 ≤ c) ∧ (∀ m, d.mpd = some m → 1 ≤ m)

/-- What the user can rely on after set-up, for a search space of dimension `size`, of which `want`
vectors are wanted. -/
structure Consistent (size want : Nat) (r : Dims) : Prop where
  ncv_mpd : ∃ c m, r.ncv = some c ∧ r.mpd = some m ∧ 1 ≤ c ∧ c ≤ size ∧ want ≤ c ∧ 1 ≤ m

theorem defaults_ncv (size nev small : Nat) (mpd : Option Nat) (hs : nev ≤ small) (hn : nev ≤ size) (h1 : 1 ≤ size)
    (h2 : 1 ≤ small) (hm : ∀ m, mpd = some m → 1 ≤ m) :
    1 ≤ (defaults size nev small mpd).1 ∧ (defaults size nev small mpd).1 ≤ size ∧ nev ≤ (defaults size nev small mpd).1 ∧
      1 ≤ (defaults size nev small mpd).2 ∧ (defaults size nev small mpd).1 ≤ nev + (defaults size nev small mpd).2 := by
  unfold defaults
  cases mpd with
  | some m => have := hm m rfl; simp only; omega
  | none => simp only; split_ifs <;> simp only <;> omega

/-- **Every accepted call of `EPSSetDimensions` leaves positive numbers.** -/
theorem C33_set {d r : Dims} {a b c : DimArg} (h : setDimensions d a b c = some r) (hd : UserDims d) : UserDims r := by
  unfold setDimensions at h
  obtain ⟨x, hx, h⟩ := Option.bind_eq_some_iff.1 h
  obtain ⟨y, hy, h⟩ := Option.bind_eq_some_iff.1 h
  obtain ⟨z, hz, rfl⟩ := Option.map_eq_some_iff.1 h
  have key : ∀ old arg res, setArg old arg = some res → (∀ k, old = some k → 1 ≤ k) → ∀ k, res = some k → 1 ≤ k := by
    intro old arg res hh ho k hk
    cases arg with
    | current => simp only [setArg, Option.some.injEq] at hh; exact ho k (hh.trans hk)
    | determine => simp only [setArg, Option.some.injEq] at hh; rw [← hh] at hk; cases hk
    | value v =>
      simp only [setArg] at hh
      split_ifs at hh with hv
      rw [← Option.some.inj hh] at hk
      have := Option.some.inj hk
      omega
  exact ⟨key _ _ _ hy hd.1, key _ _ _ hz hd.2⟩

/-- What a field becomes: unchanged, automatic, or the (positive) number given. -/
def FieldSet (old : Option Nat) (arg : DimArg) (new : Option Nat) : Prop :=
  match arg with
  | .current => new = old
  | .determine => new = none
  | .value k => ∃ j : Nat, 0 < j ∧ k = j ∧ new = some j

/-- **`EPSSetDimensions` stores what it is given**: it accepts exactly the calls in which every number is positive and `nev` is not left to
be determined. -/
theorem C33_set_values (d : Dims) (a b c : DimArg) (r : Dims) :
    setDimensions d a b c = some r ↔
      (FieldSet (some d.nev) a (some r.nev) ∧ FieldSet d.ncv b r.ncv ∧ FieldSet d.mpd c r.mpd) := by
  have k1 : ∀ old arg res, setArg old arg = some res ↔ FieldSet old arg res := by
    intro old arg res
    cases arg with
    | current => simp only [setArg, FieldSet, Option.some.injEq]; exact eq_comm
    | determine => simp only [setArg, FieldSet, Option.some.injEq]; exact eq_comm
    | value k =>
      simp only [setArg, FieldSet]
      by_cases h : 0 < k
      · rw [if_pos h, Option.some.injEq]
        constructor
        · intro e; exact ⟨k.toNat, by omega, by omega, e.symm⟩
        · rintro ⟨j, _, h2, h3⟩; rw [h3]; congr 1; omega
      · rw [if_neg h]
        constructor
        · intro e; cases e
        · rintro ⟨j, h1, h2, _⟩; omega
  have k2 : ∀ old arg res, setNev old arg = some res ↔ FieldSet (some old) arg (some res) := by
    intro old arg res
    cases arg with
    | current => simp only [setNev, FieldSet, Option.some.injEq]; exact eq_comm
    | determine => simp [setNev, FieldSet]
    | value k =>
      simp only [setNev, FieldSet]
      by_cases h : 0 < k
      · rw [if_pos h, Option.some.injEq]
        constructor
        · intro e; exact ⟨k.toNat, by omega, by omega, by rw [e]⟩
        · rintro ⟨j, _, h2, h3⟩; have := Option.some.inj h3; omega
      · rw [if_neg h]
        constructor
        · intro e; cases e
        · rintro ⟨j, h1, h2, _⟩; omega
  unfold setDimensions
  constructor
  · intro h
    obtain ⟨x, hx, h⟩ := Option.bind_eq_some_iff.1 h
    obtain ⟨y, hy, h⟩ := Option.bind_eq_some_iff.1 h
    obtain ⟨z, hz, rfl⟩ := Option.map_eq_some_iff.1 h
    exact ⟨(k2 _ _ _).1 hx, (k1 _ _ _).1 hy, (k1 _ _ _).1 hz⟩
  · rintro ⟨h1, h2, h3⟩
    rw [(k2 _ _ _).2 h1, (k1 _ _ _).2 h2, (k1 _ _ _).2 h3]
    rfl

example : setDimensions ⟨1, none, none⟩ (.value 4) .determine (.value 20) = some ⟨4, none, some 20⟩ := by decide

/-- **C33, eigenproblems.** Whatever the user gave, if set-up accepts it, then the number of wanted
eigenvalues is between 1 (0 with the threshold test) and `n`, the subspace fits in the space searched
and holds all wanted vectors, one more for Krylov solvers unless the space is exhausted. -/
theorem C33_eps {p : EpsProblem} {d r : Dims} (hn : 1 ≤ p.n) (he : p.half = true → 2 ∣ p.n) (hd : UserDims d)
    (h : epsSetUp p d = some r) :
    (r.nev ≤ p.n ∧ (p.threshold = false → 1 ≤ r.nev)) ∧
    Consistent (if p.half then p.n / 2 else p.n) (if p.half then (r.nev + 1) / 2 else r.nev) r ∧
    (p.krylov = true → ∃ c, r.ncv = some c ∧
      ((if p.half then (r.nev + 1) / 2 else r.nev) < c ∨ c = (if p.half then p.n / 2 else p.n))) := by
  obtain ⟨n, half, thr, kry⟩ := p
  obtain ⟨nev, ncv, mpd⟩ := d
  have hm := hd.2
  have hc := hd.1
  simp only [] at hn he hm hc
  unfold epsSetUp at h
  rw [if_neg (by simp only; omega)] at h
  unfold epsDefault epsCap at h
  simp only [] at h
  generalize hnev : (if (if nev > n then n else nev) = 0 ∧ thr = false then 1 else if nev > n then n else nev) = nv at h
  have h1 : nv ≤ n := by rw [← hnev]; split_ifs <;> omega
  have h2 : thr = false → 1 ≤ nv := by intro ht; rw [← hnev]; split_ifs <;> simp_all <;> omega
  have h3 : epsPairs ⟨n, half, thr, kry⟩ nv ≤ epsSize ⟨n, half, thr, kry⟩ := by
    unfold epsPairs epsSize
    cases half with
    | false => simpa using h1
    | true =>
      obtain ⟨q, hq⟩ := he rfl
      simp only [if_true]
      omega
  have h4 : 1 ≤ epsSize ⟨n, half, thr, kry⟩ := by
    unfold epsSize
    cases half with
    | false => simpa using hn
    | true =>
      obtain ⟨q, hq⟩ := he rfl
      simp only [if_true]
      omega
  cases ncv with
  | some c =>
    simp only [Option.map_some] at h
    have hc1 : 1 ≤ c := hc c rfl
    generalize hC : (if half = true then if 2 * c > n then n / 2 else c else if c > n then n else c) = C at h
    by_cases hck : epsCheck ⟨n, half, thr, kry⟩ (epsPairs ⟨n, half, thr, kry⟩ nv) C = true
    swap
    · rw [if_neg hck] at h; cases h
    rw [if_pos hck] at h
    have hr := Option.some.inj h
    subst hr
    have hC1 : 1 ≤ C ∧ C ≤ epsSize ⟨n, half, thr, kry⟩ := by
      unfold epsSize at h4 ⊢
      cases half <;> simp at h4 hC ⊢ <;> rw [← hC] <;> split_ifs <;> omega
    unfold epsCheck at hck
    have hge : epsPairs ⟨n, half, thr, kry⟩ nv ≤ C := by
      cases kry <;> simp at hck <;> omega
    refine ⟨⟨h1, h2⟩, ⟨C, mpd.getD C, rfl, rfl, hC1.1, hC1.2, hge, ?_⟩, ?_⟩
    · cases mpd with
      | none => simpa using hC1.1
      | some m => simpa using hm m rfl
    · intro hk
      refine ⟨C, rfl, ?_⟩
      simp only at hk
      subst hk
      simp only [epsPairs, epsSize] at hck ⊢
      simp at hck
      omega
  | none =>
    simp only [Option.map_none] at h
    have hr := Option.some.inj h
    subst hr
    have D := defaults_ncv (epsSize ⟨n, half, thr, kry⟩) (epsPairs ⟨n, half, thr, kry⟩ nv)
      (max (2 * epsPairs ⟨n, half, thr, kry⟩ nv) (epsPairs ⟨n, half, thr, kry⟩ nv + 15)) mpd (by omega) h3 h4 (by omega) hm
    refine ⟨⟨h1, h2⟩, ⟨_, _, rfl, rfl, D.1, D.2.1, D.2.2.1, D.2.2.2.1⟩, ?_⟩
    intro _
    refine ⟨_, rfl, ?_⟩
    show epsPairs ⟨n, half, thr, kry⟩ nv < _ ∨ _ = epsSize ⟨n, half, thr, kry⟩
    unfold defaults
    cases mpd with
    | some m => have := hm m rfl; simp only; omega
    | none => simp only; split_ifs <;> simp only <;> omega

example : epsSetUp ⟨100, false, false, true⟩ ⟨0, none, none⟩ = some ⟨1, some 16, some 16⟩ := by decide
example : epsSetUp ⟨10, true, false, true⟩ ⟨30, some 40, none⟩ = some ⟨10, some 5, some 5⟩ := by decide

/-- **C33, user-given values are kept** up to the caps at the problem size. -/
theorem C33_eps_kept {p : EpsProblem} {d r : Dims} (hn : 1 ≤ p.n) (h : epsSetUp p d = some r) :
    (1 ≤ d.nev → r.nev = min d.nev p.n) ∧
    (∀ c, d.ncv = some c → r.ncv = some (min c (if p.half then p.n / 2 else p.n))) ∧
    (∀ m, d.mpd = some m → r.mpd = some m) := by
  obtain ⟨n, half, thr, kry⟩ := p
  obtain ⟨nev, ncv, mpd⟩ := d
  simp only [] at hn
  unfold epsSetUp at h
  rw [if_neg (by simp only; omega)] at h
  unfold epsDefault epsCap at h
  simp only [] at h
  generalize hnev : (if (if nev > n then n else nev) = 0 ∧ thr = false then 1 else if nev > n then n else nev) = nv at h
  have h1 : 1 ≤ nev → nv = min nev n := by intro _; rw [← hnev]; split_ifs <;> omega
  cases ncv with
  | some c =>
    simp only [Option.map_some] at h
    generalize hC : (if half = true then if 2 * c > n then n / 2 else c else if c > n then n else c) = C at h
    have hC1 : C = min c (if half = true then n / 2 else n) := by
      rw [← hC]
      cases half <;> simp <;> split_ifs <;> omega
    by_cases hck : epsCheck ⟨n, half, thr, kry⟩ (epsPairs ⟨n, half, thr, kry⟩ nv) C = true
    swap
    · rw [if_neg hck] at h; cases h
    rw [if_pos hck] at h
    have hr := Option.some.inj h
    subst hr
    refine ⟨h1, ?_, ?_⟩
    · intro c' hc'
      cases Option.some.inj hc'
      simp [hC1]
    · intro m hm
      simp only [] at hm
      subst hm
      rfl
  | none =>
    simp only [Option.map_none] at h
    have hr := Option.some.inj h
    subst hr
    refine ⟨h1, ?_, ?_⟩
    · intro c' hc'; cases hc'
    · intro m hm
      simp only [] at hm
      subst hm
      rfl

/-- **C33, set-up always succeeds when `ncv` is left to default**, and the result then satisfies
`ncv ≤ nev + mpd`, which the solvers check afterwards (e.g. krylovschur.c:118), unless pairs are counted. -/
theorem C33_eps_accepts (p : EpsProblem) (d : Dims) (hn : 1 ≤ p.n) (he : p.half = true → 2 ∣ p.n) (hd : UserDims d)
    (hc : d.ncv = none) :
    ∃ r, epsSetUp p d = some r ∧ ∃ c m, r.ncv = some c ∧ r.mpd = some m ∧ c ≤ r.nev + m := by
  obtain ⟨n, half, thr, kry⟩ := p
  obtain ⟨nev, ncv, mpd⟩ := d
  simp only [] at hn hc
  subst hc
  unfold epsSetUp
  rw [if_neg (by simp only; omega)]
  unfold epsDefault epsCap
  simp only [Option.map_none]
  refine ⟨_, rfl, _, _, rfl, rfl, ?_⟩
  simp only
  generalize (if (if nev > n then n else nev) = 0 ∧ thr = false then 1 else if nev > n then n else nev) = nv
  have : epsPairs ⟨n, half, thr, kry⟩ nv ≤ nv := by unfold epsPairs; split_ifs <;> omega
  unfold defaults
  cases mpd with
  | some m => simp only; omega
  | none => simp only; split_ifs <;> simp only <;> omega

/-- **C33, singular values.** -/
theorem C33_svd_partial {p : SvdProblem} {d r : Dims} (hs : 1 ≤ min p.m (min p.n (p.b.getD p.n))) (hd : UserDims d)
    (h : svdSetUp p d = some r) :
    (r.nev ≤ min p.m (min p.n (p.b.getD p.n)) ∧ (p.threshold = false → 1 ≤ r.nev)) ∧
    Consistent (min p.m (min p.n (p.b.getD p.n))) r.nev r ∧
    (1 ≤ d.nev → r.nev = min d.nev (min p.m (min p.n (p.b.getD p.n)))) ∧
    (∀ c, d.ncv = some c → r.ncv = some (min c (min p.m (min p.n (p.b.getD p.n))))) ∧
    (∀ m, d.mpd = some m → r.mpd = some m) := by
  have hsz : svdSize p = min p.m (min p.n (p.b.getD p.n)) := by
    unfold svdSize
    cases p.b <;> simp <;> omega
  rw [← hsz] at hs ⊢
  obtain ⟨nev, ncv, mpd⟩ := d
  have hm := hd.2
  have hc := hd.1
  simp only [] at hm hc ⊢
  unfold svdSetUp svdCheck svdDefault at h
  simp only [] at h
  generalize svdSize p = S at *
  generalize hnev : (if min nev S = 0 ∧ p.threshold = false then 1 else min nev S) = nv at h
  have h1 : nv ≤ S := by rw [← hnev]; split_ifs <;> omega
  have h2 : p.threshold = false → 1 ≤ nv := by intro ht; rw [← hnev]; split_ifs <;> simp_all <;> omega
  have h3 : 1 ≤ nev → nv = min nev S := by intro _; rw [← hnev]; split_ifs <;> omega
  cases ncv with
  | some c =>
    have hc1 := hc c rfl
    simp only [Option.map_some] at h
    split_ifs at h with ha hb
    have hr := Option.some.inj h
    subst hr
    refine ⟨⟨h1, h2⟩, ⟨_, _, rfl, rfl, by omega, by omega, hb, ?_⟩, h3, ?_, ?_⟩
    · cases mpd with
      | none => simp; omega
      | some m => simpa using hm m rfl
    · intro c' hc'; cases hc'; rfl
    · intro m hm'; subst hm'; rfl
  | none =>
    simp only [Option.map_none, if_true] at h
    have hr := Option.some.inj h
    subst hr
    have D := defaults_ncv S nv (max (2 * nv) 10) mpd (by omega) h1 hs (by omega) hm
    refine ⟨⟨h1, h2⟩, ⟨_, _, rfl, rfl, D.1, D.2.1, D.2.2.1, D.2.2.2.1⟩, h3, ?_, ?_⟩
    · intro c' hc'; cases hc'
    · intro m hm'; subst hm'; rfl

example : svdSetUp ⟨30, 20, some 40, false⟩ ⟨4, none, none⟩ = some ⟨4, some 10, some 10⟩ := by decide

/-- **C33 fails for a GSVD whose second matrix has no rows**: one triplet is requested with a subspace
of dimension 0. -/
theorem C33_svd_false : ¬ ∀ (p : SvdProblem) (d r : Dims), 1 ≤ min p.m p.n → UserDims d → svdSetUp p d = some r →
    ∃ c, r.ncv = some c ∧ r.nev ≤ c := by
  intro h
  obtain ⟨c, h1, h2⟩ := h ⟨5, 5, some 0, false⟩ ⟨1, none, none⟩ ⟨1, some 0, some 0⟩ (by decide)
    ⟨fun c hc => by simp at hc, fun m hm => by simp at hm⟩ (by decide)
  simp at h1 h2
  omega

/-- **C33, repeated set-up is not as with a new solver.** After a first set-up the computed `ncv` counts as
given: asking for 20 eigenvalues afterwards is refused, though a new solver accepts it. -/
theorem C33_again_false : ¬ ∀ (p : EpsProblem) (d r r' : Dims) (nev : Int), epsSetUp p d = some r →
    setDimensions r (.value nev) .current .current = some r' →
    epsSetUp p r' = (setDimensions d (.value nev) .current .current).bind (epsSetUp p) := by
  intro h
  have := h ⟨100, false, false, true⟩ ⟨1, none, none⟩ ⟨1, some 16, some 16⟩ ⟨20, some 16, some 16⟩ 20 (by decide) (by decide)
  revert this
  decide

/-- **C33, repeated set-up, the part that holds**: without any change, or with both `ncv` and `mpd` reset to
default, the second set-up gives the same as the first one of a new solver. -/
theorem C33_again_partial {p : EpsProblem} {d r : Dims} (hn : 1 ≤ p.n) (he : p.half = true → 2 ∣ p.n) (hd : UserDims d)
    (h : epsSetUp p d = some r) :
    epsSetUp p r = some r ∧
    ∀ nev : Int, (setDimensions r (.value nev) .determine .determine).bind (epsSetUp p)
      = (setDimensions d (.value nev) .determine .determine).bind (epsSetUp p) := by
  constructor
  · obtain ⟨⟨a1, a2⟩, ⟨c, m, b1, b2, b3, b4, b5, b6⟩, k⟩ := C33_eps hn he hd h
    obtain ⟨n, half, thr, kry⟩ := p
    obtain ⟨nev, ncv, mpd⟩ := r
    simp only [] at a1 a2 b1 b2 b3 b4 b5 b6 hn he k
    subst b1 b2
    unfold epsSetUp
    rw [if_neg (by simp only; omega)]
    unfold epsDefault epsCap
    simp only [Option.map_some]
    have e1 : (if nev > n then n else nev) = nev := by split_ifs <;> omega
    have e2 : (if nev = 0 ∧ thr = false then 1 else nev) = nev := by
      split_ifs with hh
      · have := a2 hh.2; omega
      · rfl
    have e3 : (if half = true then if 2 * c > n then n / 2 else c else if c > n then n else c) = c := by
      cases half <;> simp at b4 ⊢ <;> omega
    rw [e1, e2, e3]
    have e4 : epsCheck ⟨n, half, thr, kry⟩ (epsPairs ⟨n, half, thr, kry⟩ nev) c = true := by
      unfold epsCheck epsPairs epsSize
      cases kry with
      | false => simpa using b5
      | true =>
        obtain ⟨c', h1, h2⟩ := k rfl
        cases Option.some.inj h1
        simp only [if_true, Bool.or_eq_true, Bool.and_eq_true, decide_eq_true_eq]
        omega
    rw [e4]
    simp
  · intro nev
    simp only [setDimensions, setNev, setArg]

/-- **C62, polynomial problems.** -/
theorem C62_pep {p : PepProblem} {d r : Dims} (hn : 1 ≤ p.n) (hdeg : 1 ≤ p.deg) (hnev : 1 ≤ d.nev) (hd : UserDims d)
    (h : pepSetUp p d = some r) :
    r.nev = min d.nev (p.deg * p.n) ∧ Consistent (p.deg * p.n) r.nev r ∧
    (p.krylov = true → ∃ c, r.ncv = some c ∧ (r.nev < c ∨ c = p.deg * p.n)) ∧
    (∀ c, d.ncv = some c → r.ncv = some (min c (p.deg * p.n))) ∧ (∀ m, d.mpd = some m → r.mpd = some m) := by
  obtain ⟨n, deg, kry⟩ := p
  obtain ⟨nev, ncv, mpd⟩ := d
  have hm := hd.2
  have hc := hd.1
  simp only [] at hm hc hn hdeg hnev ⊢
  have hS : 1 ≤ deg * n := Nat.mul_pos hdeg hn
  unfold pepSetUp pepDefault at h
  simp only [] at h
  generalize deg * n = S at *
  generalize hn' : (if nev > S then S else nev) = nv at h
  have h1 : nv = min nev S := by rw [← hn']; split_ifs <;> omega
  cases ncv with
  | some c =>
    have hc1 := hc c rfl
    simp only [Option.map_some] at h
    generalize hC : (if c > S then S else c) = C at h
    have hC1 : C = min c S := by rw [← hC]; split_ifs <;> omega
    by_cases hck : (if kry then decide (C > nv) || (decide (C = nv) && decide (C = S)) else decide (C ≥ nv)) = true
    swap
    · rw [if_neg hck] at h; cases h
    rw [if_pos hck] at h
    have hr := Option.some.inj h
    subst hr
    have hge : nv ≤ C := by cases kry <;> simp at hck <;> omega
    refine ⟨h1, ⟨_, _, rfl, rfl, by omega, by omega, hge, ?_⟩, ?_, ?_, ?_⟩
    · cases mpd with
      | none => simp; omega
      | some m => simpa using hm m rfl
    · intro hk
      refine ⟨_, rfl, ?_⟩
      subst hk
      simp at hck
      show nv < C ∨ C = S
      omega
    · intro c' hc'; cases hc'; simp [hC1]
    · intro m hm'; subst hm'; rfl
  | none =>
    simp only [Option.map_none] at h
    have hr := Option.some.inj h
    subst hr
    have D := defaults_ncv S nv (max (2 * nv) (nv + 15)) mpd (by omega) (by omega) hS (by omega) hm
    refine ⟨h1, ⟨_, _, rfl, rfl, D.1, D.2.1, D.2.2.1, D.2.2.2.1⟩, ?_, ?_, ?_⟩
    · intro _
      refine ⟨_, rfl, ?_⟩
      show nv < _ ∨ _
      unfold defaults
      cases mpd with
      | some m => have := hm m rfl; simp only; omega
      | none => simp only; split_ifs <;> simp only <;> omega
    · intro c' hc'; cases hc'
    · intro m hm'; subst hm'; rfl

example : pepSetUp ⟨10, 2, true⟩ ⟨25, none, none⟩ = some ⟨20, some 20, some 20⟩ := by decide

/-- **C62, nonlinear problems**: the subspace is large enough if `ncv` is given or `nev ≤ n`. -/
theorem C62_nep_partial {n : Nat} {d r : Dims} (hn : 1 ≤ n) (hnev : 1 ≤ d.nev) (hd : UserDims d)
    (hp : d.ncv = none → d.nev ≤ n) (h : nepSetUp n d = some r) :
    r.nev = d.nev ∧ (∃ c m, r.ncv = some c ∧ r.mpd = some m ∧ d.nev ≤ c ∧ 1 ≤ m ∧ (d.ncv = none → c ≤ n)) ∧
    (∀ c, d.ncv = some c → r.ncv = some c) ∧ (∀ m, d.mpd = some m → r.mpd = some m) := by
  obtain ⟨nev, ncv, mpd⟩ := d
  have hm := hd.2
  have hc := hd.1
  simp only [] at hm hc hnev hp ⊢
  unfold nepSetUp at h
  cases ncv with
  | some c =>
    simp only [] at h
    split_ifs at h with hck
    have hr := Option.some.inj h
    subst hr
    refine ⟨rfl, ⟨_, _, rfl, rfl, hck, ?_, by intro hh; cases hh⟩, fun c' hc' => hc', fun m hm' => by subst hm'; rfl⟩
    cases mpd with
    | none => simpa using hc c rfl
    | some m => simpa using hm m rfl
  | none =>
    have hr := Option.some.inj h
    subst hr
    have D := defaults_ncv n nev (max (2 * nev) (nev + 15)) mpd (by omega) (hp rfl) hn (by omega) hm
    refine ⟨rfl, ⟨_, _, rfl, rfl, D.2.2.1, D.2.2.2.1, fun _ => D.2.1⟩, ?_, ?_⟩
    · intro c' hc'; cases hc'
    · intro m hm'; subst hm'; rfl

example : nepSetUp 10 ⟨4, none, none⟩ = some ⟨4, some 10, some 10⟩ := by decide

/-- **C62 fails for nonlinear problems with more wanted eigenvalues than the order of the matrix** (which a
nonlinear problem can have): the default subspace is too small. -/
theorem C62_nep_false : ¬ ∀ (n : Nat) (d r : Dims), 1 ≤ n → 1 ≤ d.nev → UserDims d → nepSetUp n d = some r →
    ∃ c, r.ncv = some c ∧ r.nev ≤ c := by
  intro h
  obtain ⟨c, h1, h2⟩ := h 2 ⟨3, none, none⟩ ⟨3, some 2, some 2⟩ (by decide) (by decide)
    ⟨fun c hc => by simp at hc, fun m hm => by simp at hm⟩ (by decide)
  simp at h1 h2
  omega

end Verif.EPS
