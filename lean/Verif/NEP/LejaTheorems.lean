import Verif.NEP.LejaModel
import Verif.NEP.NleigsLemmas
import Mathlib.Analysis.RCLike.Lemmas

/-! C102: the nodes and basis functions selected by NLEIGS. -/
set_option linter.all false

namespace Verif.NEP

variable {F : Type*} [RCLike F]

theorem scanMax_spec (n : ℕ) (v : ℕ → ℝ) :
    (∀ i < n, v i ≤ (scanMax n v).1) ∧ 0 ≤ (scanMax n v).1 ∧
    ((scanMax n v).2 = none → (scanMax n v).1 = 0) ∧ (∀ j, (scanMax n v).2 = some j → j < n ∧ v j = (scanMax n v).1 ∧ 0 < v j) := by
  unfold scanMax
  induction n with
  | zero => simp
  | succ n ih =>
    rw [List.range_succ, List.foldl_append, List.foldl_cons, List.foldl_nil]
    set r := (List.range n).foldl (fun r i => if r.1 < v i then (v i, some i) else r) ((0 : ℝ), (none : Option ℕ)) with hr
    obtain ⟨h1, h2, h3, h4⟩ := ih
    by_cases h : r.1 < v n
    · rw [if_pos h]
      refine ⟨fun i hi => ?_, by dsimp only; linarith, by intro hh; simp at hh, fun j hj => ?_⟩
      · rcases Nat.lt_succ_iff_lt_or_eq.1 hi with h' | h'
        · dsimp only; linarith [h1 i h']
        · rw [h']
      · dsimp only at hj ⊢
        cases hj
        exact ⟨by omega, rfl, by linarith⟩
    · rw [if_neg h]
      refine ⟨fun i hi => ?_, h2, h3, fun j hj => ?_⟩
      · rcases Nat.lt_succ_iff_lt_or_eq.1 hi with h' | h'
        · exact h1 i h'
        · rw [h']; linarith
      · obtain ⟨a, b, c⟩ := h4 j hj
        exact ⟨by omega, b, c⟩

theorem scanMin_spec (n : ℕ) (v : ℕ → Option ℝ) :
    (scanMin n v = none → ∀ i, 1 ≤ i → i < n → v i = none) ∧
    (∀ m j, scanMin n v = some (m, j) → 1 ≤ j ∧ j < n ∧ v j = some m ∧ ∀ i, 1 ≤ i → i < n → ∀ x, v i = some x → m ≤ x) := by
  unfold scanMin
  induction n with
  | zero => simp
  | succ n ih =>
    rw [List.range_succ, List.foldl_append, List.foldl_cons, List.foldl_nil]
    revert ih
    generalize (List.range n).foldl (fun (r : Option (ℝ × ℕ)) i =>
      if i = 0 then r else
        match v i, r with
        | none, r => r
        | some x, none => some (x, i)
        | some x, some (m, j) => if x < m then some (x, i) else some (m, j)) none = r
    intro ih
    obtain ⟨h1, h2⟩ := ih
    by_cases hn : n = 0
    · subst hn
      rw [if_pos rfl]
      refine ⟨fun _ i hi hi' => by omega, fun m j e => ?_⟩
      have := h2 m j e
      omega
    · rw [if_neg hn]
      cases hv : v n with
      | none =>
        refine ⟨fun hr i hi hi' => ?_, fun m j hr => ?_⟩
        · rcases Nat.lt_succ_iff_lt_or_eq.1 hi' with h' | h'
          · exact h1 hr i hi h'
          · rw [h', hv]
        · obtain ⟨a, b, c, d⟩ := h2 m j hr
          refine ⟨a, by omega, c, fun i hi hi' x hx => ?_⟩
          rcases Nat.lt_succ_iff_lt_or_eq.1 hi' with h' | h'
          · exact d i hi h' x hx
          · rw [h', hv] at hx; cases hx
      | some y =>
        cases r with
        | none =>
          refine ⟨(fun hr => by cases hr), fun m j hr => ?_⟩
          cases hr
          refine ⟨by omega, by omega, hv, fun i hi hi' x hx => ?_⟩
          rcases Nat.lt_succ_iff_lt_or_eq.1 hi' with h' | h'
          · rw [h1 rfl i hi h'] at hx; cases hx
          · rw [h', hv] at hx; cases hx; exact le_rfl
        | some p =>
          obtain ⟨m0, j0⟩ := p
          obtain ⟨a, b, c, d⟩ := h2 m0 j0 rfl
          dsimp only
          by_cases hy : y < m0
          · rw [if_pos hy]
            refine ⟨(fun hr => by cases hr), fun m j hr => ?_⟩
            cases hr
            refine ⟨by omega, by omega, hv, fun i hi hi' x hx => ?_⟩
            rcases Nat.lt_succ_iff_lt_or_eq.1 hi' with h' | h'
            · linarith [d i hi h' x hx]
            · rw [h', hv] at hx; cases hx; exact le_rfl
          · rw [if_neg hy]
            refine ⟨(fun hr => by cases hr), fun m j hr => ?_⟩
            cases hr
            refine ⟨a, by omega, c, fun i hi hi' x hx => ?_⟩
            rcases Nat.lt_succ_iff_lt_or_eq.1 hi' with h' | h'
            · exact d i hi h' x hx
            · rw [h', hv] at hx; cases hx; linarith

/-- Loop invariant before iteration `k`. -/
structure LejaInv (ds : ℕ → F) (ndpt k : ℕ) (st : LejaState F) : Prop where
  pos : 1 ≤ k
  beta0 : st.N.beta 0 = 1
  mem : ∀ i < k, ∃ j < ndpt, st.N.s i = ds j
  scale : ∀ i < k, ∃ r : ℝ, 0 < r ∧ st.N.beta i = (r : F)
  nopole : ∀ i < ndpt, ∀ j, j+1 < k → 1 - ds i * st.N.rxi j ≠ 0
  nrs : ∀ i < ndpt, st.nrs i = st.N.beta (k-1) * ratBasis st.N.s st.N.beta st.N.rxi (k-1) (ds i)
  bound : ∀ l < k, ∀ i < ndpt, ‖ratBasis st.N.s st.N.beta st.N.rxi l (ds i)‖ ≤ 1
  peak : ∀ l < k, ‖ratBasis st.N.s st.N.beta st.N.rxi l (st.N.s l)‖ = 1

theorem ratBasis_congr {s beta rxi s' beta' rxi' : ℕ → F} {k : ℕ} (h : ∀ i < k, s i = s' i) (hb : ∀ i ≤ k, beta i = beta' i)
    (hx : ∀ i < k, rxi i = rxi' i) (z : F) : ratBasis s beta rxi k z = ratBasis s' beta' rxi' k z := by
  unfold ratBasis
  rw [hb 0 (by omega)]
  congr 1
  refine Finset.prod_congr rfl fun i hi => ?_
  have := Finset.mem_range.1 hi
  rw [h i this, hb (i+1) this, hx i this]

theorem lejaInit_inv {ds dxi : ℕ → F} {ndpt ndptx : ℕ} (h : 0 < ndpt) : LejaInv ds ndpt 1 (lejaInit ds dxi ndptx) := by
  refine ⟨le_rfl, rfl, fun i _ => ⟨0, h, rfl⟩, fun i _ => ⟨1, one_pos, by simp [lejaInit]⟩, fun i _ j hj => by omega, fun i _ => ?_,
    fun l hl i _ => ?_, fun l hl => ?_⟩
  · simp [lejaInit, ratBasis]
  · have : l = 0 := by omega
    subst this; simp [lejaInit, ratBasis]
  · have : l = 0 := by omega
    subst this; simp [lejaInit, ratBasis]

theorem lejaStep_inv {tiny : ℝ} {ds dxi : ℕ → F} {ndpt ndptx k : ℕ} {st st' : LejaState F} (I : LejaInv ds ndpt k st)
    (h : lejaStep tiny ds dxi ndpt ndptx k st = .inr st') : LejaInv ds ndpt (k+1) st' := by
  unfold lejaStep at h
  by_cases hp : ∃ i < ndpt, 1 - ds i * st.N.rxi (k-1) = 0
  · rw [if_pos hp] at h; cases h
  rw [if_neg hp] at h
  push Not at hp
  dsimp only at h
  set nrs : ℕ → F := fun i => st.nrs i * (((ds i - st.N.s (k-1)) / (1 - ds i * st.N.rxi (k-1))) / st.N.beta (k-1)) with hnrs
  obtain ⟨hmax, hnn, -, harg⟩ := scanMax_spec ndpt (fun i => ‖nrs i‖)
  revert h hmax hnn harg
  generalize scanMax ndpt (fun i => ‖nrs i‖) = r
  obtain ⟨m, o⟩ := r
  intro h hmax hnn harg
  cases o with
  | none => cases h
  | some j =>
    obtain ⟨hj, hjm, hjp⟩ := harg j rfl
    dsimp only at h hjm hmax
    cases hq : poleStep tiny dxi ndptx k st with
    | inl r => rw [hq] at h; cases h
    | inr q =>
      obtain ⟨rx, nrxi⟩ := q
      rw [hq] at h
      dsimp only at h
      injection h with h
      subst h
      have hk := I.pos
      have hm : 0 < m := by rw [← hjm]; exact hjp
      have hmF : (m : F) ≠ 0 := by simpa using hm.ne'
      have old : ∀ l < k, ∀ z, ratBasis (fun i => if i = k then ds j else st.N.s i) (fun i => if i = k then (m : F) else st.N.beta i)
          (fun i => if i = k then rx else st.N.rxi i) l z = ratBasis st.N.s st.N.beta st.N.rxi l z := by
        intro l hl z
        apply ratBasis_congr
        · intro i hi; exact if_neg (by omega)
        · intro i hi; exact if_neg (by omega)
        · intro i hi; exact if_neg (by omega)
      have new : ∀ i < ndpt, ratBasis (fun i => if i = k then ds j else st.N.s i) (fun i => if i = k then (m : F) else st.N.beta i)
          (fun i => if i = k then rx else st.N.rxi i) k (ds i) = nrs i / (m : F) := by
        intro i hi
        obtain ⟨k', rfl⟩ : ∃ k', k = k'+1 := ⟨k-1, by omega⟩
        rw [ratBasis_succ, old k' (by omega)]
        have e1 : (if k' = k'+1 then ds j else st.N.s k') = st.N.s k' := if_neg (by omega)
        have e2 : (if k'+1 = k'+1 then (m : F) else st.N.beta (k'+1)) = m := if_pos rfl
        have e3 : (if k' = k'+1 then rx else st.N.rxi k') = st.N.rxi k' := if_neg (by omega)
        rw [e1, e2, e3, hnrs]
        dsimp only
        rw [I.nrs i hi]
        have hpi := hp i hi
        rw [Nat.add_sub_cancel] at hpi ⊢
        obtain ⟨rr, hrr, hre⟩ := I.scale k' (by omega)
        have hbk : st.N.beta k' ≠ 0 := by rw [hre]; simpa using hrr.ne'
        field_simp
      refine ⟨by omega, ?_, ?_, ?_, ?_, ?_, ?_, ?_⟩
      · exact (if_neg (by omega)).trans I.beta0
      · intro i hi
        by_cases hik : i = k
        · exact ⟨j, hj, if_pos hik⟩
        · obtain ⟨a, b, c⟩ := I.mem i (by omega)
          exact ⟨a, b, (if_neg hik).trans c⟩
      · intro i hi
        by_cases hik : i = k
        · exact ⟨m, hm, if_pos hik⟩
        · obtain ⟨a, b, c⟩ := I.scale i (by omega)
          exact ⟨a, b, (if_neg hik).trans c⟩
      · intro i hi l hl
        dsimp only
        rw [if_neg (show ¬ l = k by omega)]
        by_cases hlk : l+1 < k
        · exact I.nopole i hi l hlk
        · have : l = k-1 := by omega
          rw [this]; exact hp i hi
      · intro i hi
        dsimp only
        rw [Nat.add_sub_cancel, new i hi, if_pos rfl]
        field_simp
      · intro l hl i hi
        dsimp only
        by_cases hlk : l = k
        · rw [hlk, new i hi, norm_div, RCLike.norm_ofReal, abs_of_pos hm, div_le_one hm]
          exact hmax i hi
        · rw [old l (by omega)]; exact I.bound l (by omega) i hi
      · intro l hl
        dsimp only
        by_cases hlk : l = k
        · rw [if_pos hlk, hlk, new j hj, norm_div, RCLike.norm_ofReal, abs_of_pos hm, hjm, div_self hm.ne']
        · rw [if_neg hlk, old l (by omega)]; exact I.peak l (by omega)

theorem lejaLoop_inv {tiny : ℝ} {ds dxi : ℕ → F} {ndpt ndptx : ℕ} (m k : ℕ) (st : LejaState F) (I : LejaInv ds ndpt k st)
    {N : Nodes F} (h : lejaLoop tiny ds dxi ndpt ndptx m k st = .ok N) : ∃ st', st'.N = N ∧ LejaInv ds ndpt (k+m) st' := by
  induction m generalizing k st with
  | zero =>
    rw [lejaLoop] at h
    injection h with h
    exact ⟨st, h, I⟩
  | succ m ih =>
    rw [lejaLoop] at h
    cases hs : lejaStep tiny ds dxi ndpt ndptx k st with
    | inl r =>
      rw [hs] at h
      dsimp only at h
      subst h
      exfalso
      unfold lejaStep at hs
      by_cases hp : ∃ i < ndpt, 1 - ds i * st.N.rxi (k-1) = 0
      · rw [if_pos hp] at hs; cases hs
      rw [if_neg hp] at hs
      dsimp only at hs
      split at hs
      · cases hs
      · rename_i r' e
        cases hs
        unfold poleStep at e
        by_cases hk : k < ndptx
        · rw [if_pos hk] at e
          split at e
          · cases e
          · rename_i i' _
            by_cases ht : ‖dxi i'‖ < tiny
            · rw [if_pos ht] at e; cases e
            · rw [if_neg ht] at e; cases e
        · rw [if_neg hk] at e; cases e
      · cases hs
    | inr st' =>
      rw [hs] at h
      obtain ⟨st'', e, I'⟩ := ih (k+1) st' (lejaStep_inv I hs) h
      exact ⟨st'', e, by rw [show k + (m+1) = k+1+m by omega]; exact I'⟩

/-- If all the points have been assigned, the nodes are points of the target set and distinct, the scaling factors are positive (the first
one is one), no target point is a pole of a basis function, every basis function has modulus at most one on the target set and modulus
one at its own node. So the hypotheses of C101 hold.
Partial: exact arithmetic; the discrete sets are given; that the points are assigned is `C102_ok_partial`, and false in general
(`C102_false`). -/
theorem C102_bounded_partial {tiny : ℝ} {ds dxi : ℕ → F} {ndpt ndptx ddmaxit : ℕ} (h0 : 0 < ndpt) (hd : 0 < ddmaxit) {N : Nodes F}
    (h : lejaBagby tiny ds dxi ndpt ndptx ddmaxit = .ok N) :
    (∀ i < ddmaxit, ∃ j < ndpt, N.s i = ds j) ∧ GoodNodes N.s N.beta N.rxi ddmaxit ∧ N.beta 0 = 1 ∧
    (∀ k < ddmaxit, ∀ i < ndpt, NoPole N.rxi ddmaxit (ds i) ∧ ‖ratBasis N.s N.beta N.rxi k (ds i)‖ ≤ 1) ∧
    (∀ k < ddmaxit, ‖ratBasis N.s N.beta N.rxi k (N.s k)‖ = 1) := by
  unfold lejaBagby at h
  by_cases hc : 0 < ndptx ∧ ‖dxi 0‖ < tiny
  · rw [if_pos hc] at h; cases h
  rw [if_neg hc] at h
  obtain ⟨st', rfl, I⟩ := lejaLoop_inv _ _ _ (lejaInit_inv h0) h
  rw [show 1 + (ddmaxit - 1) = ddmaxit by omega] at I
  have hnp : ∀ i < ndpt, ∀ j, j+1 < ddmaxit → ds i * st'.N.rxi j ≠ 1 := fun i hi j hj e => I.nopole i hi j hj (by rw [e, sub_self])
  refine ⟨I.mem, ⟨?_, ?_, ?_⟩, I.beta0, fun k hk i hi => ⟨hnp i hi, I.bound k hk i hi⟩, I.peak⟩
  · have key : ∀ i j, i < j → j < ddmaxit → st'.N.s i ≠ st'.N.s j := by
      intro i j hij hj e
      have := I.peak j hj
      rw [← e, ratBasis_zero_at hij, norm_zero] at this
      exact zero_ne_one this
    intro i hi j hj e
    rcases lt_trichotomy i j with h' | h' | h'
    · exact absurd e (key i j h' hj)
    · exact h'
    · exact absurd e.symm (key j i h' hi)
  · intro i hi
    obtain ⟨r, hr, e⟩ := I.scale i hi
    rw [e]; simpa using hr.ne'
  · intro i hi j hj
    obtain ⟨a, ha, e⟩ := I.mem i hi
    rw [e]; exact hnp a ha j hj

/-- The selection never succeeds if more terms are requested than there are points in the discretization of the target set, so some node is
not assigned (or the solver stops with an error), although any positive number of terms is accepted by `NEPNLEIGSSetInterpolation`. For
general problems there are 100 points (nleigs.c:356). -/
theorem C102_false {tiny : ℝ} {ds dxi : ℕ → F} {ndpt ndptx ddmaxit : ℕ} (h0 : 0 < ndpt) (hd : ndpt < ddmaxit) :
    ¬ ∃ N, lejaBagby tiny ds dxi ndpt ndptx ddmaxit = .ok N := by
  rintro ⟨N, h⟩
  obtain ⟨hm, g, -⟩ := C102_bounded_partial h0 (by omega) h
  choose! φ hφ hφ' using hm
  have hinj : Set.InjOn φ (Finset.range ddmaxit) := by
    intro i hi j hj e
    have hi' := Finset.mem_range.1 (Finset.mem_coe.1 hi)
    have hj' := Finset.mem_range.1 (Finset.mem_coe.1 hj)
    exact g.distinct i hi' j hj' (by rw [hφ' i hi', hφ' j hj', e])
  have hmaps : Set.MapsTo φ (Finset.range ddmaxit) (Finset.range ndpt) := by
    intro i hi
    exact Finset.mem_coe.2 (Finset.mem_range.2 (hφ i (Finset.mem_range.1 (Finset.mem_coe.1 hi))))
  have := Finset.card_le_card_of_injOn φ hmaps hinj
  simp at this
  omega

/-! ### All points are assigned if there are enough of them -/

/-- Invariant on the poles before iteration `k`. -/
structure PoleInv (dxi : ℕ → F) (ndptx k : ℕ) (st : LejaState F) : Prop where
  idx : ∃ φ : ℕ → ℕ, (0 < ndptx → φ 0 = 0) ∧ ∀ j < k, (j < ndptx → φ j < ndptx ∧ st.N.rxi j = 1 / dxi (φ j)) ∧ (ndptx ≤ j → st.N.rxi j = 0)
  inf : k ≤ ndptx → ∀ i, st.nrxi i = none → ∃ j, j+1 < k ∧ 1 - dxi i * st.N.rxi j = 0

theorem poleStep_ok {tiny : ℝ} {dxi : ℕ → F} {ndptx k : ℕ} {st : LejaState F} (hk : 1 ≤ k) (ht : 0 < tiny)
    (hdx : ∀ i < ndptx, tiny ≤ ‖dxi i‖) (hinj : ∀ i < ndptx, ∀ j < ndptx, dxi i = dxi j → i = j) (P : PoleInv dxi ndptx k st) :
    ∃ rx nrxi, poleStep tiny dxi ndptx k st = .inr (rx, nrxi) ∧
      (k < ndptx → (∃ i < ndptx, rx = 1 / dxi i) ∧ ∀ i, nrxi i = none → ∃ j, j+1 < k+1 ∧ 1 - dxi i * st.N.rxi j = 0) ∧
      (ndptx ≤ k → rx = 0) := by
  have hinf : k < ndptx → ∀ i, nrxiUpd st.N dxi k st.nrxi i = none → ∃ j, j+1 < k+1 ∧ 1 - dxi i * st.N.rxi j = 0 := by
    intro hkn i hi
    unfold nrxiUpd at hi
    split at hi
    · rename_i e
      obtain ⟨j, hj, h⟩ := P.inf (by omega) i e
      exact ⟨j, by omega, h⟩
    · by_cases hc : 1 - dxi i * st.N.rxi (k-1) = 0
      · exact ⟨k-1, by omega, hc⟩
      · rw [if_neg hc] at hi; cases hi
  unfold poleStep
  by_cases hkn : k < ndptx
  · rw [if_pos hkn]
    obtain ⟨h1, h2⟩ := scanMin_spec ndptx (fun i => (nrxiUpd st.N dxi k st.nrxi i).map (fun x => ‖x‖))
    cases hs : scanMin ndptx (fun i => (nrxiUpd st.N dxi k st.nrxi i).map (fun x => ‖x‖)) with
    | none =>
      exfalso
      have hall := h1 hs
      obtain ⟨φ, hφ0, hφ⟩ := P.idx
      have hcard : ((Finset.range k).image φ).card < (Finset.range ndptx).card := by
        calc ((Finset.range k).image φ).card ≤ (Finset.range k).card := Finset.card_image_le
          _ = k := Finset.card_range k
          _ < ndptx := hkn
          _ = _ := (Finset.card_range ndptx).symm
      obtain ⟨i, hi, hni⟩ := Finset.exists_mem_notMem_of_card_lt_card hcard
      have hi' := Finset.mem_range.1 hi
      have hi1 : 1 ≤ i := by
        by_contra hc
        have : i = 0 := by omega
        exact hni (Finset.mem_image.2 ⟨0, Finset.mem_range.2 hk, by rw [hφ0 (by omega), this]⟩)
      have e := hall i hi1 hi'
      rw [Option.map_eq_none_iff] at e
      obtain ⟨j, hj, hz⟩ := hinf hkn i e
      obtain ⟨hj1, hj2⟩ := (hφ j (by omega)).1 (by omega)
      rw [hj2] at hz
      have hne : dxi (φ j) ≠ 0 := fun h0 => by
        have := hdx _ hj1; rw [h0, norm_zero] at this; linarith
      have : dxi i = dxi (φ j) := by
        field_simp at hz
        rw [mul_zero] at hz
        exact (sub_eq_zero.1 hz).symm
      exact hni (Finset.mem_image.2 ⟨j, Finset.mem_range.2 (by omega), (hinj i hi' _ hj1 this).symm⟩)
    | some p =>
      obtain ⟨m, i⟩ := p
      obtain ⟨a, b, c, d⟩ := h2 m i hs
      dsimp only
      rw [if_neg (not_lt.2 (hdx i b))]
      exact ⟨_, _, rfl, fun _ => ⟨⟨i, b, rfl⟩, hinf hkn⟩, fun h => by omega⟩
  · rw [if_neg hkn]
    exact ⟨_, _, rfl, fun h => absurd h hkn, fun _ => rfl⟩

theorem ratBasis_eq_zero {s beta rxi : ℕ → F} {k : ℕ} {z : F} (h0 : beta 0 ≠ 0) (hb : ∀ i < k, beta (i+1) ≠ 0)
    (hp : ∀ i < k, 1 - z * rxi i ≠ 0) (h : ratBasis s beta rxi k z = 0) : ∃ i < k, z = s i := by
  unfold ratBasis at h
  rcases mul_eq_zero.1 h with h | h
  · exact absurd h (one_div_ne_zero h0)
  · obtain ⟨i, hi, e⟩ := Finset.prod_eq_zero_iff.1 h
    have hi' := Finset.mem_range.1 hi
    rcases div_eq_zero_iff.1 e with e | e
    · exact ⟨i, hi', sub_eq_zero.1 e⟩
    · exact absurd e (mul_ne_zero (hb i hi') (hp i hi'))

theorem lejaStep_ok {tiny : ℝ} {ds dxi : ℕ → F} {ndpt ndptx k : ℕ} {st : LejaState F} (ht : 0 < tiny)
    (hdx : ∀ i < ndptx, tiny ≤ ‖dxi i‖) (hinj : ∀ i < ndptx, ∀ j < ndptx, dxi i = dxi j → i = j)
    (hsep : ∀ i < ndpt, ∀ j < ndptx, ds i ≠ dxi j) (hcard : k < ((Finset.range ndpt).image ds).card) (I : LejaInv ds ndpt k st)
    (P : PoleInv dxi ndptx k st) : ∃ st', lejaStep tiny ds dxi ndpt ndptx k st = .inr st' ∧ PoleInv dxi ndptx (k+1) st' := by
  have hk := I.pos
  obtain ⟨φ, hφ0, hφ⟩ := P.idx
  unfold lejaStep
  have hp : ¬ ∃ i < ndpt, 1 - ds i * st.N.rxi (k-1) = 0 := by
    rintro ⟨i, hi, e⟩
    by_cases hc : k-1 < ndptx
    · obtain ⟨a, b⟩ := (hφ (k-1) (by omega)).1 hc
      rw [b] at e
      have hne : dxi (φ (k-1)) ≠ 0 := fun h0 => by
        have := hdx _ a; rw [h0, norm_zero] at this; linarith
      field_simp at e
      rw [mul_zero] at e
      exact hsep i hi _ a (sub_eq_zero.1 e).symm
    · rw [(hφ (k-1) (by omega)).2 (by omega)] at e
      simp at e
  rw [if_neg hp]
  push Not at hp
  dsimp only
  set nrs : ℕ → F := fun i => st.nrs i * (((ds i - st.N.s (k-1)) / (1 - ds i * st.N.rxi (k-1))) / st.N.beta (k-1)) with hnrs
  obtain ⟨hmax, hnn, hnone, harg⟩ := scanMax_spec ndpt (fun i => ‖nrs i‖)
  obtain ⟨rx, nrxi, hq, hq1, hq2⟩ := poleStep_ok hk ht hdx hinj P
  rw [hq]
  cases hs : scanMax ndpt (fun i => ‖nrs i‖) with
  | mk m o =>
    rw [hs] at hmax hnone
    cases o with
    | none =>
      exfalso
      have hm0 : m = 0 := hnone rfl
      have hsub : (Finset.range ndpt).image ds ⊆ (Finset.range k).image st.N.s := by
        intro z hz
        obtain ⟨i, hi, rfl⟩ := Finset.mem_image.1 hz
        have hi' := Finset.mem_range.1 hi
        have hz0 : nrs i = 0 := by
          have := hmax i hi'
          dsimp only at this
          rw [hm0] at this
          exact norm_le_zero_iff.1 this
        have hbne : ∀ l < k, st.N.beta l ≠ 0 := by
          intro l hl
          obtain ⟨r, hr, e⟩ := I.scale l hl
          rw [e]; simpa using hr.ne'
        rw [hnrs] at hz0
        dsimp only at hz0
        rcases mul_eq_zero.1 hz0 with h | h
        · rw [I.nrs i hi'] at h
          rcases mul_eq_zero.1 h with h | h
          · exact absurd h (hbne _ (by omega))
          · obtain ⟨l, hl, e⟩ := ratBasis_eq_zero (hbne 0 (by omega)) (fun l hl => hbne _ (by omega))
              (fun l hl => I.nopole i hi' l (by omega)) h
            exact Finset.mem_image.2 ⟨l, Finset.mem_range.2 (by omega), e.symm⟩
        · rcases div_eq_zero_iff.1 h with h | h
          · rcases div_eq_zero_iff.1 h with h | h
            · exact Finset.mem_image.2 ⟨k-1, Finset.mem_range.2 (by omega), (sub_eq_zero.1 h).symm⟩
            · exact absurd h (hp i hi')
          · exact absurd h (hbne _ (by omega))
      have h1 := Finset.card_le_card hsub
      have h2 : ((Finset.range k).image st.N.s).card ≤ k := by
        calc _ ≤ (Finset.range k).card := Finset.card_image_le
          _ = k := Finset.card_range k
      omega
    | some j =>
      refine ⟨_, rfl, ⟨?_, ?_⟩⟩
      · by_cases hkn : k < ndptx
        · obtain ⟨⟨i, hi, e⟩, -⟩ := hq1 hkn
          refine ⟨fun l => if l = k then i else φ l, fun h => ?_, fun l hl => ⟨fun hln => ?_, fun hln => ?_⟩⟩
          · exact (if_neg (by omega)).trans (hφ0 h)
          · dsimp only
            by_cases hlk : l = k
            · rw [if_pos hlk, if_pos hlk]; exact ⟨hi, e⟩
            · rw [if_neg hlk, if_neg hlk]; exact (hφ l (by omega)).1 hln
          · dsimp only
            rw [if_neg (show ¬ l = k by omega)]
            exact (hφ l (by omega)).2 hln
        · refine ⟨φ, hφ0, fun l hl => ⟨fun hln => ?_, fun hln => ?_⟩⟩
          · dsimp only
            rw [if_neg (show ¬ l = k by omega)]
            exact (hφ l (by omega)).1 hln
          · dsimp only
            by_cases hlk : l = k
            · rw [if_pos hlk]; exact hq2 (by omega)
            · rw [if_neg hlk]; exact (hφ l (by omega)).2 hln
      · intro hkn i hi
        obtain ⟨l, hl, e⟩ := (hq1 (by omega)).2 i hi
        refine ⟨l, hl, ?_⟩
        dsimp only
        rw [if_neg (show ¬ l = k by omega)]
        exact e

/-- If the discretization has at least as many distinct points as the number of terms requested, the singularities are distinct, not
nearly zero and not in the target set, then all nodes and poles are assigned. -/
theorem C102_ok_partial {tiny : ℝ} {ds dxi : ℕ → F} {ndpt ndptx ddmaxit : ℕ} (ht : 0 < tiny) (h0 : 0 < ndpt) (hd : 0 < ddmaxit)
    (hdx : ∀ i < ndptx, tiny ≤ ‖dxi i‖) (hinj : ∀ i < ndptx, ∀ j < ndptx, dxi i = dxi j → i = j)
    (hsep : ∀ i < ndpt, ∀ j < ndptx, ds i ≠ dxi j) (hcard : ddmaxit ≤ ((Finset.range ndpt).image ds).card) :
    ∃ N, lejaBagby tiny ds dxi ndpt ndptx ddmaxit = .ok N := by
  unfold lejaBagby
  rw [if_neg (by rintro ⟨a, b⟩; exact absurd (hdx 0 a) (not_le.2 b))]
  have key : ∀ m k st, k + m ≤ ddmaxit → LejaInv ds ndpt k st → PoleInv dxi ndptx k st →
      ∃ N, lejaLoop tiny ds dxi ndpt ndptx m k st = .ok N := by
    intro m
    induction m with
    | zero => intro k st _ _ _; exact ⟨st.N, rfl⟩
    | succ m ih =>
      intro k st hk I P
      obtain ⟨st', hs, P'⟩ := lejaStep_ok ht hdx hinj hsep (by omega) I P
      rw [lejaLoop, hs]
      exact ih (k+1) st' (by omega) (lejaStep_inv I hs) P'
  refine key _ _ _ (by omega) (lejaInit_inv h0) ⟨⟨fun _ => 0, fun _ => rfl, fun j hj => ⟨fun hjn => ⟨show 0 < ndptx by omega, ?_⟩, fun hjn => ?_⟩⟩, ?_⟩
  · simp [lejaInit]; intro h; omega
  · simp [lejaInit]; intro h; omega
  · intro _ i hi; simp [lejaInit] at hi

/-- The hypotheses hold, e.g., for ten integers as target set, two poles and eight terms. -/
example : ∃ N, lejaBagby (F := ℝ) (1/1000) (fun i => i) (fun i => -1 - i) 10 2 8 = .ok N := by
  refine C102_ok_partial (by norm_num) (by norm_num) (by norm_num) ?_ ?_ ?_ ?_
  · intro i hi
    rw [Real.norm_eq_abs, show (-1 - (i : ℝ)) = -(1 + i) by ring, abs_neg, abs_of_pos (by positivity)]
    have : (0 : ℝ) ≤ i := by positivity
    linarith
  · intro i hi j hj e
    have : (i : ℝ) = j := by linarith
    exact_mod_cast this
  · intro i hi j hj e
    have h1 : (0 : ℝ) ≤ i := by positivity
    have h2 : (0 : ℝ) ≤ j := by positivity
    linarith
  · rw [Finset.card_image_of_injective _ Nat.cast_injective]
    simp

end Verif.NEP
