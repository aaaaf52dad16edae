import Verif.Sort.Lemmas
import Mathlib.Algebra.Ring.Int.Defs
/-!
# Properties C01, C02, C03 and C05: the eigenvalue sort

`IsGroup`, `Ranks`, `Consistent`, `ConjInvariant`, `value` are in `Verif.Sort.Spec`.
In the statements `perm = bs.flatten` with all `b ∈ bs` groups says that the input permutation lists
conjugate pairs in adjacent positions (any input when scalars are complex, see `complex_groups`).
-/
set_option linter.all false
namespace Verif.Sort

variable {R : Type} [AddGroup R] [DecidableEq R]

/-- **C01**. Whatever the criterion answers, the sort makes no out-of-bounds access and returns a
rearrangement of the indices it was given. -/
theorem C01_sort_rearranges (c : Cfg) (cmp : Cmp R) (eigr eigi : List R) (perm : List Nat)
    (h : ∃ bs : List (List Nat), perm = bs.flatten ∧ ∀ b ∈ bs, IsGroup c eigr eigi b) :
    ∃ perm', sortEigenvalues c cmp perm.length eigr eigi perm = some perm' ∧ perm'.Perm perm := by
  obtain ⟨bs, rfl, hbs⟩ := h
  exact ⟨_, sort_correct c cmp eigr eigi bs hbs, (List.perm_insertionSort _ _).flatten⟩

/-- With complex scalars every index vector within range qualifies as input. -/
theorem complex_groups (eigr eigi : List R) (perm : List Nat) (flg : Bool)
    (h : ∀ p ∈ perm, p < eigr.length ∧ p < eigi.length) :
    ∃ bs : List (List Nat), perm = bs.flatten ∧
      (∀ b ∈ bs, IsGroup ⟨true, flg⟩ eigr eigi b) := by
  refine ⟨perm.map (fun p => [p]), ?_, ?_⟩
  · induction perm with
    | nil => rfl
    | cons a l ih =>
      rw [List.map_cons, List.flatten_cons, ← ih (fun p hp => h p (by simp [hp]))]; rfl
  · intro b hb
    rw [List.mem_map] at hb
    obtain ⟨p, hp, rfl⟩ := hb
    have := h p hp
    exact Or.inl ⟨p, eigr[p], eigi[p], rfl, by simp [this.1], by simp [this.2], Or.inl rfl⟩

/-- **C03**. Whatever the criterion answers, the output lists exactly the same groups as the input
(real values and conjugate pairs), each still contiguous and in its original internal order. -/
theorem C03_pairs_stay_together (c : Cfg) (cmp : Cmp R) (eigr eigi : List R)
    (bs : List (List Nat)) (h : ∀ b ∈ bs, IsGroup c eigr eigi b) :
    ∃ bs' : List (List Nat), bs'.Perm bs ∧
      sortEigenvalues c cmp bs.flatten.length eigr eigi bs.flatten = some bs'.flatten :=
  ⟨_, List.perm_insertionSort _ _, sort_correct c cmp eigr eigi bs h⟩

theorem pairwise_sorted (c : Cfg) (cmp : Cmp R) (hc : Consistent cmp)
    (hconj : c.cplx = false → ConjInvariant cmp) (eigr eigi : List R) (bs : List (List Nat))
    (h : ∀ b ∈ bs, IsGroup c eigr eigi b) :
    ((bs.insertionSort (grel cmp eigr eigi)).flatten).Pairwise
      (fun p q => Ranks cmp (value eigr eigi p) (value eigr eigi q)) := by
  haveI : Std.Total (grel cmp eigr eigi) := ⟨fun a b => hc.total _ _⟩
  haveI : IsTrans (List Nat) (grel cmp eigr eigi) := ⟨fun a b c => hc.trans _ _ _⟩
  have hs := List.pairwise_insertionSort (grel cmp eigr eigi) bs
  have hmem : ∀ b ∈ bs.insertionSort (grel cmp eigr eigi), IsGroup c eigr eigi b := fun b hb =>
    h b ((List.perm_insertionSort _ _).mem_iff.1 hb)
  rw [List.pairwise_flatten]
  constructor
  · intro b hb
    have hb' := hmem b hb
    have hall : ∀ p ∈ b, ∀ q ∈ b, Ranks cmp (value eigr eigi p) (value eigr eigi q) :=
      fun p hp q hq => hc.trans _ _ _ (group_member hc hconj hb' hp).1 (group_member hc hconj hb' hq).2
    exact List.pairwise_of_forall_mem_list hall
  · refine List.Pairwise.imp_of_mem ?_ hs
    intro a b ha hb hab p hp q hq
    exact hc.trans _ _ _ (group_member hc hconj (hmem a ha) hp).1
      (hc.trans _ _ _ hab (group_member hc hconj (hmem b hb) hq).2)

/-- **C02** (order). For a consistent criterion that (with real scalars) does not distinguish
conjugates, the output is ordered: each listed eigenvalue ranks at least as good as all later ones. -/
theorem C02_sorted (c : Cfg) (cmp : Cmp R) (hc : Consistent cmp)
    (hconj : c.cplx = false → ConjInvariant cmp) (eigr eigi : List R) (perm : List Nat)
    (h : ∃ bs : List (List Nat), perm = bs.flatten ∧ ∀ b ∈ bs, IsGroup c eigr eigi b) :
    ∃ perm', sortEigenvalues c cmp perm.length eigr eigi perm = some perm' ∧
      perm'.Perm perm ∧
      perm'.Pairwise (fun p q => Ranks cmp (value eigr eigi p) (value eigr eigi q)) := by
  obtain ⟨bs, rfl, hbs⟩ := h
  exact ⟨_, sort_correct c cmp eigr eigi bs hbs, (List.perm_insertionSort _ _).flatten,
    pairwise_sorted c cmp hc hconj eigr eigi bs hbs⟩

/-- **C02** (stability). The eigenvalues ranked equal to any given value `x` are listed in the same
relative order as in the input. -/
theorem C02_stable (c : Cfg) (cmp : Cmp R) (hc : Consistent cmp)
    (hconj : c.cplx = false → ConjInvariant cmp) (eigr eigi : List R) (perm perm' : List Nat)
    (h : ∃ bs : List (List Nat), perm = bs.flatten ∧ ∀ b ∈ bs, IsGroup c eigr eigi b)
    (hrun : sortEigenvalues c cmp perm.length eigr eigi perm = some perm') (x : R × R)
    (same : Nat → Bool)
    (hsame : ∀ p, same p = true ↔
      Ranks cmp (value eigr eigi p) x ∧ Ranks cmp x (value eigr eigi p)) :
    perm'.filter same = perm.filter same := by
  obtain ⟨bs, rfl, hbs⟩ := h
  rw [sort_correct c cmp eigr eigi bs hbs, Option.some.injEq] at hrun
  subst hrun
  classical
  let Q : List Nat → Bool := fun b => decide (Ranks cmp (key eigr eigi b) x ∧ Ranks cmp x (key eigr eigi b))
  have huni : ∀ b, IsGroup c eigr eigi b → ∀ p ∈ b, same p = Q b := by
    intro b hb p hp
    have hm := group_member hc hconj hb hp
    rw [Bool.eq_iff_iff, hsame]
    simp only [Q, decide_eq_true_eq]
    constructor
    · rintro ⟨h1, h2⟩; exact ⟨hc.trans _ _ _ hm.2 h1, hc.trans _ _ _ h2 hm.1⟩
    · rintro ⟨h1, h2⟩; exact ⟨hc.trans _ _ _ hm.1 h1, hc.trans _ _ _ h2 hm.2⟩
  rw [filter_flatten_uniform same Q bs (fun b hb => huni b (hbs b hb)),
    filter_flatten_uniform same Q _ (fun b hb =>
      huni b (hbs b ((List.perm_insertionSort _ _).mem_iff.1 hb))),
    filter_insertionSort]
  intro a b ha hb
  simp only [Q, decide_eq_true_eq] at ha hb
  exact hc.trans _ _ _ ha.1 hb.2

/-- The criterion extended with a back-transformation map and a region is again consistent. -/
theorem scCompare_consistent (map : Option (R × R → R × R)) (ins : Option (R × R → Bool))
    (cmp : Cmp R) (hc : Consistent cmp) : Consistent (scCompare map ins cmp) := by
  constructor
  · intro a b
    unfold Ranks scCompare
    rcases map with _ | f <;> rcases ins with _ | g <;> simp only [Prod.mk.eta]
    · exact hc.total a b
    · have := hc.total a b
      unfold Ranks at this
      cases g a <;> cases g b <;> simp [this]
    · exact hc.total (f a) (f b)
    · have := hc.total (f a) (f b)
      unfold Ranks at this
      cases g (f a) <;> cases g (f b) <;> simp [this]
  · intro a b d
    unfold Ranks scCompare
    rcases map with _ | f <;> rcases ins with _ | g <;> simp only [Prod.mk.eta]
    · exact hc.trans a b d
    · have := hc.trans a b d
      unfold Ranks at this
      cases g a <;> cases g b <;> cases g d <;> simp <;> exact this
    · exact hc.trans (f a) (f b) (f d)
    · have := hc.trans (f a) (f b) (f d)
      unfold Ranks at this
      cases g (f a) <;> cases g (f b) <;> cases g (f d) <;> simp <;> exact this

/-- **C05**. With a region attached to the criterion (and a back-transformation `f`), every
eigenvalue whose back-transformed value is inside the region is listed before all those outside, and
eigenvalues on the same side are ordered by the criterion on back-transformed values.
With real scalars the region, map and criterion must treat conjugates alike. -/
theorem C05_inside_first (c : Cfg) (cmp : Cmp R) (hc : Consistent cmp) (f : R × R → R × R)
    (inside : R × R → Bool)
    (hconj : c.cplx = false → ConjInvariant cmp ∧ (∀ r i, inside (r, -i) = inside (r, i)) ∧
      (∀ r i, f (r, -i) = ((f (r, i)).1, -(f (r, i)).2)))
    (eigr eigi : List R) (perm : List Nat)
    (h : ∃ bs : List (List Nat), perm = bs.flatten ∧ ∀ b ∈ bs, IsGroup c eigr eigi b) :
    ∃ perm', sortEigenvalues c (scCompare (some f) (some inside) cmp) perm.length eigr eigi perm
        = some perm' ∧ perm'.Perm perm ∧
      perm'.Pairwise (fun p q => inside (f (value eigr eigi q)) = true →
        inside (f (value eigr eigi p)) = true) ∧
      perm'.Pairwise (fun p q => inside (f (value eigr eigi p)) = inside (f (value eigr eigi q)) →
        Ranks cmp (f (value eigr eigi p)) (f (value eigr eigi q))) := by
  have hc' := scCompare_consistent (some f) (some inside) cmp hc
  have hconj' : c.cplx = false → ConjInvariant (scCompare (some f) (some inside) cmp) := by
    intro hx r i
    obtain ⟨h1, h2, h3⟩ := hconj hx
    have hin : inside (f (r, -i)) = inside (f (r, i)) := by rw [h3, h2]
    have := h1 (f (r, i)).1 (f (r, i)).2
    unfold Ranks at this
    unfold Ranks scCompare
    simp only [hin]
    cases inside (f (r, i)) <;> simp [h3] <;> exact this
  obtain ⟨perm', h1, h2, h3⟩ := C02_sorted c _ hc' hconj' eigr eigi perm h
  refine ⟨perm', h1, h2, h3.imp ?_, h3.imp ?_⟩
  · intro p q hpq hq
    unfold Ranks scCompare at hpq
    simp only [Prod.mk.eta, hq] at hpq
    by_contra hcon
    rw [Bool.not_eq_true] at hcon
    simp [hcon] at hpq
  · intro p q hpq hq
    unfold Ranks scCompare at hpq
    simp only [Prod.mk.eta, hq] at hpq
    revert hpq
    cases inside (f (value eigr eigi q)) <;> simp [Ranks]

/-! ### Non-vacuity: a spectrum with two pairs and two real values, sorted by decreasing real part. -/

/-- A small criterion used in the examples. -/
def exCmp : Cmp Int := fun ar _ br _ => if ar < br then 1 else if ar > br then -1 else 0

theorem exCmp_consistent : Consistent exCmp := by
  constructor
  · intro a b; unfold Ranks exCmp; split_ifs <;> omega
  · intro a b c; unfold Ranks exCmp; split_ifs <;> omega

example : ∃ bs : List (List Nat), [0, 1, 2, 3, 4, 5] = bs.flatten ∧
    ∀ b ∈ bs, IsGroup ⟨false, false⟩ [1, 2, 2, 7, 3, 3] [0, 5, -5, 0, 1, (-1 : Int)] b := by
  refine ⟨[[0], [1, 2], [3], [4, 5]], rfl, ?_⟩
  intro b hb
  simp at hb
  rcases hb with rfl | rfl | rfl | rfl
  · exact Or.inl ⟨0, 1, 0, rfl, rfl, rfl, by simp⟩
  · exact Or.inr ⟨1, 2, 2, 5, rfl, rfl, rfl, rfl, rfl, rfl, by simp, by simp⟩
  · exact Or.inl ⟨3, 7, 0, rfl, rfl, rfl, by simp⟩
  · exact Or.inr ⟨4, 5, 3, 1, rfl, rfl, rfl, rfl, rfl, rfl, by simp, by simp⟩

example : ConjInvariant exCmp := by intro r i; simp [Ranks, exCmp]

-- test (not a proof of the property): the model really computes
example : sortEigenvalues ⟨false, false⟩ exCmp 6 [1, 2, 2, 7, 3, 3] [0, 5, -5, 0, 1, -1]
    [0, 1, 2, 3, 4, 5] = some [3, 4, 5, 1, 2, 0] := by
  rw [show (6 : Nat) = ([[0], [1, 2], [3], [4, 5]] : List (List Nat)).flatten.length from rfl,
    show ([0, 1, 2, 3, 4, 5] : List Nat) = [[0], [1, 2], [3], [4, 5]].flatten from rfl,
    sort_correct]
  · decide
  · intro b hb
    simp at hb
    rcases hb with rfl | rfl | rfl | rfl
    · exact Or.inl ⟨0, 1, 0, rfl, rfl, rfl, by simp⟩
    · exact Or.inr ⟨1, 2, 2, 5, rfl, rfl, rfl, rfl, rfl, rfl, by simp, by simp⟩
    · exact Or.inl ⟨3, 7, 0, rfl, rfl, rfl, by simp⟩
    · exact Or.inr ⟨4, 5, 3, 1, rfl, rfl, rfl, rfl, rfl, rfl, by simp, by simp⟩

/-- A lone half of a conjugate pair in the first position makes the C code read `perm[-1]`: the
hypothesis on groups cannot be dropped. -/
theorem sort_unpaired_is_undefined :
    sortEigenvalues (R := Int) ⟨false, false⟩ exCmp 1 [1] [5] [0] = none := by
  simp [sortEigenvalues, outer, isPair]

end Verif.Sort
