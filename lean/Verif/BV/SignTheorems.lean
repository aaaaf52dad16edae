import Verif.BV.StateModel
import Mathlib.Data.List.Perm.Basic
/-!
C32: for an indefinite inner product the sign stored for each column follows the column.
-/
set_option linter.all false
namespace Verif.BV
variable {α : Type}

/-! ### Specification: contents and sign of a column -/

/-- Content of column `j`, `-nc ≤ j < m` (constraints are negative). -/
def col (b : Bv α) (j : Int) : Option α := if -(b.nc : Int) ≤ j ∧ j < b.m then b.cols[(b.nc + j).toNat]? else none

/-- Sign of column `j`. -/
def sign (b : Bv α) (j : Int) : Option Int :=
  if -(b.nc : Int) ≤ j ∧ j < b.m then b.omega.bind fun w => w[(b.nc + j).toNat]? else none

/-- The storage has room for all columns and their signs. -/
structure WF (b : Bv α) (w : List Int) : Prop where
  om : b.omega = some w
  cl : b.nc + b.m ≤ b.cols.length
  wl : b.nc + b.m ≤ w.length

/-! ### Auxiliary facts -/

theorem wrAt_get {β : Type} (a a' : List β) (p q : Nat) (x : β) (h : wrAt a p x = some a') :
    a'.length = a.length ∧ a'[q]? = if q = p then some x else a[q]? := by
  unfold wrAt at h
  by_cases c : p < a.length
  · rw [if_pos c] at h
    obtain rfl := Option.some.inj h
    refine ⟨List.length_set, ?_⟩
    by_cases hq : q = p
    · subst hq; rw [if_pos rfl, List.getElem?_set_self c]
    · rw [if_neg hq, List.getElem?_set_ne (fun e => hq e.symm)]
  · rw [if_neg c] at h; simp at h

theorem wrAt_some {β : Type} (a : List β) (p : Nat) (x : β) (h : p < a.length) : wrAt a p x = some (a.set p x) := by
  unfold wrAt; rw [if_pos h]

theorem shiftCols_spec (nc d : Nat) (fuel : Nat) : ∀ (i : Nat) (cols : List α), d ≤ nc + i → 0 < d →
    nc + i + fuel ≤ cols.length → ∃ cols', shiftCols nc d fuel i cols = some cols' ∧
      cols'.length = cols.length ∧ ∀ p, cols'[p]? =
        if nc + i - d ≤ p ∧ p < nc + i - d + fuel then cols[p + d]? else cols[p]? := by
  induction fuel with
  | zero =>
    intro i cols _ _ _
    refine ⟨cols, rfl, rfl, fun p => ?_⟩
    rw [if_neg (by omega)]
  | succ fuel ih =>
    intro i cols h1 h2 h3
    obtain ⟨x, hx⟩ : ∃ x, cols[nc + i]? = some x := ⟨_, List.getElem?_eq_getElem (by omega)⟩
    have hw : wrAt cols (nc + i - d) x = some (cols.set (nc + i - d) x) := wrAt_some _ _ _ (by omega)
    obtain ⟨cols', e1, e2, e3⟩ := ih (i + 1) (cols.set (nc + i - d) x) (by omega) h2 (by
      rw [List.length_set]; omega)
    refine ⟨cols', ?_, by rw [e2, List.length_set], ?_⟩
    · rw [shiftCols, hx, Option.bind_some, hw, Option.bind_some]; exact e1
    · intro p
      rw [e3 p]
      have hg := fun q => (wrAt_get cols _ _ q _ hw).2
      by_cases c : nc + (i + 1) - d ≤ p ∧ p < nc + (i + 1) - d + fuel
      · rw [if_pos c, if_pos (by omega), hg, if_neg (by omega)]
      · rw [if_neg c, hg]
        by_cases c2 : p = nc + i - d
        · rw [if_pos c2, if_pos (by omega), show p + d = nc + i by omega, hx]
        · rw [if_neg c2, if_neg (by omega)]

theorem writeSigns_spec (s : List Int) : ∀ (p : Nat) (w : List Int), p + s.length ≤ w.length →
    ∃ w', writeSigns p s w = some w' ∧ w'.length = w.length ∧ ∀ q, w'[q]? =
      if p ≤ q ∧ q < p + s.length then s[q - p]? else w[q]? := by
  induction s with
  | nil =>
    intro p w _
    refine ⟨w, rfl, rfl, fun q => ?_⟩
    rw [if_neg (by simp only [List.length_nil]; omega)]
  | cons x s ih =>
    intro p w h
    simp only [List.length_cons] at h
    have hw : wrAt w p x = some (w.set p x) := wrAt_some _ _ _ (by omega)
    obtain ⟨w', e1, e2, e3⟩ := ih (p + 1) (w.set p x) (by rw [List.length_set]; omega)
    refine ⟨w', by rw [writeSigns, hw, Option.bind_some]; exact e1, by rw [e2, List.length_set], ?_⟩
    intro q
    rw [e3 q, (wrAt_get w _ p q x hw).2]
    simp only [List.length_cons]
    by_cases c : p + 1 ≤ q ∧ q < p + 1 + s.length
    · rw [if_pos c, if_pos (by omega), show q - p = (q - (p + 1)) + 1 by omega, List.getElem?_cons_succ]
    · rw [if_neg c]
      by_cases c2 : q = p
      · subst c2; rw [if_pos rfl, if_pos (by omega), Nat.sub_self]; rfl
      · rw [if_neg c2, if_neg (by omega)]

theorem blit_spec {β : Type} (src dst : List β) (p q d : Nat) (h : p + d ≤ src.length ∧ q + d ≤ dst.length) :
    ∃ r, blit src dst p q d = some r ∧ r.length = dst.length ∧ ∀ x, r[x]? =
      if q ≤ x ∧ x < q + d then src[x - q + p]? else dst[x]? := by
  refine ⟨_, by unfold blit; rw [if_pos h], ?_, ?_⟩
  · simp only [List.length_append, List.length_take, List.length_drop]; omega
  · intro x
    have l1 : (dst.take q).length = q := by rw [List.length_take]; omega
    have l2 : ((src.drop p).take d).length = d := by rw [List.length_take, List.length_drop]; omega
    by_cases c1 : x < q
    · rw [if_neg (by omega), List.append_assoc, List.getElem?_append_left (by omega), List.getElem?_take,
        if_pos c1]
    · by_cases c2 : x < q + d
      · rw [if_pos (by omega), List.append_assoc, List.getElem?_append_right (by omega), l1,
          List.getElem?_append_left (by omega), List.getElem?_take, if_pos (by omega), List.getElem?_drop]
        congr 1; omega
      · rw [if_neg (by omega), List.getElem?_append_right (by rw [List.length_append]; omega),
          List.length_append, l1, l2, List.getElem?_drop]
        congr 1; omega

theorem mapM_range_get (w : List Int) (o k : Nat) (s : List Int) (hs : s.length = k)
    (h : ∀ i, i < k → w[o + i]? = s[i]?) : (List.range k).mapM (fun i => w[o + i]?) = some s := by
  induction k generalizing s with
  | zero =>
    have : s = [] := List.length_eq_zero_iff.1 hs
    subst this; rfl
  | succ k ih =>
    have hne : s ≠ [] := by intro e; subst e; simp at hs
    have e1 : s = s.dropLast ++ [s.getLast hne] := (List.dropLast_append_getLast hne).symm
    have l1 : s.dropLast.length = k := by rw [List.length_dropLast]; omega
    have e2 : w[o + k]? = some (s.getLast hne) := by
      rw [h k (by omega), List.getLast_eq_getElem, ← List.getElem?_eq_getElem]
      congr 1; omega
    rw [List.range_succ, List.mapM_append, ih s.dropLast l1 (by
      intro i hi
      rw [h i (by omega)]
      conv_lhs => rw [e1]
      rw [List.getElem?_append_left (by omega)])]
    simp only [List.mapM_cons, List.mapM_nil, e2, Option.pure_def, Option.bind_eq_bind, Option.bind_some]
    rw [← e1]

/-! ### C32 -/

/-- **C32, set and get.** For an indefinite BV with any number of constraints, `BVGetSignature` after
`BVSetSignature` returns the signature given, and the signs of the constraints and of the columns beyond
the active ones are kept. -/
theorem C32_set_get (b : Bv α) (w s : List Int) (hw : WF b w) (hi : b.indef = true) (hk : b.k ≤ b.m)
    (hs : s.length = b.k) : ∃ b', setSignature b s = some b' ∧ getSignature b' = some s ∧
      (∀ j, (j < 0 ∨ (b.k : Int) ≤ j) → sign b' j = sign b j) ∧ ∀ j, col b' j = col b j := by
  have ha : allocSignature b = b := by
    unfold allocSignature; rw [if_neg (by rw [hw.om]; simp)]
  obtain ⟨w', e1, e2, e3⟩ := writeSigns_spec s b.nc w (by have := hw.wl; omega)
  refine ⟨{ b with omega := some w' }, ?_, ?_, ?_, fun j => rfl⟩
  · unfold setSignature
    rw [if_neg (not_not_intro hs)]
    simp only [ha, hi, if_true, hw.om, Option.bind_some, e1, Option.map_some]
  · unfold getSignature
    simp only [hi, if_true]
    refine mapM_range_get w' b.nc b.k s hs (fun i h => ?_)
    rw [e3, if_pos (by omega)]
    congr 1; omega
  · intro j hj
    unfold sign
    simp only
    by_cases c : -(b.nc : Int) ≤ j ∧ j < b.m
    · rw [if_pos c, if_pos c, hw.om]
      simp only [Option.bind_some]
      rw [e3, if_neg (by omega)]
    · rw [if_neg c, if_neg c]

/-- **C32, default.** When the signature of an indefinite BV is set for the first time, the signs of the
constraints and of the columns beyond the active ones are 1. -/
theorem C32_default (b : Bv α) (s : List Int) (ho : b.omega = none) (hi : b.indef = true) (hk : b.k ≤ b.m)
    (hs : s.length = b.k) : ∃ b', setSignature b s = some b' ∧ getSignature b' = some s ∧
      ∀ j, -(b.nc : Int) ≤ j → j < b.m → (j < 0 ∨ (b.k : Int) ≤ j) → sign b' j = some 1 := by
  have ha : allocSignature b = { b with omega := some (List.replicate (b.nc + b.m) 1) } := by
    unfold allocSignature; rw [if_pos ⟨hi, ho⟩]
  obtain ⟨w', e1, e2, e3⟩ := writeSigns_spec s b.nc (List.replicate (b.nc + b.m) 1) (by simp; omega)
  refine ⟨{ b with omega := some w' }, ?_, ?_, ?_⟩
  · unfold setSignature
    rw [if_neg (not_not_intro hs)]
    simp only [ha, hi, if_true, Option.bind_some, e1, Option.map_some]
  · unfold getSignature
    simp only [hi, if_true]
    refine mapM_range_get w' b.nc b.k s hs (fun i h => ?_)
    rw [e3, if_pos (by omega)]
    congr 1; omega
  · intro j h1 h2 h3
    unfold sign
    simp only
    rw [if_pos ⟨h1, h2⟩]
    simp only [Option.bind_some]
    rw [e3, if_neg (by omega), List.getElem?_replicate, if_pos (by omega)]

/-- **C32, copy column (partial).** Without constraints `BVCopyColumn` copies the column together with
its sign and changes nothing else.  Missing: BVs with constraints, see `C32_copyColumn_false`. -/
theorem C32_copyColumn_partial (b : Bv α) (w : List Int) (hw : WF b w) (hnc : b.nc = 0) (j i : Nat)
    (hj : j < b.m) (hi : i < b.m) : ∃ b', copyColumn b j i = some b' ∧
      (∀ p, col b' p = if p = i then col b j else col b p) ∧
      (∀ p, sign b' p = if p = i then sign b j else sign b p) := by
  have hcl := hw.cl
  have hwl := hw.wl
  by_cases hij : j = i
  · subst hij
    refine ⟨b, by unfold copyColumn; rw [if_pos rfl], fun p => ?_, fun p => ?_⟩ <;>
      (by_cases c : p = j <;> simp [c])
  · obtain ⟨x, hx⟩ : ∃ x, w[j]? = some x := ⟨_, List.getElem?_eq_getElem (by omega)⟩
    obtain ⟨y, hy⟩ : ∃ y, b.cols[b.nc + j]? = some y := ⟨_, List.getElem?_eq_getElem (by omega)⟩
    have hw1 : wrAt w i x = some (w.set i x) := wrAt_some _ _ _ (by omega)
    have hw2 : wrAt b.cols (b.nc + i) y = some (b.cols.set (b.nc + i) y) := wrAt_some _ _ _ (by omega)
    refine ⟨{ b with omega := some (w.set i x), cols := b.cols.set (b.nc + i) y }, ?_, ?_, ?_⟩
    · unfold copyColumn copySign
      rw [if_neg hij]
      simp only [hw.om, hx, Option.bind_some, hw1, Option.map_some, hy, hw2]
    · intro p
      unfold col
      simp only
      by_cases c : -(b.nc : Int) ≤ p ∧ p < b.m
      · rw [if_pos c, if_pos c, (wrAt_get _ _ _ _ _ hw2).2,
          show ((b.nc : Int) + (j : Int)).toNat = b.nc + j by omega, hy,
          if_pos (show -(b.nc : Int) ≤ (j : Int) ∧ (j : Int) < b.m by omega)]
        by_cases c2 : p = i
        · rw [if_pos c2, if_pos (by omega)]
        · rw [if_neg c2, if_neg (by omega)]
      · rw [if_neg c, if_neg (by omega), if_neg c]
    · intro p
      unfold sign
      simp only
      by_cases c : -(b.nc : Int) ≤ p ∧ p < b.m
      · rw [if_pos c, if_pos c, hw.om]
        simp only [Option.bind_some]
        rw [(wrAt_get _ _ _ _ _ hw1).2, show ((b.nc : Int) + (j : Int)).toNat = j by omega, hx,
          if_pos (show -(b.nc : Int) ≤ (j : Int) ∧ (j : Int) < b.m by omega)]
        by_cases c2 : p = i
        · rw [if_pos c2, if_pos (by omega)]
        · rw [if_neg c2, if_neg (by omega)]
      · rw [if_neg c, if_neg (by omega), if_neg c]

/-- **C32 fails for `BVCopyColumn` with constraints**: with one constraint, copying column 0 to column 1
copies the vector but leaves the sign of column 1 as it was, and changes the sign of column 0. -/
theorem C32_copyColumn_false : ∃ b b' : Bv Nat, WF b [5, 1, -1] ∧ b.nc = 1 ∧ copyColumn b 0 1 = some b' ∧
    sign b' 1 ≠ sign b 0 ∧ sign b' 0 ≠ sign b 0 :=
  ⟨{ m := 2, l := 0, k := 2, nc := 1, ci0 := -2, ci1 := -2, id0 := 0, id1 := 0, cols := [7, 8, 9],
     indef := true, omega := some [5, 1, -1] }, _, ⟨rfl, by decide, by decide⟩, rfl, rfl, by decide, by decide⟩

/-- **C32, more constraints.** When the number of constraints is increased the leading columns become
constraints; every remaining column keeps its content and its sign. -/
theorem C32_more_constraints (b b' : Bv α) (nc : Int) (hnc : (b.nc : Int) ≤ nc)
    (h : setNumConstraints b nc = some b') (j : Int) (hj : -nc ≤ j ∧ j < b'.m) :
    col b' j = col b (j + (nc - b.nc)) ∧ sign b' j = sign b (j + (nc - b.nc)) := by
  unfold setNumConstraints at h
  by_cases c1 : 0 ≤ nc
  · rw [if_neg (not_not_intro c1)] at h
    by_cases c2 : b.ci0 = free b ∧ b.ci1 = free b
    · rw [if_neg (not_not_intro c2)] at h
      by_cases c3 : nc.toNat = b.nc
      · rw [if_pos c3] at h
        obtain rfl := Option.some.inj h
        rw [show j + (nc - (b.nc : Int)) = j by omega]
        exact ⟨rfl, rfl⟩
      · rw [if_neg c3] at h
        by_cases c4 : nc.toNat < b.nc + b.m
        · rw [if_neg (not_not_intro c4)] at h
          obtain ⟨cols, h1, rfl⟩ := Option.map_eq_some_iff.1 h
          rw [if_neg (by omega)] at h1
          obtain rfl := Option.some.inj h1
          simp only at hj
          have e : ((nc.toNat : Int) + j).toNat = ((b.nc : Int) + (j + (nc - b.nc))).toNat := by omega
          constructor
          · unfold col
            simp only
            rw [if_pos (by omega), if_pos (by omega), e]
          · unfold sign
            simp only
            rw [if_pos (by omega), if_pos (by omega), e]
        · rw [if_pos c4] at h; simp at h
    · rw [if_pos c2] at h; simp at h
  · rw [if_pos c1] at h; simp at h

/-- **C32, fewer constraints (partial).** When the number of constraints is decreased, the columns keep
their contents.  Missing: their signs, see `C32_less_constraints_false`. -/
theorem C32_less_constraints_partial (b : Bv α) (w : List Int) (hw : WF b w) (nc : Int) (h0 : 0 ≤ nc)
    (hnc : nc < b.nc) (hfree : b.ci0 = free b ∧ b.ci1 = free b) (hm : 0 < b.m) :
    ∃ b', setNumConstraints b nc = some b' ∧
      ∀ j, 0 ≤ j → j < b.m → col b' j = col b j := by
  have hcl := hw.cl
  obtain ⟨cols', e1, e2, e3⟩ := shiftCols_spec b.nc (b.nc - nc.toNat) b.m 0 b.cols (by omega) (by omega)
    (by omega)
  refine ⟨{ b with nc := nc.toNat, ci0 := -nc - 1, ci1 := -nc - 1, m := b.nc + b.m - nc.toNat,
                     l := min b.l (b.nc + b.m - nc.toNat), k := min b.k (b.nc + b.m - nc.toNat), cols := cols' }, ?_, ?_⟩
  · unfold setNumConstraints
    rw [if_neg (not_not_intro h0), if_neg (not_not_intro hfree), if_neg (by omega), if_neg (by omega),
      if_pos (by omega), e1]
    rfl
  · intro j hj1 hj2
    unfold col
    simp only
    rw [if_pos (by omega), if_pos (by omega), e3, if_pos (by omega)]
    congr 1; omega

/-- **C32 fails for fewer constraints**: the columns are moved but not their signs. -/
theorem C32_less_constraints_false : ∃ b b' : Bv Nat, WF b [1, -1, 1] ∧ b.nc = 1 ∧
    setNumConstraints b 0 = some b' ∧ col b' 0 = col b 0 ∧ sign b' 0 ≠ sign b 0 :=
  ⟨{ m := 2, l := 0, k := 2, nc := 1, ci0 := -2, ci1 := -2, id0 := 0, id1 := 0, cols := [7, 8, 9],
     indef := true, omega := some [1, -1, 1] }, _, ⟨rfl, by decide, by decide⟩, rfl, rfl, by decide, by decide⟩

/-- **C32, resize.** `BVResize` with copy keeps contents and signs of the columns that remain. -/
theorem C32_resize (zero : α) (b b' : Bv α) (w : List Int) (hw : WF b w) (m : Int)
    (h : resize zero b m true = some b') (j : Int) (hj : 0 ≤ j) (hj1 : j < b.m) (hj2 : j < m) :
    col b' j = col b j ∧ sign b' j = sign b j := by
  have hcl := hw.cl
  have hwl := hw.wl
  unfold resize at h
  by_cases c1 : 0 < m
  · rw [if_neg (not_not_intro c1)] at h
    by_cases c2 : b.nc = 0
    · rw [if_neg (not_not_intro c2)] at h
      by_cases c3 : m.toNat = b.m
      · rw [if_pos c3] at h
        obtain rfl := Option.some.inj h
        exact ⟨rfl, rfl⟩
      · rw [if_neg c3] at h
        obtain rfl := Option.some.inj h
        constructor
        · unfold col
          simp only [if_true]
          rw [if_pos (by omega), if_pos (by omega), List.getElem?_append_left (by
            rw [List.length_take]; omega), List.getElem?_take, if_pos (by omega)]
        · unfold sign
          simp only [if_true, hw.om, Option.map_some, Option.bind_some]
          rw [if_pos (by omega), if_pos (by omega), List.getElem?_append_left (by
            rw [List.length_take]; omega), List.getElem?_take, if_pos (by omega)]
    · rw [if_pos c2] at h; simp at h
  · rw [if_pos c1] at h; simp at h

/-- The signs of columns added by `BVResize` with copy are 0, neither 1 nor -1. -/
theorem C32_resize_new_false : ∃ b b' : Bv Nat, WF b [1, -1] ∧ resize 0 b 3 true = some b' ∧
    sign b' 2 = some 0 :=
  ⟨{ m := 2, l := 0, k := 2, nc := 0, ci0 := -1, ci1 := -1, id0 := 0, id1 := 0, cols := [7, 8],
     indef := true, omega := some [1, -1] }, _, ⟨rfl, by decide, by decide⟩, rfl, by decide⟩

/-- **C32, copy (partial).** `BVCopy` between two BVs with the same indefinite inner product copies the
active columns of `V` with their signs to the columns of `W` behind its leading ones, and changes
nothing else.  Missing: `V` without a signature array and processes without rows, see
`C32_copy_no_signature_false` and `C32_copy_no_rows_false`. -/
theorem C32_copy_partial (n : Nat) (hn : n ≠ 0) (v w : Bv α) (ov ow : List Int) (hv : WF v ov) (hw : WF w ow)
    (hiv : v.indef = true) (hiw : w.indef = true) (hvl : v.l ≤ v.k) (hvk : v.k ≤ v.m)
    (hwl : w.l ≤ w.m) (hsz : v.k - v.l ≤ w.m - w.l) :
    ∃ w', copy n true v w = some w' ∧ (∀ j : Int,
      (col w' j = if (w.l : Int) ≤ j ∧ j < w.l + (v.k - v.l : Nat) then col v (j - w.l + v.l) else col w j) ∧
      (sign w' j = if (w.l : Int) ≤ j ∧ j < w.l + (v.k - v.l : Nat) then sign v (j - w.l + v.l) else sign w j)) := by
  have h1 := hv.cl
  have h2 := hv.wl
  have h3 := hw.cl
  have h4 := hw.wl
  have ha : allocSignature w = w := by
    unfold allocSignature; rw [if_neg (by rw [hw.om]; simp)]
  obtain ⟨o, e1, e2, e3⟩ := blit_spec ov ow (v.nc + v.l) (w.nc + w.l) (v.k - v.l) (by omega)
  obtain ⟨cs, f1, f2, f3⟩ := blit_spec v.cols w.cols (v.nc + v.l) (w.nc + w.l) (v.k - v.l) (by omega)
  refine ⟨{ w with omega := some o, cols := cs }, ?_, ?_⟩
  · unfold copy copySigns
    rw [if_neg (not_not_intro hsz), if_neg hn, if_pos ⟨hiv, hiw, rfl⟩]
    simp only [ha, hv.om, hw.om, Option.bind_some, e1, Option.map_some, f1]
  · intro j
    constructor
    · unfold col
      simp only
      by_cases c : (w.l : Int) ≤ j ∧ j < w.l + (v.k - v.l : Nat)
      · rw [if_pos c, if_pos (by omega), if_pos (by omega), f3, if_pos (by omega)]
        congr 1; omega
      · rw [if_neg c]
        by_cases c2 : -(w.nc : Int) ≤ j ∧ j < w.m
        · rw [if_pos c2, if_pos c2, f3, if_neg (by omega)]
        · rw [if_neg c2, if_neg c2]
    · unfold sign
      simp only [Option.bind_some, hv.om, hw.om]
      by_cases c : (w.l : Int) ≤ j ∧ j < w.l + (v.k - v.l : Nat)
      · rw [if_pos c, if_pos (by omega), if_pos (by omega), e3, if_pos (by omega)]
        congr 1; omega
      · rw [if_neg c]
        by_cases c2 : -(w.nc : Int) ≤ j ∧ j < w.m
        · rw [if_pos c2, if_pos c2, e3, if_neg (by omega)]
        · rw [if_neg c2, if_neg c2]

/-- **`BVCopy` fails** on an indefinite BV whose signature array has never been allocated: it is read
nevertheless. -/
theorem C32_copy_no_signature_false : copy 1 true (create [7, 8] true) (create [0, 0] true) = none := by
  decide

/-- **`BVCopy` does not copy the signs on a process without local rows**, where it returns early, while it
does on the other processes: the replicated signature of the copy differs between processes. -/
theorem C32_copy_no_rows_false : ∃ v w w0 w1 : Bv Nat, WF v [1, -1] ∧
    copy 0 true v w = some w0 ∧ copy 1 true v w = some w1 ∧
    getSignature w0 = some [1, 1] ∧ getSignature w1 = some [1, -1] :=
  ⟨{ m := 2, l := 0, k := 2, nc := 0, ci0 := -1, ci1 := -1, id0 := 0, id1 := 0, cols := [7, 8],
     indef := true, omega := some [1, -1] }, create [0, 0] true, _, _, ⟨rfl, by decide, by decide⟩, rfl, rfl,
   by decide, by decide⟩

/-- Non-vacuity: a BV with two constraints and a signature. -/
example : ∃ b' : Bv Nat, setSignature ({ m := 2, l := 0, k := 2, nc := 2, ci0 := -3, ci1 := -3, id0 := 0,
                                                id1 := 0, cols := [5, 6, 7, 8], indef := true, omega := some [1, 1, 1, 1] }) [-1, 1] = some b' ∧
    b'.omega = some [1, 1, -1, 1] := ⟨_, rfl, rfl⟩

end Verif.BV
