import Verif.BV.SplitModel
import Verif.BV.StateTheorems
/-!
C60: the two BVs obtained with `BVGetSplit` are views of the leading and trailing columns of the parent.
C61: `BVApplyMatrix` multiplies by the current inner-product matrix.
-/
set_option linter.all false
namespace Verif.BV
variable {α : Type}

/-! ### Specification of C60 -/

/-- Where column `j` of the parent is stored: generation of the storage and position. -/
def parentPos (p : Par α) (j : Int) : Nat × Int := (p.gen, p.bv.nc + j)

/-- Where column `j` of a split object is stored. -/
def childPos (c : Child) (j : Int) : Nat × Int := (c.gen, c.off + c.bv.nc + j)

/-- The calls that do not reallocate the storage. -/
def Keeps : SEv α → Prop
  | .insertConstraints .. => False
  | .resize .. => False
  | _ => True

/-- The two split objects are the leading columns (with the constraints) and the rest. -/
structure Views (p : Par α) (L R : Child) : Prop where
  Lm : L.bv.m = p.bv.l
  Lnc : L.bv.nc = p.bv.nc
  Lact : L.bv.l = 0 ∧ L.bv.k = p.bv.l
  Lpos : ∀ j : Int, -(p.bv.nc : Int) ≤ j → j < p.bv.l → childPos L j = parentPos p j
  Rm : R.bv.m = p.bv.m - p.bv.l
  Rnc : R.bv.nc = 0
  Ract : R.bv.l = 0 ∧ R.bv.k = p.bv.k - p.bv.l
  Rpos : ∀ j : Int, 0 ≤ j → j < (p.bv.m - p.bv.l : Nat) → childPos R j = parentPos p (p.bv.l + j)

/-- No column of the object is handed out. -/
def NoneOut (c : Child) : Prop := ∀ j : Int, -(c.bv.nc : Int) ≤ j → j < c.bv.m → j ≠ c.bv.ci0 ∧ j ≠ c.bv.ci1

/-! ### Invariant -/

structure SInv (g T : Nat) (p : Par α) : Prop where
  hg : p.gen = g
  ht : p.bv.nc + p.bv.m = T
  hl : p.bv.l ≤ p.bv.m
  hk : p.bv.k ≤ p.bv.m
  hL : ∀ c, p.L = some c → c.gen = g ∧ c.off = 0
  hR : ∀ c, p.R = some c → c.gen = g ∧ c.off + c.bv.m = T

theorem setActive_dims (b b' : Bv α) (l k : Arg) (h : setActive b l k = some b') (hl : b.l ≤ b.m) (hk : b.k ≤ b.m) :
    b'.nc = b.nc ∧ b'.m = b.m ∧ b'.l ≤ b.m ∧ b'.k ≤ b.m := by
  obtain ⟨b1, h1, h2⟩ := Option.bind_eq_some_iff.1 h
  have e1 : b1.nc = b.nc ∧ b1.m = b.m ∧ b1.l = b.l ∧ b1.k ≤ b.m := by
    cases k with
    | determine => obtain rfl := Option.some.inj h1; exact ⟨rfl, rfl, rfl, Nat.le_refl _⟩
    | current => obtain rfl := Option.some.inj h1; exact ⟨rfl, rfl, rfl, hk⟩
    | val v =>
      simp only [setActiveK] at h1
      by_cases c : 0 ≤ v ∧ v ≤ b.m
      · rw [if_pos c] at h1
        obtain rfl := Option.some.inj h1
        exact ⟨rfl, rfl, rfl, by simp only; omega⟩
      · rw [if_neg c] at h1; simp at h1
  obtain ⟨a1, a2, a3, a4⟩ := e1
  cases l with
  | determine => obtain rfl := Option.some.inj h2; exact ⟨a1, a2, Nat.zero_le _, a4⟩
  | current => obtain rfl := Option.some.inj h2; exact ⟨a1, a2, by omega, a4⟩
  | val v =>
    simp only [setActiveL] at h2
    by_cases c : 0 ≤ v ∧ v ≤ b1.k
    · rw [if_pos c] at h2
      obtain rfl := Option.some.inj h2
      exact ⟨a1, a2, by simp only; omega, a4⟩
    · rw [if_neg c] at h2; simp at h2

theorem setNum_dims (b b' : Bv α) (nc : Int) (h : setNumConstraints b nc = some b') (hl : b.l ≤ b.m) (hk : b.k ≤ b.m) :
    b'.nc + b'.m = b.nc + b.m ∧ b'.l ≤ b'.m ∧ b'.k ≤ b'.m := by
  unfold setNumConstraints at h
  by_cases c1 : 0 ≤ nc
  · rw [if_neg (not_not_intro c1)] at h
    by_cases c2 : b.ci0 = free b ∧ b.ci1 = free b
    · rw [if_neg (not_not_intro c2)] at h
      by_cases c3 : nc.toNat = b.nc
      · rw [if_pos c3] at h
        obtain rfl := Option.some.inj h
        exact ⟨rfl, hl, hk⟩
      · rw [if_neg c3] at h
        by_cases c4 : nc.toNat < b.nc + b.m
        · rw [if_neg (not_not_intro c4)] at h
          obtain ⟨cols, h1, rfl⟩ := Option.map_eq_some_iff.1 h
          simp only
          omega
        · rw [if_pos c4] at h; simp at h
    · rw [if_pos c2] at h; simp at h
  · rw [if_pos c1] at h; simp at h

theorem getColumn_m (vid : Bool → Int → Nat) (b : Bv Unit) (j : Int) (r : Bv Unit)
    (h : (getColumn vid b j).map Prod.snd = some r) : r.m = b.m := by
  obtain ⟨⟨i, r'⟩, h1, rfl⟩ := Option.map_eq_some_iff.1 h
  unfold getColumn at h1
  by_cases c1 : j ≥ 0 ∨ -j ≤ b.nc
  · rw [if_neg (not_not_intro c1)] at h1
    by_cases c2 : j < b.m
    · rw [if_neg (not_not_intro c2)] at h1
      by_cases c3 : j ≠ b.ci0 ∧ j ≠ b.ci1
      · rw [if_neg (not_not_intro c3)] at h1
        cases ha : available b with
        | none => rw [ha] at h1; simp at h1
        | some s =>
          rw [ha] at h1
          cases s <;> (simp only [Option.some.injEq, Prod.mk.injEq] at h1; obtain ⟨_, rfl⟩ := h1; rfl)
      · rw [if_pos c3] at h1; simp at h1
    · rw [if_pos c2] at h1; simp at h1
  · rw [if_pos c1] at h1; simp at h1

theorem restoreColumn_m (b : Bv Unit) (j : Int) (id : Nat) (r : Bv Unit)
    (h : restoreColumn b j id = some r) : r.m = b.m := by
  unfold restoreColumn at h
  by_cases c1 : j ≥ 0 ∨ -j ≤ b.nc
  · rw [if_neg (not_not_intro c1)] at h
    by_cases c2 : j < b.m
    · rw [if_neg (not_not_intro c2)] at h
      by_cases c3 : j = b.ci0 ∨ j = b.ci1
      · rw [if_neg (not_not_intro c3)] at h
        by_cases c4 : j = b.ci0
        · rw [if_pos c4] at h
          by_cases c5 : id = b.id0
          · rw [if_pos c5] at h; obtain rfl := Option.some.inj h; rfl
          · rw [if_neg c5] at h; simp at h
        · rw [if_neg c4] at h
          by_cases c5 : id = b.id1
          · rw [if_pos c5] at h; obtain rfl := Option.some.inj h; rfl
          · rw [if_neg c5] at h; simp at h
      · rw [if_pos c3] at h; simp at h
    · rw [if_pos c2] at h; simp at h
  · rw [if_pos c1] at h; simp at h

theorem onChild_inv (g T : Nat) (p p' : Par α) (left : Bool) (f : Bv Unit → Option (Bv Unit))
    (hf : ∀ b r, f b = some r → r.m = b.m) (h : onChild p left f = some p') (hi : SInv g T p) : SInv g T p' := by
  obtain ⟨c, h1, h2⟩ := Option.bind_eq_some_iff.1 h
  obtain ⟨b, h3, rfl⟩ := Option.map_eq_some_iff.1 h2
  have hm := hf _ _ h3
  cases left with
  | true =>
    simp only [if_true] at h1 ⊢
    refine ⟨hi.hg, hi.ht, hi.hl, hi.hk, ?_, hi.hR⟩
    intro c' hc'
    obtain rfl := Option.some.inj hc'
    exact hi.hL c h1
  | false =>
    simp only [Bool.false_eq_true, if_false] at h1 ⊢
    refine ⟨hi.hg, hi.ht, hi.hl, hi.hk, hi.hL, ?_⟩
    intro c' hc'
    obtain rfl := Option.some.inj hc'
    simp only [hm]
    exact hi.hR c h1

theorem reuse_L (g : Nat) (q : Par α) (hg : q.gen = g) (o : Option Child)
    (ho : ∀ c, o = some c → c.gen = g ∧ c.off = 0) : (reuse q true o).gen = g ∧ (reuse q true o).off = 0 := by
  unfold reuse
  cases o with
  | none => exact ⟨hg, rfl⟩
  | some c =>
    simp only
    by_cases c1 : ncolsOf q true ≠ c.bv.m
    · rw [if_pos c1]; exact ⟨hg, rfl⟩
    · rw [if_neg c1]; exact ho c rfl

theorem reuse_R (g T : Nat) (q : Par α) (hg : q.gen = g) (hs : q.lsplit + (q.bv.m - q.bv.l) = T)
    (o : Option Child) (ho : ∀ c, o = some c → c.gen = g ∧ c.off + c.bv.m = T) :
    (reuse q false o).gen = g ∧ (reuse q false o).off + (q.bv.m - q.bv.l) = T := by
  unfold reuse
  cases o with
  | none => exact ⟨hg, hs⟩
  | some c =>
    simp only
    by_cases c1 : ncolsOf q false ≠ c.bv.m
    · rw [if_pos c1]; exact ⟨hg, hs⟩
    · rw [if_neg c1]
      have h2 := ho c rfl
      refine ⟨h2.1, ?_⟩
      have : q.bv.m - q.bv.l = c.bv.m := by
        have := not_not.1 c1
        simpa [ncolsOf] using this
      omega

theorem getChild_L (g T : Nat) (p : Par α) (hi : SInv g T p) (ls : Nat) :
    (getChild { p with lsplit := ls } true p.L).gen = g ∧ (getChild { p with lsplit := ls } true p.L).off = 0 :=
  reuse_L g { p with lsplit := ls } hi.hg p.L hi.hL

theorem getChild_R (g T : Nat) (p : Par α) (hi : SInv g T p) :
    (getChild { p with lsplit := p.bv.nc + p.bv.l } false p.R).gen = g ∧
    (getChild { p with lsplit := p.bv.nc + p.bv.l } false p.R).off + (p.bv.m - p.bv.l) = T :=
  reuse_R g T { p with lsplit := p.bv.nc + p.bv.l } hi.hg (by
    have := hi.hl
    have := hi.ht
    simp only; omega) p.R hi.hR

theorem fixChild_L (p : Par α) (c : Child) : (fixChild p true c).bv.m = p.bv.l ∧ (fixChild p true c).bv.nc = p.bv.nc ∧
    (fixChild p true c).bv.l = 0 ∧ (fixChild p true c).bv.k = p.bv.l := by
  unfold fixChild ncolsOf
  by_cases h : p.bv.nc = 0 <;> simp [h]

theorem fixChild_R (p : Par α) (c : Child) : (fixChild p false c).bv.m = p.bv.m - p.bv.l ∧
    (fixChild p false c).bv.nc = 0 ∧ (fixChild p false c).bv.l = 0 ∧
    (fixChild p false c).bv.k = p.bv.k - p.bv.l := by
  unfold fixChild ncolsOf
  simp

theorem sstep_inv (vid : Bool → Int → Nat) (zero : α) (g T : Nat) (p p' : Par α) (e : SEv α) (he : Keeps e)
    (h : sstep vid zero p e = some p') (hi : SInv g T p) : SInv g T p' := by
  cases e with
  | getSplit =>
    simp only [sstep, getSplit] at h
    by_cases c1 : p.bv.l = 0
    · rw [if_pos c1] at h; simp at h
    rw [if_neg c1] at h
    by_cases c2 : p.lsplit ≠ 0
    · rw [if_pos c2] at h; simp at h
    rw [if_neg c2] at h
    obtain rfl := Option.some.inj h
    refine ⟨hi.hg, hi.ht, hi.hl, hi.hk, ?_, ?_⟩
    · intro c hc
      obtain rfl := Option.some.inj hc
      exact getChild_L g T p hi _
    · intro c hc
      obtain rfl := Option.some.inj hc
      have := getChild_R g T p hi
      refine ⟨this.1, ?_⟩
      rw [show (getChild { p with lsplit := p.bv.nc + p.bv.l } false p.R).bv.m = p.bv.m - p.bv.l from
        (fixChild_R _ _).1]
      exact this.2
  | restoreSplit gl gr =>
    simp only [sstep, restoreSplit] at h
    by_cases c1 : p.lsplit = 0
    · rw [if_pos c1] at h; simp at h
    rw [if_neg c1] at h
    by_cases c2 : (restored gl p.L && restored gr p.R) = true
    · rw [if_pos c2] at h
      obtain rfl := Option.some.inj h
      exact ⟨hi.hg, hi.ht, hi.hl, hi.hk, hi.hL, hi.hR⟩
    · rw [if_neg c2] at h; simp at h
  | childGet left j => exact onChild_inv g T p p' left _ (fun b r => getColumn_m vid b j r) h hi
  | childRestore left j id => exact onChild_inv g T p p' left _ (fun b r => restoreColumn_m b j id r) h hi
  | setActive l k =>
    obtain ⟨b, h1, rfl⟩ := Option.map_eq_some_iff.1 h
    obtain ⟨a1, a2, a3, a4⟩ := setActive_dims _ _ _ _ h1 hi.hl hi.hk
    exact ⟨hi.hg, by simp only [a1, a2]; exact hi.ht, by simp only [a2]; exact a3, by simp only [a2]; exact a4,
      hi.hL, hi.hR⟩
  | setNumConstraints nc =>
    obtain ⟨b, h1, rfl⟩ := Option.map_eq_some_iff.1 h
    obtain ⟨a1, a2, a3⟩ := setNum_dims _ _ _ h1 hi.hl hi.hk
    exact ⟨hi.hg, by simp only [a1]; exact hi.ht, a2, a3, hi.hL, hi.hR⟩
  | insertConstraints => exact he.elim
  | resize => exact he.elim

theorem srun_inv (vid : Bool → Int → Nat) (zero : α) (g T : Nat) (es : List (SEv α)) : ∀ (p p' : Par α),
    (∀ e ∈ es, Keeps e) → srun vid zero p es = some p' → SInv g T p → SInv g T p' := by
  induction es with
  | nil => intro p p' _ h hi; obtain rfl := Option.some.inj h; exact hi
  | cons e es ih =>
    intro p p' hk h hi
    obtain ⟨p1, h1, h2⟩ := Option.bind_eq_some_iff.1 h
    exact ih p1 p' (fun e' he' => hk e' (List.mem_cons_of_mem _ he')) h2
      (sstep_inv vid zero g T p p1 e (hk e (List.mem_cons_self ..)) h1 hi)

/-! ### C60 -/

/-- **C60, views (partial).** After any history of calls, other than those that reallocate the parent's
storage, `BVGetSplit` gives two BVs with the right numbers of columns, whose columns are the parent's
leading and trailing columns, with the constraints in front of the former.  Missing: histories with
`BVResize` or `BVInsertConstraints`, see `C60_resize_false`. -/
theorem C60_views_partial (vid : Bool → Int → Nat) (zero : α) (b : Bv α) (hl : b.l ≤ b.m) (hk : b.k ≤ b.m)
    (es : List (SEv α)) (p p' : Par α) (hes : ∀ e ∈ es, Keeps e) (hr : srun vid zero (fresh b) es = some p)
    (hg : getSplit p = some p') : ∃ L R, p'.L = some L ∧ p'.R = some R ∧ Views p' L R ∧
      p'.bv = p.bv ∧ p'.gen = p.gen := by
  have hi : SInv 0 (b.nc + b.m) p := srun_inv vid zero 0 _ es _ p hes hr
    ⟨rfl, rfl, hl, hk, fun c hc => by simp [fresh] at hc, fun c hc => by simp [fresh] at hc⟩
  simp only [getSplit] at hg
  by_cases c1 : p.bv.l = 0
  · rw [if_pos c1] at hg; simp at hg
  rw [if_neg c1] at hg
  by_cases c2 : p.lsplit ≠ 0
  · rw [if_pos c2] at hg; simp at hg
  rw [if_neg c2] at hg
  obtain rfl := Option.some.inj hg
  have eL := getChild_L 0 _ p hi (p.bv.nc + p.bv.l)
  have eR := getChild_R 0 _ p hi
  have fL := fixChild_L { p with lsplit := p.bv.nc + p.bv.l } (reuse { p with lsplit := p.bv.nc + p.bv.l } true p.L)
  have fR := fixChild_R { p with lsplit := p.bv.nc + p.bv.l } (reuse { p with lsplit := p.bv.nc + p.bv.l } false p.R)
  refine ⟨_, _, rfl, rfl, ⟨fL.1, fL.2.1, fL.2.2, ?_, fR.1, fR.2.1, fR.2.2, ?_⟩, rfl, rfl⟩
  · intro j _ _
    refine Prod.ext (eL.1.trans hi.hg.symm) ?_
    have e1 : (getChild { p with lsplit := p.bv.nc + p.bv.l } true p.L).bv.nc = p.bv.nc := fL.2.1
    have e2 := eL.2
    show ((getChild { p with lsplit := p.bv.nc + p.bv.l } true p.L).off : Int) +
      ((getChild { p with lsplit := p.bv.nc + p.bv.l } true p.L).bv.nc : Int) + j = (p.bv.nc : Int) + j
    rw [e1, e2]; simp
  · intro j _ _
    refine Prod.ext (eR.1.trans hi.hg.symm) ?_
    have e1 : (getChild { p with lsplit := p.bv.nc + p.bv.l } false p.R).bv.nc = 0 := fR.2.1
    have hl' := hi.hl
    have ht := hi.ht
    have h5 := eR.2
    clear fL fR
    show ((getChild { p with lsplit := p.bv.nc + p.bv.l } false p.R).off : Int) +
      ((getChild { p with lsplit := p.bv.nc + p.bv.l } false p.R).bv.nc : Int) + j =
      (p.bv.nc : Int) + ((p.bv.l : Int) + j)
    rw [e1]
    omega

/-- **C60 fails after a reallocation**: the cached objects survive `BVResize`, and the next `BVGetSplit`
hands out a left part which is a view of storage that has been freed. -/
theorem C60_resize_false (vid : Bool → Int → Nat) : ∃ (p p' : Par Nat) (L : Child),
    srun vid 0 (fresh (create [1, 2, 3, 4] false))
      [.setActive (.val 2) (.val 4), .getSplit, .restoreSplit true true, .resize 6 true] = some p ∧
    getSplit p = some p' ∧ p'.L = some L ∧ childPos L 0 ≠ parentPos p' 0 :=
  ⟨_, _, _, rfl, rfl, rfl, by decide⟩

/-- **C60, requests (partial).** With constraints, the left part handed out by `BVGetSplit` accepts two
requests for columns.  Missing: the case without constraints, see `C60_available_false`. -/
theorem C60_available_partial (p p' : Par α) (hnc : p.bv.nc ≠ 0) (hg : getSplit p = some p') :
    ∃ L, p'.L = some L ∧ L.bv.ci0 = free L.bv ∧ L.bv.ci1 = free L.bv := by
  simp only [getSplit] at hg
  by_cases c1 : p.bv.l = 0
  · rw [if_pos c1] at hg; simp at hg
  rw [if_neg c1] at hg
  by_cases c2 : p.lsplit ≠ 0
  · rw [if_pos c2] at hg; simp at hg
  rw [if_neg c2] at hg
  obtain rfl := Option.some.inj hg
  refine ⟨_, rfl, ?_, ?_⟩ <;> simp [getChild, fixChild, hnc, free]

/-- **C60 fails when the constraints have been removed**: the left part is reused, the marks of its two
slots are those of the former number of constraints, and no column can be requested from it. -/
theorem C60_available_false (vid : Bool → Int → Nat) : ∃ (p : Par Nat) (L : Child),
    srun vid 0 (fresh (create [1, 2, 3, 4] false))
      [.setNumConstraints 1, .setActive (.val 2) (.val 3), .getSplit, .restoreSplit true true,
       .setNumConstraints 0, .getSplit] = some p ∧
    p.L = some L ∧ NoneOut L ∧ L.bv.m = 2 ∧ ∀ j, getColumn vid L.bv j = none := by
  refine ⟨_, ⟨{ m := 2, l := 0, k := 2, nc := 0, ci0 := -2, ci1 := -2, id0 := 0, id1 := 0, cols := [],
                indef := false, omega := none }, 0, 0⟩, rfl, rfl, ?_, rfl, ?_⟩
  · intro j h1 h2
    have h3 : -((0 : Nat) : Int) ≤ j := h1
    show j ≠ -2 ∧ j ≠ -2
    omega
  · intro j
    simp only [getColumn, available, free]
    by_cases c1 : j ≥ 0 ∨ -j ≤ ((0 : Nat) : Int)
    · rw [if_neg (not_not_intro c1)]
      by_cases c2 : j < ((2 : Nat) : Int)
      · rw [if_neg (not_not_intro c2)]
        rw [if_neg (by omega)]
        rfl
      · rw [if_pos c2]
    · rw [if_pos c1]

/-- **C60, restoring (partial).** `BVRestoreSplit` given both parts refuses unless all columns requested
from the right part have been restored, and the same for the left part when it has no constraints.
Missing: left part with constraints, see `C60_restore_false`. -/
theorem C60_restore_partial (p p' : Par α) (L R : Child) (hL : p.L = some L) (hR : p.R = some R)
    (hRnc : R.bv.nc = 0) (h : restoreSplit p true true = some p') :
    NoneOut R ∧ (L.bv.nc = 0 → NoneOut L) := by
  unfold restoreSplit at h
  by_cases c1 : p.lsplit = 0
  · rw [if_pos c1] at h; simp at h
  rw [if_neg c1] at h
  by_cases c2 : (restored true p.L && restored true p.R) = true
  · rw [hL, hR] at c2
    simp only [restored, Bool.not_true, Bool.false_or, Bool.and_eq_true, decide_eq_true_eq] at c2
    obtain ⟨⟨a1, a2⟩, a3, a4⟩ := c2
    constructor
    · intro j h1 h2
      constructor <;> omega
    · intro h0 j h1 h2
      constructor <;> omega
  · rw [if_neg c2] at h; simp at h

/-- **C60, splitting again.** After `BVRestoreSplit` the BV can be split again if there are leading
columns; while it is split, it cannot. -/
theorem C60_again (p p' : Par α) (gl gr : Bool) (h : restoreSplit p gl gr = some p') (hl : p.bv.l ≠ 0) :
    (getSplit p').isSome ∧ getSplit p = none := by
  unfold restoreSplit at h
  by_cases c1 : p.lsplit = 0
  · rw [if_pos c1] at h; simp at h
  rw [if_neg c1] at h
  by_cases c2 : (restored gl p.L && restored gr p.R) = true
  · rw [if_pos c2] at h
    obtain rfl := Option.some.inj h
    simp [getSplit, hl, c1]
  · rw [if_neg c2] at h; simp at h

/-- **C60 fails**: with one constraint, `BVRestoreSplit` accepts the left part although its column 0 has
not been restored. -/
theorem C60_restore_false (vid : Bool → Int → Nat) : ∃ (p p' : Par Nat) (L : Child),
    srun vid 0 (fresh (create [1, 2, 3, 4] false))
      [.setNumConstraints 1, .setActive (.val 2) (.val 3), .getSplit, .childGet true 0] = some p ∧
    p.L = some L ∧ ¬ NoneOut L ∧ restoreSplit p true true = some p' := by
  refine ⟨_, _, ⟨{ m := 2, l := 0, k := 2, nc := 1, ci0 := 0, ci1 := -2, id0 := vid false 0, id1 := 0,
                   cols := [], indef := false, omega := none }, 0, 0⟩, rfl, rfl, ?_, rfl⟩
  intro h
  exact (h 0 (show -((1 : Nat) : Int) ≤ 0 by decide) (show 0 < ((2 : Nat) : Int) by decide)).1 rfl

/-- Non-vacuity: a history with a change of the number of constraints, reusing the right part. -/
example : ∃ p : Par Nat, srun (fun _ _ => 1) 0 (fresh (create [1, 2, 3, 4, 5] false))
    [.setActive (.val 3) (.val 4), .getSplit, .childGet false 0, .childRestore false 0 1,
     .restoreSplit true true, .setNumConstraints 1, .setActive (.val 2) (.val 4)] = some p ∧
    ∃ p', getSplit p = some p' := ⟨_, rfl, _, rfl⟩

/-! ### C61 -/

/-- The product with the current matrix. -/
def product {β : Type} (b : Ip β) (x : β) : β := match b.matrix with | none => x | some M => M.val x

/-- A history in which every use of identifier and state `(i, s)` means the same content. -/
def Consistent {β : Type} (val : Nat → Nat → β) : IEv β → Prop
  | .setMatrix _ _ => True
  | .apply x => x.val = val x.id x.state ∧ x.id ≠ 0

def NoSet {β : Type} : IEv β → Prop
  | .setMatrix _ _ => False
  | .apply _ => True

def CInv {β : Type} (val : Nat → Nat → β) (b : Ip β) : Prop :=
  b.xid ≠ 0 → b.Bx = some (product b (val b.xid b.xstate))

theorem ipApply_spec {β : Type} (val : Nat → Nat → β) (b : Ip β) (x : Obj β) (hx : x.val = val x.id x.state)
    (h0 : x.id ≠ 0) (hi : CInv val b) :
    ∃ b', ipApply b x = some (product b x.val, b') ∧ CInv val b' ∧ b'.matrix = b.matrix := by
  unfold ipApply
  cases hm : b.matrix with
  | none => exact ⟨b, by simp [product, hm], hi, hm⟩
  | some M =>
    simp only
    by_cases c : x.id ≠ b.xid ∨ x.state ≠ b.xstate
    · rw [if_pos c]
      refine ⟨{ b with Bx := some (M.val x.val), xid := x.id, xstate := x.state }, by simp [product, hm], ?_, hm⟩
      intro _
      simp [product, hm, hx]
    · rw [if_neg c]
      push Not at c
      refine ⟨b, ?_, hi, hm⟩
      rw [hi (by rw [← c.1]; exact h0)]
      simp only [Option.map_some, ← c.1, ← c.2, hx, product, hm]

theorem irun_inv {β : Type} (val : Nat → Nat → β) (es : List (IEv β)) : ∀ (b b' : Ip β),
    (∀ e ∈ es, Consistent val e ∧ NoSet e) → irun b es = some b' → CInv val b → CInv val b' ∧ b'.matrix = b.matrix := by
  induction es with
  | nil => intro b b' _ h hi; obtain rfl := Option.some.inj h; exact ⟨hi, rfl⟩
  | cons e es ih =>
    intro b b' he h hi
    obtain ⟨b1, h1, h2⟩ := Option.bind_eq_some_iff.1 h
    have he1 := he e (List.mem_cons_self ..)
    cases e with
    | setMatrix => exact he1.2.elim
    | apply x =>
      obtain ⟨b2, e1, e2, e3⟩ := ipApply_spec val b x he1.1.1 he1.1.2 hi
      have : b1 = b2 := by
        simp only [istep, e1, Option.map_some, Option.some.injEq] at h1
        exact h1.symm
      subst this
      have := ih b1 b' (fun e' he' => he e' (List.mem_cons_of_mem _ he')) h2 e2
      exact ⟨this.1, this.2.trans e3⟩

/-- **C61 (partial).** When the inner-product matrix is set on a new BV, every later `BVApplyMatrix`, after
any sequence of applications to vectors that may change in between, returns the product with it.
Missing: a second `BVSetMatrix`, see `C61_false`. -/
theorem C61_partial {β : Type} (val : Nat → Nat → β) (B : Option (Obj (β → β))) (indef : Bool)
    (es : List (IEv β)) (b : Ip β) (hes : ∀ e ∈ es, Consistent val e ∧ NoSet e)
    (hr : irun (ipSetMatrix ipNew B indef) es = some b) (x : Obj β) (hx : x.val = val x.id x.state)
    (h0 : x.id ≠ 0) :
    ∃ b', ipApply b x = some (match B with | none => x.val | some M => M.val x.val, b') := by
  have hm : (ipSetMatrix (ipNew : Ip β) B indef).matrix = B ∧ (ipSetMatrix (ipNew : Ip β) B indef).xid = 0 := by
    cases B with
    | none => simp only [ipSetMatrix, ipNew]; by_cases c : indef ≠ false <;> simp [c]
    | some M => simp [ipSetMatrix, ipNew]
  obtain ⟨h1, h2⟩ := irun_inv val es _ b hes hr (fun h => absurd hm.2 h)
  obtain ⟨b', e1, _, _⟩ := ipApply_spec val b x hx h0 h1
  refine ⟨b', e1.trans ?_⟩
  unfold product
  rw [h2, hm.1]
  cases B <;> rfl

/-- **C61 fails**: after replacing the inner-product matrix, `BVApplyMatrix` on a vector already multiplied
returns the product with the former matrix. -/
theorem C61_false : ∃ (b : Ip Nat) (x : Obj Nat) (y : Nat) (b' : Ip Nat),
    irun ipNew [.setMatrix (some ⟨10, 0, (2 * ·)⟩) false, .apply ⟨1, 4, 5⟩,
      .setMatrix (some ⟨11, 0, (3 * ·)⟩) false] = some b ∧
    x = ⟨1, 4, 5⟩ ∧ ipApply b x = some (y, b') ∧ product b x.val = 15 ∧ y = 10 :=
  ⟨_, _, _, _, rfl, rfl, rfl, rfl, rfl⟩

/-- Non-vacuity: repeated and changed vectors. -/
example : ∃ b : Ip Nat, irun (ipSetMatrix ipNew (some ⟨10, 0, (2 * ·)⟩) false)
    [.apply ⟨1, 4, 5⟩, .apply ⟨1, 4, 5⟩, .apply ⟨1, 5, 6⟩, .apply ⟨2, 5, 7⟩] = some b ∧
    ∀ e ∈ ([.apply ⟨1, 4, 5⟩, .apply ⟨1, 4, 5⟩, .apply ⟨1, 5, 6⟩, .apply ⟨2, 5, 7⟩] : List (IEv Nat)),
      Consistent (fun i s => i + s - if i = 2 then 0 else 0) e ∧ NoSet e := by
  refine ⟨_, rfl, ?_⟩
  simp [Consistent, NoSet]

end Verif.BV
