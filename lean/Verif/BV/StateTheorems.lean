import Verif.BV.StateModel
import Mathlib.Data.List.Perm.Basic
import Mathlib.Data.List.Nodup
import Mathlib.Data.List.Zip
import Mathlib.Tactic.Tauto
/-!
C29: protocol of `BVGetColumn`/`BVRestoreColumn`.  C30: active range.  C32: the signature stays attached
to the columns.
-/
set_option linter.all false
namespace Verif.BV
variable {α : Type}

/-! ### Specification -/

/-- The columns handed out and not yet returned, with the Vec handed out, after a history. -/
def outstanding : List (Ev α) → List (Int × Nat) → List (Int × Nat)
  | [], out => out
  | .get j id :: es, out => outstanding es ((j, id) :: out)
  | .restore j id :: es, out => outstanding es (out.erase (j, id))
  | _ :: es, out => outstanding es out

/-- The history does not resize the BV directly. -/
def NoResize : List (Ev α) → Prop
  | [] => True
  | .resize _ _ :: _ => False
  | _ :: es => NoResize es

/-- The columns occupied according to the object. -/
def slots (b : Bv α) : List (Int × Nat) :=
  (if b.ci0 = free b then [] else [(b.ci0, b.id0)]) ++ (if b.ci1 = free b then [] else [(b.ci1, b.id1)])

/-- The range of columns, constraints included. -/
def InRange (b : Bv α) (j : Int) : Prop := -(b.nc : Int) ≤ j ∧ j < b.m

structure Inv29 (b : Bv α) (out : List (Int × Nat)) : Prop where
  perm : out.Perm (slots b)
  r0 : b.ci0 = free b ∨ InRange b b.ci0
  r1 : b.ci1 = free b ∨ InRange b b.ci1
  ne : b.ci0 = free b ∨ b.ci1 = free b ∨ b.ci0 ≠ b.ci1

theorem inRange_ne_free (b : Bv α) (j : Int) (h : InRange b j) : j ≠ free b := by
  unfold InRange at h; unfold free; omega

theorem mem_slots (b : Bv α) (j : Int) (id : Nat) :
    (j, id) ∈ slots b ↔ (j ≠ free b ∧ ((j = b.ci0 ∧ id = b.id0) ∨ (j = b.ci1 ∧ id = b.id1))) := by
  unfold slots
  rw [List.mem_append]
  have key : ∀ (c : Int) (d : Nat), (j, id) ∈ (if c = free b then [] else [(c, d)]) ↔
      (j ≠ free b ∧ j = c ∧ id = d) := by
    intro c d
    by_cases h : c = free b
    · rw [if_pos h]
      constructor
      · intro h; simp at h
      · rintro ⟨h1, h2, _⟩; exact absurd (h2.trans h) h1
    · rw [if_neg h]
      simp only [List.mem_singleton, Prod.mk.injEq]
      constructor
      · rintro ⟨rfl, rfl⟩; exact ⟨h, rfl, rfl⟩
      · rintro ⟨_, h2⟩; exact h2
  rw [key, key]
  tauto

theorem slots_free (b : Bv α) (h0 : b.ci0 = free b) (h1 : b.ci1 = free b) : slots b = [] := by
  simp [slots, h0, h1]

theorem getColumn_iff (vid : Bool → Int → Nat) (b : Bv α) (out : List (Int × Nat)) (h : Inv29 b out) (j : Int) :
    (∃ r, getColumn vid b j = some r) ↔
      (InRange b j ∧ (∀ id, (j, id) ∉ out) ∧ out.length < 2) := by
  have hlen : out.length < 2 ↔ (b.ci0 = free b ∨ b.ci1 = free b) := by
    rw [h.perm.length_eq]
    unfold slots
    by_cases h0 : b.ci0 = free b <;> by_cases h1 : b.ci1 = free b <;> simp [h0, h1]
  have hmem : ∀ id, (j, id) ∈ out ↔ _ := fun id => h.perm.mem_iff.trans (mem_slots b j id)
  have hav : (b.ci0 = free b ∨ b.ci1 = free b) ↔ available b ≠ none := by
    unfold available
    by_cases h0 : b.ci0 = free b <;> by_cases h1 : b.ci1 = free b <;> simp [h0, h1]
  rw [hlen, hav]
  constructor
  · rintro ⟨r, hr⟩
    unfold getColumn at hr
    by_cases c1 : j ≥ 0 ∨ -j ≤ (b.nc : Int)
    · rw [if_neg (not_not_intro c1)] at hr
      by_cases c2 : j < (b.m : Int)
      · rw [if_neg (not_not_intro c2)] at hr
        by_cases c3 : j ≠ b.ci0 ∧ j ≠ b.ci1
        · rw [if_neg (not_not_intro c3)] at hr
          refine ⟨⟨by omega, c2⟩, ?_, ?_⟩
          · intro id hid
            rcases ((hmem id).1 hid).2 with ⟨h2, _⟩ | ⟨h2, _⟩
            · exact c3.1 h2
            · exact c3.2 h2
          · intro hn; rw [hn] at hr; simp at hr
        · rw [if_pos c3] at hr; simp at hr
      · rw [if_pos c2] at hr; simp at hr
    · rw [if_pos c1] at hr; simp at hr
  · rintro ⟨hr, hout, hav⟩
    have hne := inRange_ne_free b j hr
    unfold InRange at hr
    unfold getColumn
    rw [if_neg (by simp only [not_not]; omega), if_neg (by simpa using hr.2), if_neg (by
      simp only [not_not]
      constructor
      · intro e; exact hout b.id0 ((hmem _).2 ⟨hne, Or.inl ⟨e, rfl⟩⟩)
      · intro e; exact hout b.id1 ((hmem _).2 ⟨hne, Or.inr ⟨e, rfl⟩⟩))]
    cases ha : available b with
    | none => exact absurd ha hav
    | some t => cases t <;> exact ⟨_, rfl⟩

theorem restoreColumn_iff (b : Bv α) (out : List (Int × Nat)) (h : Inv29 b out) (j : Int) (id : Nat) :
    (∃ b', restoreColumn b j id = some b') ↔ (j, id) ∈ out := by
  rw [h.perm.mem_iff, mem_slots]
  constructor
  · rintro ⟨b', hb⟩
    unfold restoreColumn at hb
    by_cases c1 : j ≥ 0 ∨ -j ≤ (b.nc : Int)
    · rw [if_neg (not_not_intro c1)] at hb
      by_cases c2 : j < (b.m : Int)
      · rw [if_neg (not_not_intro c2)] at hb
        have hne := inRange_ne_free b j ⟨by omega, c2⟩
        by_cases c3 : j = b.ci0 ∨ j = b.ci1
        · rw [if_neg (not_not_intro c3)] at hb
          by_cases c4 : j = b.ci0
          · rw [if_pos c4] at hb
            by_cases c5 : id = b.id0
            · exact ⟨hne, Or.inl ⟨c4, c5⟩⟩
            · rw [if_neg c5] at hb; simp at hb
          · rw [if_neg c4] at hb
            by_cases c5 : id = b.id1
            · exact ⟨hne, Or.inr ⟨c3.resolve_left c4, c5⟩⟩
            · rw [if_neg c5] at hb; simp at hb
        · rw [if_pos c3] at hb; simp at hb
      · rw [if_pos c2] at hb; simp at hb
    · rw [if_pos c1] at hb; simp at hb
  · rintro ⟨hne, hj⟩
    have hr : InRange b j := by
      rcases hj with ⟨e, _⟩ | ⟨e, _⟩
      · rcases h.r0 with h0 | h0
        · exact absurd (e.trans h0) hne
        · rwa [e]
      · rcases h.r1 with h0 | h0
        · exact absurd (e.trans h0) hne
        · rwa [e]
    have hr2 := hr
    unfold InRange at hr2
    unfold restoreColumn
    rw [if_neg (by simp only [not_not]; omega), if_neg (by simpa using hr2.2), if_neg (by
      simp only [not_not]
      rcases hj with ⟨e, _⟩ | ⟨e, _⟩
      · exact Or.inl e
      · exact Or.inr e)]
    by_cases c4 : j = b.ci0
    · rw [if_pos c4]
      rcases hj with ⟨e, hid⟩ | ⟨e, hid⟩
      · rw [if_pos hid]; exact ⟨_, rfl⟩
      · exfalso
        rcases h.ne with q | q | q
        · exact hne (c4.trans q)
        · exact hne (e.trans q)
        · exact q (c4 ▸ e)
    · rw [if_neg c4]
      rcases hj with ⟨e, hid⟩ | ⟨e, hid⟩
      · exact absurd e c4
      · rw [if_pos hid]; exact ⟨_, rfl⟩

theorem get_inv (vid : Bool → Int → Nat) (b b' : Bv α) (out : List (Int × Nat)) (h : Inv29 b out) (j : Int)
    (id : Nat) (hg : getColumn vid b j = some (id, b')) : Inv29 b' ((j, id) :: out) := by
  obtain ⟨hr, hout, hlen⟩ := (getColumn_iff vid b out h j).1 ⟨_, hg⟩
  have hne := inRange_ne_free b j hr
  have hmem : ∀ id, (j, id) ∈ out ↔ _ := fun id => h.perm.mem_iff.trans (mem_slots b j id)
  have hn0 : j ≠ b.ci0 := fun e => hout b.id0 ((hmem _).2 ⟨hne, Or.inl ⟨e, rfl⟩⟩)
  have hn1 : j ≠ b.ci1 := fun e => hout b.id1 ((hmem _).2 ⟨hne, Or.inr ⟨e, rfl⟩⟩)
  unfold InRange at hr
  unfold getColumn at hg
  rw [if_neg (by simp only [not_not]; omega), if_neg (by simpa using hr.2), if_neg (by
      simp only [not_not]; exact ⟨hn0, hn1⟩)] at hg
  by_cases h0 : b.ci0 = free b
  · have ha : available b = some false := by simp [available, h0]
    rw [ha] at hg
    simp only [Option.some.injEq, Prod.mk.injEq] at hg
    obtain ⟨rfl, rfl⟩ := hg
    have hs : slots b = (if b.ci1 = free b then [] else [(b.ci1, b.id1)]) := by simp [slots, h0]
    refine ⟨?_, Or.inr ⟨hr.1, hr.2⟩, h.r1, Or.inr (Or.inr hn1)⟩
    have : slots { b with ci0 := j, id0 := vid false j } = (j, vid false j) :: slots b := by
      rw [hs]
      unfold slots
      rw [if_neg (show ¬ (j = free { b with ci0 := j, id0 := vid false j }) from hne)]
      rfl
    rw [this]
    exact h.perm.cons _
  · have h1 : b.ci1 = free b := by
      by_contra h1
      rw [h.perm.length_eq] at hlen
      simp [slots, h0, h1] at hlen
    have ha : available b = some true := by simp [available, h0, h1]
    rw [ha] at hg
    simp only [Option.some.injEq, Prod.mk.injEq] at hg
    obtain ⟨rfl, rfl⟩ := hg
    refine ⟨?_, h.r0, Or.inr ⟨hr.1, hr.2⟩, Or.inr (Or.inr (fun e => hn0 e.symm))⟩
    have hs : slots b = [(b.ci0, b.id0)] := by simp [slots, h0, h1]
    have : slots { b with ci1 := j, id1 := vid true j } = [(b.ci0, b.id0), (j, vid true j)] := by
      unfold slots
      rw [if_neg (show ¬ (j = free { b with ci1 := j, id1 := vid true j }) from hne),
        if_neg (show ¬ (b.ci0 = free { b with ci1 := j, id1 := vid true j }) from h0)]
      rfl
    rw [this]
    exact ((hs ▸ h.perm).cons _).trans (List.Perm.swap _ _ _)

theorem restore_inv (b b' : Bv α) (out : List (Int × Nat)) (h : Inv29 b out) (j : Int)
    (id : Nat) (hg : restoreColumn b j id = some b') : Inv29 b' (out.erase (j, id)) := by
  have hin := (restoreColumn_iff b out h j id).1 ⟨_, hg⟩
  obtain ⟨hne, hj⟩ := (h.perm.mem_iff.trans (mem_slots b j id)).1 hin
  have hp := h.perm.erase (j, id)
  unfold restoreColumn at hg
  by_cases c1 : j ≥ 0 ∨ -j ≤ (b.nc : Int)
  · rw [if_neg (not_not_intro c1)] at hg
    by_cases c2 : j < (b.m : Int)
    · rw [if_neg (not_not_intro c2)] at hg
      by_cases c3 : j = b.ci0 ∨ j = b.ci1
      · rw [if_neg (not_not_intro c3)] at hg
        by_cases c4 : j = b.ci0
        · rw [if_pos c4] at hg
          by_cases c5 : id = b.id0
          · rw [if_pos c5] at hg
            obtain rfl := Option.some.inj hg
            refine ⟨hp.trans ?_, Or.inl rfl, h.r1, Or.inl rfl⟩
            subst c4 c5
            have e1 : slots { b with ci0 := free b, id0 := 0 } =
                (if b.ci1 = free b then [] else [(b.ci1, b.id1)]) := by
              unfold slots
              rw [if_pos (show free b = free { b with ci0 := free b, id0 := 0 } from rfl)]
              rfl
            have e2 : slots b = (b.ci0, b.id0) :: (if b.ci1 = free b then [] else [(b.ci1, b.id1)]) := by
              unfold slots; rw [if_neg hne]; rfl
            rw [e1, e2, List.erase_cons_head]
          · rw [if_neg c5] at hg; simp at hg
        · rw [if_neg c4] at hg
          have c3' := c3.resolve_left c4
          by_cases c5 : id = b.id1
          · rw [if_pos c5] at hg
            obtain rfl := Option.some.inj hg
            refine ⟨hp.trans ?_, h.r0, Or.inl rfl, Or.inr (Or.inl rfl)⟩
            subst c3' c5
            have e1 : slots { b with ci1 := free b, id1 := 0 } =
                (if b.ci0 = free b then [] else [(b.ci0, b.id0)]) := by
              unfold slots
              rw [if_pos (show free b = free { b with ci1 := free b, id1 := 0 } from rfl)]
              rw [List.append_nil]; rfl
            have e2 : slots b = (if b.ci0 = free b then [] else [(b.ci0, b.id0)]) ++ [(b.ci1, b.id1)] := by
              unfold slots; rw [if_neg hne]
            rw [e1, e2]
            by_cases h0 : b.ci0 = free b
            · rw [if_pos h0]; simp
            · rw [if_neg h0]
              rw [List.singleton_append, List.erase_cons_tail (by
                simp only [beq_iff_eq, Prod.mk.injEq, not_and]
                intro e; exact absurd e.symm c4)]
              simp
          · rw [if_neg c5] at hg; simp at hg
      · rw [if_pos c3] at hg; simp at hg
    · rw [if_pos c2] at hg; simp at hg
  · rw [if_pos c1] at hg; simp at hg

theorem inv_of_free (b : Bv α) (out : List (Int × Nat)) (h0 : b.ci0 = free b) (h1 : b.ci1 = free b)
    (ho : out = []) : Inv29 b out :=
  ⟨by rw [slots_free b h0 h1, ho], Or.inl h0, Or.inl h1, Or.inl h0⟩

theorem out_nil (b : Bv α) (out : List (Int × Nat)) (h : Inv29 b out) (h0 : b.ci0 = free b)
    (h1 : b.ci1 = free b) : out = [] := by
  have := h.perm; rw [slots_free b h0 h1] at this; exact this.eq_nil

theorem setActive_fields (b b' : Bv α) (l k : Arg) (h : setActive b l k = some b') :
    b'.m = b.m ∧ b'.nc = b.nc ∧ b'.ci0 = b.ci0 ∧ b'.ci1 = b.ci1 ∧ b'.id0 = b.id0 ∧ b'.id1 = b.id1 ∧
      b'.cols = b.cols ∧ b'.omega = b.omega ∧ b'.indef = b.indef := by
  unfold setActive at h
  obtain ⟨b1, h1, h2⟩ := Option.bind_eq_some_iff.1 h
  have e1 : b1.m = b.m ∧ b1.nc = b.nc ∧ b1.ci0 = b.ci0 ∧ b1.ci1 = b.ci1 ∧ b1.id0 = b.id0 ∧ b1.id1 = b.id1 ∧
      b1.cols = b.cols ∧ b1.omega = b.omega ∧ b1.indef = b.indef := by
    cases k with
    | determine => simp [setActiveK] at h1; subst h1; simp
    | current => simp [setActiveK] at h1; subst h1; simp
    | val v =>
      simp [setActiveK] at h1
      obtain ⟨_, rfl⟩ := h1
      simp
  cases l with
  | determine => simp [setActiveL] at h2; subst h2; simpa using e1
  | current => simp [setActiveL] at h2; subst h2; exact e1
  | val v =>
    simp [setActiveL] at h2
    obtain ⟨_, rfl⟩ := h2
    simpa using e1

theorem step_inv (vid : Bool → Int → Nat) (zero : α) (b b' : Bv α) (out : List (Int × Nat)) (e : Ev α)
    (es : List (Ev α)) (hno : NoResize (e :: es))
    (h : Inv29 b out) (hs : step vid zero b e = some b') :
    ∃ out', Inv29 b' out' ∧ outstanding (e :: es) out = outstanding es out' ∧ NoResize es := by
  cases e with
  | get j id =>
    simp only [step] at hs
    cases hg : getColumn vid b j with
    | none => rw [hg] at hs; simp at hs
    | some r =>
      obtain ⟨id', b1⟩ := r
      rw [hg] at hs
      simp only at hs
      by_cases c : id = id'
      · rw [if_pos c] at hs
        obtain rfl := Option.some.inj hs
        subst c
        exact ⟨_, get_inv vid b _ out h j id hg, rfl, hno⟩
      · rw [if_neg c] at hs; simp at hs
  | restore j id => exact ⟨_, restore_inv b b' out h j id hs, rfl, hno⟩
  | setActive l k =>
    obtain ⟨q1, q2, q3, q4, q5, q6, _⟩ := setActive_fields b b' l k hs
    have hf : free b' = free b := by unfold free; rw [q2]
    refine ⟨out, ⟨?_, ?_, ?_, ?_⟩, rfl, hno⟩
    · have : slots b' = slots b := by unfold slots; rw [hf, q3, q4, q5, q6]
      rw [this]; exact h.perm
    · rw [hf, q3]; unfold InRange; rw [q1, q2]; exact h.r0
    · rw [hf, q4]; unfold InRange; rw [q1, q2]; exact h.r1
    · rw [hf, q3, q4]; exact h.ne
  | setNumConstraints nc =>
    simp only [step, setNumConstraints] at hs
    by_cases c1 : 0 ≤ nc
    · rw [if_neg (not_not_intro c1)] at hs
      by_cases c2 : b.ci0 = free b ∧ b.ci1 = free b
      · rw [if_neg (not_not_intro c2)] at hs
        by_cases c3 : nc.toNat = b.nc
        · rw [if_pos c3] at hs
          obtain rfl := Option.some.inj hs
          exact ⟨out, h, rfl, hno⟩
        · rw [if_neg c3] at hs
          by_cases c4 : nc.toNat < b.nc + b.m
          · rw [if_neg (not_not_intro c4)] at hs
            obtain ⟨cols, _, rfl⟩ := Option.map_eq_some_iff.1 hs
            refine ⟨out, inv_of_free _ _ ?_ ?_ (out_nil b out h c2.1 c2.2), rfl, hno⟩ <;>
              (unfold free; simp only; omega)
          · rw [if_pos c4] at hs; simp at hs
      · rw [if_pos c2] at hs; simp at hs
    · rw [if_pos c1] at hs; simp at hs
  | insertConstraints nc acc constr =>
    simp only [step] at hs
    by_cases c0 : acc ≤ nc.toNat ∧ constr.length = acc
    · rw [if_pos c0] at hs
      unfold insertConstraints at hs
      by_cases c1 : nc = 0
      · rw [if_pos c1] at hs
        obtain rfl := Option.some.inj hs
        exact ⟨out, h, rfl, hno⟩
      · rw [if_neg c1] at hs
        by_cases c2 : 0 < nc
        · rw [if_neg (not_not_intro c2)] at hs
          by_cases c3 : b.nc = 0
          · rw [if_neg (not_not_intro c3)] at hs
            by_cases c4 : b.ci0 = -1 ∧ b.ci1 = -1
            · rw [if_neg (not_not_intro c4)] at hs
              obtain ⟨b1, _, rfl⟩ := Option.map_eq_some_iff.1 hs
              have hf : free b = -1 := by unfold free; omega
              exact ⟨out, inv_of_free _ _ rfl rfl
                (out_nil b out h (by rw [hf]; exact c4.1) (by rw [hf]; exact c4.2)), rfl, hno⟩
            · rw [if_pos c4] at hs; simp at hs
          · rw [if_pos c3] at hs; simp at hs
        · rw [if_pos c2] at hs; simp at hs
    · rw [if_neg c0] at hs; simp at hs
  | resize m c => exact absurd hno (by simp [NoResize])

theorem run_inv (vid : Bool → Int → Nat) (zero : α) (es : List (Ev α)) :
    ∀ (b b' : Bv α) (out : List (Int × Nat)), NoResize es → Inv29 b out → run vid zero b es = some b' →
      Inv29 b' (outstanding es out) := by
  induction es with
  | nil =>
    intro b b' out _ h hr
    obtain rfl := Option.some.inj hr
    exact h
  | cons e es ih =>
    intro b b' out hno h hr
    obtain ⟨b1, h1, h2⟩ := Option.bind_eq_some_iff.1 hr
    obtain ⟨out', i1, i2, i3⟩ := step_inv vid zero b b1 out e es hno h h1
    rw [i2]
    exact ih b1 b' out' i3 i1 h2

theorem create_inv (cols : List α) (indef : Bool) : Inv29 (create cols indef) [] :=
  inv_of_free _ _ rfl rfl rfl

/-! ### C29 -/

/-- **C29, get (partial).** After any history of calls that does not resize the BV, `BVGetColumn` succeeds
exactly for a column in range (constraints are the negative ones) that is not outstanding, provided that
fewer than two columns are outstanding.  Missing: histories with `BVResize`, see `C29_resize_false`. -/
theorem C29_get_partial (vid : Bool → Int → Nat) (zero : α) (cols : List α) (indef : Bool) (es : List (Ev α))
    (b : Bv α) (hno : NoResize es) (hr : run vid zero (create cols indef) es = some b) (j : Int) :
    (∃ r, getColumn vid b j = some r) ↔
      (-(b.nc : Int) ≤ j ∧ j < b.m) ∧ (∀ id, (j, id) ∉ outstanding es []) ∧ (outstanding es []).length < 2 :=
  getColumn_iff vid b _ (run_inv vid zero es _ b [] hno (create_inv cols indef) hr) j

/-- **C29, restore (partial).** `BVRestoreColumn` succeeds exactly for an outstanding column with the Vec
that was handed out for it. -/
theorem C29_restore_partial (vid : Bool → Int → Nat) (zero : α) (cols : List α) (indef : Bool)
    (es : List (Ev α)) (b : Bv α) (hno : NoResize es) (hr : run vid zero (create cols indef) es = some b)
    (j : Int) (id : Nat) :
    (∃ b', restoreColumn b j id = some b') ↔ (j, id) ∈ outstanding es [] :=
  restoreColumn_iff b _ (run_inv vid zero es _ b [] hno (create_inv cols indef) hr) j id

/-- **C29, limit (partial).** At most two columns are outstanding and they are different. -/
theorem C29_two_partial (vid : Bool → Int → Nat) (zero : α) (cols : List α) (indef : Bool) (es : List (Ev α))
    (b : Bv α) (hno : NoResize es) (hr : run vid zero (create cols indef) es = some b) :
    (outstanding es []).length ≤ 2 ∧ ((outstanding es []).map Prod.fst).Nodup := by
  have h := run_inv vid zero es _ b [] hno (create_inv cols indef) hr
  constructor
  · rw [h.perm.length_eq]
    unfold slots
    by_cases h0 : b.ci0 = free b <;> by_cases h1 : b.ci1 = free b <;> simp [h0, h1]
  · rw [(h.perm.map Prod.fst).nodup_iff]
    unfold slots
    by_cases h0 : b.ci0 = free b <;> by_cases h1 : b.ci1 = free b <;> simp [h0, h1]
    rcases h.ne with q | q | q
    · exact absurd q h0
    · exact absurd q h1
    · exact q

/-- **C29 fails with `BVResize`**: it does not check for outstanding columns. A column that is cut off can
no longer be restored, so that the BV never returns to the free state. -/
theorem C29_resize_false :
    ∃ b : Bv Nat, run (fun _ _ => 1) 0 (create [10, 11, 12] false) [.get 2 1, .resize 2 true] = some b ∧
      restoreColumn b 2 1 = none ∧ (2, 1) ∈ outstanding (α := Nat) [.get 2 1, .resize 2 true] [] :=
  ⟨_, rfl, by decide, by decide⟩

/-- Non-vacuity: two columns of a BV with a constraint are taken, one of them the constraint, and the
first one is returned. -/
example : ∃ b : Bv Nat, run (fun s _ => if s then 2 else 1) 0 (create [10, 11, 12] false)
      [.setNumConstraints 1, .get (-1) 1, .get 1 2, .restore (-1) 1] = some b ∧
      outstanding (α := Nat) [.setNumConstraints 1, .get (-1) 1, .get 1 2, .restore (-1) 1] [] = [(1, 2)] :=
  ⟨_, rfl, by decide⟩

/-! ### C30 -/

/-- The active range is valid. -/
def RangeOK (b : Bv α) : Prop := b.l ≤ b.k ∧ b.k ≤ b.m ∧ 0 < b.m

/-- The calls keep the leading columns within the active ones: a call of `BVSetActiveColumns` that leaves
the number of leading columns as it is does not go below it with the number of active columns. -/
def KeepsLeading (vid : Bool → Int → Nat) (zero : α) : Bv α → List (Ev α) → Prop
  | _, [] => True
  | b, e :: es => (match e with
      | .setActive .current (.val v) => (b.l : Int) ≤ v
      | _ => True) ∧ ∀ b', step vid zero b e = some b' → KeepsLeading vid zero b' es

theorem resize_range (zero : α) (b b' : Bv α) (m : Int) (c : Bool) (hb : RangeOK b)
    (h : resize zero b m c = some b') : RangeOK b' ∧ b'.m = m.toNat ∧ b'.k = min b.k m.toNat ∧
      b'.l = min b.l m.toNat := by
  unfold RangeOK at hb
  unfold resize at h
  by_cases c1 : 0 < m
  · rw [if_neg (not_not_intro c1)] at h
    by_cases c2 : b.nc = 0
    · rw [if_neg (not_not_intro c2)] at h
      by_cases c3 : m.toNat = b.m
      · rw [if_pos c3] at h
        obtain rfl := Option.some.inj h
        refine ⟨hb, c3.symm, ?_, ?_⟩ <;> omega
      · rw [if_neg c3] at h
        obtain rfl := Option.some.inj h
        refine ⟨⟨?_, ?_, ?_⟩, rfl, rfl, rfl⟩ <;> simp only <;> omega
    · rw [if_pos c2] at h; simp at h
  · rw [if_pos c1] at h; simp at h

theorem step_range (vid : Bool → Int → Nat) (zero : α) (b b' : Bv α) (e : Ev α) (hb : RangeOK b)
    (hk : match e with
      | .setActive .current (.val v) => (b.l : Int) ≤ v
      | _ => True) (h : step vid zero b e = some b') : RangeOK b' := by
  unfold RangeOK at hb
  cases e with
  | get j id =>
    simp only [step, getColumn] at h
    by_cases c1 : j ≥ 0 ∨ -j ≤ (b.nc : Int)
    · rw [if_neg (not_not_intro c1)] at h
      by_cases c2 : j < (b.m : Int)
      · rw [if_neg (not_not_intro c2)] at h
        by_cases c3 : j ≠ b.ci0 ∧ j ≠ b.ci1
        · rw [if_neg (not_not_intro c3)] at h
          cases ha : available b with
          | none => rw [ha] at h; simp at h
          | some t =>
            rw [ha] at h
            cases t <;> simp at h <;> obtain ⟨_, rfl⟩ := h <;> exact hb
        · rw [if_pos c3] at h; simp at h
      · rw [if_pos c2] at h; simp at h
    · rw [if_pos c1] at h; simp at h
  | restore j id =>
    simp only [step, restoreColumn] at h
    by_cases c1 : j ≥ 0 ∨ -j ≤ (b.nc : Int)
    · rw [if_neg (not_not_intro c1)] at h
      by_cases c2 : j < (b.m : Int)
      · rw [if_neg (not_not_intro c2)] at h
        by_cases c3 : j = b.ci0 ∨ j = b.ci1
        · rw [if_neg (not_not_intro c3)] at h
          by_cases c4 : j = b.ci0
          · rw [if_pos c4] at h
            simp at h; obtain ⟨_, rfl⟩ := h; exact hb
          · rw [if_neg c4] at h
            simp at h; obtain ⟨_, rfl⟩ := h; exact hb
        · rw [if_pos c3] at h; simp at h
      · rw [if_pos c2] at h; simp at h
    · rw [if_pos c1] at h; simp at h
  | setActive l k =>
    simp only [step, setActive] at h
    obtain ⟨b1, h1, h2⟩ := Option.bind_eq_some_iff.1 h
    have e1 : b1.m = b.m ∧ b1.l = b.l ∧ b1.k ≤ b.m ∧ (b.l ≤ b1.k ∨ ∃ v, k = .val v ∧ b1.k = v.toNat) := by
      cases k with
      | determine => simp [setActiveK] at h1; subst h1; simp; omega
      | current => simp [setActiveK] at h1; subst h1; simp; omega
      | val v =>
        simp [setActiveK] at h1
        obtain ⟨q, rfl⟩ := h1
        simp; omega
    obtain ⟨e1, e2, e3, e4⟩ := e1
    unfold RangeOK
    cases l with
    | determine => simp [setActiveL] at h2; subst h2; simp; omega
    | current =>
      simp [setActiveL] at h2; subst h2
      rcases e4 with e4 | ⟨v, rfl, e4⟩
      · omega
      · simp only at hk; omega
    | val v =>
      simp [setActiveL] at h2
      obtain ⟨q, rfl⟩ := h2
      simp; omega
  | setNumConstraints nc =>
    simp only [step, setNumConstraints] at h
    by_cases c1 : 0 ≤ nc
    · rw [if_neg (not_not_intro c1)] at h
      by_cases c2 : b.ci0 = free b ∧ b.ci1 = free b
      · rw [if_neg (not_not_intro c2)] at h
        by_cases c3 : nc.toNat = b.nc
        · rw [if_pos c3] at h
          obtain rfl := Option.some.inj h
          exact hb
        · rw [if_neg c3] at h
          by_cases c4 : nc.toNat < b.nc + b.m
          · rw [if_neg (not_not_intro c4)] at h
            obtain ⟨cols, _, rfl⟩ := Option.map_eq_some_iff.1 h
            unfold RangeOK
            simp only
            omega
          · rw [if_pos c4] at h; simp at h
      · rw [if_pos c2] at h; simp at h
    · rw [if_pos c1] at h; simp at h
  | insertConstraints nc acc constr =>
    simp only [step] at h
    by_cases c0 : acc ≤ nc.toNat ∧ constr.length = acc
    · rw [if_pos c0] at h
      unfold insertConstraints at h
      by_cases c1 : nc = 0
      · rw [if_pos c1] at h
        obtain rfl := Option.some.inj h
        exact hb
      · rw [if_neg c1] at h
        by_cases c2 : 0 < nc
        · rw [if_neg (not_not_intro c2)] at h
          by_cases c3 : b.nc = 0
          · rw [if_neg (not_not_intro c3)] at h
            by_cases c4 : b.ci0 = -1 ∧ b.ci1 = -1
            · rw [if_neg (not_not_intro c4)] at h
              obtain ⟨b1, h1, rfl⟩ := Option.map_eq_some_iff.1 h
              have := resize_range zero b b1 _ _ hb h1
              unfold RangeOK
              simp only
              omega
            · rw [if_pos c4] at h; simp at h
          · rw [if_pos c3] at h; simp at h
        · rw [if_pos c2] at h; simp at h
    · rw [if_neg c0] at h; simp at h
  | resize m c => exact (resize_range zero b b' m c hb h).1

/-- **C30 (partial).** After any history of successful calls with arbitrary arguments the active range
satisfies `0 ≤ l ≤ k ≤ m`, if no call lowers `k` below the number of leading columns while leaving the
latter unchanged (`PETSC_CURRENT`).  Missing: that case, see `C30_current_false`. -/
theorem C30_range_partial (vid : Bool → Int → Nat) (zero : α) (es : List (Ev α)) :
    ∀ (b b' : Bv α), RangeOK b → KeepsLeading vid zero b es → run vid zero b es = some b' →
      b'.l ≤ b'.k ∧ b'.k ≤ b'.m := by
  induction es with
  | nil =>
    intro b b' h _ hr
    obtain rfl := Option.some.inj hr
    exact ⟨h.1, h.2.1⟩
  | cons e es ih =>
    intro b b' h hk hr
    obtain ⟨b1, h1, h2⟩ := Option.bind_eq_some_iff.1 hr
    exact ih b1 b' (step_range vid zero b b1 e h hk.1 h1) (hk.2 b1 h1) h2

/-- A new BV with at least one column has a valid range. -/
theorem C30_create (cols : List α) (indef : Bool) (h : cols ≠ []) : RangeOK (create cols indef) := by
  have : 0 < cols.length := List.length_pos_iff.2 h
  exact ⟨Nat.zero_le _, le_refl _, this⟩

/-- **C30 fails**: `BVSetActiveColumns(bv,3,4)` followed by `BVSetActiveColumns(bv,PETSC_CURRENT,1)` is
accepted and leaves `l=3 > k=1`. -/
theorem C30_current_false : ∃ b : Bv Nat, run (fun _ _ => 1) 0 (create [1, 2, 3, 4, 5] false)
    [.setActive (.val 3) (.val 4), .setActive .current (.val 1)] = some b ∧ b.k < b.l :=
  ⟨_, rfl, by decide⟩

/-- Non-vacuity of `C30_range_partial`. -/
example : ∃ b : Bv Nat, KeepsLeading (fun _ _ => 1) 0 (create [1, 2, 3, 4, 5] false)
      [.setActive (.val 2) (.val 4), .setActive .current (.val 3), .resize 2 true] ∧
    run (fun _ _ => 1) 0 (create [1, 2, 3, 4, 5] false)
      [.setActive (.val 2) (.val 4), .setActive .current (.val 3), .resize 2 true] = some b ∧
    b.l = 2 ∧ b.k = 2 ∧ b.m = 2 := by
  refine ⟨_, ⟨trivial, fun b1 h1 => ?_⟩, rfl, by decide, by decide, by decide⟩
  obtain rfl := Option.some.inj h1
  refine ⟨by decide, fun b2 h2 => ?_⟩
  exact ⟨trivial, fun b3 h3 => trivial⟩

end Verif.BV
