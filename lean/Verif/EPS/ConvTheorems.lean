import Verif.EPS.ConvModel
import Mathlib.Algebra.Module.LinearMap.Defs
import Mathlib.Tactic.Linarith
import Mathlib.Tactic.Module
import Mathlib.Tactic.NormNum

/-!
# C65 (converged prefix), C66 (criteria), C68 (conjugate pairs)
-/
set_option linter.all false

namespace Verif.EPS

open Classical

/-! ## C65 -/

/-- Positions at which an eigenvalue or a pair begins. -/
inductive Begin (pair : Nat → Bool) (k0 : Nat) : Nat → Prop
  | first : Begin pair k0 k0
  | next (k : Nat) : Begin pair k0 k → Begin pair k0 (if pair k then k + 2 else k + 1)

/-- The approximation at `k` is accepted: it lies in the region and the estimates (also the left one for two-sided solvers) are below
the tolerance. -/
def Accepted (d : KrylovData) (k : Nat) : Prop :=
  d.inside k = true ∧ (∃ x, d.est k = some x ∧ x < d.tol) ∧ (d.twosided = true → ∃ x, d.lest k = some x ∧ x < d.tol)

/-- No estimate is not-a-number. -/
def Numbers (d : KrylovData) : Prop := ∀ k, d.est k ≠ none ∧ d.lest k ≠ none

theorem geTol_iff (tol : ℝ) (x : Option ℝ) (h : x ≠ none) : geTol tol x = false ↔ ∃ y, x = some y ∧ y < tol := by
  cases x with
  | none => exact absurd rfl h
  | some y => simp [geTol]

theorem mark_some (d : KrylovData) (k m : Nat) : mark d k (some m) = some m := by
  simp [mark]

theorem mark_none (d : KrylovData) (hn : Numbers d) (k : Nat) : mark d k none = if Accepted d k then none else some k := by
  by_cases h : Accepted d k
  · rw [if_pos h]
    obtain ⟨h1, h2, h3⟩ := h
    have g := (geTol_iff d.tol _ (hn k).1).2 h2
    unfold mark
    by_cases t : d.twosided = true
    · have g' := (geTol_iff d.tol _ (hn k).2).2 (h3 t)
      simp [h1, g, g']
    · simp [h1, g, t]
  · rw [if_neg h]
    unfold mark
    by_cases i : d.inside k = true
    · by_cases g : geTol d.tol (d.est k) = true
      · simp [i, g]
      · rw [Bool.not_eq_true] at g
        have g1 := (geTol_iff d.tol _ (hn k).1).1 g
        have : d.twosided = true ∧ geTol d.tol (d.lest k) = true := by
          by_contra c
          apply h
          refine ⟨i, g1, fun t => (geTol_iff d.tol _ (hn k).2).1 ?_⟩
          by_contra c'
          exact c ⟨t, by simpa using c'⟩
        simp [i, g, this.1, this.2]
    · rw [Bool.not_eq_true] at i
      simp [i]

/-- First position from `k` that is not accepted. -/
noncomputable def firstBad (d : KrylovData) (last : Nat) : Nat → Nat → Nat
  | 0, k => k
  | f + 1, k => if k < last then (if Accepted d k then firstBad d last f (nextIdx d k) else k) else k

theorem loop_some (d : KrylovData) (getall : Bool) (last f k m : Nat) (e) : (convLoop d getall last f k (some m) e).1 = m := by
  induction f generalizing k e with
  | zero => rfl
  | succ f ih =>
    rw [convLoop]
    by_cases h : k < last
    · rw [if_pos h]
      dsimp only
      rw [mark_some]
      by_cases c : some m ≠ none ∧ getall = false
      · rw [if_pos c]; rfl
      · rw [if_neg c]; exact ih _ _
    · rw [if_neg h]; rfl

theorem loop_none (d : KrylovData) (hn : Numbers d) (getall : Bool) (last f k : Nat) (e) :
    (convLoop d getall last f k none e).1 = firstBad d last f k := by
  induction f generalizing k e with
  | zero => rfl
  | succ f ih =>
    rw [convLoop, firstBad]
    by_cases h : k < last
    · rw [if_pos h, if_pos h]
      dsimp only
      rw [mark_none d hn]
      by_cases a : Accepted d k
      · rw [if_pos a, if_pos a]
        rw [if_neg (by simp)]
        exact ih _ _
      · rw [if_neg a, if_neg a]
        by_cases c : some k ≠ none ∧ getall = false
        · rw [if_pos c]; rfl
        · rw [if_neg c]; exact loop_some _ _ _ _ _ _ _
    · rw [if_neg h, if_neg h]; rfl

theorem next_gt (d : KrylovData) (k : Nat) : k < nextIdx d k := by
  unfold nextIdx; split_ifs <;> omega

theorem begin_ge {pair : Nat → Bool} {k0 j : Nat} (h : Begin pair k0 j) : k0 ≤ j := by
  induction h with
  | first => exact le_refl _
  | next k _ ih => split_ifs <;> omega

theorem begin_cases (d : KrylovData) {k0 j : Nat} (h : Begin d.pair k0 j) : j = k0 ∨ Begin d.pair (nextIdx d k0) j := by
  induction h with
  | first => exact Or.inl rfl
  | next k _ ih =>
    right
    rcases ih with rfl | ih
    · exact Begin.first
    · exact Begin.next k ih

theorem begin_trans (d : KrylovData) {k0 j : Nat} (h : Begin d.pair (nextIdx d k0) j) : Begin d.pair k0 j := by
  induction h with
  | first => exact Begin.next k0 Begin.first
  | next k _ ih => exact Begin.next k ih

theorem firstBad_spec (d : KrylovData) (last f k : Nat) (hf : last ≤ k + f) :
    Begin d.pair k (firstBad d last f k) ∧ (∀ j, Begin d.pair k j → j < firstBad d last f k → j < last ∧ Accepted d j) ∧
      (firstBad d last f k < last → ¬ Accepted d (firstBad d last f k)) := by
  induction f generalizing k with
  | zero =>
    refine ⟨Begin.first, ?_, ?_⟩
    · intro j hj hlt
      have := begin_ge hj
      simp only [firstBad] at hlt
      omega
    · intro h
      simp only [firstBad] at h
      omega
  | succ f ih =>
    rw [firstBad]
    by_cases h : k < last
    · rw [if_pos h]
      by_cases a : Accepted d k
      · rw [if_pos a]
        have hg := next_gt d k
        obtain ⟨h1, h2, h3⟩ := ih (nextIdx d k) (by omega)
        refine ⟨begin_trans d h1, ?_, h3⟩
        intro j hj hlt
        rcases begin_cases d hj with rfl | hj
        · exact ⟨h, a⟩
        · exact h2 j hj hlt
      · rw [if_neg a]
        refine ⟨Begin.first, ?_, fun _ => a⟩
        intro j hj hlt
        have := begin_ge hj
        omega
    · rw [if_neg h]
      refine ⟨Begin.first, ?_, fun h' => absurd h' h⟩
      intro j hj hlt
      have := begin_ge hj
      omega

theorem loop_below (d : KrylovData) (getall : Bool) (last f k j : Nat) (m e) (h : j < k) :
    (convLoop d getall last f k m e).2 j = e j := by
  induction f generalizing k m e with
  | zero => rfl
  | succ f ih =>
    have hs : setErr d k e j = e j := by
      unfold setErr
      rw [if_neg]
      rintro (c | ⟨_, c⟩) <;> omega
    rw [convLoop]
    by_cases hl : k < last
    · rw [if_pos hl]
      dsimp only
      by_cases c : mark d k m ≠ none ∧ getall = false
      · rw [if_pos c]; exact hs
      · rw [if_neg c, ih _ _ _ (lt_trans h (next_gt d k)), hs]
    · rw [if_neg hl]

theorem loop_err (d : KrylovData) (hn : Numbers d) (getall : Bool) (last f k j : Nat) (m e) (hf : last ≤ k + f) (hb : Begin d.pair k j)
    (hj : j < last) (hc : getall = true ∨ (m = none ∧ j ≤ firstBad d last f k)) :
    (convLoop d getall last f k m e).2 j = errAt d j ∧ (d.pair j = true → (convLoop d getall last f k m e).2 (j + 1) = errAt d j) := by
  induction f generalizing k m e with
  | zero => have := begin_ge hb; omega
  | succ f ih =>
    have hk := begin_ge hb
    have hl : k < last := by omega
    have hg := next_gt d k
    rw [convLoop, if_pos hl]
    dsimp only
    rcases begin_cases d hb with rfl | hb'
    · have h1 : setErr d j e j = errAt d j := by unfold setErr; simp
      have h2 : d.pair j = true → setErr d j e (j + 1) = errAt d j := by intro p; unfold setErr; simp [p]
      by_cases c : mark d j m ≠ none ∧ getall = false
      · rw [if_pos c]; exact ⟨h1, h2⟩
      · rw [if_neg c]
        refine ⟨by rw [loop_below _ _ _ _ _ _ _ _ hg, h1], fun p => ?_⟩
        rw [loop_below _ _ _ _ _ _ _ _ (by unfold nextIdx; rw [if_pos p]; omega), h2 p]
    · have hge := begin_ge hb'
      have hmm : ¬ (mark d k m ≠ none ∧ getall = false) ∧ (getall = true ∨ (mark d k m = none ∧ j ≤ firstBad d last f (nextIdx d k))) := by
        rcases hc with g | ⟨rfl, hle⟩
        · exact ⟨fun c => by rw [g] at c; exact absurd c.2 (by decide), Or.inl g⟩
        · rw [firstBad, if_pos hl] at hle
          by_cases a : Accepted d k
          · rw [if_pos a] at hle
            rw [mark_none d hn, if_pos a]
            exact ⟨by simp, Or.inr ⟨rfl, hle⟩⟩
          · rw [if_neg a] at hle
            omega
      rw [if_neg hmm.1]
      exact ih _ _ _ (by omega) hb' hmm.2

/-- **C65.** When no estimate is not-a-number: the result is a position where an eigenvalue or pair begins, everything before it is
accepted, and it is the end or not accepted; it does not depend on whether all residuals were asked for. -/
theorem C65_partial (d : KrylovData) (hn : Numbers d) (getall : Bool) (kini nits : Nat) (e : Nat → Option ℝ) (kout : Nat)
    (hk : kout = (krylovConvergence d getall kini nits e).1) :
    Begin d.pair kini kout ∧ (∀ j, Begin d.pair kini j → j < kout → Accepted d j) ∧
      (kini + nits ≤ kout ∨ ¬ Accepted d kout) ∧ (∀ g e', (krylovConvergence d g kini nits e').1 = kout) := by
  unfold krylovConvergence at *
  rw [loop_none d hn] at hk
  obtain ⟨h1, h2, h3⟩ := firstBad_spec d (kini + nits) nits kini (le_refl _)
  rw [← hk] at h1 h2 h3
  refine ⟨h1, fun j hj hl => (h2 j hj hl).2, ?_, ?_⟩
  · by_cases c : kout < kini + nits
    · exact Or.inr (h3 c)
    · exact Or.inl (not_lt.1 c)
  · intro g e'
    rw [loop_none d hn, hk]

/-- **C65, estimates.** The estimates of the accepted approximations and of the first rejected one (of all, if asked for) are stored,
the larger of right and left ones for two-sided solvers, and both positions of a pair get the same. -/
theorem C65_errest (d : KrylovData) (hn : Numbers d) (getall : Bool) (kini nits : Nat) (e : Nat → Option ℝ) (j : Nat)
    (hb : Begin d.pair kini j) (hj : j < kini + nits) (hc : getall = true ∨ j ≤ (krylovConvergence d getall kini nits e).1)
    (a b : ℝ) (ha : d.est j = some a) (hb' : d.lest j = some b) :
    (krylovConvergence d getall kini nits e).2 j = some (if d.twosided then max a b else a) ∧
      (d.pair j = true → (krylovConvergence d getall kini nits e).2 (j + 1) = some (if d.twosided then max a b else a)) := by
  unfold krylovConvergence at *
  rw [loop_none d hn] at hc
  have := loop_err d hn getall (kini + nits) nits kini j none e (le_refl _) hb hj (hc.imp_right fun h => ⟨rfl, h⟩)
  have he : errAt d j = some (if d.twosided then max a b else a) := by
    unfold errAt
    rw [ha, hb']
    by_cases t : d.twosided = true
    · simp only [t, if_true, cmax]
      by_cases l : a < b
      · rw [if_pos l, max_eq_right l.le]
      · rw [if_neg l, max_eq_left (not_lt.1 l)]
    · simp [t]
  rw [← he]
  exact this

/-- a pair at 1,2 whose estimate fails: one eigenvalue has converged -/
noncomputable def demoData : KrylovData := ⟨fun k => k = 1, fun _ => true, fun k => if k = 0 then some 0 else some 5, fun _ => some 0, false, 1⟩

example : Numbers demoData ∧ Begin demoData.pair 0 3 ∧ Accepted demoData 0 ∧ ¬ Accepted demoData 1 := by
  refine ⟨fun k => ?_, Begin.next 1 (Begin.next 0 Begin.first), ⟨rfl, ⟨0, rfl, by norm_num [demoData]⟩, fun h => by cases h⟩, ?_⟩
  · unfold demoData
    by_cases h : k = 0 <;> simp [h]
  · rintro ⟨_, ⟨x, hx, hl⟩, _⟩
    simp [demoData] at hx hl
    rw [← hx] at hl
    norm_num at hl

/-- **C65 fails if an estimate is not-a-number**: it is then counted as converged. -/
theorem C65_nan_false : ¬ ∀ (d : KrylovData) (getall : Bool) (kini nits : Nat) (e : Nat → Option ℝ), ∀ j, Begin d.pair kini j →
    j < (krylovConvergence d getall kini nits e).1 → Accepted d j := by
  intro h
  have := h ⟨fun _ => false, fun _ => true, fun _ => none, fun _ => some 0, false, 1⟩ false 0 1 (fun _ => none) 0 Begin.first
    (by simp [krylovConvergence, convLoop, mark, geTol, nextIdx])
  obtain ⟨_, ⟨x, hx, _⟩, _⟩ := this
  cases hx

/-! ## C66 -/

/-- Norm of the second matrix, that of the identity for standard problems. -/
noncomputable def CritState.normB (s : CritState) : ℝ := if s.gen then s.nb else 1

/-- The documented error estimate: ‖r‖, ‖r‖/|λ|, ‖r‖/(‖A‖+|λ|‖B‖). -/
noncomputable def documented (s : CritState) (w res : ℝ) : ℝ :=
  match s.conv with
  | .abs => res
  | .rel => res / w
  | .norm => res / (s.na + w * s.normB)

/-- Stored norms are unset or those of the current matrices. -/
def CritOk (s : CritState) : Prop := (s.nrma = 0 ∨ s.nrma = s.na) ∧ (s.nrmb = 0 ∨ s.nrmb = s.normB)

theorem critOk_step (s : CritState) (o : CritOp) (h : CritOk s) : CritOk (critStep s o) := by
  obtain ⟨h1, h2⟩ := h
  cases o with
  | setOperators na nb gen => exact ⟨Or.inl rfl, Or.inl rfl⟩
  | setConv c => exact ⟨h1, h2⟩
  | invalidate => exact ⟨h1, h2⟩
  | setUp =>
    unfold critStep
    dsimp only
    by_cases u : s.up = true
    · rw [if_pos u]; exact ⟨h1, h2⟩
    · rw [if_neg u]
      by_cases c : s.conv = .norm
      · rw [if_pos c]
        constructor
        · show (if s.nrma = 0 then s.na else s.nrma) = 0 ∨ (if s.nrma = 0 then s.na else s.nrma) = s.na
          by_cases z : s.nrma = 0
          · rw [if_pos z]; exact Or.inr rfl
          · rw [if_neg z]; exact Or.inr (h1.resolve_left z)
        · show (if s.gen = true ∧ s.nrmb = 0 then s.nb else s.nrmb) = 0 ∨ (if s.gen = true ∧ s.nrmb = 0 then s.nb else s.nrmb) = s.normB
          by_cases z : s.gen = true ∧ s.nrmb = 0
          · rw [if_pos z]; right; unfold CritState.normB; rw [if_pos z.1]
          · rw [if_neg z]; exact h2
      · rw [if_neg c]; exact ⟨h1, h2⟩
  | backward =>
    unfold critStep
    dsimp only
    by_cases u : s.up = true
    · rw [if_pos u]
      constructor
      · show (if s.nrma = 0 then s.na else s.nrma) = 0 ∨ (if s.nrma = 0 then s.na else s.nrma) = s.na
        by_cases z : s.nrma = 0
        · rw [if_pos z]; exact Or.inr rfl
        · rw [if_neg z]; exact Or.inr (h1.resolve_left z)
      · show (if s.gen then (if s.nrmb = 0 then s.nb else s.nrmb) else 1) = 0 ∨ (if s.gen then (if s.nrmb = 0 then s.nb else s.nrmb) else 1) = s.normB
        right
        unfold CritState.normB
        by_cases g : s.gen = true
        · rw [if_pos g, if_pos g]
          by_cases z : s.nrmb = 0
          · rw [if_pos z]
          · rw [if_neg z]
            have := h2.resolve_left z
            unfold CritState.normB at this
            rwa [if_pos g] at this
        · rw [if_neg g, if_neg g]
    · rw [if_neg u]; exact ⟨h1, h2⟩

theorem critOk_run (ops : List CritOp) (s : CritState) (h : CritOk s) : CritOk (ops.foldl critStep s) := by
  induction ops generalizing s with
  | nil => exact h
  | cons o ops ih => exact ih _ (critOk_step s o h)

/-- **C66, absolute and relative criteria**: the documented values, after any history. -/
theorem C66_abs_rel (ops : List CritOp) (big w res : ℝ) (hc : (ops.foldl critStep critInit).conv ≠ .norm) (hw : w ≠ 0) :
    errEstimate (ops.foldl critStep critInit) big w res = some (documented (ops.foldl critStep critInit) w res) := by
  generalize ops.foldl critStep critInit = s at *
  unfold errEstimate documented
  cases h : s.conv with
  | abs => rfl
  | rel => simp [hw]
  | norm => exact absurd h hc

/-- **C66, criterion with matrix norms, generalized problems**: after any history, if the criterion was selected before the set-up, the
value during the iterations is the documented one. -/
theorem C66_norm_partial (ops : List CritOp) (big w res : ℝ) (s : CritState) (hs : s = ops.foldl critStep critInit)
    (hu : s.up = false) (hc : s.conv = .norm) (hg : s.gen = true) (hp : s.na + w * s.nb ≠ 0) :
    errEstimate (critStep s .setUp) big w res = some (documented (critStep s .setUp) w res) := by
  have ok : CritOk s := by
    rw [hs]; exact critOk_run ops critInit ⟨Or.inl rfl, Or.inl rfl⟩
  have e : critStep s .setUp = { s with nrma := s.na, nrmb := s.nb, up := true } := by
    unfold critStep
    dsimp only
    rw [if_neg (by rw [hu]; decide), if_pos hc]
    congr 1
    · by_cases z : s.nrma = 0
      · rw [if_pos z]
      · rw [if_neg z]; exact ok.1.resolve_left z
    · by_cases z : s.nrmb = 0
      · rw [if_pos ⟨hg, z⟩]
      · rw [if_neg (fun t => z t.2)]
        have := ok.2.resolve_left z
        unfold CritState.normB at this
        rwa [if_pos hg] at this
  rw [e]
  unfold errEstimate documented CritState.normB
  simp only [hc, hg, if_true]
  rw [if_neg hp]

/-- matrices of norm 2 and 3 -/
example : ([.setOperators 2 3 true, .setConv .norm].foldl critStep critInit).up = false := rfl

/-- **C66 fails for standard problems**: the norm of the identity is not added, -/
theorem C66_standard_false : ¬ ∀ (na w res : ℝ), 0 < na → 0 < w →
    errEstimate ([CritOp.setOperators na 0 false, .setConv .norm, .setUp].foldl critStep critInit) 0 w res
      = some (documented ([CritOp.setOperators na 0 false, .setConv .norm, .setUp].foldl critStep critInit) w res) := by
  intro h
  have := h 1 1 1 one_pos one_pos
  simp [critStep, critInit, errEstimate, documented, CritState.normB] at this

/-- and whether it is depends on an earlier computation of a backward error. -/
theorem C66_history_false : ¬ ∀ (na w res : ℝ), 0 < na → 0 < w →
    errEstimate ([CritOp.setOperators na 0 false, .setConv .norm, .setUp].foldl critStep critInit) 0 w res
      = errEstimate ([CritOp.setOperators na 0 false, .setConv .norm, .setUp, .backward, .invalidate, .setUp].foldl critStep critInit) 0 w res := by
  intro h
  have := h 1 1 1 one_pos one_pos
  simp [critStep, critInit, errEstimate] at this

/-- Selecting the criterion on a solver that is already set up makes it divide by zero. -/
theorem C66_late_false : ¬ ∀ (na nb w res : ℝ), 0 < na → 0 < nb → 0 < w →
    errEstimate ([CritOp.setOperators na nb true, .setUp, .setConv .norm, .setUp].foldl critStep critInit) 0 w res ≠ none := by
  intro h
  apply h 1 1 1 1 one_pos one_pos one_pos
  simp [critStep, critInit, errEstimate]

/-! ## C68 -/

section pairs
variable {V : Type*} [AddCommGroup V] [Module ℝ V]

/-- `x + i y` is an eigenvector of the pencil for `a + i b`. -/
def PencilPair (A B : V →ₗ[ℝ] V) (a b : ℝ) (x y : V) : Prop :=
  A x = a • B x - b • B y ∧ A y = b • B x + a • B y

/-- Lists in which each real value has its eigenvectors and each complex value is followed by its conjugate, the two columns of V being the
real and imaginary parts of the eigenvector of the first one, those of W of its left eigenvector (`At`, `Bt` the transposed
matrices, so that the left eigenvector belongs to the conjugate value).  With `pos` the first of each pair has positive imaginary part. -/
inductive Paired (A B At Bt : V →ₗ[ℝ] V) (pos : Bool) : List (Entry V) → Prop
  | nil : Paired A B At Bt pos []
  | real (a : Entry V) (l) : a.ei = 0 → A a.v = a.er • B a.v → At a.w = a.er • Bt a.w → Paired A B At Bt pos l → Paired A B At Bt pos (a :: l)
  | pair (a b : Entry V) (l) : a.ei ≠ 0 → (pos = true → 0 < a.ei) → b.er = a.er → b.ei = -a.ei → PencilPair A B a.er a.ei a.v b.v →
      PencilPair At Bt a.er (-a.ei) a.w b.w → Paired A B At Bt pos l → Paired A B At Bt pos (a :: b :: l)

/-- **C68.** -/
theorem C68 (A B At Bt : V →ₗ[ℝ] V) (l : List (Entry V)) (h : Paired A B At Bt false l) :
    Paired A B At Bt true (reorder false l) ∧ ((reorder false l).map fun a => (a.er, a.ei)).Perm (l.map fun a => (a.er, a.ei)) := by
  induction h with
  | nil => exact ⟨Paired.nil, List.Perm.refl _⟩
  | real a l h0 hv hw hl ih =>
    have e : reorder false (a :: l) = a :: reorder false l := by
      cases l with
      | nil => rfl
      | cons b l =>
        rw [reorder, if_neg (fun c => c.1 h0)]
    rw [e]
    exact ⟨Paired.real a _ h0 hv hw ih.1, List.Perm.cons _ ih.2⟩
  | pair a b l h0 _ hr hi hv hw hl ih =>
    rw [reorder, if_pos ⟨h0, Or.inl rfl⟩]
    by_cases n : a.ei < 0
    · rw [if_pos n]
      refine ⟨Paired.pair _ _ _ (neg_ne_zero.2 h0) (fun _ => neg_pos.2 n) hr (by show -b.ei = - -a.ei; rw [hi]) ?_ ?_ ih.1, ?_⟩
      · refine ⟨?_, ?_⟩
        · show A a.v = a.er • B a.v - (-a.ei) • B (-b.v)
          rw [hv.1, map_neg]; module
        · show A (-b.v) = (-a.ei) • B a.v + a.er • B (-b.v)
          rw [map_neg, hv.2, map_neg]; module
      · refine ⟨?_, ?_⟩
        · show At a.w = a.er • Bt a.w - (- -a.ei) • Bt (-b.w)
          rw [hw.1, map_neg]; module
        · show At (-b.w) = (- -a.ei) • Bt a.w + a.er • Bt (-b.w)
          rw [map_neg, hw.2, map_neg]; module
      · simp only [List.map_cons, hr, hi, neg_neg]
        exact (List.Perm.swap _ _ _).trans (List.Perm.cons _ (List.Perm.cons _ ih.2))
    · rw [if_neg n]
      have p : 0 < a.ei := lt_of_le_of_ne (not_lt.1 n) (Ne.symm h0)
      exact ⟨Paired.pair a b _ h0 (fun _ => p) hr hi hv hw ih.1, by
        simp only [List.map_cons]
        exact List.Perm.cons _ (List.Perm.cons _ ih.2)⟩

theorem reorder_single (a : Entry V) (l : List (Entry V)) (h : a.er = 0 ∨ a.ei = 0) : reorder true (a :: l) = a :: reorder true l := by
  cases l with
  | nil => rfl
  | cons b l =>
    rw [reorder, if_neg]
    rintro ⟨h1, h2⟩
    rcases h2 with h2 | h2
    · cases h2
    · rcases h with h | h
      · exact h2 h
      · exact h1 h

/-- Values of a Hamiltonian problem: real and purely imaginary ones are single, others are followed by their conjugates. -/
inductive HamPaired (pos : Bool) : List (Entry V) → Prop
  | nil : HamPaired pos []
  | single (a : Entry V) (l) : a.er = 0 ∨ a.ei = 0 → HamPaired pos l → HamPaired pos (a :: l)
  | pair (a b : Entry V) (l) : a.er ≠ 0 → a.ei ≠ 0 → (pos = true → 0 < a.ei) → b.er = a.er → b.ei = -a.ei → HamPaired pos l →
      HamPaired pos (a :: b :: l)

/-- **C68, Hamiltonian problems**: the values of quadruples get the positive imaginary part first, single ones are left alone. -/
theorem C68_hamilt (l : List (Entry V)) (h : HamPaired false l) :
    HamPaired true (reorder true l) ∧ ((reorder true l).map fun a => (a.er, a.ei)).Perm (l.map fun a => (a.er, a.ei)) := by
  induction h with
  | nil => exact ⟨HamPaired.nil, List.Perm.refl _⟩
  | single a l h0 hl ih =>
    rw [reorder_single a l h0]
    exact ⟨HamPaired.single a _ h0 ih.1, List.Perm.cons _ ih.2⟩
  | pair a b l hr0 h0 _ hr hi hl ih =>
    rw [reorder, if_pos ⟨h0, Or.inr hr0⟩]
    by_cases n : a.ei < 0
    · rw [if_pos n]
      refine ⟨HamPaired.pair _ _ _ hr0 (neg_ne_zero.2 h0) (fun _ => neg_pos.2 n) hr (by show -b.ei = - -a.ei; rw [hi]) ih.1, ?_⟩
      simp only [List.map_cons, hr, hi, neg_neg]
      exact (List.Perm.swap _ _ _).trans (List.Perm.cons _ (List.Perm.cons _ ih.2))
    · rw [if_neg n]
      have p : 0 < a.ei := lt_of_le_of_ne (not_lt.1 n) (Ne.symm h0)
      exact ⟨HamPaired.pair a b _ hr0 h0 (fun _ => p) hr hi ih.1, by
        simp only [List.map_cons]
        exact List.Perm.cons _ (List.Perm.cons _ ih.2)⟩

end pairs

/-- rotation by 90 degrees with eigenvalue −i stored first -/
example : Paired (V := ℝ × ℝ) ((LinearMap.snd ℝ ℝ ℝ).prod (-LinearMap.fst ℝ ℝ ℝ)) LinearMap.id
    (-((LinearMap.snd ℝ ℝ ℝ).prod (-LinearMap.fst ℝ ℝ ℝ))) LinearMap.id false
    [⟨0, -1, (1, 0), (1, 0)⟩, ⟨0, 1, (0, -1), (0, -1)⟩] := by
  apply Paired.pair
  · norm_num
  · intro h; cases h
  · rfl
  · norm_num
  · simp [PencilPair]
  · simp [PencilPair]
  · exact Paired.nil

end Verif.EPS
