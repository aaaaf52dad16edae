import Verif.Filt.IntvLem

/-! # Invariant of the main loop of the choice of the intervals -/

set_option linter.all false

namespace Verif.Filt

open Classical

/-- Valid frames: those that pass the checks, with the type of filter that belongs to them. -/
structure GIn.Ok (I : GIn) : Prop where
  left : I.a < I.a1
  mid : I.a1 < I.b1
  right : I.b1 ≤ I.b
  two : I.two = true ↔ I.b ≠ I.b1
  grid : 1 ≤ I.N

theorem GIn.Ok.gs_pos {I : GIn} (h : I.Ok) : 0 < I.gs := by
  have h1 := h.left; have h2 := h.mid; have h3 := h.right
  have : (0 : ℝ) < I.N := by exact_mod_cast h.grid
  exact div_pos (by linarith) this

theorem GIn.Ok.gs_mul {I : GIn} (h : I.Ok) : I.N * I.gs = I.b - I.a := by
  have : (0 : ℝ) < I.N := by exact_mod_cast h.grid
  rw [GIn.gs]; field_simp

/-- Accepted filters: the break points and the outcome of the evaluation. -/
structure Acc (I : GIn) (pe : ℕ → Arr → ℝ → ℝ) (iv : Arr) (yl : ℝ) : Prop where
  part : IsPartition I.a I.a1 I.b1 I.b I.np iv
  lo : (gEval I (fun x => 1 - pe I.np iv x)).lo = yl
  noL : (gEval I (fun x => 1 - pe I.np iv x)).stepL = false
  noR : (gEval I (fun x => 1 - pe I.np iv x)).stepR = false

structure GInv (I : GIn) (pe : ℕ → Arr → ℝ → ℝ) (s : GSt) : Prop where
  z1 : s.z1 < I.a1
  z2 : I.b1 < s.z2
  lD : 0 < s.lD
  rD : 0 < s.rD
  h : 0 < s.h
  h2 : 2 * s.h < I.b1 - I.a1
  acc : s.ok ≠ 0 → Acc I pe s.best s.yl

theorem gInit_inv (I : GIn) (pe : ℕ → Arr → ℝ → ℝ) (hI : I.Ok) : GInv I pe (gInit I) := by
  have h := hI.mid
  refine ⟨?_, ?_, ?_, ?_, ?_, ?_, fun h => absurd rfl h⟩ <;> simp only [gInit] <;> linarith

theorem gClamp_inv (I : GIn) (pe : ℕ → Arr → ℝ → ℝ) (hI : I.Ok) (s : GSt) (hs : GInv I pe s) :
    GInv I pe (gClamp I s) ∧ I.a ≤ (gClamp I s).z1 ∧ (I.two = true → (gClamp I s).z2 ≤ I.b) := by
  have hl : GInv I pe (if s.z1 ≤ I.a then { s with z1 := I.a, lMet := true } else s) ∧
      I.a ≤ (if s.z1 ≤ I.a then { s with z1 := I.a, lMet := true } else s).z1 := by
    by_cases h : s.z1 ≤ I.a
    · rw [if_pos h]
      exact ⟨⟨hI.left, hs.z2, hs.lD, hs.rD, hs.h, hs.h2, hs.acc⟩, le_rfl⟩
    · rw [if_neg h]; exact ⟨hs, (not_le.1 h).le⟩
  rw [gClamp]
  generalize (if s.z1 ≤ I.a then { s with z1 := I.a, lMet := true } else s) = t at hl
  by_cases h : I.two ∧ I.b ≤ t.z2
  · simp only [if_pos h]
    have : I.b1 < I.b := lt_of_le_of_ne hI.right (Ne.symm (hI.two.1 h.1))
    exact ⟨⟨hl.1.z1, this, hl.1.lD, hl.1.rD, hl.1.h, hl.1.h2, hl.1.acc⟩, hl.2, fun _ => le_rfl⟩
  · simp only [if_neg h]
    exact ⟨hl.1, hl.2, fun h2 => (not_le.1 (fun hc => h ⟨h2, hc⟩)).le⟩

theorem gIntv_part (I : GIn) (pe : ℕ → Arr → ℝ → ℝ) (hI : I.Ok) (s : GSt) (hs : GInv I pe s) (h1 : I.a ≤ s.z1)
    (h2 : I.two = true → s.z2 ≤ I.b) : IsPartition I.a I.a1 I.b1 I.b I.np (gIntv I pe s) := by
  have e1 := hs.z1; have e2 := hs.z2; have e3 := hs.h; have e4 := hs.h2; have e5 := hI.mid; have e6 := hI.right
  by_cases ht : I.two = true
  · have hb := hI.two.1 ht
    rw [gIntv, if_pos ht]
    dsimp only
    obtain ⟨c, hc⟩ : ∃ c, c = bis (fun c => pe 6 (mk6 I.a s.z1 (c - s.h) (c + s.h) s.z2 I.b) I.b1 - pe 6 (mk6 I.a s.z1 (c - s.h) (c + s.h) s.z2 I.b) I.a1) 30 (s.z1 + s.h) (s.z2 - s.h)
      (pe 6 (mk6 I.a s.z1 (s.z2 - s.h - s.h) s.z2 s.z2 I.b) I.b1 - pe 6 (mk6 I.a s.z1 (s.z2 - s.h - s.h) s.z2 s.z2 I.b) I.a1) := ⟨_, rfl⟩
    rw [← hc]
    have hm := bis_mem (fun c => pe 6 (mk6 I.a s.z1 (c - s.h) (c + s.h) s.z2 I.b) I.b1 - pe 6 (mk6 I.a s.z1 (c - s.h) (c + s.h) s.z2 I.b) I.a1) 30 (s.z1 + s.h) (s.z2 - s.h)
      (pe 6 (mk6 I.a s.z1 (s.z2 - s.h - s.h) s.z2 s.z2 I.b) I.b1 - pe 6 (mk6 I.a s.z1 (s.z2 - s.h - s.h) s.z2 s.z2 I.b) I.a1) (by linarith)
    rw [← hc] at hm
    refine ⟨by rw [GIn.np, if_pos ht, if_neg hb], rfl, by rw [GIn.np, if_pos ht]; rfl, ⟨h1, e1⟩, ⟨?_, ?_⟩, fun _ => ⟨?_, e2, h2 ht⟩⟩
    · show s.z1 < c - s.h; linarith [hm.1]
    · show c - s.h < c + s.h; linarith
    · show c + s.h < s.z2; linarith [hm.2]
  · have hb : I.b = I.b1 := by by_contra hc; exact ht (hI.two.2 hc)
    rw [gIntv, if_neg ht]
    refine ⟨by rw [GIn.np, if_neg ht, if_pos hb], rfl, by rw [GIn.np, if_neg ht]; rfl, ⟨h1, e1⟩, ⟨?_, ?_⟩, fun h => absurd hb h⟩
    · show s.z1 < s.z1 + (I.b1 - s.z1) * (3 / 5); linarith
    · show s.z1 + (I.b1 - s.z1) * (3 / 5) < I.b; linarith

theorem gStep_inv (I : GIn) (pe : ℕ → Arr → ℝ → ℝ) (hI : I.Ok) (s t : GSt) (l r : Bool) (hs : GInv I pe s)
    (h : gStep I s l r = some t) : GInv I pe t := by
  have hsq : 1 ≤ √(3 / 2 : ℝ) := Real.one_le_sqrt.2 (by norm_num)
  rw [gStep] at h
  by_cases h0 : s.lMet = true ∧ (¬ I.two = true ∨ s.rMet = true)
  · rw [if_pos h0] at h; cases h
  rw [if_neg h0] at h
  dsimp only at h
  generalize (if s.rMet = true ∧ (if s.lMet = true ∧ l = true then (false, true) else (l, r)).2 = true then (true, false)
    else if s.lMet = true ∧ l = true then (false, true) else (l, r)) = p at h
  obtain ⟨u, hu⟩ : ∃ u, u = (if p.1 = true then
    { s with lD := if I.two = true then s.lD * (3 / 2) else s.lD, z1 := s.z1 - if I.two = true then s.lD * (3 / 2) else s.lD } else s) := ⟨_, rfl⟩
  rw [← hu] at h
  have iu : GInv I pe u := by
    rw [hu]
    by_cases hp : p.1 = true
    · rw [if_pos hp]
      have hd : 0 < (if I.two = true then s.lD * (3 / 2) else s.lD) := by
        by_cases h2 : I.two = true
        · rw [if_pos h2]; linarith [hs.lD]
        · rw [if_neg h2]; exact hs.lD
      exact ⟨by show s.z1 - _ < _; linarith [hs.z1], hs.z2, hd, hs.rD, hs.h, hs.h2, hs.acc⟩
    · rw [if_neg hp]; exact hs
  obtain ⟨v, hv⟩ : ∃ v, v = (if p.2 = true then { u with rD := u.rD * (3 / 2), z2 := u.z2 + u.rD * (3 / 2) } else u) := ⟨_, rfl⟩
  rw [← hv] at h
  have iv : GInv I pe v := by
    rw [hv]
    by_cases hp : p.2 = true
    · rw [if_pos hp]
      exact ⟨iu.z1, by show _ < u.z2 + u.rD * (3 / 2); linarith [iu.z2, iu.rD], iu.lD, by show 0 < u.rD * (3 / 2); linarith [iu.rD], iu.h, iu.h2, iu.acc⟩
    · rw [if_neg hp]; exact iu
  have ht := Option.some.inj h
  rw [← ht]
  by_cases h2 : I.two = true
  · rw [if_pos h2]
    have hd : 0 < (if p.1 = true ∧ p.2 = true then v.h / (3 / 2) else v.h / √(3 / 2)) ∧ (if p.1 = true ∧ p.2 = true then v.h / (3 / 2) else v.h / √(3 / 2)) ≤ v.h := by
      have := iv.h
      by_cases h3 : p.1 = true ∧ p.2 = true
      · rw [if_pos h3]; constructor <;> linarith
      · rw [if_neg h3]
        exact ⟨div_pos this (by linarith), div_le_self this.le hsq⟩
    exact ⟨iv.z1, iv.z2, iv.lD, iv.rD, hd.1, by show 2 * _ < _; linarith [iv.h2, hd.2], iv.acc⟩
  · rw [if_neg h2]; exact iv

theorem gIter_inv (I : GIn) (pe : ℕ → Arr → ℝ → ℝ) (hI : I.Ok) (s : GSt) (hs : GInv I pe s) : GInv I pe (gIter I pe s).1 := by
  obtain ⟨i1, i2, i3⟩ := gClamp_inv I pe hI s hs
  have hp := gIntv_part I pe hI _ i1 i2 i3
  rw [gIter]
  generalize gClamp I s = t at i1 i2 i3 hp
  obtain ⟨iv, hiv⟩ : ∃ iv, iv = gIntv I pe t := ⟨_, rfl⟩
  rw [← hiv] at hp
  simp only [← hiv]
  have step : ∀ (u : GSt) (l r : Bool), GInv I pe u → GInv I pe (match gStep I u l r with | none => (u, false) | some t => (t, true)).1 := by
    intro u l r hu
    cases hg : gStep I u l r with
    | none => exact hu
    | some t => exact gStep_inv I pe hI u t l r hu hg
  by_cases h1 : ((gEval I fun x => 1 - pe I.np iv x).stepL || (gEval I fun x => 1 - pe I.np iv x).stepR) = true
  · rw [if_pos h1]; exact step _ _ _ i1
  rw [if_neg h1]
  have h1' : (gEval I fun x => 1 - pe I.np iv x).stepL = false ∧ (gEval I fun x => 1 - pe I.np iv x).stepR = false := by
    simpa using h1
  have hacc : Acc I pe iv (gEval I fun x => 1 - pe I.np iv x).lo := ⟨hp, rfl, h1'.1, h1'.2⟩
  generalize (1 - ((gEval I fun x => 1 - pe I.np iv x).lo - (gEval I fun x => 1 - pe I.np iv x).bottom) /
    ((gEval I fun x => 1 - pe I.np iv x).hi - (gEval I fun x => 1 - pe I.np iv x).bottom)) = q
  by_cases h2 : t.ok = 0 ∨ t.q < q
  · rw [if_pos h2]
    exact step _ _ _ ⟨i1.z1, i1.z2, i1.lD, i1.rD, i1.h, i1.h2, fun _ => hacc⟩
  rw [if_neg h2]
  have h3 : t.ok ≠ 0 := fun h => h2 (Or.inl h)
  by_cases h4 : t.more + 1 = 4
  · rw [if_pos h4]
    exact ⟨i1.z1, i1.z2, i1.lD, i1.rD, i1.h, i1.h2, fun _ => i1.acc h3⟩
  · rw [if_neg h4]
    exact step _ _ _ ⟨i1.z1, i1.z2, i1.lD, i1.rD, i1.h, i1.h2, fun _ => i1.acc h3⟩

theorem gLoop_inv (I : GIn) (pe : ℕ → Arr → ℝ → ℝ) (hI : I.Ok) : ∀ (n : ℕ) (s : GSt), GInv I pe s → GInv I pe (gLoop I pe n s) := by
  intro n
  induction n with
  | zero => intro s h; exact h
  | succ n ih =>
    intro s h
    rw [gLoop]
    have hi := gIter_inv I pe hI s h
    by_cases h1 : (gIter I pe s).2 = true
    · simp only [if_pos h1]; exact ih _ hi
    · simp only [if_neg h1]; exact hi

theorem gEval_acc (I : GIn) (hI : I.Ok) (F : ℝ → ℝ) (hl : (gEval I F).stepL = false) (hr : (gEval I F).stepR = false) :
    IsGridMin I.a1 I.b1 I.gs F (gEval I F).lo ∧ ((gEval I F).lo = F I.a1 ∨ (gEval I F).lo = F I.b1) ∧
    1 / 1000 ≤ (gEval I F).lo ∧ (I.b ≠ I.b1 → |F I.a1 - F I.b1| ≤ 1 / 10000) ∧
    RippleOk (fun k => F (I.a1 - k * I.gs)) (fun k => I.a ≤ I.a1 - k * I.gs) ((gEval I F).lo * (4 / 5)) ∧
    (I.b ≠ I.b1 → RippleOk (fun k => F (I.b1 + k * I.gs)) (fun k => I.b1 + k * I.gs ≤ I.b) ((gEval I F).lo * (4 / 5))) := by
  have e1 := hI.left; have e2 := hI.mid; have e3 := hI.right; have e4 := hI.gs_pos; have e5 := hI.gs_mul
  obtain ⟨lo, hlo⟩ : ∃ lo, lo = (gEval I F).lo := ⟨_, rfl⟩
  have hlo' : lo = (minScan (fun k => F (I.a1 + k * I.gs)) (fun k => I.a1 + k * I.gs < I.b1) I.N 0
    (if F I.a1 < F I.b1 then F I.a1 else F I.b1) (if F I.a1 > F I.b1 then F I.a1 else F I.b1)).1 := hlo
  have hcast : ∀ i j : ℕ, i ≤ j → (i : ℝ) * I.gs ≤ j * I.gs := fun i j h =>
    mul_le_mul_of_nonneg_right (by exact_mod_cast h) e4.le
  obtain ⟨m1, m2, m3⟩ := minScan_spec (fun k => F (I.a1 + k * I.gs)) (fun k => I.a1 + k * I.gs < I.b1)
    (fun i j h h' => lt_of_le_of_lt (by linarith [hcast i j h]) h') I.N 0
    (if F I.a1 < F I.b1 then F I.a1 else F I.b1) (if F I.a1 > F I.b1 then F I.a1 else F I.b1)
  rw [← hlo'] at m1 m2 m3
  rw [← hlo]
  rw [gEval] at hl hr
  simp only [← hlo'] at hl hr
  rw [Bool.or_eq_false_iff] at hl hr
  obtain ⟨l1, l2⟩ := hl
  obtain ⟨r1, r2⟩ := hr
  have bad : ¬ ((lo < F I.a1 ∧ lo < F I.b1) ∨ lo < 1 / 1000) := by
    intro hb
    rw [if_pos hb] at l1
    cases l1
  rw [if_neg bad] at l1 r1
  have mle : lo ≤ F I.a1 ∧ lo ≤ F I.b1 := by
    by_cases h : F I.a1 < F I.b1
    · rw [if_pos h] at m1; exact ⟨m1, m1.trans h.le⟩
    · rw [if_neg h] at m1; exact ⟨m1.trans (not_lt.1 h), m1⟩
  have hend : lo = F I.a1 ∨ lo = F I.b1 := by
    by_contra hc
    rw [not_or] at hc
    exact bad (Or.inl ⟨lt_of_le_of_ne mle.1 hc.1, lt_of_le_of_ne mle.2 hc.2⟩)
  refine ⟨⟨?_, ?_⟩, hend, not_lt.1 (fun h => bad (Or.inr h)), fun hb => ?_, ?_, fun hb => ?_⟩
  · rcases hend with h | h
    · exact ⟨I.a1, Or.inl rfl, h⟩
    · exact ⟨I.b1, Or.inr (Or.inl rfl), h⟩
  · rintro y ⟨x, h | h | ⟨k, hk1, hk2, hk3⟩, rfl⟩
    · rw [h]; exact mle.1
    · rw [h]; exact mle.2
    · rw [hk2]
      refine m3 k (by omega) ?_ (by rw [← hk2]; exact hk3)
      by_contra hc
      have := hcast I.N k (by omega)
      linarith
  · have ht := hI.two.2 hb
    rw [ht] at l1 r1
    by_cases h : F I.a1 < F I.b1
    · simp only [h, decide_true, Bool.true_and, decide_eq_false_iff_not, not_lt] at l1
      rw [abs_of_neg (by linarith)]; linarith
    · simp only [h, decide_false, Bool.not_false, Bool.true_and, decide_eq_false_iff_not, not_lt] at r1
      rw [abs_of_nonneg (by linarith)]; linarith
  · refine sideScan_spec _ _ _ (I.N + 1) (fun i j h h' => by have := hcast i j h; linarith) (by omega) ?_ (by simpa using l2)
    rw [not_le]; push_cast; linarith
  · have ht := hI.two.2 hb
    rw [ht] at r2
    refine sideScan_spec _ _ _ (I.N + 1) (fun i j h h' => by have := hcast i j h; linarith) (by omega) ?_ (by simpa using r2)
    rw [not_le]; push_cast; linarith

end Verif.Filt
