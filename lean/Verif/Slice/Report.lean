import Verif.Slice.Run
import Verif.Slice.Parts
/-! Lemmas on the reported shifts and on the result of one partition. -/
set_option linter.all false
namespace Verif.Slice
noncomputable section
open Classical

theorem exPass_perm (x : ℝ × ℤ) (l : List (ℝ × ℤ)) : ((exPass x l).1 :: (exPass x l).2).Perm (x :: l) := by
  induction l generalizing x with
  | nil => exact List.Perm.refl _
  | cons y t ih =>
    unfold exPass
    by_cases h : y.1 < x.1
    · rw [if_pos h]
      exact ((List.Perm.swap _ _ _).trans ((ih y).cons x))
    · rw [if_neg h]
      exact (List.Perm.swap _ _ _).trans (((ih x).cons y).trans (List.Perm.swap _ _ _))

theorem exPass_le (x : ℝ × ℤ) (l : List (ℝ × ℤ)) : (exPass x l).1.1 ≤ x.1 ∧ ∀ y ∈ (exPass x l).2, (exPass x l).1.1 ≤ y.1 := by
  induction l generalizing x with
  | nil => exact ⟨le_refl _, fun y hy => by cases hy⟩
  | cons y t ih =>
    unfold exPass
    by_cases h : y.1 < x.1
    · rw [if_pos h]
      obtain ⟨h1, h2⟩ := ih y
      refine ⟨by linarith, fun z hz => ?_⟩
      rcases List.mem_cons.mp hz with rfl | hz
      · show (exPass y t).1.1 ≤ _; linarith
      · exact h2 z hz
    · rw [if_neg h]
      obtain ⟨h1, h2⟩ := ih x
      refine ⟨h1, fun z hz => ?_⟩
      rcases List.mem_cons.mp hz with rfl | hz
      · show (exPass x t).1.1 ≤ _; linarith
      · exact h2 z hz

theorem exSort_spec (n : ℕ) (l : List (ℝ × ℤ)) (h : l.length ≤ n) :
    (exSort n l).Perm l ∧ (exSort n l).Pairwise (fun x y => x.1 ≤ y.1) := by
  induction n generalizing l with
  | zero =>
    have : l = [] := List.length_eq_zero_iff.mp (by omega)
    subst this
    exact ⟨List.Perm.refl _, List.Pairwise.nil⟩
  | succ n ih =>
    cases l with
    | nil => exact ⟨List.Perm.refl _, List.Pairwise.nil⟩
    | cons x t =>
      unfold exSort
      have hp := exPass_perm x t
      have hl : (exPass x t).2.length ≤ n := by
        have := hp.length_eq
        simp at this h
        omega
      obtain ⟨i1, i2⟩ := ih _ hl
      refine ⟨(i1.cons _).trans hp, ?_⟩
      rw [List.pairwise_cons]
      exact ⟨fun y hy => (exPass_le x t).2 y (i1.mem_iff.mp hy), i2⟩

/-- Sorting a list that is strictly ordered in one direction. -/
theorem exSort_strict (d : ℤ) (hd : d = 1 ∨ d = -1) (l : List (ℝ × ℤ)) (h : l.Pairwise (fun x y => 0 < (d : ℝ) * (y.1 - x.1))) :
    (exSort l.length l).Perm l ∧ (exSort l.length l).Pairwise (fun x y => x.1 < y.1) := by
  obtain ⟨h1, h2⟩ := exSort_spec l.length l (le_refl _)
  refine ⟨h1, ?_⟩
  have hne : l.Pairwise (fun x y => x.1 ≠ y.1) := h.imp (fun {x y} hxy he => by rw [he] at hxy; simp at hxy)
  have hne2 : (exSort l.length l).Pairwise (fun x y => x.1 ≠ y.1) :=
    (h1.symm.pairwise_iff (fun {x y} hxy => fun he => hxy he.symm)).mp hne
  exact (h2.and hne2).imp (fun hxy => lt_of_le_of_ne hxy.1 hxy.2)

theorem head_min (L : List (ℝ × ℤ)) (h : L.Pairwise (fun x y => x.1 < y.1)) (a : ℝ) (ha : ∃ x ∈ L, x.1 = a) (hm : ∀ x ∈ L, a ≤ x.1) :
    L.head?.map Prod.fst = some a := by
  cases L with
  | nil => obtain ⟨x, hx, -⟩ := ha; cases hx
  | cons y t =>
    obtain ⟨x, hx, hxa⟩ := ha
    rw [List.pairwise_cons] at h
    have h1 := hm y List.mem_cons_self
    rcases List.mem_cons.mp hx with rfl | hx
    · simp [hxa]
    · have := h.1 x hx
      linarith

theorem last_max (L : List (ℝ × ℤ)) (h : L.Pairwise (fun x y => x.1 < y.1)) (a : ℝ) (ha : ∃ x ∈ L, x.1 = a) (hm : ∀ x ∈ L, x.1 ≤ a) :
    L.getLast?.map Prod.fst = some a := by
  rcases List.eq_nil_or_concat L with rfl | ⟨T, y, rfl⟩
  · obtain ⟨x, hx, -⟩ := ha; cases hx
  · obtain ⟨x, hx, hxa⟩ := ha
    rw [List.concat_eq_append] at h hx hm ⊢
    rw [List.pairwise_append] at h
    have h1 := hm y (by simp)
    rcases List.mem_append.mp hx with hx | hx
    · have := h.2.2 x hx y (by simp)
      linarith
    · rw [List.mem_singleton] at hx
      subst hx
      simp [hxa]

section
variable {P : Par} {spec : Multiset ℝ} {S : SR}

theorem getD_last (l : List (ℝ × ℤ)) (x : ℝ × ℤ) : (l ++ [x]).getD ((l ++ [x]).length - 1) (0, 0) = x := by
  simp [List.getD_eq_getElem?_getD]

theorem getD_prev (l : List (ℝ × ℤ)) (y x : ℝ × ℤ) : ((l ++ [y]) ++ [x]).getD (((l ++ [y]) ++ [x]).length - 2) (0, 0) = y := by
  simp [List.getD_eq_getElem?_getD]

/-- What `EPSSliceGetInertias` returns at the end of a run. -/
structure Reported (P : Par) (spec : Multiset ℝ) (lo hi : ℝ) (L : List (ℝ × ℤ)) : Prop where
  inc : L.Pairwise (fun x y => x.1 < y.1)
  first : L.head?.map Prod.fst = some lo
  last : L.getLast?.map Prod.fst = some hi
  count : ∀ x ∈ L, x.2 = (spec.countP (fun l => l < x.1) : ℤ)

theorem pair_trans (d : ℤ) (l : List (ℝ × ℤ)) (h : l.IsChain (fun x y => 0 < (d : ℝ) * (y.1 - x.1))) :
    l.Pairwise (fun x y => 0 < (d : ℝ) * (y.1 - x.1)) := by
  haveI : IsTrans (ℝ × ℤ) (fun x y => 0 < (d : ℝ) * (y.1 - x.1)) := ⟨fun x y z h1 h2 => by nlinarith⟩
  exact List.isChain_iff_pairwise.mp h

theorem reported_spec (E : Env P spec S) {st : St} {next : ℕ} {K : Multiset ℝ} (h : PI P spec S (chain st) [] next K) (hlt : S.int0 ≠ S.int1) :
    Reported P spec (min S.int0 S.int1) (max S.int0 S.int1) (getInertias S st) := by
  obtain ⟨s0, T, hC, hv0⟩ := h.hd
  have hg : ∀ e ∈ chain st, Good P spec e := fun e he => (h.bad e he).resolve_right (by simp)
  -- the list before sorting
  have key : ∃ D, dropDup (shiftsRaw S st) = D ∧ D.Pairwise (fun x y => 0 < (S.dir : ℝ) * (y.1 - x.1))
      ∧ (∃ x ∈ D, x.1 = S.int0) ∧ (∃ x ∈ D, x.1 = S.int1) ∧ (∀ x ∈ D, 0 ≤ (S.dir : ℝ) * (x.1 - S.int0) ∧ 0 ≤ (S.dir : ℝ) * (S.int1 - x.1))
      ∧ ∀ x ∈ D, x.2 = (spec.countP (fun l => l < x.1) : ℤ) := by
    obtain ⟨f, hf⟩ : ∃ f : Shift → ℝ × ℤ, f = fun e => (e.value, e.inertia) := ⟨_, rfl⟩
    have hCl : (chain st).IsChain (fun u v => 0 < (S.dir : ℝ) * (v.value - u.value)) := h.lt
    have hmapC : ((chain st).map f).IsChain (fun x y => 0 < (S.dir : ℝ) * (y.1 - x.1)) := by
      rw [List.isChain_map]
      rw [hf]
      exact hCl
    have hcount : ∀ x ∈ (chain st).map f, x.2 = (spec.countP (fun l => l < x.1) : ℤ) := by
      intro x hx
      obtain ⟨e, he, rfl⟩ := List.mem_map.mp hx
      rw [hf]
      show e.inertia = _
      rw [(hg e he).2, inertiaAt_eq E.hyp _ (hg e he).1]
    have hi0 : ∃ x ∈ (chain st).map f, x.1 = S.int0 := by
      refine ⟨f s0, List.mem_map.mpr ⟨s0, by rw [hC]; simp, rfl⟩, ?_⟩
      rw [hf]; exact hv0
    have hraw : shiftsRaw S st = (chain st).map f ++ [(S.int1, S.inertia1)] := by rw [hf]; rfl
    have hle : ∀ e ∈ chain st, 0 ≤ (S.dir : ℝ) * (e.value - S.int0) ∧ 0 ≤ (S.dir : ℝ) * (S.int1 - e.value) := by
      have hch : (chain st ++ [sent S]).IsChain (fun u v => 0 ≤ (S.dir : ℝ) * (v.value - u.value)) :=
        List.IsChain.imp (fun u v hr => hr.le) h.ch
      haveI : IsTrans Shift (fun u v => 0 ≤ (S.dir : ℝ) * (v.value - u.value)) := ⟨fun x y z h1 h2 => by nlinarith⟩
      have hpw := List.isChain_iff_pairwise.mp hch
      intro e he
      constructor
      · rw [List.pairwise_append] at hpw
        have := hpw.1
        rw [hC, List.pairwise_cons] at this
        rw [hC] at he
        rcases List.mem_cons.mp he with rfl | he
        · rw [hv0]; simp
        · have := this.1 e he; rw [hv0] at this; exact this
      · rw [List.pairwise_append] at hpw
        exact hpw.2.2 e he (sent S) (by simp)
    obtain ⟨Z, z, hZ⟩ : ∃ Z z, chain st = Z ++ [z] := by
      rcases List.eq_nil_or_concat (chain st) with h0 | ⟨Z, z, hz⟩
      · rw [h0] at hC; cases hC
      · exact ⟨Z, z, by rw [hz, List.concat_eq_append]⟩
    have hd1 : dropDup (shiftsRaw S st) = if S.int1 = z.value then (chain st).map f else (chain st).map f ++ [(S.int1, S.inertia1)] := by
      unfold dropDup
      rw [hraw, getD_last]
      have : (chain st).map f ++ [(S.int1, S.inertia1)] = (Z.map f ++ [f z]) ++ [(S.int1, S.inertia1)] := by rw [hZ]; simp
      rw [this, getD_prev]
      rw [← this, List.dropLast_concat]
      have hfz : (f z).1 = z.value := by rw [hf]
      simp only [hfz]
    have hzmem : z ∈ chain st := by rw [hZ]; simp
    by_cases hz : S.int1 = z.value
    · rw [if_pos hz] at hd1
      refine ⟨_, hd1, pair_trans _ _ hmapC, hi0, ⟨f z, List.mem_map.mpr ⟨z, hzmem, rfl⟩, by rw [hf]; exact hz.symm⟩, ?_, hcount⟩
      intro x hx
      obtain ⟨e, he, rfl⟩ := List.mem_map.mp hx
      rw [hf]
      exact hle e he
    · rw [if_neg hz] at hd1
      refine ⟨_, hd1, pair_trans _ _ ?_, ?_, ⟨(S.int1, S.inertia1), by simp, rfl⟩, ?_, ?_⟩
      · rw [List.isChain_append]
        refine ⟨hmapC, List.isChain_singleton _, ?_⟩
        intro x hx y hy
        simp at hy
        rw [hZ] at hx
        simp at hx
        rw [← hx, ← hy, hf]
        have := (hle z hzmem).2
        show 0 < (S.dir : ℝ) * (S.int1 - z.value)
        rcases lt_or_eq_of_le this with h1 | h1
        · exact h1
        · exfalso
          rcases E.hd with hd | hd <;> rw [hd] at h1 <;> push_cast at h1 <;> exact hz (by linarith)
      · obtain ⟨x, hx, hx2⟩ := hi0
        exact ⟨x, List.mem_append_left _ hx, hx2⟩
      · intro x hx
        rcases List.mem_append.mp hx with hx | hx
        · obtain ⟨e, he, rfl⟩ := List.mem_map.mp hx
          rw [hf]
          exact hle e he
        · rw [List.mem_singleton] at hx
          subst hx
          exact ⟨E.ord, by simp⟩
      · intro x hx
        rcases List.mem_append.mp hx with hx | hx
        · exact hcount x hx
        · rw [List.mem_singleton] at hx
          subst hx
          show S.inertia1 = _
          rw [E.n1, inertiaAt_eq E.hyp _ E.i1]
  obtain ⟨D, hD, k1, k2, k3, k4, k5⟩ := key
  unfold getInertias
  rw [hD]
  dsimp only
  obtain ⟨p1, p2⟩ := exSort_strict S.dir E.hd D k1
  have mem : ∀ x, x ∈ exSort D.length D ↔ x ∈ D := fun x => p1.mem_iff
  have ho := E.ord
  refine ⟨p2, ?_, ?_, fun x hx => k5 x ((mem x).mp hx)⟩
  · apply head_min _ p2
    · rcases E.hd with hd | hd <;> rw [hd] at ho <;> push_cast at ho
      · rw [min_eq_left (by linarith)]
        obtain ⟨x, hx, hx2⟩ := k2
        exact ⟨x, (mem x).mpr hx, hx2⟩
      · rw [min_eq_right (by linarith)]
        obtain ⟨x, hx, hx2⟩ := k3
        exact ⟨x, (mem x).mpr hx, hx2⟩
    · intro x hx
      have := k4 x ((mem x).mp hx)
      rcases E.hd with hd | hd <;> rw [hd] at ho this <;> push_cast at ho this
      · rw [min_eq_left (by linarith)]; linarith
      · rw [min_eq_right (by linarith)]; linarith
  · apply last_max _ p2
    · rcases E.hd with hd | hd <;> rw [hd] at ho <;> push_cast at ho
      · rw [max_eq_right (by linarith)]
        obtain ⟨x, hx, hx2⟩ := k3
        exact ⟨x, (mem x).mpr hx, hx2⟩
      · rw [max_eq_left (by linarith)]
        obtain ⟨x, hx, hx2⟩ := k2
        exact ⟨x, (mem x).mpr hx, hx2⟩
    · intro x hx
      have := k4 x ((mem x).mp hx)
      rcases E.hd with hd | hd <;> rw [hd] at ho this <;> push_cast at ho this
      · rw [max_eq_right (by linarith)]; linarith
      · rw [max_eq_left (by linarith)]; linarith

/-- The result of one partition. -/
structure LocalRes (P : Par) (spec : Multiset ℝ) (S : SR) (st : St) : Prop where
  eig : (st.eigr : Multiset ℝ) = spec.filter (btw S.dir S.int0 S.int1)
  perm : st.perm.Perm (List.range st.eigr.length)
  len : (st.eigr.length : ℤ) = S.numEigs
  asc : (st.perm.map (at' st.eigr)).Pairwise (· ≤ ·)
  rep : S.int0 ≠ S.int1 → Reported P spec (min S.int0 S.int1) (max S.int0 S.int1) (getInertias S st)

theorem local_spec (E : Env P spec S) (cs : List (List ℝ)) (hL : Legal P spec S cs (start S)) (st : St)
    (hst : solveLocal P spec S cs = .ok st) : LocalRes P spec S st := by
  have hnum : S.numEigs = ((spec.filter (btw S.dir S.int0 S.int1)).card : ℤ) := by
    rw [E.num, ← Multiset.countP_eq_card_filter, E.n0, E.n1]
    exact inertia_diff E.hyp S.dir E.hd S.int0 S.int1 E.ord E.i0 E.i1
  unfold solveLocal at hst
  by_cases hz : S.numEigs = 0
  · rw [if_pos hz] at hst
    injection hst with hst
    subst hst
    have h0 : (spec.filter (btw S.dir S.int0 S.int1)).card = 0 := by omega
    rw [Multiset.card_eq_zero] at h0
    refine ⟨by rw [h0]; rfl, List.Perm.refl _, by rw [hz]; rfl, List.Pairwise.nil, fun hne => ?_⟩
    refine reported_spec E (next := 2) (K := 0) ⟨List.nil_sublist _, (start_inv E).pi.nd, (start_inv E).pi.ids, ?_, ?_, (start_inv E).pi.hd, Multiset.zero_le _, (start_inv E).pi.lt⟩ hne
    · show List.IsChain _ [_, _]
      rw [List.isChain_pair]
      refine ⟨E.ord, fun hh => by simp at hh, Or.inl ?_⟩
      unfold Complete
      rw [Multiset.countP_zero]
      symm
      rw [Multiset.countP_eq_card_filter]
      show (spec.filter (btw S.dir S.int0 S.int1)).card = 0
      rw [h0]; rfl
    · intro e he
      have he' : e ∈ [(⟨1, S.int0, S.inertia0, 0, 0⟩ : Shift)] := he
      rw [List.mem_singleton] at he'
      subst he'
      exact Or.inl ⟨E.i0, E.n0⟩
  · rw [if_neg hz] at hst
    obtain ⟨sf, hl, hst⟩ := R.bind_ok hst
    injection hst with hst
    obtain ⟨hp, ho⟩ := loop_spec E cs (start_inv E) hL sf hl
    have hK := PI_final E hp
    have heig : st.eigr = sf.eigr := by rw [← hst]
    have hperm : st.perm = if S.dir < 0 then sf.perm.reverse else sf.perm := by rw [← hst]
    have hchain : chain st = chain sf := by rw [← hst]; rfl
    refine ⟨by rw [heig]; exact hK, ?_, by rw [hnum, ← hK, heig]; rfl, ?_, fun hne => ?_⟩
    · rw [hperm, heig]
      split_ifs
      · exact (List.reverse_perm _).trans ho.perm
      · exact ho.perm
    · rw [hperm, heig]
      have hs := ho.srt
      unfold Srt at hs
      rcases E.hd with hd | hd
      · rw [hd, if_neg (by decide)]
        rw [hd] at hs
        exact hs.imp (fun h => by push_cast at h; linarith)
      · rw [hd, if_pos (by decide), List.map_reverse, List.pairwise_reverse]
        rw [hd] at hs
        exact hs.imp (fun h => by push_cast at h; linarith)
    · have := reported_spec E hp hne
      unfold getInertias shiftsRaw at this ⊢
      rw [hchain]
      exact this

end
end
end Verif.Slice
