import Verif.SVD.OrderSpec
import Mathlib.Data.List.Sort
import Mathlib.Data.Fin.Tuple.Sort
import Mathlib.Data.Fintype.Card
import Mathlib.Tactic

/-!
# C40: triplets come back in the requested order and with the right sides
-/
set_option linter.all false

namespace Verif.SVD

variable {𝕜 : Type*} [RCLike 𝕜]

/-- Indices outside `0..nconv-1` are rejected, all others are answered. -/
theorem C40_index (OP : Mat 𝕜) (s : Solved 𝕜) (p : ℕ → ℕ) (i : ℤ) :
    (getTriplet OP s p i).isSome = true ↔ 0 ≤ i ∧ i < s.nconv := by
  unfold getTriplet
  by_cases h : i < 0
  · rw [if_pos h]; simp; omega
  · rw [if_neg h]
    by_cases h2 : (s.nconv : ℤ) ≤ i
    · rw [if_pos h2]; simp; omega
    · rw [if_neg h2]
      by_cases h3 : OP.r < OP.c
      · simp [h3]; omega
      · simp [h3]; omega

theorem getTriplet_value (OP : Mat 𝕜) (s : Solved 𝕜) (p : ℕ → ℕ) (i : ℕ) (sg : ℝ) (u v : ℕ → 𝕜)
    (h : getTriplet OP s p i = some (sg, u, v)) : i < s.nconv ∧ sg = s.sigma (p i) := by
  have h0 := (C40_index OP s p i).1 (by rw [h]; rfl)
  unfold getTriplet at h
  rw [if_neg (by omega), if_neg (by omega)] at h
  refine ⟨by omega, ?_⟩
  by_cases h3 : OP.r < OP.c
  · simp [h3] at h; exact h.1.symm
  · simp [h3] at h; exact h.1.symm

/-- Largest: the values are returned in non-increasing order of the user's index. -/
theorem C40_order_largest (srt) (hs : SortContract srt) (OP : Mat 𝕜) (s : Solved 𝕜) (i j : ℕ) (hij : i ≤ j)
    (a b : ℝ) (u v u' v' : ℕ → 𝕜)
    (hi : getTriplet OP s (perm srt .largest s.nconv s.sigma) i = some (a, u, v))
    (hj : getTriplet OP s (perm srt .largest s.nconv s.sigma) j = some (b, u', v')) : b ≤ a := by
  obtain ⟨h1, rfl⟩ := getTriplet_value _ _ _ _ _ _ _ hi
  obtain ⟨h2, rfl⟩ := getTriplet_value _ _ _ _ _ _ _ hj
  exact hs.sorted _ _ _ _ _ (by omega) (by omega)

/-- Smallest: the values are returned in non-decreasing order. -/
theorem C40_order_smallest (srt) (hs : SortContract srt) (OP : Mat 𝕜) (s : Solved 𝕜) (i j : ℕ) (hij : i ≤ j)
    (a b : ℝ) (u v u' v' : ℕ → 𝕜)
    (hi : getTriplet OP s (perm srt .smallest s.nconv s.sigma) i = some (a, u, v))
    (hj : getTriplet OP s (perm srt .smallest s.nconv s.sigma) j = some (b, u', v')) : a ≤ b := by
  obtain ⟨h1, rfl⟩ := getTriplet_value _ _ _ _ _ _ _ hi
  obtain ⟨h2, rfl⟩ := getTriplet_value _ _ _ _ _ _ _ hj
  exact hs.sorted _ _ _ _ _ hij h2

/-- Every computed triplet is returned for exactly one index: the order is a permutation of the computed list. -/
theorem C40_complete (srt) (hs : SortContract srt) (w : Which) (n : ℕ) (sigma : ℕ → ℝ) (k : ℕ) (hk : k < n) :
    ∃! i, i < n ∧ perm srt w n sigma i = k := by
  obtain ⟨e, he⟩ := hs.perm n sigma (fun j => j)
  have hval : ∀ i (hi : i < n), srt n sigma (fun j => j) i = (e ⟨i, hi⟩ : ℕ) := fun i hi => he ⟨i, hi⟩
  have hek : (e (e.symm ⟨k, hk⟩) : ℕ) = k := by simp
  have huniq : ∀ i (hi : i < n), (e ⟨i, hi⟩ : ℕ) = k → i = (e.symm ⟨k, hk⟩ : ℕ) := by
    intro i hi h
    have : e ⟨i, hi⟩ = ⟨k, hk⟩ := Fin.ext h
    rw [← this]; simp
  have hlt := (e.symm ⟨k, hk⟩).2
  cases w with
  | smallest =>
    refine ⟨(e.symm ⟨k, hk⟩ : ℕ), ⟨hlt, ?_⟩, ?_⟩
    · show srt n sigma (fun j => j) _ = k
      rw [hval _ hlt]; simpa using hek
    · rintro i ⟨hi, h⟩
      change srt n sigma (fun j => j) i = k at h
      rw [hval i hi] at h
      exact huniq i hi h
  | largest =>
    refine ⟨n - (e.symm ⟨k, hk⟩ : ℕ) - 1, ⟨by omega, ?_⟩, ?_⟩
    · show srt n sigma (fun j => j) (n - (n - (e.symm ⟨k, hk⟩ : ℕ) - 1) - 1) = k
      have h2 : n - (n - (e.symm ⟨k, hk⟩ : ℕ) - 1) - 1 = (e.symm ⟨k, hk⟩ : ℕ) := by omega
      rw [h2, hval _ hlt]; simpa using hek
    · rintro i ⟨hi, h⟩
      change srt n sigma (fun j => j) (n - i - 1) = k at h
      rw [hval _ (by omega)] at h
      have := huniq _ _ h
      omega

/-- Sides: if the solver found triplets of the matrix it worked on, then `u` is the left and `v` the right vector of
the *user's* matrix, whether or not the solver worked on the transpose. -/
theorem C40_sides (OP : Mat 𝕜) (s : Solved 𝕜) (p : ℕ → ℕ) (i : ℤ) (sg : ℝ) (u v : ℕ → 𝕜)
    (hsol : ∀ k, IsTriplet (workA OP) (s.sigma k) (s.U k) (s.V k))
    (h : getTriplet OP s p i = some (sg, u, v)) : IsTriplet OP sg u v := by
  have h0 := (C40_index OP s p i).1 (by rw [h]; rfl)
  unfold getTriplet at h
  rw [if_neg (by omega), if_neg (by omega)] at h
  by_cases h3 : OP.r < OP.c
  · simp only [h3, if_true, Option.some.injEq, Prod.mk.injEq] at h
    obtain ⟨rfl, rfl, rfl⟩ := h
    have := hsol (p i.toNat)
    unfold workA at this
    rw [if_neg (by omega)] at this
    obtain ⟨h1, h2⟩ := this
    refine ⟨?_, ?_⟩
    · intro a ha
      have := h2 a (by simpa [herm] using ha)
      simpa [herm] using this
    · intro a ha
      have := h1 a (by simpa [herm] using ha)
      simpa [herm] using this
  · simp only [h3, if_false, Option.some.injEq, Prod.mk.injEq] at h
    obtain ⟨rfl, rfl, rfl⟩ := h
    have := hsol (p i.toNat)
    unfold workA at this
    rw [if_pos (by omega)] at this
    exact this

/-- The working matrix never has more columns than rows, and `svd->AT` is its adjoint. -/
theorem C40_work_shape (OP : Mat 𝕜) : (workA OP).c ≤ (workA OP).r ∧
    (workAT OP).r = (workA OP).c ∧ (workAT OP).c = (workA OP).r ∧
    ∀ i j, (workAT OP).e i j = star ((workA OP).e j i) := by
  unfold workA workAT
  by_cases h : OP.r ≥ OP.c
  · rw [if_pos h, if_pos h]; exact ⟨h, rfl, rfl, fun _ _ => rfl⟩
  · rw [if_neg h, if_neg h]; exact ⟨by simp [herm]; omega, rfl, rfl, fun _ _ => by simp [herm]⟩

/-- A sorter meeting the contract exists (selection by a sorting permutation), so the hypotheses above are met. -/
example : ∃ srt, SortContract srt := by
  classical
  have key : ∀ (n : ℕ) (g : Fin n → ℝ), ∃ e : Equiv.Perm (Fin n), Monotone (g ∘ e) :=
    fun n g => ⟨Tuple.sort g, Tuple.monotone_sort g⟩
  choose e he using key
  refine ⟨fun n sigma idx i => if h : i < n then idx (e n (fun k => sigma (idx k)) ⟨i, h⟩) else idx i, ?_, ?_⟩
  · intro n sigma idx
    exact ⟨e n (fun k => sigma (idx k)), fun i => by simp⟩
  · intro n sigma idx i j hij hj
    simp only [hj, lt_of_le_of_lt hij hj, dif_pos]
    exact he n (fun k => sigma (idx k)) (show (⟨i, lt_of_le_of_lt hij hj⟩ : Fin n) ≤ ⟨j, hj⟩ from hij)

/-- A 1×2 matrix: the solver works on the transpose and the triplet comes back with the user's sides. -/
example : let OP : Mat ℝ := ⟨1, 2, fun _ j => if j = 0 then 3 else 4⟩
    let s : Solved ℝ := ⟨1, fun _ => 5, fun _ i => if i = 0 then 3/5 else 4/5, fun _ _ => 1⟩
    IsTriplet (workA OP) 5 (s.U 0) (s.V 0) ∧
    ∃ u v, getTriplet OP s (fun i => i) 0 = some (5, u, v) ∧ u 0 = 1 ∧ v 1 = 4/5 := by
  refine ⟨⟨?_, ?_⟩, _, _, rfl, rfl, ?_⟩
  · intro i hi
    simp [workA, herm] at hi ⊢
    interval_cases i <;> norm_num
  · intro j hj
    simp [workA, herm] at hj ⊢
    subst hj
    simp [Finset.sum_range_succ]; norm_num
  · norm_num

end Verif.SVD
