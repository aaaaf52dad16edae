import Verif.Contour.Model
import Mathlib.Algebra.BigOperators.Group.List.Basic
import Mathlib.Algebra.BigOperators.Intervals
import Mathlib.Tactic

/-! Helper lemmas for the contour-integral theorems. -/
set_option linter.all false

namespace Verif.Contour

open Finset

theorem npoints_spec (n npart c i : ℕ) (hp : 0 < npart) (hc : c < npart) :
    i < npoints n npart c ↔ i * npart + c < n := by
  have hdm := Nat.div_add_mod n npart
  have hml := Nat.mod_lt n hp
  unfold npoints
  generalize n / npart = q at *
  generalize n % npart = r at *
  constructor
  · intro h
    split_ifs at h with hr
    · have : i ≤ q := by omega
      have := Nat.mul_le_mul_left npart this
      nlinarith
    · have : i + 1 ≤ q := by omega
      have := Nat.mul_le_mul_left npart this
      nlinarith
  · intro h
    have hi : i ≤ q := by
      by_contra hlt
      have : q + 1 ≤ i := by omega
      have := Nat.mul_le_mul_left npart this
      nlinarith
    split_ifs with hr
    · omega
    · rcases Nat.lt_or_ge i q with h1 | h1
      · exact h1
      · have : i = q := by omega
        subst this
        exfalso
        have : npart * i = i * npart := Nat.mul_comm _ _
        omega

/-- A sum over all points is the double sum over partitions and local points. -/
theorem sum_points {A : Type*} [AddCommMonoid A] (n npart : ℕ) (hp : 0 < npart) (f : ℕ → A) :
    ∑ c ∈ range npart, ∑ i ∈ range (npoints n npart c), f (pid npart c i) =
      ∑ p ∈ range n, f p := by
  rw [Finset.sum_sigma']
  refine Finset.sum_bij (fun x _ => pid npart x.1 x.2) ?_ ?_ ?_ ?_
  · rintro ⟨c, i⟩ h
    simp only [mem_sigma, mem_range] at h ⊢
    exact (npoints_spec n npart c i hp h.1).1 h.2
  · rintro ⟨c, i⟩ h ⟨c', i'⟩ h' he
    simp only [mem_sigma, mem_range] at h h'
    simp only [pid] at he
    have h1 : c = c' := by
      have := congrArg (· % npart) he
      simpa [Nat.mod_eq_of_lt h.1, Nat.mod_eq_of_lt h'.1] using this
    subst h1
    have h2 : i = i' := Nat.eq_of_mul_eq_mul_right hp (by omega)
    subst h2; rfl
  · intro p h
    simp only [mem_range] at h
    have hc := Nat.mod_lt p hp
    refine ⟨⟨p % npart, p / npart⟩, ?_, ?_⟩
    · simp only [mem_sigma, mem_range]
      refine ⟨hc, (npoints_spec n npart _ _ hp hc).2 ?_⟩
      rw [Nat.mul_comm, Nat.div_add_mod]; exact h
    · simp only [pid]; rw [Nat.mul_comm, Nat.div_add_mod]
  · intros; rfl

theorem ppk_eq (zn : ℕ → ℂ) (npart c k i : ℕ) : ppk zn npart c k i = zn (pid npart c i) ^ k := by
  induction k with
  | zero => rfl
  | succ k ih => rw [ppk, ih, pow_succ]

theorem foldl_add {A : Type*} [AddCommMonoid A] (g : ℕ → A) (n : ℕ) (a : A) :
    (List.range n).foldl (fun acc i => acc + g i) a = a + ∑ i ∈ range n, g i := by
  induction n generalizing a with
  | zero => simp
  | succ n ih => rw [List.range_succ, List.foldl_append, ih, Finset.sum_range_succ]; simp [add_assoc]

theorem sumLocal_eq (Y : ℕ → ℕ → ℂ) (w zn : ℕ → ℂ) (Lmax npts npart c k j t : ℕ) :
    sumLocal Y w zn Lmax npts npart c k j t =
      ∑ i ∈ range npts, zn (pid npart c i) ^ k * w (pid npart c i) * Y (i * Lmax + j) t := by
  unfold sumLocal
  induction npts with
  | zero => simp
  | succ n ih =>
    rw [List.range_succ, List.foldl_append, Finset.sum_range_succ, ← ih]
    simp [ppk_eq, add_comm]

theorem dotLocal_eq (H : ℕ → ℕ → ℂ) (w zn : ℕ → ℂ) (Lmax npts npart c : ℕ) (uc : Bool) (k j s : ℕ) :
    dotLocal H w zn Lmax npts npart c uc k j s =
      ∑ i ∈ range npts, (if uc then
        ((2 * (zn (pid npart c i) ^ k * w (pid npart c i) * H s (i * Lmax + j)).re : ℝ) : ℂ)
        else zn (pid npart c i) ^ k * w (pid npart c i) * H s (i * Lmax + j)) := by
  unfold dotLocal
  cases uc
  · simp only [Bool.false_eq_true, if_false, ppk_eq]
    rw [foldl_add]; simp
  · simp only [if_true, ppk_eq]
    rw [foldl_add]; simp

theorem foldl_scatter (pairs : List (ℕ × ℕ)) (x s : ℕ → ℂ) (i : ℕ) :
    scatterReverseAdd pairs x s i = s i + (pairs.map fun p => if p.1 = i then x p.2 else 0).sum := by
  unfold scatterReverseAdd
  induction pairs generalizing s with
  | nil => simp
  | cons p ps ih =>
    rw [List.foldl_cons, ih, List.map_cons, List.sum_cons]
    by_cases h : p.1 = i
    · subst h; simp [add_assoc]
    · rw [Function.update_of_ne (fun h' => h h'.symm)]; simp [h]

theorem sum_ite_range' (x : ℕ → ℂ) (i s l : ℕ) :
    ((List.range' s l).map fun t => if t = i then x t else 0).sum =
      if s ≤ i ∧ i < s + l then x i else 0 := by
  induction l generalizing s with
  | zero => simp
  | succ l ih =>
    rw [List.range'_succ, List.map_cons, List.sum_cons, ih]
    by_cases h : s = i
    · subst h; simp
    · have h2 : (s + 1 ≤ i ∧ i < s + 1 + l) ↔ (s ≤ i ∧ i < s + (l + 1)) := by omega
      rw [if_neg h, zero_add]; simp only [h2]

theorem sum_flatMap {α : Type*} (l : List α) (g : α → List ℂ) :
    (l.flatMap g).sum = (l.map fun a => (g a).sum).sum := by
  induction l with
  | nil => rfl
  | cons a l ih => simp [List.flatMap_cons, ih]

theorem list_range_sum (f : ℕ → ℂ) (n : ℕ) : ((List.range n).map f).sum = ∑ k ∈ range n, f k := by
  induction n with
  | zero => rfl
  | succ n ih => rw [List.range_succ, List.map_append, List.sum_append, ih, Finset.sum_range_succ]; simp

theorem scatter_sum (m npart : ℕ) (x : ℕ → ℂ) (i : ℕ) (ls : List ℕ) (s : ℕ) :
    ((((ranges s ls).flatMap fun r => (List.range npart).flatMap fun k =>
      (List.range' r.1 (r.2 - r.1)).map fun i => (i, i + m * k))).map
        fun p : ℕ × ℕ => if p.1 = i then x p.2 else 0).sum =
      if s ≤ i ∧ i < s + ls.sum then ∑ k ∈ range npart, x (i + m * k) else 0 := by
  induction ls generalizing s with
  | nil => simp [ranges]
  | cons l ls ih =>
    rw [ranges, List.flatMap_cons, List.map_append, List.sum_append, ih]
    have h1 : (((List.range npart).flatMap fun k =>
        (List.range' (s, s + l).1 ((s, s + l).2 - (s, s + l).1)).map fun i => (i, i + m * k)).map
        fun p : ℕ × ℕ => if p.1 = i then x p.2 else 0).sum =
        if s ≤ i ∧ i < s + l then ∑ k ∈ range npart, x (i + m * k) else 0 := by
      rw [List.map_flatMap, sum_flatMap]
      simp only [List.map_map, Function.comp_def, Nat.add_sub_cancel_left]
      have : ∀ k, ((List.range' s l).map fun t => if t = i then x (t + m * k) else 0).sum =
          if s ≤ i ∧ i < s + l then x (i + m * k) else 0 := fun k =>
        sum_ite_range' (fun t => x (t + m * k)) i s l
      simp only [this]
      rw [list_range_sum]
      split_ifs <;> simp
    rw [h1, List.sum_cons]
    by_cases h2 : s ≤ i ∧ i < s + l
    · have h3 : ¬ (s + l ≤ i ∧ i < s + l + ls.sum) := by omega
      have h4 : s ≤ i ∧ i < s + (l + ls.sum) := by omega
      rw [if_pos h2, if_neg h3, if_pos h4, add_zero]
    · rw [if_neg h2, zero_add]
      have : (s + l ≤ i ∧ i < s + l + ls.sum) ↔ (s ≤ i ∧ i < s + (l + ls.sum)) := by omega
      simp [this]

/-- The reverse scatter adds, into each entry, the corresponding entries of all partitions. -/
theorem scatter_reverse (m npart : ℕ) (ls : List ℕ) (hls : ls.sum = m) (v : ℕ → ℕ → ℂ) (s : ℕ → ℂ)
    (i : ℕ) (hi : i < m) :
    scatterReverseAdd (scatterPairs m npart ls) (dup m v) s i = s i + ∑ c ∈ range npart, v c i := by
  rw [foldl_scatter, scatterPairs, scatter_sum, if_pos ⟨Nat.zero_le _, by omega⟩]
  congr 1
  refine Finset.sum_congr rfl fun c _ => ?_
  unfold dup
  have hm : 0 < m := by omega
  rw [Nat.add_mul_div_left _ _ hm, Nat.div_eq_of_lt hi, Nat.add_mul_mod_self_left,
    Nat.mod_eq_of_lt hi, zero_add]

theorem mem_ranges (ls : List ℕ) (s i : ℕ) (h1 : s ≤ i) (h2 : i < s + ls.sum) :
    ∃ r ∈ ranges s ls, r.1 ≤ i ∧ i < r.2 := by
  induction ls generalizing s with
  | nil => simp at h2; omega
  | cons l ls ih =>
    by_cases h : i < s + l
    · exact ⟨(s, s + l), by simp [ranges], h1, h⟩
    · obtain ⟨r, hr, h3⟩ := ih (s + l) (by omega) (by simp at h2; omega)
      exact ⟨r, by simp [ranges, hr], h3⟩

theorem ranges_le (ls : List ℕ) (s : ℕ) : ∀ r ∈ ranges s ls, r.2 ≤ s + ls.sum := by
  induction ls generalizing s with
  | nil => simp [ranges]
  | cons l ls ih =>
    intro r hr
    simp only [ranges, List.mem_cons] at hr
    rcases hr with rfl | hr
    · simp
    · have := ih (s + l) r hr
      simp; omega

/-- A list of writes in which all writes to a location carry the same value. -/
theorem foldl_update_const {α : Type} (l : List (ℕ × α)) (a : ℕ → α) (t : ℕ) (x : α)
    (hall : ∀ p ∈ l, p.1 = t → p.2 = x) (hex : ∃ p ∈ l, p.1 = t) : runWrites a l t = x := by
  have key : ∀ (l : List (ℕ × α)) (a : ℕ → α), (∀ p ∈ l, p.1 = t → p.2 = x) → a t = x →
      runWrites a l t = x := by
    intro l
    induction l with
    | nil => intro a _ h; exact h
    | cons p l ih =>
      intro a h ha
      refine ih _ (fun q hq => h q (List.mem_cons_of_mem _ hq)) ?_
      by_cases hp : p.1 = t
      · subst hp; simp [h p (by simp) rfl]
      · show Function.update a p.1 p.2 t = x
        rw [Function.update_of_ne (fun h' => hp h'.symm), ha]
  induction l generalizing a with
  | nil => simp at hex
  | cons p l ih =>
    by_cases hp : p.1 = t
    · exact key l _ (fun q hq => hall q (List.mem_cons_of_mem _ hq))
        (by subst hp; simp [hall p (by simp) rfl])
    · refine ih _ (fun q hq => hall q (List.mem_cons_of_mem _ hq)) ?_
      obtain ⟨q, hq, h⟩ := hex
      rcases List.mem_cons.1 hq with rfl | hq
      · exact absurd h hp
      · exact ⟨q, hq, h⟩

theorem scatterForward_eq (pairs : List (ℕ × ℕ)) (v x : ℕ → ℂ) :
    scatterForward pairs v x = runWrites x (pairs.map fun p => (p.2, v p.1)) := by
  unfold scatterForward runWrites
  rw [List.foldl_map]

end Verif.Contour
