import Verif.Filt.Lem
import Mathlib.Algebra.Polynomial.Derivative
import Mathlib.RingTheory.Coprime.Lemmas
import Mathlib.Analysis.Calculus.Deriv.Polynomial
import Mathlib.Analysis.Calculus.Deriv.MeanValue

/-! # Newton and Hermite interpolation -/

set_option linter.all false

namespace Verif.Filt

open Polynomial Finset

/-- Divided differences: nodes `k-j..k`, zero when the end nodes coincide. -/
noncomputable def dd (x y : Arr) : ℕ → ℕ → ℝ
  | 0, k => y k
  | j + 1, k => if x k - x (k - (j + 1)) = 0 then 0 else (dd x y j k - dd x y j (k - 1)) / (x k - x (k - (j + 1)))

theorem newtonIn_eq (x : Arr) (j : ℕ) (hj : 1 ≤ j) (c : ℕ) (sf : Arr) (k : ℕ) :
    newtonIn x j c sf k = if j ≤ k ∧ k < j + c then
      (if x k - x (k - j) = 0 then 0 else (sf k - sf (k - 1)) / (x k - x (k - j))) else sf k := by
  induction c generalizing sf with
  | zero => rw [newtonIn, if_neg (by omega)]
  | succ c ih =>
    rw [newtonIn, ih]
    by_cases hk : k = j + c
    · have h1 : ¬ (j ≤ k ∧ k < j + c) := by omega
      have h2 : j ≤ k ∧ k < j + (c + 1) := by omega
      rw [if_neg h1, if_pos h2, hk, wr_same]
    · rw [wr_ne _ _ hk]
      by_cases h : j ≤ k ∧ k < j + c
      · have h2 : j ≤ k ∧ k < j + (c + 1) := by omega
        rw [if_pos h, if_pos h2, wr_ne _ _ (show k - 1 ≠ j + c by omega)]
      · have h2 : ¬ (j ≤ k ∧ k < j + (c + 1)) := by omega
        rw [if_neg h, if_neg h2]

theorem newtonOut_eq (n : ℕ) (x y : Arr) (c j : ℕ) (sf sa : Arr) (hj : 1 ≤ j) (hc : j + c = n)
    (hf : ∀ k, j - 1 ≤ k → k < n → sf k = dd x y (j - 1) k) (ha : ∀ k, k < j → sa k = dd x y k k) :
    ∀ k, k < n → newtonOut n x c j sf sa k = dd x y k k := by
  induction c generalizing j sf sa with
  | zero => intro k hk; rw [newtonOut]; exact ha k (by omega)
  | succ c ih =>
    rw [newtonOut]
    have hf' : ∀ k, j ≤ k → k < n → newtonIn x j (n - j) sf k = dd x y j k := by
      intro k h1 h2
      rw [newtonIn_eq x j hj, if_pos (by omega), hf k (by omega) h2, hf (k - 1) (by omega) (by omega)]
      obtain ⟨i, rfl⟩ : ∃ i, j = i + 1 := ⟨j - 1, by omega⟩
      rw [dd]; rfl
    refine ih (j + 1) _ _ (by omega) (by omega) (fun k h1 h2 => hf' k (by omega) h2) fun k hk => ?_
    by_cases h : k = j
    · subst h; rw [wr_same]; exact hf' _ le_rfl (by omega)
    · rw [wr_ne _ _ h]; exact ha k (by omega)

theorem newton_eq (n : ℕ) (hn : 1 ≤ n) (x y sf0 sa0 : Arr) (k : ℕ) (hk : k < n) :
    newton n x y sf0 sa0 k = dd x y k k := by
  rw [newton]
  refine newtonOut_eq n x y (n - 1) 1 _ _ le_rfl (by omega) (fun k _ h => ?_) (fun k h => ?_) k hk
  · show (if k < n then y k else sf0 k) = _
    rw [if_pos h]; rfl
  · obtain rfl : k = 0 := by omega
    rw [wr_same]
    show (if 0 < n then y 0 else sf0 0) = _
    rw [if_pos (by omega)]; rfl

/-- Product of `m` factors from node `s`. -/
noncomputable def pr (x : Arr) (s m : ℕ) : ℝ[X] := ∏ l ∈ range m, (X - C (x (s + l)))

theorem pr_succ (x : Arr) (s m : ℕ) : pr x s (m + 1) = pr x s m * (X - C (x (s + m))) := prod_range_succ _ _
theorem pr_succ' (x : Arr) (s m : ℕ) : pr x s (m + 1) = (X - C (x s)) * pr x (s + 1) m := by
  rw [pr, prod_range_succ', mul_comm]
  congr 1
  exact prod_congr rfl fun l _ => by rw [show s + (l + 1) = s + 1 + l by omega]

theorem pr_add (x : Arr) (s m k : ℕ) : pr x s (m + k) = pr x s m * pr x (s + m) k := by
  induction k with
  | zero => simp [pr]
  | succ k ih => rw [← add_assoc, pr_succ, ih, pr_succ, mul_assoc, show s + (m + k) = s + m + k by omega]

theorem pr_const (x : Arr) (s m : ℕ) (c : ℝ) (h : ∀ l < m, x (s + l) = c) : pr x s m = (X - C c) ^ m := by
  rw [pr, prod_congr rfl (fun l hl => by rw [h l (mem_range.mp hl)]), prod_const, card_range]

/-- Newton polynomial of the nodes `k-j..k`. -/
noncomputable def nw (x y : Arr) : ℕ → ℕ → ℝ[X]
  | 0, k => C (y k)
  | j + 1, k => nw x y j (k - 1) + C (dd x y (j + 1) k) * pr x (k - (j + 1)) (j + 1)

/-- Equal end nodes: all nodes and values between them are equal. -/
def Grp (n : ℕ) (x y : Arr) : Prop := ∀ i k, i < k → k < n → x k = x i → ∀ l, i ≤ l → l ≤ k → x l = x i ∧ y l = y i

theorem dd_const (n : ℕ) (x y : Arr) (hg : Grp n x y) (j k : ℕ) (hj : 1 ≤ j) (hjk : j ≤ k) (hk : k < n) (he : x k = x (k - j)) :
    dd x y j k = 0 := by
  obtain ⟨i, rfl⟩ : ∃ i, j = i + 1 := ⟨j - 1, by omega⟩
  rw [dd, if_pos (by rw [he]; ring)]

theorem nw_back (n : ℕ) (x y : Arr) (hg : Grp n x y) (j k : ℕ) (hjk : j + 1 ≤ k) (hk : k < n) :
    nw x y (j + 1) k = nw x y j k + C (dd x y (j + 1) k) * pr x (k - j) (j + 1) := by
  induction j generalizing k with
  | zero =>
    obtain ⟨k, rfl⟩ : ∃ k', k = k' + 1 := ⟨k - 1, by omega⟩
    simp only [nw, dd, pr, zero_add, range_one, prod_singleton, add_zero, Nat.sub_zero, Nat.add_sub_cancel]
    by_cases h : x (k + 1) - x k = 0
    · rw [if_pos h]
      have := (hg k (k + 1) (by omega) hk (by linarith) (k + 1) (by omega) le_rfl).2
      simp [this]
    · rw [if_neg h]
      have : y (k + 1) - y k = (y (k + 1) - y k) / (x (k + 1) - x k) * (x (k + 1) - x k) := by field_simp
      have e := congrArg (C : ℝ → ℝ[X]) this
      simp only [C_sub, C_mul] at e
      linear_combination -e
  | succ j ih =>
    have e1 : nw x y (j + 1 + 1) k = nw x y (j + 1) (k - 1) + C (dd x y (j + 1 + 1) k) * pr x (k - (j + 1 + 1)) (j + 1 + 1) := rfl
    have e2 : nw x y (j + 1) k = nw x y j (k - 1) + C (dd x y (j + 1) k) * pr x (k - (j + 1)) (j + 1) := rfl
    have e3 := ih (k - 1) (by omega) (by omega)
    rw [show k - 1 - j = k - (j + 1) by omega] at e3
    have p1 : pr x (k - (j + 1 + 1)) (j + 1 + 1) = (X - C (x (k - (j + 1 + 1)))) * pr x (k - (j + 1)) (j + 1) := by
      rw [pr_succ', show k - (j + 1 + 1) + 1 = k - (j + 1) by omega]
    have p2 : pr x (k - (j + 1)) (j + 1 + 1) = pr x (k - (j + 1)) (j + 1) * (X - C (x k)) := by
      rw [pr_succ, show k - (j + 1) + (j + 1) = k by omega]
    have hD : C (dd x y (j + 1) k) - C (dd x y (j + 1) (k - 1)) = C (dd x y (j + 1 + 1) k) * (C (x k) - C (x (k - (j + 1 + 1)))) := by
      rw [← C_sub, ← C_sub, ← C_mul]
      congr 1
      by_cases h : x k - x (k - (j + 1 + 1)) = 0
      · have hh : x k = x (k - (j + 1 + 1)) := by linarith
        have g := hg (k - (j + 1 + 1)) k (by omega) hk hh
        rw [dd_const n x y hg (j + 1) k (by omega) (by omega) hk (by rw [hh, (g (k - (j + 1)) (by omega) (by omega)).1]),
          dd_const n x y hg (j + 1) (k - 1) (by omega) (by omega) (by omega)
            (by rw [(g (k - 1) (by omega) (by omega)).1, show k - 1 - (j + 1) = k - (j + 1 + 1) by omega]), h]
        ring
      · have e : dd x y (j + 1 + 1) k = (dd x y (j + 1) k - dd x y (j + 1) (k - 1)) / (x k - x (k - (j + 1 + 1))) := by
          conv_lhs => rw [dd]
          rw [if_neg h]
        rw [e]; field_simp
    rw [e1, e3, e2, p1, p2]
    linear_combination -(pr x (k - (j + 1)) (j + 1)) * hD

theorem nw_const (n : ℕ) (x y : Arr) (hg : Grp n x y) (j k : ℕ) (hjk : j ≤ k) (hk : k < n) (he : x k = x (k - j)) :
    nw x y j k = C (y k) := by
  induction j generalizing k with
  | zero => rfl
  | succ j ih =>
    have g := hg (k - (j + 1)) k (by omega) hk he
    rw [nw, dd_const n x y hg (j + 1) k (by omega) (by omega) hk he, ih (k - 1) (by omega) (by omega)
      (by rw [(g (k - 1) (by omega) (by omega)).1, show k - 1 - j = k - (j + 1) by omega]),
      (g (k - 1) (by omega) (by omega)).2, ← (g k (by omega) le_rfl).2]
    simp

theorem pr_monic (x : Arr) (s m : ℕ) : (pr x s m).natDegree = m := by
  rw [pr, natDegree_prod _ _ (fun i _ => X_sub_C_ne_zero _)]; simp

theorem nw_deg (x y : Arr) (j k : ℕ) : (nw x y j k).natDegree ≤ j := by
  induction j generalizing k with
  | zero => simp [nw]
  | succ j ih =>
    refine (natDegree_add_le _ _).trans (max_le ((ih _).trans (by omega)) ?_)
    exact (natDegree_C_mul_le _ _).trans (pr_monic _ _ _).le

/-! Two blocks of `m` nodes -/

theorem nw_left (n : ℕ) (x y : Arr) (hg : Grp n x y) (m : ℕ) (hm : 1 ≤ m) (hmn : m ≤ n) (a : ℝ) (hx : ∀ l < m, x l = a) (r : ℕ) (hr : m - 1 + r < n) :
    (X - C a) ^ m ∣ nw x y (m - 1 + r) (m - 1 + r) - C (y (m - 1)) := by
  induction r with
  | zero =>
    rw [add_zero, nw_const n x y hg (m - 1) (m - 1) le_rfl (by omega) (by rw [hx _ (by omega), hx _ (by omega)])]
    simp
  | succ r ih =>
    rw [← add_assoc, nw, show m - 1 + r + 1 - 1 = m - 1 + r by omega, show m - 1 + r + 1 - (m - 1 + r + 1) = 0 by omega]
    have h2 : (X - C a) ^ m ∣ pr x 0 (m - 1 + r + 1) := by
      rw [show m - 1 + r + 1 = m + r by omega, pr_add, pr_const x 0 m a (fun l hl => by rw [zero_add]; exact hx l hl)]
      exact dvd_mul_right _ _
    have := dvd_add (ih (by omega)) (h2.mul_left (C (dd x y (m - 1 + r + 1) (m - 1 + r + 1))))
    convert this using 1; ring

theorem nw_right (n : ℕ) (x y : Arr) (hg : Grp n x y) (m : ℕ) (hm : 1 ≤ m) (k : ℕ) (hk : k + 1 = n) (hmn : m ≤ n) (b : ℝ)
    (hx : ∀ l, k + 1 - m ≤ l → l ≤ k → x l = b) (r : ℕ) (hr : m - 1 + r < n) :
    (X - C b) ^ m ∣ nw x y (m - 1 + r) k - C (y k) := by
  induction r with
  | zero =>
    rw [add_zero, nw_const n x y hg (m - 1) k (by omega) (by omega) (by rw [hx _ (by omega) (by omega), hx _ (by omega) (by omega)])]
    simp
  | succ r ih =>
    rw [← add_assoc, nw_back n x y hg (m - 1 + r) k (by omega) (by omega)]
    have h2 : (X - C b) ^ m ∣ pr x (k - (m - 1 + r)) (m - 1 + r + 1) := by
      rw [show m - 1 + r + 1 = r + m by omega, pr_add, pr_const x (k - (m - 1 + r) + r) m b (fun l hl => hx _ (by omega) (by omega))]
      exact dvd_mul_left _ _
    have := dvd_add (ih (by omega)) (h2.mul_left (C (dd x y (m - 1 + r + 1) k)))
    convert this using 1; ring

/-! Expansion -/

/-- Horner form. -/
noncomputable def horner (n : ℕ) (a x : Arr) : ℕ → ℝ[X]
  | 0 => C (a (n - 1))
  | m + 1 => C (a (n - (m + 1) - 1)) + (X - C (x (n - (m + 1) - 1))) * horner n a x m

theorem loop_add_ser (o M n : ℕ) (v : ℕ → ℝ) (f : Arr) (h : o + M ≤ n) :
    ser (loop M (fun i w => wr w (o + i) (w (o + i) + v i)) f) 0 n = ser f 0 n + ∑ i ∈ range M, C (v i) * Chebyshev.T ℝ ((o + i : ℕ) : ℤ) := by
  induction M with
  | zero => simp [loop]
  | succ M ih =>
    rw [loop]
    have := ser_add_at (loop M (fun i w => wr w (o + i) (w (o + i) + v i)) f) 0 n (o + M) (v M) (by omega)
    rw [zero_add] at this
    rw [this, ih (by omega), sum_range_succ, add_assoc]

theorem expandStep_ser (n : ℕ) (c h : ℝ) (a x : Arr) (m : ℕ) (s : Arr × Arr) :
    ser (expandStep n c h a x (m + 1) s).1 0 (m + 2) =
      C (a (n - (m + 1) - 1)) + (C (c - x (n - (m + 1) - 1)) + C h * X) * ser s.1 0 (m + 1) := by
  obtain ⟨q, hq⟩ : ∃ q, q = s.1 := ⟨_, rfl⟩
  obtain ⟨c2, hc2⟩ : ∃ c2, c2 = c - x (n - (m + 1) - 1) := ⟨_, rfl⟩
  obtain ⟨qa, hqa⟩ : ∃ qa : Arr, qa = wr (loop (m + 1) (fun i w => wr w i (c2 * q i)) s.2) (m + 1) 0 := ⟨_, rfl⟩
  obtain ⟨qb, hqb⟩ : ∃ qb : Arr, qb = wr qa 1 (qa 1 + h * q 0) := ⟨_, rfl⟩
  obtain ⟨qc, hqc⟩ : ∃ qc : Arr, qc = loop m (fun i w => wr w i (w i + h / 2 * q (1 + i))) qb := ⟨_, rfl⟩
  obtain ⟨qd, hqd⟩ : ∃ qd : Arr, qd = loop m (fun i w => wr w (2 + i) (w (2 + i) + h / 2 * q (1 + i))) qc := ⟨_, rfl⟩
  obtain ⟨qe, hqe⟩ : ∃ qe : Arr, qe = loop (m + 2) (fun i w => wr w i (qd i)) q := ⟨_, rfl⟩
  have e : (expandStep n c h a x (m + 1) s).1 = wr qe 0 (qe 0 + a (n - (m + 1) - 1)) := by
    rw [hqe, hqd, hqc, hqb, hqa, hc2, hq]; rfl
  have sa : ser qa 0 (m + 2) = C c2 * ser q 0 (m + 1) := by
    rw [ser_succ, hqa, zero_add, wr_same, ser_congr (g := fun i => c2 * q i), ser, ser, mul_sum]
    · simp only [map_zero, zero_mul, add_zero, C_mul, mul_assoc]
    · intro i hi
      rw [zero_add, wr_ne _ _ (by omega), loop_set0, if_pos (by omega)]
  have sb : ser qb 0 (m + 2) = ser qa 0 (m + 2) + C (h * q 0) * Chebyshev.T ℝ ((1 : ℕ) : ℤ) := by
    rw [hqb]
    exact ser_add_at qa 0 (m + 2) 1 _ (by omega)
  have sc : ser qc 0 (m + 2) = ser qb 0 (m + 2) + ∑ i ∈ range m, C (h / 2 * q (1 + i)) * Chebyshev.T ℝ (i : ℤ) := by
    rw [hqc]
    have := loop_add_ser 0 m (m + 2) (fun i => h / 2 * q (1 + i)) qb (by omega)
    simp only [zero_add] at this
    exact this
  have sd : ser qd 0 (m + 2) = ser qc 0 (m + 2) + ∑ i ∈ range m, C (h / 2 * q (1 + i)) * Chebyshev.T ℝ ((2 + i : ℕ) : ℤ) := by
    rw [hqd]
    exact loop_add_ser 2 m (m + 2) (fun i => h / 2 * q (1 + i)) qc (by omega)
  have se : ser qe 0 (m + 2) = ser qd 0 (m + 2) := by
    refine ser_congr fun i hi => ?_
    rw [hqe, zero_add, loop_set0, if_pos hi]
  have sf := ser_add_at qe 0 (m + 2) 0 (a (n - (m + 1) - 1)) (by omega)
  have hl := lin_mul_ser c2 h q 0 m
  simp only [zero_add] at hl
  rw [e, ← hc2, ← hq, hl]
  rw [add_zero] at sf
  rw [sf, se, sd, sc, sb, sa]
  simp only [Nat.cast_zero, Chebyshev.T_zero, mul_one]
  ring

theorem expand_ser (n : ℕ) (hn : 1 ≤ n) (aa bb : ℝ) (a x q0 q20 : Arr) :
    ser (expand n aa bb a x q0 q20) 0 n = (horner n a x (n - 1)).comp (C ((aa + bb) / 2) + C ((bb - aa) / 2) * X) := by
  have key : ∀ m, ser (loop m (fun i s => expandStep n ((aa + bb) / 2) ((bb - aa) / 2) a x (i + 1) s) (wr q0 0 (a (n - 1)), q20)).1 0 (m + 1) =
      (horner n a x m).comp (C ((aa + bb) / 2) + C ((bb - aa) / 2) * X) := by
    intro m
    induction m with
    | zero => simp [loop, ser_succ, ser_zero, horner, wr_same]
    | succ m ih =>
      rw [loop, expandStep_ser, ih, horner, add_comp, mul_comp, sub_comp, C_comp, X_comp, C_comp, C_sub]
      ring
  have := key (n - 1)
  rw [show n - 1 + 1 = n by omega] at this
  exact this

theorem nw_sum (x y : Arr) (k : ℕ) : nw x y k k = ∑ l ∈ range (k + 1), C (dd x y l l) * pr x 0 l := by
  induction k with
  | zero => simp [nw, dd, pr]
  | succ k ih => rw [nw, sum_range_succ, ← ih, Nat.sub_self]; rfl

theorem horner_sum (n : ℕ) (a x : Arr) (m : ℕ) (hm : m + 1 ≤ n) :
    ∑ l ∈ range n, C (a l) * pr x 0 l = ∑ l ∈ range (n - 1 - m), C (a l) * pr x 0 l + pr x 0 (n - 1 - m) * horner n a x m := by
  induction m with
  | zero =>
    obtain ⟨k, rfl⟩ : ∃ k, n = k + 1 := ⟨n - 1, by omega⟩
    rw [sum_range_succ, horner]; simp only [Nat.add_sub_cancel, Nat.sub_zero]; ring
  | succ m ih =>
    rw [ih (by omega)]
    obtain ⟨k, hk⟩ : ∃ k, n - 1 - m = k + 1 := ⟨n - 1 - m - 1, by omega⟩
    rw [hk, show n - 1 - (m + 1) = k by omega, sum_range_succ, pr_succ, horner, show n - (m + 1) - 1 = k by omega, zero_add]
    ring

theorem horner_nw (n : ℕ) (hn : 1 ≤ n) (a x y : Arr) (ha : ∀ k < n, a k = dd x y k k) : horner n a x (n - 1) = nw x y (n - 1) (n - 1) := by
  have h := horner_sum n a x (n - 1) (by omega)
  rw [show n - 1 - (n - 1) = 0 by omega] at h
  simp only [range_zero, sum_empty, zero_add, pr, prod_empty, one_mul] at h
  rw [← h, nw_sum, show n - 1 + 1 = n by omega]
  exact sum_congr rfl fun l hl => by rw [ha l (mem_range.mp hl)]; simp [pr]

end Verif.Filt
