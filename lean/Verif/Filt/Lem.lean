import Verif.Filt.Model
import Mathlib.Tactic
import Mathlib.RingTheory.Polynomial.Chebyshev
import Mathlib.Analysis.SpecialFunctions.Trigonometric.Chebyshev.Orthogonality

/-! # Chebyshev series stored in arrays, and the kernels acting on them -/

set_option linter.all false

namespace Verif.Filt

open Polynomial Finset

/-- The Chebyshev series stored in the `n` entries of the array from position `o`. -/
noncomputable def ser (f : Arr) (o n : ℕ) : ℝ[X] := ∑ i ∈ range n, C (f (o + i)) * Chebyshev.T ℝ (i : ℤ)

/-- The polynomial represented by a series in the translated basis of the interval `[a,b]`:
`S_i(z) = T_i((z-c)/h)`, with `c` the midpoint and `h` half the length. -/
noncomputable def piece (f : Arr) (o n : ℕ) (a b : ℝ) : ℝ[X] :=
  (ser f o n).comp (C (2 / (b - a)) * (X - C ((a + b) / 2)))

theorem wr_same (f : Arr) (i : ℕ) (v : ℝ) : wr f i v i = v := if_pos rfl
theorem wr_ne (f : Arr) {i k : ℕ} (v : ℝ) (h : k ≠ i) : wr f i v k = f k := if_neg h

theorem loop_set (o m : ℕ) (v : ℕ → ℝ) (f : Arr) (k : ℕ) :
    loop m (fun i w => wr w (o + i) (v i)) f k = if o ≤ k ∧ k < o + m then v (k - o) else f k := by
  induction m with
  | zero => rw [loop, if_neg (by omega)]
  | succ m ih =>
    show wr (loop m _ f) (o + m) (v m) k = _
    by_cases hk : k = o + m
    · subst hk; rw [wr_same, if_pos (by omega)]; congr 1; omega
    · rw [wr_ne _ _ hk, ih]
      by_cases h : o ≤ k ∧ k < o + m
      · rw [if_pos h, if_pos (by omega)]
      · rw [if_neg h, if_neg (by omega)]

theorem loop_set0 (m : ℕ) (v : ℕ → ℝ) (f : Arr) (k : ℕ) :
    loop m (fun i w => wr w i (v i)) f k = if k < m then v k else f k := by
  have := loop_set 0 m v f k
  simpa using this

theorem loop_add_out (o m : ℕ) (v : ℕ → ℝ) (f : Arr) (k : ℕ) (hk : k < o ∨ o + m ≤ k) :
    loop m (fun i w => wr w (o + i) (w (o + i) + v i)) f k = f k := by
  induction m with
  | zero => rfl
  | succ m ih =>
    show wr (loop m _ f) (o + m) _ k = _
    rw [wr_ne _ _ (by omega), ih (by omega)]

theorem ser_congr {f g : Arr} {o n : ℕ} (h : ∀ i < n, f (o + i) = g (o + i)) : ser f o n = ser g o n :=
  sum_congr rfl fun i hi => by rw [h i (mem_range.mp hi)]

theorem ser_succ (f : Arr) (o n : ℕ) :
    ser f o (n + 1) = ser f o n + C (f (o + n)) * Chebyshev.T ℝ (n : ℤ) := sum_range_succ _ _

theorem ser_zero (f : Arr) (o : ℕ) : ser f o 0 = 0 := rfl

theorem ser_ext {f : Arr} {o n n' : ℕ} (hn : n ≤ n') (h : ∀ i, n ≤ i → i < n' → f (o + i) = 0) :
    ser f o n' = ser f o n := by
  induction n' with
  | zero => obtain rfl : n = 0 := by omega
            rfl
  | succ m ih =>
    rcases Nat.lt_or_ge m n with h1 | h1
    · obtain rfl : n = m + 1 := by omega
      rfl
    · rw [ser_succ, h m h1 (by omega), ih h1 (fun i a b => h i a (by omega))]; simp

theorem ser_add_at (f : Arr) (o n i : ℕ) (v : ℝ) (hi : i < n) :
    ser (wr f (o + i) (f (o + i) + v)) o n = ser f o n + C v * Chebyshev.T ℝ (i : ℤ) := by
  induction n with
  | zero => omega
  | succ m ih =>
    rcases Nat.lt_or_ge i m with h1 | h1
    · rw [ser_succ, ser_succ, ih h1, wr_ne _ _ (by omega)]; ring
    · obtain rfl : i = m := by omega
      rw [ser_succ, ser_succ, wr_same, ser_congr (g := f) (fun k hk => wr_ne _ _ (by omega))]
      simp only [map_add]; ring

/-- `X T_0 = T_1`, `X T_{n+1} = (T_{n+2} + T_n)/2`. -/
theorem X_mul_T (n : ℕ) : (2 : ℝ[X]) * (X * Chebyshev.T ℝ ((n + 1 : ℕ) : ℤ)) =
    Chebyshev.T ℝ ((n + 2 : ℕ) : ℤ) + Chebyshev.T ℝ (n : ℤ) := by
  have := Chebyshev.T_add_two ℝ (n : ℤ)
  push_cast
  rw [this]; ring

theorem half (r : ℝ) : C (r / 2) * 2 = C r := by
  rw [show (2 : ℝ[X]) = C 2 from rfl, ← C_mul]; congr 1; ring

/-- The product of a series with a linear polynomial. -/
theorem lin_mul_ser (c h : ℝ) (f : Arr) (o m : ℕ) :
    (C c + C h * X) * ser f o (m + 1) = C c * ser f o (m + 1) + C (h * f o) * Chebyshev.T ℝ ((1 : ℕ) : ℤ)
      + ∑ i ∈ range m, C (h / 2 * f (o + 1 + i)) * Chebyshev.T ℝ (i : ℤ)
      + ∑ i ∈ range m, C (h / 2 * f (o + 1 + i)) * Chebyshev.T ℝ ((2 + i : ℕ) : ℤ) := by
  induction m with
  | zero =>
    simp only [ser, range_one, sum_singleton, range_zero, sum_empty, add_zero]
    simp [Chebyshev.T_zero, Chebyshev.T_one]; ring
  | succ m ih =>
    have e : ser f o (m + 1 + 1) = ser f o (m + 1) + C (f (o + 1 + m)) * Chebyshev.T ℝ ((m + 1 : ℕ) : ℤ) := by
      rw [ser_succ, show o + (m + 1) = o + 1 + m by omega]
    rw [e, mul_add, ih, sum_range_succ, sum_range_succ, show 2 + m = m + 2 by omega]
    have hx := X_mul_T m
    have : C h * (X * Chebyshev.T ℝ ((m + 1 : ℕ) : ℤ)) =
        C (h / 2) * (Chebyshev.T ℝ ((m + 2 : ℕ) : ℤ) + Chebyshev.T ℝ (m : ℤ)) := by
      rw [← hx, ← mul_assoc (C (h/2)), half]
    simp only [C_mul]
    linear_combination C (f (o + 1 + m)) * this

end Verif.Filt
