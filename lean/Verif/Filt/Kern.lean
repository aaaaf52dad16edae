import Verif.Filt.Lem

/-! # The kernels: multiplication by `z`, AXPY, evaluation, inner product -/

set_option linter.all false

namespace Verif.Filt

open Polynomial Finset

/-! ## Multiplication by z -/

/-- The second loop of `mulXCol` adds two series. -/
theorem mulX_loop (sq n m : ℕ) (v : ℕ → ℝ) (g : Arr) (hm : m + 2 ≤ n) :
    ser (loop m (fun i q =>
        let q := wr q (sq + i) (q (sq + i) + v i)
        wr q (sq + 2 + i) (q (sq + 2 + i) + v i)) g) sq n =
      ser g sq n + ∑ i ∈ range m, C (v i) * Chebyshev.T ℝ (i : ℤ)
        + ∑ i ∈ range m, C (v i) * Chebyshev.T ℝ ((2 + i : ℕ) : ℤ) := by
  induction m with
  | zero => simp [loop]
  | succ m ih =>
    have ih := ih (by omega)
    rw [loop]
    dsimp only
    rw [show sq + 2 + m = sq + (2 + m) by omega, ser_add_at _ sq n (2 + m) (v m) (by omega),
      ser_add_at _ sq n m (v m) (by omega), ih, sum_range_succ, sum_range_succ]
    ring

theorem mulX_loop_out (sq m : ℕ) (v : ℕ → ℝ) (g : Arr) (k : ℕ) (hk : k < sq ∨ sq + m + 2 ≤ k) :
    loop m (fun i q =>
        let q := wr q (sq + i) (q (sq + i) + v i)
        wr q (sq + 2 + i) (q (sq + 2 + i) + v i)) g k = g k := by
  induction m with
  | zero => rfl
  | succ m ih =>
    rw [loop]
    dsimp only
    rw [wr_ne _ _ (by omega), wr_ne _ _ (by omega), ih (by omega)]

theorem mulXCol_ser (pp : Arr) (d ldp : ℕ) (intv : Arr) (ldq j : ℕ) (qq : Arr) :
    ser (mulXCol pp (d + 1) ldp intv ldq j qq) (j * ldq) (d + 2) =
      (C ((intv j + intv (j + 1)) / 2) + C ((intv (j + 1) - intv j) / 2) * X) *
        ser pp (j * ldp) (d + 1) := by
  obtain ⟨g, hg⟩ : ∃ g, g = wr (loop (d + 1) (fun i q => wr q (j * ldq + i)
      (1 / 2 * (intv j + intv (j + 1)) * pp (j * ldp + i))) qq) (j * ldq + (d + 1)) 0 := ⟨_, rfl⟩
  have e : mulXCol pp (d + 1) ldp intv ldq j qq = loop d (fun i q =>
      let q := wr q (j * ldq + i) (q (j * ldq + i) + 1 / 2 * (1 / 2 * (intv (j + 1) - intv j)) * pp (j * ldp + 1 + i))
      wr q (j * ldq + 2 + i) (q (j * ldq + 2 + i) + 1 / 2 * (1 / 2 * (intv (j + 1) - intv j)) * pp (j * ldp + 1 + i)))
      (wr g (j * ldq + 1) (g (j * ldq + 1) + 1 / 2 * (intv (j + 1) - intv j) * pp (j * ldp))) := by
    subst hg; rfl
  rw [e, mulX_loop (j * ldq) (d + 2) d (fun i => 1 / 2 * (1 / 2 * (intv (j + 1) - intv j)) * pp (j * ldp + 1 + i)) _ (by omega),
    ser_add_at _ _ _ 1 _ (by omega), lin_mul_ser]
  have h1 : ser g (j * ldq) (d + 2) = C ((intv j + intv (j + 1)) / 2) * ser pp (j * ldp) (d + 1) := by
    rw [ser_succ, hg, wr_same]
    simp only [map_zero, zero_mul, add_zero]
    rw [ser, ser, mul_sum]
    refine sum_congr rfl fun i hi => ?_
    have hi := mem_range.mp hi
    rw [wr_ne _ _ (by omega), loop_set, if_pos (by omega), show j * ldq + i - j * ldq = i by omega,
      ← mul_assoc, ← C_mul]
    congr 2; ring
  rw [h1]
  have e1 : (1 / 2 * (intv (j + 1) - intv j)) = (intv (j + 1) - intv j) / 2 := by ring
  have e2 : (1 / 2 * ((intv (j + 1) - intv j) / 2)) = (intv (j + 1) - intv j) / 2 / 2 := by ring
  rw [e1, e2]

theorem mulXCol_out (pp : Arr) (d ldp : ℕ) (intv : Arr) (ldq j : ℕ) (qq : Arr) (k : ℕ)
    (hk : k < j * ldq ∨ j * ldq + (d + 2) ≤ k) : mulXCol pp (d + 1) ldp intv ldq j qq k = qq k := by
  rw [mulXCol]
  dsimp only
  rw [mulX_loop_out _ _ (fun i => 1 / 2 * (1 / 2 * (intv (j + 1) - intv j)) * pp (j * ldp + 1 + i)) _ _ (by omega)]
  rw [wr_ne _ _ (by omega), wr_ne _ _ (by omega), loop_set, if_neg (by omega)]

theorem mul_sep {j i ld : ℕ} (h : i < j) : i * ld + ld ≤ j * ld := by
  have := Nat.mul_le_mul_right ld (show i + 1 ≤ j from h)
  rw [Nat.add_mul, one_mul] at this
  exact this

/-- Every column of the result is the product with `z` (in the variable of the interval). -/
theorem mulX_ser (pp : Arr) (d ldp : ℕ) (intv : Arr) (n : ℕ) (qq : Arr) (ldq : ℕ)
    (hq : d + 2 ≤ ldq) (j : ℕ) (hj : j < n) :
    ser (mulX pp (d + 1) ldp intv n qq ldq) (j * ldq) (d + 2) =
      (C ((intv j + intv (j + 1)) / 2) + C ((intv (j + 1) - intv j) / 2) * X) *
        ser pp (j * ldp) (d + 1) := by
  induction n with
  | zero => omega
  | succ n ih =>
    show ser (mulXCol pp (d + 1) ldp intv ldq n (mulX pp (d + 1) ldp intv n qq ldq)) _ _ = _
    rcases Nat.lt_or_ge j n with h | h
    · rw [← ih h]
      refine ser_congr fun i hi => ?_
      have := mul_sep (ld := ldq) h
      rw [mulXCol_out _ _ _ _ _ _ _ _ (by omega)]
    · obtain rfl : j = n := by omega
      exact mulXCol_ser _ _ _ _ _ _ _

/-- The other entries are not touched. -/
theorem mulX_out (pp : Arr) (d ldp : ℕ) (intv : Arr) (n : ℕ) (qq : Arr) (ldq : ℕ)
    (hq : d + 2 ≤ ldq) (j i : ℕ) (hi : d + 2 ≤ i) (hi' : i < ldq) :
    mulX pp (d + 1) ldp intv n qq ldq (j * ldq + i) = qq (j * ldq + i) := by
  induction n with
  | zero => rfl
  | succ n ih =>
    show mulXCol pp (d + 1) ldp intv ldq n (mulX pp (d + 1) ldp intv n qq ldq) _ = _
    rw [mulXCol_out, ih]
    rcases lt_trichotomy j n with h | h | h
    · have := mul_sep (ld := ldq) h; omega
    · subst h; omega
    · have := mul_sep (ld := ldq) h; omega

/-! ## AXPY -/

theorem axpy_col (n : ℕ) (g : ℕ → ℝ → ℝ) (j ldb : ℕ) (B : Arr) (k : ℕ) :
    loop n (fun i B => wr B (i + j * ldb) (g i (B (i + j * ldb)))) B k =
      if j * ldb ≤ k ∧ k < j * ldb + n then g (k - j * ldb) (B k) else B k := by
  induction n with
  | zero => rw [loop, if_neg (by omega)]
  | succ n ih =>
    show wr _ (n + j * ldb) _ k = _
    by_cases hk : k = n + j * ldb
    · subst hk
      rw [wr_same, ih, if_neg (by omega), if_pos (by omega), show n + j * ldb - j * ldb = n by omega]
    · rw [wr_ne _ _ hk, ih]
      by_cases h : j * ldb ≤ k ∧ k < j * ldb + n
      · rw [if_pos h, if_pos (by omega)]
      · rw [if_neg h, if_neg (by omega)]

theorem axpy_cols (n m : ℕ) (g : ℕ → ℕ → ℝ → ℝ) (ldb : ℕ) (B : Arr) (j i : ℕ) (hn : n ≤ ldb)
    (hi : i < ldb) :
    loop m (fun j B => loop n (fun i B => wr B (i + j * ldb) (g j i (B (i + j * ldb)))) B) B (j * ldb + i) =
      if j < m ∧ i < n then g j i (B (j * ldb + i)) else B (j * ldb + i) := by
  induction m with
  | zero => rw [loop, if_neg (by omega)]
  | succ m ih =>
    rw [loop]
    rw [axpy_col n (g m)]
    rcases lt_trichotomy j m with h | h | h
    · have := mul_sep (ld := ldb) h
      rw [if_neg (by omega), ih]
      by_cases h' : i < n
      · rw [if_pos ⟨h, h'⟩, if_pos ⟨by omega, h'⟩]
      · rw [if_neg (by omega), if_neg (by omega)]
    · subst h
      by_cases h' : i < n
      · rw [if_pos (by omega), if_pos ⟨by omega, h'⟩, ih, if_neg (by omega),
          show j * ldb + i - j * ldb = i by omega]
      · rw [if_neg (by omega), if_neg (by omega), ih, if_neg (by omega)]
    · have := mul_sep (ld := ldb) h
      rw [if_neg (by omega), ih, if_neg (by omega), if_neg (by omega)]

/-- Entries after `Mat_AXPY_BLAS`. -/
theorem axpy_apply (n k : ℕ) (al : ℝ) (A : Arr) (ld : ℕ) (be : ℝ) (B : Arr) (j i : ℕ) (hn : n ≤ ld)
    (hi : i < ld) :
    axpy n k al A ld be B ld (j * ld + i) =
      if j < k ∧ i < n then al * A (j * ld + i) + be * B (j * ld + i) else B (j * ld + i) := by
  rw [axpy]
  by_cases hb : be = 1
  · rw [if_pos hb, axpy_cols n k (fun j i b => b + al * A (i + j * ld)) ld B j i hn hi]
    by_cases h : j < k ∧ i < n
    · rw [if_pos h, if_pos h, hb, add_comm i]; ring
    · rw [if_neg h, if_neg h]
  · rw [if_neg hb, axpy_cols n k (fun j i b => al * A (i + j * ld) + be * b) ld B j i hn hi, add_comm i]

theorem axpy_ser (n k : ℕ) (al : ℝ) (A : Arr) (ld : ℕ) (be : ℝ) (B : Arr) (j : ℕ) (hn : n ≤ ld)
    (hj : j < k) :
    ser (axpy n k al A ld be B ld) (j * ld) n = C al * ser A (j * ld) n + C be * ser B (j * ld) n := by
  rw [ser, ser, ser, mul_sum, mul_sum, ← sum_add_distrib]
  refine sum_congr rfl fun i hi => ?_
  have hi := mem_range.mp hi
  rw [axpy_apply _ _ _ _ _ _ _ _ _ hn (by omega), if_pos ⟨hj, hi⟩]
  simp only [map_add, C_mul]; ring

/-! ## Evaluation -/

theorem polyEval_loop (pp : Arr) (sc m : ℕ) (zz : ℝ) :
    loop m (fun i (s : ℝ × ℝ × ℝ) =>
      let t0 := 2 * zz * s.2.1 - s.2.2
      (s.1 + pp (sc + 1 + i) * t0, t0, s.2.1)) (pp sc, 1, zz) =
    ((ser pp sc (m + 1)).eval zz, (Chebyshev.T ℝ (m : ℤ)).eval zz, (Chebyshev.T ℝ ((m : ℤ) - 1)).eval zz) := by
  induction m with
  | zero => simp [loop, ser]
  | succ m ih =>
    rw [loop, ih]
    dsimp only
    have e : (Chebyshev.T ℝ ((m + 1 : ℕ) : ℤ)).eval zz = 2 * zz * (Chebyshev.T ℝ (m : ℤ)).eval zz - (Chebyshev.T ℝ ((m : ℤ) - 1)).eval zz := by
      have := Chebyshev.T_add_one ℝ (m : ℤ)
      push_cast
      rw [this]; simp
    rw [← e, ser_succ pp sc (m + 1)]
    simp only [eval_add, eval_mul, eval_C]
    rw [show sc + 1 + m = sc + (m + 1) by omega]
    have h2 : ((m + 1 : ℕ) : ℤ) - 1 = (m : ℤ) := by push_cast; ring
    rw [h2]

/-- The recursion gives the value of the series at the mapped point. -/
theorem polyEval_eq (pp : Arr) (m idx : ℕ) (z0 aa bb : ℝ) (hm : 1 ≤ m) :
    polyEval pp m idx z0 aa bb = (ser pp ((idx - 1) * m) m).eval (mapped z0 aa bb) := by
  rw [polyEval]
  dsimp only
  rw [polyEval_loop, show m - 1 + 1 = m by omega]

theorem mapped_eq (z0 aa bb : ℝ) (h : aa ≠ bb) :
    mapped z0 aa bb = 2 / (bb - aa) * (z0 - (aa + bb) / 2) := by
  rw [mapped]
  have hne : bb - aa ≠ 0 := sub_ne_zero.mpr (Ne.symm h)
  by_cases h1 : aa = -1 ∧ bb = 1
  · rw [if_pos h1, h1.1, h1.2]; norm_num
  · rw [if_neg h1, if_neg h]; field_simp; ring

theorem piece_eval (f : Arr) (o n : ℕ) (a b z : ℝ) :
    (piece f o n a b).eval z = (ser f o n).eval (2 / (b - a) * (z - (a + b) / 2)) := by
  simp [piece, eval_comp]

/-- The search: with `K = npoints - 1` intervals, the interval number `k < K` returned contains
the point, except that the first one takes all points to the left and the last one all to the
right. -/
theorem srch_spec (intv : Arr) (np : ℕ) (z0 : ℝ) (fuel : ℕ) : ∀ idx, 1 ≤ idx → idx + 1 < np →
    intv idx ≤ z0 → np ≤ fuel + idx →
    ∃ k, srch intv np z0 fuel idx (idx + 1) = (k + 1, k + 1) ∧ 1 ≤ k ∧ k + 1 < np ∧ intv k ≤ z0 ∧
      (k + 2 < np → z0 < intv (k + 1)) := by
  induction fuel with
  | zero => intro idx h1 h2 h3 h4; omega
  | succ fuel ih =>
    intro idx h1 h2 h3 h4
    rw [srch]
    by_cases ha : idx + 1 < np - 1
    · rw [if_pos ha]
      by_cases hb : z0 < intv (idx + 1)
      · rw [if_pos hb]; exact ⟨idx, rfl, h1, h2, h3, fun _ => hb⟩
      · rw [if_neg hb]
        exact ih (idx + 1) (by omega) (by omega) (not_lt.mp hb) (by omega)
    · rw [if_neg ha]; exact ⟨idx, rfl, h1, h2, h3, fun h => by omega⟩

theorem findIdx_spec (intv : Arr) (np : ℕ) (z0 : ℝ) (hnp : 2 ≤ np) :
    ∃ k, findIdx intv np z0 = (k + 1, k + 1) ∧ k + 1 < np ∧ (k ≠ 0 → intv k ≤ z0) ∧
      (k + 2 < np → z0 < intv (k + 1)) := by
  rw [findIdx]
  by_cases h : 2 < np ∧ intv 1 ≤ z0
  · rw [if_pos h]
    obtain ⟨k, e, h1, h2, h3, h4⟩ := srch_spec intv np z0 np 1 (by omega) (by omega) h.2 (by omega)
    exact ⟨k, e, h2, fun _ => h3, h4⟩
  · rw [if_neg h]
    refine ⟨0, rfl, by omega, fun h => absurd rfl h, fun h' => ?_⟩
    by_contra hc
    exact h ⟨by omega, not_lt.mp hc⟩

/-! ## Inner product -/

theorem inner_loop (pp qq : Arr) (a b d : ℕ) (z : ℝ) :
    loop d (fun k a2 => a2 + pp (a + k) * qq (b + k)) z = z + ∑ k ∈ range d, pp (a + k) * qq (b + k) := by
  induction d with
  | zero => simp [loop]
  | succ d ih => rw [loop, ih, sum_range_succ]; ring

theorem sum_loop (n : ℕ) (v : ℕ → ℝ) : loop n (fun i ans => ans + v i) 0 = ∑ i ∈ range n, v i := by
  induction n with
  | zero => rfl
  | succ n ih => rw [loop, ih, sum_range_succ]

/-- Integral with the Chebyshev weight `1/sqrt(1-t^2)` over `[-1,1]`. -/
noncomputable def ci (P : ℝ[X]) : ℝ := ∫ t, P.eval t ∂Chebyshev.measureT

theorem ci_int (P : ℝ[X]) : MeasureTheory.Integrable (fun t => P.eval t) Chebyshev.measureT :=
  Chebyshev.integrable_measureT (P.continuous.continuousOn)

theorem ci_add (P Q : ℝ[X]) : ci (P + Q) = ci P + ci Q := by
  simp only [ci, eval_add]
  exact MeasureTheory.integral_add (ci_int P) (ci_int Q)

theorem ci_C_mul (a : ℝ) (P : ℝ[X]) : ci (C a * P) = a * ci P := by
  simp only [ci, eval_mul, eval_C]
  exact MeasureTheory.integral_const_mul a _

theorem ci_zero : ci 0 = 0 := by simp [ci]

theorem ci_sum {ι : Type*} (s : Finset ι) (f : ι → ℝ[X]) : ci (∑ i ∈ s, f i) = ∑ i ∈ s, ci (f i) := by
  classical
  induction s using Finset.induction_on with
  | empty => simp [ci_zero]
  | insert a s h ih => rw [sum_insert h, sum_insert h, ci_add, ih]

theorem ci_TT (i j : ℕ) : ci (Chebyshev.T ℝ (i : ℤ) * Chebyshev.T ℝ (j : ℤ)) =
    if i = j then (if i = 0 then Real.pi else Real.pi / 2) else 0 := by
  simp only [ci, eval_mul]
  by_cases h : i = j
  · subst h
    rw [if_pos rfl]
    by_cases h0 : i = 0
    · subst h0; rw [if_pos rfl]; exact Chebyshev.integral_eval_T_real_mul_self_measureT_zero
    · rw [if_neg h0]; exact Chebyshev.integral_T_real_mul_self_measureT_of_ne_zero h0
  · rw [if_neg h]; exact Chebyshev.integral_eval_T_real_mul_eval_T_real_measureT_of_ne h

theorem ci_ser_T (f : Arr) (o n k : ℕ) : ci (ser f o n * Chebyshev.T ℝ (k : ℤ)) =
    if k < n then f (o + k) * (if k = 0 then Real.pi else Real.pi / 2) else 0 := by
  rw [ser, sum_mul, ci_sum]
  have : ∀ i ∈ range n, ci (C (f (o + i)) * Chebyshev.T ℝ (i : ℤ) * Chebyshev.T ℝ (k : ℤ)) =
      if i = k then f (o + k) * (if k = 0 then Real.pi else Real.pi / 2) else 0 := by
    intro i _
    rw [mul_assoc, ci_C_mul, ci_TT]
    by_cases h : i = k
    · subst h; rw [if_pos rfl, if_pos rfl]
    · rw [if_neg h, if_neg h, mul_zero]
  rw [sum_congr rfl this, sum_ite_eq']
  simp only [mem_range]

theorem ci_ser_ser (f g : Arr) (o o' n n' : ℕ) (hn : min n n' ≠ 0) : ci (ser f o n * ser g o' n') =
    (f o * g o' + ∑ k ∈ range (min n n'), f (o + k) * g (o' + k)) * (Real.pi / 2) := by
  have e : ci (ser f o n * ser g o' n') = ∑ k ∈ range n', g (o' + k) *
      (if k < n then f (o + k) * (if k = 0 then Real.pi else Real.pi / 2) else 0) := by
    rw [show ser g o' n' = ∑ i ∈ range n', C (g (o' + i)) * Chebyshev.T ℝ (i : ℤ) from rfl, mul_sum, ci_sum]
    refine sum_congr rfl fun k _ => ?_
    rw [← ci_ser_T, ← ci_C_mul]; congr 1; ring
  rw [e]
  have e2 : ∑ k ∈ range n', g (o' + k) * (if k < n then f (o + k) * (if k = 0 then Real.pi else Real.pi / 2) else 0)
      = ∑ k ∈ range (min n n'), g (o' + k) * (f (o + k) * (if k = 0 then Real.pi else Real.pi / 2)) := by
    have hs : range (min n n') ⊆ range n' := range_subset_range.mpr (min_le_right _ _)
    rw [← sum_subset hs]
    · refine sum_congr rfl fun k hk => ?_
      rw [if_pos (lt_of_lt_of_le (mem_range.mp hk) (min_le_left _ _))]
    · intro k hk hk'
      rw [if_neg, mul_zero]
      intro h
      exact hk' (mem_range.mpr (lt_min h (mem_range.mp hk)))
  rw [e2]
  obtain ⟨d, hd⟩ : ∃ d, min n n' = d + 1 := ⟨min n n' - 1, by omega⟩
  rw [hd, sum_range_succ', sum_range_succ']
  simp only [Nat.succ_ne_zero, if_false, if_true, add_zero]
  rw [add_mul, add_mul, sum_mul]
  have : ∀ k, g (o' + (k + 1)) * (f (o + (k + 1)) * (Real.pi / 2)) = f (o + (k + 1)) * g (o' + (k + 1)) * (Real.pi / 2) :=
    fun k => by ring
  simp only [this]; ring

/-- The inner product is the weighted sum of the integrals. -/
theorem innerP_eq (pp : Arr) (pr pc ldp : ℕ) (qq : Arr) (qr qc ldq : ℕ) (w : Arr) :
    innerP pp pr pc ldp qq qr qc ldq w =
      ∑ i ∈ range (min pc qc), w i * ci (ser pp (i * ldp) pr * ser qq (i * ldq) qr) := by
  rw [innerP]
  dsimp only
  by_cases h : min pr qr = 0
  · rw [if_pos h]
    symm
    refine sum_eq_zero fun i _ => ?_
    rcases Nat.le_total pr qr with h1 | h1
    · rw [min_eq_left h1] at h; subst h; rw [ser_zero, zero_mul, ci_zero, mul_zero]
    · rw [min_eq_right h1] at h; subst h; rw [ser_zero, mul_zero, ci_zero, mul_zero]
  · rw [if_neg h]
    have := sum_loop (min pc qc) (fun i => (loop (min pr qr) (fun k a2 => a2 + pp (i * ldp + k) * qq (i * ldq + k))
        (pp (i * ldp) * qq (i * ldq))) * w i)
    rw [this, mul_div_assoc, sum_mul]
    refine sum_congr rfl fun i _ => ?_
    rw [inner_loop, ci_ser_ser _ _ _ _ _ _ h]; ring

end Verif.Filt
