import Verif.ST.PolyModel
import Mathlib.Data.Nat.Choose.Sum
import Mathlib.Algebra.BigOperators.Intervals
import Mathlib.Algebra.BigOperators.Module
import Mathlib.Algebra.Module.BigOperators
import Mathlib.Data.Complex.Basic
import Mathlib.Tactic.Ring
import Mathlib.Tactic.Linarith
import Mathlib.Tactic.FieldSimp
import Mathlib.Algebra.Order.Ring.Rat
/-!
# Properties C10 (polynomial transformations) and C12 (shell versus explicit)
-/
set_option linter.all false
namespace Verif.ST.Poly
open Finset Matrix

section
variable {K V : Type} [Field K] [DecidableEq K] [AddCommGroup V] [Module K V]

theorem coeffInner_spec (ini inip : ℕ) (c : ℕ → K) (k : ℕ) (hsep : ini + k ≤ inip) :
    (∀ j, j ≤ ini ∨ ini + k ≤ j → coeffInner ini inip k c j = c j) ∧
    (∀ i, 1 ≤ i → i < k → coeffInner ini inip k c (ini + i)
      = coeffInner ini inip k c (ini + i - 1) + c (inip + i - 1)) := by
  induction k with
  | zero => exact ⟨fun j _ => rfl, fun i _ h => by omega⟩
  | succ k ih =>
    rcases Nat.eq_zero_or_pos k with rfl | hk
    · exact ⟨fun j _ => rfl, fun i _ h => by omega⟩
    obtain ⟨h1, h2⟩ := ih (by omega)
    have hstep : coeffInner ini inip (k + 1) c = upd (coeffInner ini inip k c) (ini + k)
        (coeffInner ini inip k c (ini + k - 1) + coeffInner ini inip k c (inip + k - 1)) := by
      unfold coeffInner
      have : k + 1 - 1 = (k - 1) + 1 := by omega
      rw [this, List.range'_1_concat, List.foldl_append]
      have e : 1 + (k - 1) = k := by omega
      simp only [List.foldl_cons, List.foldl_nil, e]
    constructor
    · intro j hj
      rw [hstep]; unfold upd
      rw [if_neg (by omega)]
      exact h1 j (by omega)
    · intro i hi1 hi2
      rw [hstep]
      by_cases hik : i = k
      · subst hik
        unfold upd
        rw [if_pos rfl, if_neg (by omega), h1 (inip + i - 1) (by omega)]
      · unfold upd
        rw [if_neg (by omega), if_neg (by omega)]
        exact h2 i hi1 (by omega)

theorem tri_succ (k : ℕ) : ((k + 1 + 1) * (k + 1)) / 2 = ((k + 1) * k) / 2 + (k + 1) := by
  have : (k + 1 + 1) * (k + 1) = (k + 1) * k + (k + 1) * 2 := by ring
  rw [this, Nat.add_mul_div_right _ _ (by norm_num)]

theorem tri_mono {a b : ℕ} (h : a ≤ b) : (a * (a - 1)) / 2 ≤ (b * (b - 1)) / 2 :=
  Nat.div_le_div_right (Nat.mul_le_mul h (by omega))

/-- Row `r` of the table is complete. -/
def RowOK (nmat : ℕ) (c : ℕ → K) (r : ℕ) : Prop :=
  ∀ i, i < r → c ((r * (r - 1)) / 2 + i) = ((i + (nmat - r)).choose (nmat - r) : K)

theorem coeffOuter_spec (nmat : ℕ) : ∀ (k : ℕ) (c : ℕ → K), k + 1 ≤ nmat →
    (∀ r, k + 1 ≤ r → r ≤ nmat → RowOK nmat c r) →
    ∀ r, 1 ≤ r → r ≤ nmat → RowOK nmat (coeffOuter k (((k + 1) * k) / 2) c) r := by
  intro k
  induction k with
  | zero => intro c _ h r h1 h2; exact h r h1 h2
  | succ k ih =>
    intro c hk h r h1 h2
    simp only [coeffOuter]
    apply ih _ (by omega) _ r h1 h2
    intro r' hr1 hr2
    have hrow := h (k + 1 + 1) (by omega) hk
    simp only [RowOK, Nat.add_sub_cancel] at hrow
    have htri := tri_succ k
    have hinip : ((k + 1 + 1) * (k + 1)) / 2 + 1 = ((k + 1) * k) / 2 + (k + 1) + 1 := by omega
    obtain ⟨s1, s2⟩ := coeffInner_spec (((k + 1) * k) / 2) (((k + 1 + 1) * (k + 1)) / 2 + 1)
      (upd c (((k + 1) * k) / 2) 1) (k + 1) (by omega)
    by_cases hr : r' = k + 1
    · subst hr
      intro i
      induction i with
      | zero =>
        intro _
        simp only [Nat.add_sub_cancel, Nat.add_zero]
        rw [s1 _ (Or.inl le_rfl)]
        simp [upd]
      | succ i ihi =>
        intro hi
        simp only [Nat.add_sub_cancel] at ihi ⊢
        rw [s2 (i + 1) (by omega) hi]
        have e1 : ((k + 1) * k) / 2 + (i + 1) - 1 = ((k + 1) * k) / 2 + i := by omega
        rw [e1, ihi (by omega)]
        have e2 : ((k + 1 + 1) * (k + 1)) / 2 + 1 + (i + 1) - 1 = ((k + 1 + 1) * (k + 1)) / 2 + (i + 1) := by
          omega
        rw [e2]
        have e3 : upd c (((k + 1) * k) / 2) 1 (((k + 1 + 1) * (k + 1)) / 2 + (i + 1))
            = c (((k + 1 + 1) * (k + 1)) / 2 + (i + 1)) := by
          unfold upd; rw [if_neg (by omega)]
        rw [e3, hrow (i + 1) (by omega)]
        obtain ⟨d, hd⟩ : ∃ d, nmat - (k + 1) = d + 1 := ⟨nmat - (k + 1) - 1, by omega⟩
        have hd' : nmat - (k + 1 + 1) = d := by omega
        rw [hd, hd']
        have : i + 1 + (d + 1) = (i + 1 + d) + 1 := by ring
        rw [this, Nat.choose_succ_succ]
        have e4 : i + (d + 1) = i + 1 + d := by ring
        rw [e4]
        push_cast
        ring
    · have hbig := tri_mono (show k + 1 + 1 ≤ r' by omega)
      simp only [Nat.add_sub_cancel] at hbig
      intro i hi
      rw [s1 _ (Or.inr (by omega))]
      have : upd c (((k + 1) * k) / 2) 1 (r' * (r' - 1) / 2 + i) = c (r' * (r' - 1) / 2 + i) := by
        unfold upd; rw [if_neg (by omega)]
      rw [this]
      exact h r' (by omega) hr2 i hi

/-- The table of `STCoeffs_Monomial` holds binomial coefficients. -/
theorem coeffsMonomial_spec (nmat : ℕ) (hn : 1 ≤ nmat) (c0 : ℕ → K) (r : ℕ) (h1 : 1 ≤ r) (h2 : r ≤ nmat)
    (i : ℕ) (hi : i < r) :
    coeffsMonomial nmat c0 ((r * (r - 1)) / 2 + i) = ((i + (nmat - r)).choose (nmat - r) : K) := by
  unfold coeffsMonomial
  have key : ∀ m j, j < m → (List.range m).foldl (fun c i => upd c ((nmat * (nmat - 1)) / 2 + i) 1) c0
      ((nmat * (nmat - 1)) / 2 + j) = 1 := by
    intro m
    induction m with
    | zero => intro j h; omega
    | succ m ih =>
      intro j h
      rw [List.range_succ, List.foldl_append]
      simp only [List.foldl_cons, List.foldl_nil, upd]
      split_ifs with he
      · rfl
      · exact ih j (by omega)
  have e : (nmat * (nmat - 1)) / 2 = ((nmat - 1 + 1) * (nmat - 1)) / 2 := by
    rw [Nat.sub_add_cancel hn]
  refine (e ▸ coeffOuter_spec nmat (nmat - 1) _ (by omega) ?_ r h1 h2) i hi
  intro r' a b
  have : r' = nmat := by omega
  subst this
  intro j hj
  rw [key r' j hj]
  simp

/-- Closed form of the accumulation loop. -/
theorem loop_spec (A : ℕ → V) (one : V) (alpha : K) (nmat k : ℕ) (c : ℕ → K) (h2 : 1 < nmat) (m : ℕ) :
    ∀ (s0 : ℕ) (t : K) (s : V),
    ((List.range' s0 m).foldl (fun (p : K × V) i =>
        if p.1 * alpha * c (i - k) ≠ 0 then (p.1 * alpha, if nmat > 1 then p.2 + (p.1 * alpha * c (i - k)) • A i
          else p.2 + (p.1 * alpha * c (i - k)) • one) else (p.1 * alpha, p.2)) (t, s)).2
      = s + ∑ i ∈ range m, (t * alpha ^ (i + 1) * c (s0 + i - k)) • A (s0 + i) := by
  induction m with
  | zero => intro s0 t s; simp
  | succ m ih =>
    intro s0 t s
    rw [List.range'_succ, List.foldl_cons]
    have hsplit : (if t * alpha * c (s0 - k) ≠ 0 then (t * alpha, if nmat > 1 then s + (t * alpha * c (s0 - k)) • A s0
          else s + (t * alpha * c (s0 - k)) • one) else (t * alpha, s))
        = (t * alpha, s + (t * alpha * c (s0 - k)) • A s0) := by
      split_ifs with h
      · rfl
      · push_neg at h; rw [h]; simp
    rw [hsplit, ih, Finset.sum_range_succ']
    simp only [Nat.add_zero, pow_one, zero_add]
    rw [add_assoc, add_comm ((t * alpha * c (s0 - k)) • A s0)]
    congr 2
    apply Finset.sum_congr rfl
    intro i _
    have e : s0 + 1 + i = s0 + (i + 1) := by ring
    rw [e]
    congr 1
    ring

/-- The intended value of `STMatMAXPY_Private` with coefficients. -/
def Combination (nmat : ℕ) (A : ℕ → V) (alpha : K) (k : ℕ) (c : ℕ → K) : V :=
  ∑ i ∈ range (nmat - k), (c i * alpha ^ i) • A (k + i)

theorem maxpyCopy_spec (nmat : ℕ) (A : ℕ → V) (one : V) (alpha : K) (k : ℕ) (c : ℕ → K)
    (hk : k < nmat) (h2 : 1 < nmat) (hc : c 0 ≠ 0) (ha : alpha ≠ 0 ∨ c 0 = 1) :
    maxpyCopy nmat A one alpha k (some c) = some (Combination nmat A alpha k c) := by
  obtain ⟨n, hn⟩ : ∃ n, nmat - k = n + 1 := ⟨nmat - k - 1, by omega⟩
  unfold maxpyCopy
  have hf : findIni c alpha (n + 1) 0 1 = (some 0, 1) := by simp [findIni, hc]
  simp only [hn, hf, Option.map_some, Option.some.injEq, Nat.add_zero, Nat.zero_add, and_true]
  have hsum : Combination nmat A alpha k c
      = c 0 • A k + ∑ i ∈ range n, (c (i + 1) * alpha ^ (i + 1)) • A (k + (i + 1)) := by
    unfold Combination
    rw [hn, Finset.sum_range_succ', add_comm]; simp
  rw [hsum]
  by_cases hcond : alpha = 0 ∨ (decide (c 0 ≠ 1) || (List.range' 1 (n + 1 - 1)).any fun i => decide (c i ≠ 0)) = false
  · rw [if_pos hcond]
    have hc1 : c 0 = 1 := by
      rcases hcond with h | h
      · rcases ha with h' | h'
        · exact absurd h h'
        · exact h'
      · simp at h; exact h.1
    rw [hc1, one_smul, Finset.sum_eq_zero, add_zero]
    intro i hi
    rcases hcond with h | h
    · rw [h]; simp
    · simp at h
      have := h.2 (i + 1) (by omega) (by simp at hi; omega)
      rw [this]; simp
  · rw [if_neg hcond]
    have hm : max 2 nmat - (k + 1) = n := by omega
    rw [hm]
    have hs : (if c 0 ≠ 1 then c 0 • A k else A k) = c 0 • A k := by
      split_ifs with h
      · rfl
      · push_neg at h; rw [h, one_smul]
    rw [hs, loop_spec A one alpha nmat k c h2]
    congr 1
    apply Finset.sum_congr rfl
    intro i _
    have e : k + 1 + i - k = i + 1 := by omega
    have e2 : k + 1 + i = k + (i + 1) := by ring
    rw [e, e2]
    congr 1
    ring

theorem shiftT_val (nmat : ℕ) (h2 : 1 < nmat) (A : ℕ → V) (one : V) (sigma : K) (c0 : ℕ → K) (j : ℕ)
    (hj : j < nmat) :
    shiftT nmat A one sigma c0 j
      = some (∑ i ∈ range (nmat - j), (((i + j).choose j : K) * sigma ^ i) • A (j + i)) := by
  unfold shiftT
  split_ifs with h
  · subst h
    have : nmat - (nmat - 1) = 1 := by omega
    rw [this]; simp
  · have row : ∀ i, i < nmat - j → coeffsMonomial nmat c0 (((nmat - j) * (nmat - j - 1)) / 2 + i)
        = ((i + j).choose j : K) := by
      intro i hi
      have := coeffsMonomial_spec nmat (by omega) c0 (nmat - j) (by omega) (by omega) i hi
      have e : nmat - (nmat - j) = j := by omega
      rw [e] at this
      exact this
    have r0 := row 0 (by omega)
    rw [Nat.zero_add, Nat.choose_self, Nat.cast_one] at r0
    rw [maxpyCopy_spec nmat A one sigma j _ hj h2 (by rw [r0]; exact one_ne_zero) (Or.inr r0)]
    unfold Combination
    congr 1
    apply Finset.sum_congr rfl
    intro i hi
    simp only
    rw [row i (by simpa using hi)]

theorem sinvertT_val (nmat : ℕ) (h2 : 1 < nmat) (A : ℕ → V) (one : V) (sigma : K) (c0 : ℕ → K) (k : ℕ)
    (hk : k < nmat) : sinvertT nmat A one sigma c0 k = shiftT nmat A one sigma c0 (nmat - 1 - k) := by
  unfold sinvertT shiftT
  by_cases h : k = 0
  · subst h; simp
  · rw [if_neg h, if_neg (by omega)]
    have e1 : nmat - k - 1 = nmat - 1 - k := by omega
    have e2 : nmat - (nmat - 1 - k) = k + 1 := by omega
    rw [e1, e2]
    have e3 : (k + 1) * (k + 1 - 1) / 2 = k * (k + 1) / 2 := by rw [Nat.add_sub_cancel, Nat.mul_comm]
    rw [e3]

/-- Value of the matrix polynomial with coefficients `A 0 .. A (nmat-1)` at `x`. -/
def polyEval (nmat : ℕ) (A : ℕ → V) (x : K) : V := ∑ i ∈ range nmat, x ^ i • A i

/-- **C10** (shift). After set-up with any shift, the transformed matrices are the coefficients of the
shifted polynomial: their value at `mu` is the original polynomial at `mu + sigma`. -/
theorem C10_shift (nmat : ℕ) (h2 : 1 < nmat) (A : ℕ → V) (one : V) (sigma : K) (c0 : ℕ → K) :
    ∃ T : ℕ → V, (∀ j, j < nmat → shiftT nmat A one sigma c0 j = some (T j)) ∧
      ∀ mu, polyEval nmat T mu = polyEval nmat A (mu + sigma) := by
  refine ⟨fun j => ∑ i ∈ range (nmat - j), (((i + j).choose j : K) * sigma ^ i) • A (j + i),
    fun j hj => shiftT_val nmat h2 A one sigma c0 j hj, ?_⟩
  intro mu
  unfold polyEval
  have lhs : ∀ j ∈ range nmat, mu ^ j • (∑ i ∈ range (nmat - j), (((i + j).choose j : K) * sigma ^ i) • A (j + i))
      = ∑ m ∈ range nmat, if j ≤ m then (mu ^ j * sigma ^ (m - j) * (m.choose j : K)) • A m else 0 := by
    intro j hj
    simp only [mem_range] at hj
    rw [Finset.smul_sum, ← Finset.sum_filter]
    have : (range nmat).filter (fun m => j ≤ m) = Finset.Ico j nmat := by
      ext m
      simp only [mem_filter, mem_range, mem_Ico]
      omega
    rw [this, Finset.sum_Ico_eq_sum_range]
    apply Finset.sum_congr rfl
    intro i _
    have e : j + i - j = i := by omega
    rw [smul_smul, e, Nat.add_comm i j]
    congr 1
    ring
  rw [Finset.sum_congr rfl lhs, Finset.sum_comm]
  apply Finset.sum_congr rfl
  intro m hm
  simp only [mem_range] at hm
  rw [← Finset.sum_filter]
  have : (range nmat).filter (fun j => j ≤ m) = range (m + 1) := by
    ext j; simp only [mem_filter, mem_range]; omega
  rw [this, ← Finset.sum_smul, add_pow]

/-- **C10** (shift-and-invert). The transformed matrices are the coefficients of the reversed shifted
polynomial: at `theta ≠ 0` their value is `theta^d` times the original polynomial at
`1/theta + sigma`, the back-transform of `theta`. -/
theorem C10_sinvert (nmat : ℕ) (h2 : 1 < nmat) (A : ℕ → V) (one : V) (sigma : K) (c0 : ℕ → K) :
    ∃ T : ℕ → V, (∀ k, k < nmat → sinvertT nmat A one sigma c0 k = some (T k)) ∧
      ∀ theta, theta ≠ 0 →
        polyEval nmat T theta = theta ^ (nmat - 1) • polyEval nmat A (1 / theta + sigma) := by
  obtain ⟨T, hT, hev⟩ := C10_shift nmat h2 A one sigma c0
  refine ⟨fun k => T (nmat - 1 - k), ?_, ?_⟩
  · intro k hk
    rw [sinvertT_val nmat h2 A one sigma c0 k hk]
    exact hT _ (by omega)
  · intro theta ht
    rw [← hev]
    unfold polyEval
    rw [Finset.smul_sum, ← Finset.sum_range_reflect]
    apply Finset.sum_congr rfl
    intro i hi
    simp only [mem_range] at hi
    have e : nmat - 1 - (nmat - 1 - i) = i := by omega
    simp only [e]
    rw [smul_smul]
    congr 1
    have : nmat - 1 = (nmat - 1 - i) + i := by omega
    conv_rhs => rw [this]
    rw [pow_add, one_div, inv_pow, mul_assoc, mul_inv_cancel₀ (pow_ne_zero _ ht), mul_one]

/-- General use of the routine through `STMatSetUp` (any coefficients): proved part, the first
coefficient is nonzero, and it is one when the parameter vanishes. -/
theorem C10_matsetup_partial (nmat : ℕ) (A : ℕ → V) (one : V) (alpha : K) (c : ℕ → K)
    (h2 : 1 < nmat) (hc : c 0 ≠ 0) (ha : alpha ≠ 0 ∨ c 0 = 1) :
    maxpyCopy nmat A one alpha 0 (some c) = some (∑ i ∈ range nmat, (c i * alpha ^ i) • A i) := by
  rw [maxpyCopy_spec nmat A one alpha 0 c (by omega) h2 hc ha]
  simp [Combination]

end

/-- With a leading zero coefficient the power of the parameter is lost: the routine returns `A 1`
scaled by 1 instead of `alpha`. -/
theorem C10_matsetup_leadingzero_false :
    maxpyCopy (K := ℚ) (V := ℚ) 2 (fun i => if i = 1 then 5 else 7) 1 3 0 (some fun i => if i = 1 then 1 else 0)
      = some 5 ∧
    ∑ i ∈ range 2, ((if i = 1 then 1 else 0 : ℚ) * 3 ^ i) • (if i = 1 then 5 else 7 : ℚ) = 15 := by
  constructor
  · simp [maxpyCopy, findIni]
  · norm_num [Finset.sum_range_succ]

/-- With parameter zero a first coefficient different from one is ignored. -/
theorem C10_matsetup_unscaled_false :
    maxpyCopy (K := ℚ) (V := ℚ) 2 (fun i => 7) 1 0 0 (some fun i => 2) = some 7 ∧
    ∑ i ∈ range 2, ((2 : ℚ) * 0 ^ i) • (7 : ℚ) = 14 := by
  constructor
  · simp [maxpyCopy, findIni]
  · norm_num [Finset.sum_range_succ]

/-- With all coefficients zero the code reads `coeffs[-1]`. -/
theorem C10_matsetup_zero_undefined {V : Type} [AddCommGroup V] [Module ℚ V] (A : ℕ → V) (one : V) (n : ℕ) (alpha : ℚ) :
    maxpyCopy n A one alpha 0 (some fun _ => 0) = none := by
  have : ∀ m i t, (findIni (fun _ => (0 : ℚ)) alpha m i t).1 = none := by
    intro m
    induction m with
    | zero => intro i t; rfl
    | succ m ih => intro i t; simp [findIni, ih]
  unfold maxpyCopy
  have h := this n 0 1
  rcases hh : findIni (fun _ => (0 : ℚ)) alpha n 0 1 with ⟨a, b⟩
  rw [hh] at h
  simp only at h
  subst h
  simp [hh]

example : (1 : ℕ) < 3 ∧ shiftT (K := ℚ) (V := ℚ) 3 (fun i => i + 1) 1 2 (fun _ => 9) 1 = some (2 + 2 * 2 * 3) := by
  refine ⟨by norm_num, ?_⟩
  rw [shiftT_val 3 (by norm_num) _ _ _ _ 1 (by norm_num)]
  norm_num [Finset.sum_range_succ, Nat.choose]

section
variable {K : Type} [Field K] [DecidableEq K] {n : Type} [Fintype n] [DecidableEq n]

/-- The matrix a shell object is meant to represent. -/
def shellMatrix (nm : ℕ) (A : ℕ → Matrix n n K) (alpha : K) (coeffs : Option (ℕ → K)) : Matrix n n K :=
  if nm = 1 then shellCoef coeffs 1 0 • A 0 + alpha • (1 : Matrix n n K)
  else ∑ i ∈ range nm, shellCoef coeffs (alpha ^ i) i • A i

theorem shellLoop (cj : K → K) (mul : ℕ → (n → K) → (n → K)) (alpha : K) (coeffs : Option (ℕ → K))
    (x : n → K) (m : ℕ) : ∀ (s0 : ℕ) (t : K) (y : n → K),
    ((List.range' s0 m).foldl (fun (p : K × (n → K)) i =>
      (p.1 * alpha, p.2 + cj (shellCoef coeffs (p.1 * alpha) i) • mul i x)) (t, y)).2
      = y + ∑ i ∈ range m, cj (shellCoef coeffs (t * alpha ^ (i + 1)) (s0 + i)) • mul (s0 + i) x := by
  induction m with
  | zero => intro s0 t y; simp
  | succ m ih =>
    intro s0 t y
    rw [List.range'_succ, List.foldl_cons, ih, Finset.sum_range_succ']
    simp only [Nat.add_zero, zero_add, pow_one]
    rw [add_assoc, add_comm (cj (shellCoef coeffs (t * alpha) s0) • mul s0 x)]
    congr 2
    apply Finset.sum_congr rfl
    intro i _
    have e : s0 + 1 + i = s0 + (i + 1) := by ring
    have e2 : t * alpha * alpha ^ (i + 1) = t * alpha ^ (i + 1 + 1) := by ring
    rw [e, e2]

theorem shellFirst_val (cj : K →+* K) (coeffs : Option (ℕ → K)) (y : n → K) :
    shellFirst cj coeffs y = cj (shellCoef coeffs 1 0) • y := by
  cases coeffs with
  | none => simp [shellCoef, shellFirst]
  | some c =>
    simp only [shellCoef, shellFirst, one_mul]
    split_ifs with h
    · rfl
    · push_neg at h; rw [h]; simp

/-- Value of the three products for any (semi)linear conjugation `cj`. -/
theorem shellMult_val (cj : K →+* K) (nm : ℕ) (hnm : 1 ≤ nm) (mul : ℕ → (n → K) → (n → K)) (alpha : K)
    (coeffs : Option (ℕ → K)) (x : n → K) :
    shellMult cj nm mul alpha coeffs x =
      if nm = 1 then cj (shellCoef coeffs 1 0) • mul 0 x + cj alpha • x
      else ∑ i ∈ range nm, cj (shellCoef coeffs (alpha ^ i) i) • mul i x := by
  have hy := shellFirst_val cj coeffs (mul 0 x)
  unfold shellMult
  simp only [hy]
  obtain ⟨m, rfl⟩ : ∃ m, nm = m + 1 := ⟨nm - 1, by omega⟩
  by_cases ha : alpha = 0
  · rw [if_neg (by simpa using ha)]
    subst ha
    split_ifs with h1
    · simp
    · rw [Finset.sum_range_succ', Finset.sum_eq_zero]
      · simp
      · intro i _
        cases coeffs <;> simp [shellCoef]
  · rw [if_pos ha, shellLoop]
    by_cases h1 : m + 1 = 1
    · have : m = 0 := by omega
      subst this
      simp
    · rw [if_neg h1, if_neg h1, Finset.sum_range_succ', add_comm]
      simp only [Nat.add_sub_cancel, one_mul, pow_zero]
      congr 1
      apply Finset.sum_congr rfl
      intro i _
      rw [Nat.add_comm 1 i]

/-- **C12** (product): in shell mode the product is the one by the represented matrix. -/
theorem C12_mult (nm : ℕ) (hnm : 1 ≤ nm) (A : ℕ → Matrix n n K) (alpha : K) (coeffs : Option (ℕ → K)) (x : n → K) :
    shellMult (RingHom.id K) nm (fun i x => A i *ᵥ x) alpha coeffs x
      = shellMatrix nm A alpha coeffs *ᵥ x := by
  rw [shellMult_val _ nm hnm]
  unfold shellMatrix
  split_ifs with h
  · simp [add_mulVec, smul_mulVec]
  · simp [sum_mulVec, smul_mulVec]

/-- **C12** (transpose). -/
theorem C12_multTranspose (nm : ℕ) (hnm : 1 ≤ nm) (A : ℕ → Matrix n n K) (alpha : K) (coeffs : Option (ℕ → K))
    (x : n → K) :
    shellMult (RingHom.id K) nm (fun i x => (A i)ᵀ *ᵥ x) alpha coeffs x
      = (shellMatrix nm A alpha coeffs)ᵀ *ᵥ x := by
  rw [shellMult_val _ nm hnm]
  unfold shellMatrix
  split_ifs with h
  · simp [add_mulVec, smul_mulVec, transpose_add]
  · simp [sum_mulVec, smul_mulVec, transpose_sum]

/-- **C12** (Hermitian transpose). -/
theorem C12_multHermitian [StarRing K] (nm : ℕ) (hnm : 1 ≤ nm) (A : ℕ → Matrix n n K) (alpha : K)
    (coeffs : Option (ℕ → K)) (x : n → K) :
    shellMult (starRingEnd K) nm (fun i x => (A i)ᴴ *ᵥ x) alpha coeffs x
      = (shellMatrix nm A alpha coeffs)ᴴ *ᵥ x := by
  rw [shellMult_val _ nm hnm]
  unfold shellMatrix
  split_ifs with h
  · simp [add_mulVec, smul_mulVec, conjTranspose_add, conjTranspose_smul, starRingEnd_apply]
  · simp [sum_mulVec, smul_mulVec, conjTranspose_sum, conjTranspose_smul, starRingEnd_apply]

/-- **C12** (shell mode and copy mode agree) for the linear problem `A0 + alpha A1` and for polynomial
coefficient ranges with a leading coefficient 1 (the case of both transformations). -/
theorem C12_shell_eq_copy (nmat : ℕ) (h2 : 1 < nmat) (A : ℕ → Matrix n n K) (alpha : K) (c : ℕ → K)
    (hc : c 0 = 1) (S : Matrix n n K) (hS : maxpyCopy nmat A 1 alpha 0 (some c) = some S) (x : n → K) :
    shellMult (RingHom.id K) nmat (fun i x => A i *ᵥ x) alpha (some c) x = S *ᵥ x := by
  rw [C12_mult nmat (by omega)]
  rw [C10_matsetup_partial nmat A 1 alpha c h2 (by rw [hc]; exact one_ne_zero) (Or.inr hc)] at hS
  simp only [Option.some.injEq] at hS
  rw [← hS]
  unfold shellMatrix
  rw [if_neg (by omega)]
  congr 1
  apply Finset.sum_congr rfl
  intro i _
  simp [shellCoef, mul_comm]

/-- **C12** for the diagonal, proved part: one matrix (standard problem), or a zero parameter.  For
two or more matrices it is false, see `C12_diag_false`. -/
theorem C12_diag_partial (nm : ℕ) (hnm : 1 ≤ nm) (A : ℕ → Matrix n n K) (alpha : K) (coeffs : Option (ℕ → K))
    (h : nm = 1 ∨ alpha = 0) :
    shellDiag nm A alpha coeffs = (shellMatrix nm A alpha coeffs).diag := by
  have hd : shellFirst id coeffs (A 0).diag = shellCoef coeffs 1 0 • (A 0).diag :=
    shellFirst_val (RingHom.id K) coeffs (A 0).diag
  unfold shellDiag
  simp only [hd]
  by_cases ha : alpha = 0
  · rw [if_neg (by simpa using ha)]
    subst ha
    unfold shellMatrix
    obtain ⟨m, rfl⟩ : ∃ m, nm = m + 1 := ⟨nm - 1, by omega⟩
    split_ifs with h1
    · ext i; simp
    · rw [Finset.sum_range_succ', Finset.sum_eq_zero]
      · ext i; simp
      · intro i _
        cases coeffs <;> simp [shellCoef]
  · rcases h with h | h
    · subst h
      rw [if_pos ha, if_pos rfl]
      unfold shellMatrix
      rw [if_pos rfl]
      ext i; simp
    · exact absurd h ha

/-- **C12 is false for the diagonal** of `A0 + alpha A1`: the code returns `diag(A1) + alpha diag(A0)`. -/
theorem C12_diag_false (A : ℕ → Matrix n n K) (alpha : K) (ha : alpha ≠ 0) :
    shellDiag 2 A alpha none = (A 1).diag + alpha • (A 0).diag ∧
    (shellMatrix 2 A alpha none).diag = (A 0).diag + alpha • (A 1).diag := by
  constructor
  · simp [shellDiag, ha, shellCoef, shellFirst]
  · ext i
    simp [shellMatrix, Finset.sum_range_succ, shellCoef]

example : shellDiag 2 (fun i => (i : Matrix (Fin 1) (Fin 1) ℚ)) 2 none
    ≠ (shellMatrix 2 (fun i => (i : Matrix (Fin 1) (Fin 1) ℚ)) 2 none).diag := by
  obtain ⟨h1, h2⟩ := C12_diag_false (fun i => (i : Matrix (Fin 1) (Fin 1) ℚ)) (2 : ℚ) (by norm_num)
  rw [h1, h2]
  intro h
  have := congrFun h 0
  simp at this
end
end Verif.ST.Poly
