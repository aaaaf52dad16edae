import Verif.NEP.InterpolModel
import Mathlib.Analysis.SpecialFunctions.Trigonometric.Chebyshev.Basic
import Mathlib.LinearAlgebra.Lagrange
import Mathlib.Tactic

/-! Chebyshev interpolation in NEPINTERPOL (C96, C97). -/
set_option linter.all false
noncomputable section
open Classical

namespace Verif.NEP.Interpol

variable {K E : Type*} [RCLike K] [AddCommGroup E] [Module K E]

/-! ### Specification -/

/-- Value of the matrix polynomial with coefficients `C` in the Chebyshev basis. -/
def chebValue (deg : ℕ) (C : ℕ → E) (z : K) : E := ∑ k ∈ Finset.range (deg+1), (Polynomial.Chebyshev.T K k).eval z • C k

/-- Value of the nonlinear operator in split form. -/
def opValue (nt : ℕ) (f : ℕ → K → K) (A : ℕ → E) (x : K) : E := ∑ j ∈ Finset.range nt, f j x • A j

/-- The affine map from `[a,b]` to `[-1,1]`. -/
def toUnit (a b : ℝ) (x : K) : K := (2 * x - ((a + b : ℝ) : K)) / ((b - a : ℝ) : K)

/-! ### Lemmas -/

theorem fold_sum {M : Type*} [AddCommMonoid M] (g : ℕ → M) (m : M) (n : ℕ) : (List.range n).foldl (fun s j => s + g j) m = m + ∑ j ∈ Finset.range n, g j := by
  induction n with
  | zero => simp
  | succ n ih => rw [List.range_succ, List.foldl_append, ih, Finset.sum_range_succ, List.foldl_cons, List.foldl_nil, add_assoc]

theorem coef_eq (d : ℕ) (fx : ℕ → K) (k : ℕ) :
    coef d fx k = (if k = 0 then (1/2 : K) else 1) * (2 / ((d:K) + 1)) * ∑ i ∈ Finset.range (d+1), fx i * ((dct d i k : ℝ) : K) := by
  unfold coef
  rw [fold_sum (fun i => fx i * ((dct d i k : ℝ) : K))]
  by_cases h : k = 0
  · rw [if_pos h, if_pos h]; push_cast; ring
  · rw [if_neg h, if_neg h]; push_cast; ring

theorem matCoef_eq {nt : ℕ} (hnt : 1 ≤ nt) (d : ℕ) (fx : ℕ → ℕ → K) (A : ℕ → E) (k : ℕ) :
    matCoef d nt fx A k = ∑ j ∈ Finset.range nt, coef d (fx j) k • A j := by
  unfold matCoef
  rw [fold_sum (fun j => coef d (fx (j+1)) k • A (j+1)), add_comm, ← Finset.sum_range_succ' (fun j => coef d (fx j) k • A j), Nat.sub_add_cancel hnt]

/-- Dirichlet kernel. -/
theorem dirichlet (n : ℕ) (φ : ℝ) : 2 * Real.sin (φ/2) * (1/2 + ∑ k ∈ Finset.range n, Real.cos ((k+1 : ℕ) * φ)) = Real.sin ((n + 1/2) * φ) := by
  induction n with
  | zero => simp only [Finset.sum_range_zero]; push_cast; ring_nf
  | succ n ih =>
    rw [Finset.sum_range_succ, ← add_assoc, mul_add, ih]
    have h1 : Real.sin (((n+1:ℕ) + 1/2) * φ) - Real.sin ((n + 1/2) * φ) = 2 * Real.sin (φ/2) * Real.cos ((n+1:ℕ) * φ) := by
      rw [Real.sin_sub_sin]
      congr 3 <;> push_cast <;> ring
    linarith

theorem kernel_at {d m : ℕ} (hm : 0 < m) (hm2 : m < 2 * (d+1)) :
    1/2 + ∑ k ∈ Finset.range d, Real.cos ((k+1 : ℕ) * (m * Real.pi / (d+1))) = -(-1)^m / 2 := by
  have hpi := Real.pi_pos
  have hd : (0:ℝ) < d + 1 := by positivity
  have hφ : 0 < Real.sin ((m * Real.pi / (d+1)) / 2) := by
    apply Real.sin_pos_of_pos_of_lt_pi
    · have : (0:ℝ) < m := by exact_mod_cast hm
      positivity
    · rw [div_div, div_lt_iff₀ (by positivity)]
      have : (m:ℝ) < 2 * (d+1) := by exact_mod_cast hm2
      nlinarith
  have h := dirichlet d (m * Real.pi / (d+1))
  have h2 : Real.sin ((d + 1/2) * (m * Real.pi / (d+1))) = -(-1)^m * Real.sin ((m * Real.pi / (d+1)) / 2) := by
    have : (d + 1/2) * (m * Real.pi / (d+1)) = m * Real.pi - (m * Real.pi / (d+1)) / 2 := by field_simp; ring
    rw [this, Real.sin_sub, Real.sin_nat_mul_pi, Real.cos_nat_mul_pi]; ring
  rw [h2] at h
  have h3 : (2 * Real.sin ((m * Real.pi / (d+1)) / 2)) ≠ 0 := by positivity
  apply mul_left_cancel₀ h3
  rw [h]; ring

/-- Discrete orthogonality of the cosines at the nodes. -/
theorem orthogonality {d i j : ℕ} (hi : i ≤ d) (hj : j ≤ d) :
    1/2 + ∑ k ∈ Finset.range d, dct d i (k+1) * dct d j (k+1) = if i = j then ((d:ℝ)+1)/2 else 0 := by
  have hd : (0:ℝ) < d + 1 := by positivity
  have hcc : ∀ i j : ℕ, j ≤ i → i ≤ d → 1/2 + ∑ k ∈ Finset.range d, dct d i (k+1) * dct d j (k+1) = if i = j then ((d:ℝ)+1)/2 else 0 := by
    intro i j hji hid
    have hprod : ∀ k, dct d i (k+1) * dct d j (k+1) =
        (Real.cos ((k+1:ℕ) * ((i+j+1:ℕ) * Real.pi / (d+1))) + Real.cos ((k+1:ℕ) * ((i-j:ℕ) * Real.pi / (d+1)))) / 2 := by
      intro k
      have e1 : ((k+1:ℕ):ℝ) * ((i+j+1:ℕ) * Real.pi / (d+1)) = (k+1:ℕ) * angle d i + (k+1:ℕ) * angle d j := by
        unfold angle; push_cast; field_simp; ring
      have e2 : ((k+1:ℕ):ℝ) * ((i-j:ℕ) * Real.pi / (d+1)) = (k+1:ℕ) * angle d i - (k+1:ℕ) * angle d j := by
        unfold angle; rw [Nat.cast_sub hji]; push_cast; field_simp; ring
      rw [e1, e2, Real.cos_add, Real.cos_sub]; unfold dct; ring
    rw [Finset.sum_congr rfl fun k _ => hprod k, ← Finset.sum_div, Finset.sum_add_distrib]
    have k1 := kernel_at (d := d) (m := i+j+1) (by omega) (by omega)
    by_cases h : i = j
    · subst h
      rw [if_pos rfl]
      simp only [Nat.sub_self, Nat.cast_zero, zero_mul, zero_div, mul_zero, Real.cos_zero, Finset.sum_const, Finset.card_range, nsmul_eq_mul, mul_one]
      have : ((-1:ℝ))^(i+i+1) = -1 := by rw [pow_succ, ← two_mul, pow_mul]; norm_num
      rw [this] at k1
      linarith
    · rw [if_neg h]
      have k2 := kernel_at (d := d) (m := i-j) (by omega) (by omega)
      have : ((-1:ℝ))^(i+j+1) = -(-1)^(i-j) := by
        rw [show i+j+1 = (i-j) + 2*j + 1 by omega, pow_succ, pow_add, pow_mul]; norm_num
      rw [this] at k1
      linarith
  rcases le_total j i with h | h
  · exact hcc i j h hi
  · have := hcc j i h hj
    rw [Finset.sum_congr rfl (fun k _ => mul_comm (dct d i (k+1)) _), this]
    by_cases e : i = j
    · rw [if_pos e, if_pos e.symm]
    · rw [if_neg e, if_neg (fun h => e h.symm)]

theorem cheb_node {d : ℕ} {a b : ℝ} (hab : a < b) (i k : ℕ) :
    (Polynomial.Chebyshev.T K k).eval (toUnit a b ((node d a b i : ℝ) : K)) = ((dct d i k : ℝ) : K) := by
  have h1 : toUnit a b ((node d a b i : ℝ) : K) = ((Real.cos (angle d i) : ℝ) : K) := by
    unfold toUnit node
    have : (b - a : ℝ) ≠ 0 := by linarith [hab]
    have h2 : (((b - a : ℝ)) : K) ≠ 0 := by exact_mod_cast this
    rw [div_eq_iff h2, ← RCLike.ofReal_mul]
    have : (2 : K) = ((2 : ℝ) : K) := by push_cast; rfl
    rw [this, ← RCLike.ofReal_mul, ← RCLike.ofReal_sub]
    congr 1; ring
  rw [h1]
  have h2 : (Polynomial.Chebyshev.T K k) = (Polynomial.Chebyshev.T ℝ k).map (algebraMap ℝ K) := by rw [Polynomial.Chebyshev.map_T]
  rw [h2]
  have h3 : ((Real.cos (angle d i) : ℝ) : K) = algebraMap ℝ K (Real.cos (angle d i)) := rfl
  rw [h3, Polynomial.eval_map, Polynomial.eval₂_hom, Polynomial.Chebyshev.T_real_cos]
  unfold dct
  push_cast
  rfl

/-- The interpolant of one function takes its values at the nodes. -/
theorem coef_interp (d : ℕ) (fx : ℕ → K) {i : ℕ} (hi : i ≤ d) :
    ∑ k ∈ Finset.range (d+1), ((dct d i k : ℝ) : K) * coef d fx k = fx i := by
  have hd : ((d:K) + 1) ≠ 0 := by exact_mod_cast Nat.succ_ne_zero d
  have hdct0 : ∀ j, dct d j 0 = 1 := fun j => by unfold dct; simp
  have h1 : ∑ k ∈ Finset.range (d+1), ((dct d i k : ℝ) : K) * coef d fx k =
      (2 / ((d:K) + 1)) * ∑ j ∈ Finset.range (d+1), fx j * ((1/2 + ∑ k ∈ Finset.range d, dct d i (k+1) * dct d j (k+1) : ℝ) : K) := by
    rw [Finset.sum_range_succ']
    simp only [coef_eq, if_pos, if_neg (Nat.succ_ne_zero _), hdct0]
    push_cast
    simp only [mul_add, Finset.sum_add_distrib, Finset.mul_sum]
    rw [add_comm]
    congr 1
    · refine Finset.sum_congr rfl fun j _ => ?_
      ring
    · rw [Finset.sum_comm]
      refine Finset.sum_congr rfl fun j _ => Finset.sum_congr rfl fun k _ => ?_
      ring
  rw [h1, Finset.sum_congr rfl (fun j hj => by
    rw [orthogonality hi (Nat.lt_succ_iff.1 (Finset.mem_range.1 hj))]), Finset.sum_eq_single i]
  · rw [if_pos rfl]; push_cast; field_simp
  · intro j _ hj; rw [if_neg (fun h => hj h.symm)]; simp
  · intro h; exact absurd (Finset.mem_range.2 (by omega)) h

theorem chebValue_eq {nt : ℕ} (hnt : 1 ≤ nt) (d deg : ℕ) (fx : ℕ → ℕ → K) (A : ℕ → E) (z : K) :
    chebValue deg (matCoef d nt fx A) z =
      ∑ j ∈ Finset.range nt, (∑ k ∈ Finset.range (deg+1), (Polynomial.Chebyshev.T K k).eval z * coef d (fx j) k) • A j := by
  unfold chebValue
  simp only [matCoef_eq hnt, Finset.smul_sum, Finset.sum_smul, smul_smul]
  rw [Finset.sum_comm]

theorem node_inj {d : ℕ} {a b : ℝ} (hab : a < b) {i j : ℕ} (hi : i ≤ d) (hj : j ≤ d) (h : node d a b i = node d a b j) : i = j := by
  unfold node at h
  have h1 : (b - a) / 2 ≠ 0 := by linarith
  have h2 : Real.cos (angle d i) = Real.cos (angle d j) := mul_left_cancel₀ h1 (add_left_cancel h)
  have hr : ∀ k : ℕ, k ≤ d → angle d k ∈ Set.Icc 0 Real.pi := by
    intro k hk
    unfold angle
    have := Real.pi_pos
    have hk' : (k:ℝ) ≤ d := by exact_mod_cast hk
    constructor
    · positivity
    · rw [div_le_iff₀ (by positivity)]; nlinarith
  have h3 := Real.injOn_cos (hr i hi) (hr j hj) h2
  unfold angle at h3
  have hpi := Real.pi_pos.ne'
  have hd : (2 * ((d:ℝ) + 1)) ≠ 0 := by positivity
  rw [div_left_inj' hd] at h3
  have h4 := mul_right_cancel₀ hpi h3
  have : (i:ℝ) = j := by linarith
  exact_mod_cast this

theorem degLoop_cases (tol : ℝ) (ap : ℕ → ℝ) (d n k : ℕ) (hn : n + k = d + 1) : degLoop tol ap d k n = d ∨
    (k ≤ degLoop tol ap d k n ∧ degLoop tol ap d k n ≤ d ∧ 1 < degLoop tol ap d k n ∧ ap 0 ≠ 0 ∧ ap (degLoop tol ap d k n) / ap 0 < tol) := by
  induction n generalizing k with
  | zero => exact Or.inl rfl
  | succ n ih =>
    rw [degLoop]
    by_cases h : 1 < k ∧ ap 0 ≠ 0 ∧ ap k / ap 0 < tol
    · rw [if_pos h]; exact Or.inr ⟨le_rfl, by omega, h.1, h.2.1, h.2.2⟩
    · rw [if_neg h]
      rcases ih (k+1) (by omega) with h | h
      · exact Or.inl h
      · exact Or.inr ⟨by omega, h.2⟩

/-! ### C96 -/

/-- C96 (nodes): when the degree is not reduced, the matrix polynomial takes the values of the problem at the nodes. -/
theorem C96_nodes_partial {d nt : ℕ} (hnt : 1 ≤ nt) {a b : ℝ} (hab : a < b) (f : ℕ → K → K) (A : ℕ → E) (tol : ℝ) (matnorm : ℕ → ℝ)
    (hdeg : degree tol (aprox d nt (values d a b f) matnorm) d = d) {i : ℕ} (hi : i ≤ d) :
    chebValue (degree tol (aprox d nt (values d a b f) matnorm) d) (matCoef d nt (values d a b f) A) (toUnit a b ((node d a b i : ℝ) : K)) =
      opValue nt f A ((node d a b i : ℝ) : K) := by
  rw [hdeg, chebValue_eq hnt]
  unfold opValue
  refine Finset.sum_congr rfl fun j _ => ?_
  congr 1
  rw [← show values d a b f j i = f j ((node d a b i : ℝ) : K) from rfl, ← coef_interp d (values d a b f j) hi]
  exact Finset.sum_congr rfl fun k _ => by rw [cheb_node hab]

/-- C96 (exactness): when moreover all functions are polynomials of degree at most the maximum degree, both agree everywhere. -/
theorem C96_exact_partial {d nt : ℕ} (hnt : 1 ≤ nt) {a b : ℝ} (hab : a < b) (f : ℕ → Polynomial K) (hf : ∀ j < nt, (f j).natDegree ≤ d) (A : ℕ → E) (tol : ℝ)
    (matnorm : ℕ → ℝ) (hdeg : degree tol (aprox d nt (values d a b (fun j x => (f j).eval x)) matnorm) d = d) (x : K) :
    chebValue (degree tol (aprox d nt (values d a b (fun j x => (f j).eval x)) matnorm) d) (matCoef d nt (values d a b (fun j x => (f j).eval x)) A) (toUnit a b x) =
      opValue nt (fun j x => (f j).eval x) A x := by
  rw [hdeg, chebValue_eq hnt]
  unfold opValue
  refine Finset.sum_congr rfl fun j hj => ?_
  congr 1
  have hba : (((b - a : ℝ)) : K) ≠ 0 := by
    have : (b - a : ℝ) ≠ 0 := by linarith
    exact_mod_cast this
  -- the interpolant as a polynomial
  let L : Polynomial K := Polynomial.C (2 / ((b - a : ℝ) : K)) * Polynomial.X - Polynomial.C (((a + b : ℝ) : K) / ((b - a : ℝ) : K))
  have hL : ∀ y, L.eval y = toUnit a b y := by
    intro y
    simp only [L, Polynomial.eval_sub, Polynomial.eval_mul, Polynomial.eval_C, Polynomial.eval_X, toUnit]
    field_simp
  have hLd : L.natDegree ≤ 1 := by
    refine le_trans (Polynomial.natDegree_sub_le _ _) (max_le ?_ ?_)
    · exact le_trans Polynomial.natDegree_mul_le (by simp)
    · simp
  let p : Polynomial K := ∑ k ∈ Finset.range (d+1), Polynomial.C (coef d (values d a b (fun j x => (f j).eval x) j) k) * (Polynomial.Chebyshev.T K k).comp L
  have hp : ∀ y, p.eval y = ∑ k ∈ Finset.range (d+1), (Polynomial.Chebyshev.T K k).eval (toUnit a b y) * coef d (values d a b (fun j x => (f j).eval x) j) k := by
    intro y
    simp only [p, Polynomial.eval_finset_sum, Polynomial.eval_mul, Polynomial.eval_C, Polynomial.eval_comp, hL]
    exact Finset.sum_congr rfl fun k _ => mul_comm _ _
  have hpd : p.natDegree ≤ d := by
    apply Polynomial.natDegree_sum_le_of_forall_le
    intro k hk
    refine le_trans Polynomial.natDegree_mul_le ?_
    rw [Polynomial.natDegree_C, zero_add]
    refine le_trans Polynomial.natDegree_comp_le ?_
    rw [Polynomial.Chebyshev.natDegree_T, Int.natAbs_natCast]
    have := Finset.mem_range.1 hk
    calc k * L.natDegree ≤ k * 1 := Nat.mul_le_mul_left _ hLd
      _ ≤ d := by omega
  rw [← hp]
  have heq : p = f j := by
    apply Polynomial.eq_of_degree_sub_lt_of_eval_finset_eq ((Finset.range (d+1)).image fun i => ((node d a b i : ℝ) : K))
    · rw [Finset.card_image_of_injOn, Finset.card_range]
      · refine lt_of_le_of_lt (Polynomial.degree_le_natDegree) ?_
        have := le_trans (Polynomial.natDegree_sub_le p (f j)) (max_le hpd (hf j (Finset.mem_range.1 hj)))
        exact_mod_cast Nat.lt_succ_of_le this
      · intro i hi k hk h
        have : node d a b i = node d a b k := RCLike.ofReal_injective (K := K) h
        exact node_inj hab (Nat.lt_succ_iff.1 (Finset.mem_range.1 hi)) (Nat.lt_succ_iff.1 (Finset.mem_range.1 hk)) this
    · intro y hy
      obtain ⟨i, hi, rfl⟩ := Finset.mem_image.1 hy
      rw [hp, ← show values d a b (fun j x => (f j).eval x) j i = (f j).eval ((node d a b i : ℝ) : K) from rfl,
        ← coef_interp d (values d a b (fun j x => (f j).eval x) j) (Nat.lt_succ_iff.1 (Finset.mem_range.1 hi))]
      exact Finset.sum_congr rfl fun k _ => by rw [cheb_node hab]
  rw [heq]

/-- Odd coefficients of an even function vanish. -/
theorem coef_odd {d : ℕ} {fx : ℕ → K} (hev : ∀ i ≤ d, fx (d - i) = fx i) {k : ℕ} (hk : k % 2 = 1) : coef d fx k = 0 := by
  rw [coef_eq]
  have h : ∑ i ∈ Finset.range (d+1), fx i * ((dct d i k : ℝ) : K) = -∑ i ∈ Finset.range (d+1), fx i * ((dct d i k : ℝ) : K) := by
    conv_lhs => rw [← Finset.sum_range_reflect]
    rw [← Finset.sum_neg_distrib]
    refine Finset.sum_congr rfl fun i hi => ?_
    have hi' : i ≤ d := Nat.lt_succ_iff.1 (Finset.mem_range.1 hi)
    rw [show d + 1 - 1 - i = d - i by omega, hev i hi']
    have : dct d (d-i) k = -dct d i k := by
      unfold dct
      have hk2 : k = 2 * (k/2) + 1 := by omega
      have e : (k:ℝ) * angle d (d-i) = k * Real.pi - k * angle d i := by
        unfold angle; rw [Nat.cast_sub hi']
        have : ((d:ℝ) + 1) ≠ 0 := by positivity
        field_simp; ring
      rw [e, Real.cos_sub, Real.cos_nat_mul_pi, Real.sin_nat_mul_pi, hk2, pow_succ, pow_mul]
      norm_num
    rw [this]; push_cast; ring
  have h2 : ∑ i ∈ Finset.range (d+1), fx i * ((dct d i k : ℝ) : K) = 0 := by
    have := add_eq_zero_iff_eq_neg.2 h
    rw [← two_mul] at this
    exact (mul_eq_zero.1 this).resolve_left two_ne_zero
  rw [h2, mul_zero]

/-- C96 fails for the function `x^4` on `[-1,1]`, for every maximum degree from 4 on, every tolerance and every nonzero matrix: the third
coefficient vanishes and the degree is reduced. -/
theorem C96_false {d : ℕ} (hd : 4 ≤ d) {tol : ℝ} (ht : 0 < tol) {A : ℕ → E} (hA : A 0 ≠ 0) {matnorm : ℕ → ℝ} (hm : 0 < matnorm 0) :
    ∃ x : K, chebValue (degree tol (aprox d 1 (values d (-1) 1 (fun _ (x : K) => x^4)) matnorm) d) (matCoef d 1 (values d (-1) 1 (fun _ (x : K) => x^4)) A)
      (toUnit (-1) 1 x) ≠ opValue 1 (fun _ (x : K) => x^4) A x := by
  set fx := values d (-1) 1 (fun _ (x : K) => x^4) with hfx
  have hnode : ∀ i ≤ d, node d (-1) 1 (d-i) = -node d (-1) 1 i := by
    intro i hi
    unfold node
    have : angle d (d-i) = Real.pi - angle d i := by
      unfold angle; rw [Nat.cast_sub hi]
      have : ((d:ℝ) + 1) ≠ 0 := by positivity
      field_simp; ring
    rw [this, Real.cos_pi_sub]; ring
  have hev : ∀ i ≤ d, fx 0 (d-i) = fx 0 i := by
    intro i hi
    show ((node d (-1) 1 (d-i) : ℝ) : K)^4 = ((node d (-1) 1 i : ℝ) : K)^4
    rw [hnode i hi]; push_cast; ring
  have c1 := coef_odd hev (k := 1) rfl
  have c3 := coef_odd hev (k := 3) rfl
  have hap : ∀ k, aprox d 1 fx matnorm k = matnorm 0 * ‖coef d (fx 0) k‖ := fun k => rfl
  have ha3 : aprox d 1 fx matnorm 3 = 0 := by rw [hap, c3, norm_zero, mul_zero]
  have ha0 : aprox d 1 fx matnorm 0 ≠ 0 := by
    rw [hap]
    refine mul_ne_zero hm.ne' (norm_ne_zero_iff.2 ?_)
    rw [coef_eq]
    have hd1 : ((d:K) + 1) ≠ 0 := by exact_mod_cast Nat.succ_ne_zero d
    refine mul_ne_zero (mul_ne_zero (by rw [if_pos rfl]; norm_num) (div_ne_zero two_ne_zero hd1)) ?_
    have : ∑ i ∈ Finset.range (d+1), fx 0 i * ((dct d i 0 : ℝ) : K) = ((∑ i ∈ Finset.range (d+1), (node d (-1) 1 i)^4 : ℝ) : K) := by
      push_cast
      refine Finset.sum_congr rfl fun i _ => ?_
      have : dct d i 0 = 1 := by unfold dct; simp
      rw [this]; simp [hfx, values]
    rw [this]
    have hpos : 0 < ∑ i ∈ Finset.range (d+1), (node d (-1) 1 i)^4 := by
      apply Finset.sum_pos'
      · intro i _; positivity
      · refine ⟨0, Finset.mem_range.2 (by omega), ?_⟩
        have : node d (-1) 1 0 = Real.cos (angle d 0) := by unfold node; ring
        rw [this]
        apply pow_pos
        apply Real.cos_pos_of_mem_Ioo
        have hpi := Real.pi_pos
        unfold angle
        constructor
        · have : 0 < ((2 * ((0:ℕ):ℝ) + 1) * Real.pi) / (2 * ((d:ℝ) + 1)) := by positivity
          linarith
        · rw [div_lt_div_iff₀ (by positivity) (by norm_num)]
          have : (4:ℝ) ≤ d := by exact_mod_cast hd
          push_cast; nlinarith
    exact_mod_cast hpos.ne'
  have hdeg : degree tol (aprox d 1 fx matnorm) d = 2 ∨ degree tol (aprox d 1 fx matnorm) d = 3 := by
    unfold degree
    obtain ⟨m, rfl⟩ : ∃ m, d = m + 4 := ⟨d-4, by omega⟩
    rw [show m+4+1 = m+1+1+1+1+1 by omega, degLoop, if_neg (by omega), degLoop, if_neg (by omega), degLoop]
    by_cases h : 1 < 0+1+1 ∧ aprox (m+4) 1 fx matnorm 0 ≠ 0 ∧ aprox (m+4) 1 fx matnorm (0+1+1) / aprox (m+4) 1 fx matnorm 0 < tol
    · rw [if_pos h]; exact Or.inl rfl
    · rw [if_neg h, degLoop, if_pos ⟨by omega, ha0, by rw [show 0+1+1+1 = 3 from rfl, ha3, zero_div]; exact ht⟩]
      exact Or.inr rfl
  by_contra hcon
  push Not at hcon
  obtain ⟨u, hu⟩ : ∃ u : K, u = coef d (fx 0) 0 := ⟨_, rfl⟩
  obtain ⟨w, hw⟩ : ∃ w : K, w = coef d (fx 0) 2 := ⟨_, rfl⟩
  have hval : ∀ x : K, (u + w * (2 * x^2 - 1) - x^4) • A 0 = 0 := by
    intro x
    have h := hcon x
    rw [chebValue_eq le_rfl] at h
    simp only [opValue, Finset.sum_range_one] at h
    rw [sub_smul, sub_eq_zero, ← h]
    congr 1
    have hx : toUnit (-1) 1 x = x := by unfold toUnit; push_cast; ring_nf
    rw [hx]
    have s3 : ∑ k ∈ Finset.range (2+1), (Polynomial.Chebyshev.T K k).eval x * coef d (fx 0) k = u + w * (2 * x^2 - 1) := by
      rw [Finset.sum_range_succ, Finset.sum_range_succ, Finset.sum_range_one, c1, ← hu, ← hw]
      simp [Polynomial.Chebyshev.T_two]; ring
    rcases hdeg with h2 | h2
    · rw [h2, s3]
    · rw [h2, Finset.sum_range_succ, c3, mul_zero, add_zero, s3]
  have e : ∀ x : K, u + w * (2 * x^2 - 1) - x^4 = 0 := fun x => (smul_eq_zero.1 (hval x)).resolve_right hA
  have e0 := e 0
  have e1 := e 1
  have e2 := e 2
  have : (24 : K) = 0 := by linear_combination (-6) * e0 + 8 * e1 - 2 * e2
  norm_num at this

/-- C96 fails with the default degree requested explicitly: the maximum degree becomes zero and the polynomial is constant. -/
theorem C96_false_default (f : ℕ → K → K) (A : ℕ → E) (nt : ℕ) (a b tol : ℝ) (matnorm : ℕ → ℝ) (x y : K) :
    chebValue (degree tol (aprox 0 nt (values 0 a b f) matnorm) 0) (matCoef 0 nt (values 0 a b f) A) x =
      chebValue (degree tol (aprox 0 nt (values 0 a b f) matnorm) 0) (matCoef 0 nt (values 0 a b f) A) y := by
  have : degree tol (aprox 0 nt (values 0 a b f) matnorm) 0 = 0 := by
    unfold degree; rw [degLoop, if_neg (by omega), degLoop]
  rw [this]; unfold chebValue; simp

/-! ### C97 -/

/-- C97 (complex scalars): the eigenvalue stored at each index is the one of the polynomial problem mapped to the interval, and the target
is mapped by the inverse. -/
theorem C97_complex {a b : ℝ} (hab : a < b) (p : ℕ → ℂ) (i : ℕ) (target : ℂ) :
    toUnit a b (copyComplex a b p i) = p i ∧ mapTarget a b target = toUnit a b target ∧ backC a b (mapTarget a b target) = target := by
  have h : (b - a : ℝ) ≠ 0 := by linarith
  have h2 : ((b : ℂ) - a) ≠ 0 := by exact_mod_cast h
  refine ⟨?_, ?_, ?_⟩
  · unfold copyComplex backC toUnit; simp; field_simp; ring
  · unfold mapTarget toUnit; simp; field_simp
  · unfold mapTarget backC; simp; field_simp; ring

/-- C97 (region): a point is in the box `[a,b] x [c,d]` iff its image is in the box given to the polynomial solver. -/
theorem C97_region {a b : ℝ} (hab : a < b) (c d : ℝ) (z : ℂ) :
    (a ≤ z.re ∧ z.re ≤ b ∧ c ≤ z.im ∧ z.im ≤ d) ↔
      (-1 ≤ (toUnit a b z).re ∧ (toUnit a b z).re ≤ 1 ∧ mapImag a b c ≤ (toUnit a b z).im ∧ (toUnit a b z).im ≤ mapImag a b d) := by
  have h : 0 < b - a := by linarith
  have hz : toUnit a b z = ⟨(2 * z.re - (a + b)) / (b - a), z.im * (2 / (b - a))⟩ := by
    have h2 : ((b : ℂ) - a) ≠ 0 := by exact_mod_cast h.ne'
    unfold toUnit
    apply Complex.ext
    · show ((2 * z - ((a + b : ℝ) : ℂ)) / ((b - a : ℝ) : ℂ)).re = _
      rw [Complex.div_ofReal_re]; simp
    · show ((2 * z - ((a + b : ℝ) : ℂ)) / ((b - a : ℝ) : ℂ)).im = _
      rw [Complex.div_ofReal_im]; simp; ring
  rw [hz]
  unfold mapImag
  have hs : 0 < 2 / (b - a) := by positivity
  dsimp only
  rw [le_div_iff₀ h, div_le_iff₀ h, mul_le_mul_iff_left₀ hs, mul_le_mul_iff_left₀ hs]
  constructor
  · rintro ⟨h1, h2, h3, h4⟩; exact ⟨by linarith, by linarith, h3, h4⟩
  · rintro ⟨h1, h2, h3, h4⟩; exact ⟨by linarith, by linarith, h3, h4⟩

theorem copyReal_below (a b : ℝ) (pr pi : ℕ → ℝ) (nconv n : ℕ) (i j : ℕ) (hj : j < i) (s : RealState) :
    (copyReal a b pr pi nconv i n s).eigr j = s.eigr j ∧ (copyReal a b pr pi nconv i n s).eigi j = s.eigi j ∧
      (copyReal a b pr pi nconv i n s).vec j = s.vec j := by
  induction n generalizing i s with
  | zero => exact ⟨rfl, rfl, rfl⟩
  | succ n ih =>
    rw [copyReal]
    by_cases h : nconv ≤ i
    · rw [if_pos h]; exact ⟨rfl, rfl, rfl⟩
    · rw [if_neg h]
      have hji : j ≠ i := by omega
      have hji1 : j ≠ i+1 := by omega
      by_cases hp : backIm a b (pi i) ≠ 0
      · rw [if_pos hp]
        obtain ⟨h1, h2, h3⟩ := ih (i+2) (by omega) ⟨Function.update s.eigr i (backRe a b (pr i)), Function.update s.eigi i (backIm a b (pi i)),
          Function.update (Function.update s.vec i (some (i, false))) (i+1) (some (i, true))⟩
        rw [h1, h2, h3]
        simp [Function.update_of_ne hji, Function.update_of_ne hji1]
      · rw [if_neg hp]
        obtain ⟨h1, h2, h3⟩ := ih (i+1) (by omega) ⟨Function.update s.eigr i (backRe a b (pr i)), Function.update s.eigi i (backIm a b (pi i)),
          Function.update s.vec i (some (i, false))⟩
        rw [h1, h2, h3]
        simp [Function.update_of_ne hji]

theorem backIm_zero {a b : ℝ} (hab : a < b) (y : ℝ) : backIm a b y = 0 ↔ y = 0 := by
  unfold backIm
  have : 2 / (b - a) ≠ 0 := div_ne_zero two_ne_zero (by linarith)
  rw [div_eq_zero_iff]
  exact ⟨fun h => h.resolve_right this, Or.inl⟩

/-- The first index of each eigenvalue of a list with complex pairs at consecutive places: `i` is a start if it is zero, or follows a real
eigenvalue, or follows the second member of a pair. -/
inductive Start (pi : ℕ → ℝ) : ℕ → Prop
  | zero : Start pi 0
  | real {i} : Start pi i → pi i = 0 → Start pi (i+1)
  | pair {i} : Start pi i → pi i ≠ 0 → Start pi (i+2)

/-- C97 (real scalars): the entries of real eigenvalues and of the first member of each pair are right, and the vector stored with them is
the one of the same eigenvalue. -/
theorem C97_real_partial {a b : ℝ} (hab : a < b) (pr pi : ℕ → ℝ) (nconv : ℕ) (s : RealState) {i : ℕ} (hi : i < nconv) (hs : Start pi i) :
    (copyReal a b pr pi nconv 0 nconv s).eigr i = backRe a b (pr i) ∧ (copyReal a b pr pi nconv 0 nconv s).eigi i = backIm a b (pi i) ∧
      (copyReal a b pr pi nconv 0 nconv s).vec i = some (i, false) ∧ toUnit a b (backRe a b (pr i)) = pr i ∧ backIm a b (pi i) * (2 / (b - a)) = pi i := by
  have hreach : ∀ i, Start pi i → i < nconv → ∃ n s', copyReal a b pr pi nconv 0 nconv s = copyReal a b pr pi nconv i n s' ∧ nconv ≤ i + n := by
    intro i hs
    induction hs with
    | zero => intro _; exact ⟨nconv, s, rfl, by omega⟩
    | @real i hs hp ih =>
      intro h
      obtain ⟨n, s', e, hn⟩ := ih (by omega)
      obtain ⟨m, rfl⟩ : ∃ m, n = m+1 := ⟨n-1, by omega⟩
      rw [copyReal, if_neg (by omega), if_neg (by rw [not_not, backIm_zero hab]; exact hp)] at e
      exact ⟨m, _, e, by omega⟩
    | @pair i hs hp ih =>
      intro h
      obtain ⟨n, s', e, hn⟩ := ih (by omega)
      obtain ⟨m, rfl⟩ : ∃ m, n = m+1 := ⟨n-1, by omega⟩
      rw [copyReal, if_neg (by omega), if_pos (by rw [Ne, backIm_zero hab]; exact hp)] at e
      exact ⟨m, _, e, by omega⟩
  obtain ⟨n, s', e, hn⟩ := hreach i hs hi
  obtain ⟨m, rfl⟩ : ∃ m, n = m+1 := ⟨n-1, by omega⟩
  rw [e, copyReal, if_neg (show ¬ nconv ≤ i by omega)]
  have hba : b - a ≠ 0 := by linarith
  have fin : toUnit a b (backRe a b (pr i)) = pr i ∧ backIm a b (pi i) * (2 / (b - a)) = pi i := by
    constructor
    · unfold toUnit backRe; simp; field_simp; ring
    · unfold backIm; field_simp
  by_cases hp : backIm a b (pi i) ≠ 0
  · rw [if_pos hp]
    obtain ⟨h1, h2, h3⟩ := copyReal_below a b pr pi nconv m (i+2) i (by omega) ⟨Function.update s'.eigr i (backRe a b (pr i)), Function.update s'.eigi i (backIm a b (pi i)),
          Function.update (Function.update s'.vec i (some (i, false))) (i+1) (some (i, true))⟩
    rw [h1, h2, h3]
    exact ⟨by simp, by simp, by dsimp only; rw [Function.update_of_ne (by omega)]; simp, fin⟩
  · rw [if_neg hp]
    obtain ⟨h1, h2, h3⟩ := copyReal_below a b pr pi nconv m (i+1) i (by omega) ⟨Function.update s'.eigr i (backRe a b (pr i)), Function.update s'.eigi i (backIm a b (pi i)),
          Function.update s'.vec i (some (i, false))⟩
    rw [h1, h2, h3]
    exact ⟨by simp, by simp, by simp, fin⟩

/-- C97 fails for real scalars: whatever the interval, after a complex pair at the beginning the second eigenvalue keeps the previous content of the
arrays. -/
theorem C97_false {a b : ℝ} (hab : a < b) (pr pi : ℕ → ℝ) {nconv : ℕ} (hn : 2 ≤ nconv) (hp : pi 0 ≠ 0) (s : RealState) :
    (copyReal a b pr pi nconv 0 nconv s).eigr 1 = s.eigr 1 ∧ (copyReal a b pr pi nconv 0 nconv s).eigi 1 = s.eigi 1 := by
  obtain ⟨m, rfl⟩ : ∃ m, nconv = m+1 := ⟨nconv-1, by omega⟩
  rw [copyReal, if_neg (by omega), if_pos (by rw [Ne, backIm_zero hab]; exact hp)]
  obtain ⟨h1, h2, -⟩ := copyReal_below a b pr pi (m+1) m (0+2) 1 (by omega) ⟨Function.update s.eigr 0 (backRe a b (pr 0)), Function.update s.eigi 0 (backIm a b (pi 0)),
          Function.update (Function.update s.vec 0 (some (0, false))) (0+1) (some (0, true))⟩
  rw [h1, h2]
  simp

/-- A case where the degree is not reduced: the function `x` with maximum degree 1. -/
example : degree (1/10) (aprox 1 1 (values 1 (-1) 1 (fun _ (x : ℝ) => x)) (fun _ => 1)) 1 = 1 := by
  unfold degree
  rw [degLoop, if_neg (by omega), degLoop, if_neg (by omega), degLoop]

end Verif.NEP.Interpol
