import Verif.NEP.FullBasisModel
import Verif.NEP.NleigsLemmas

/-! Specification and lemmas for the operators of NLEIGS. -/
set_option linter.all false

namespace Verif.NEP

variable {F V : Type*} [Field F] [AddCommGroup V] [Module F V]

/-- Coefficient number `i` of the rational matrix function: `D_i`, or `sum_k c_ik A_k` in split form. -/
def Form.coef (p : Form F V) (i : ℕ) : V →ₗ[F] V :=
  match p with
  | .split nt c A => ∑ k ∈ Finset.range nt, c i k • A k
  | .callback D => D i

/-- The linear operator `B` with inverse `k`: an exact linear solver. -/
def IsExactSolver (B : V →ₗ[F] V) (k : V → V) : Prop := (∀ w, B (k w) = w) ∧ ∀ u, k (B u) = u

/-- Conditions on the shift: different from the nodes and poles used, nonzero scaling factors. -/
structure GoodShift (N : Nodes F) (d : ℕ) (σ : F) : Prop where
  node : ∀ i, i+1 < d → N.s i ≠ σ
  nopole : ∀ i, i+1 < d → σ * N.rxi i ≠ 1
  scale : ∀ i ≤ d, N.beta i ≠ 0

theorem rhs_eq (N : Nodes F) (d : ℕ) (p : Form F V) (x y : ℕ → V) :
    rhs N d p x y = -((1 / N.beta d) • p.coef d (x (d-1))) - ∑ i ∈ Finset.range (d-1), p.coef i (y i) := by
  cases p with
  | split nt c A =>
    change rhsSplit N d nt c A x y = _
    unfold rhsSplit
    rw [foldl_add_sum (fun k => A k ((List.range (d-1)).foldl (fun ww i => ww + (-c i k) • y i) ((-c d k / N.beta d) • x (d-1)))), zero_add]
    simp only [foldl_add_sum, Form.coef, LinearMap.sum_apply, LinearMap.smul_apply, map_add, map_sum, map_smul, Finset.sum_add_distrib]
    rw [Finset.sum_comm, sub_eq_add_neg, Finset.smul_sum, ← Finset.sum_neg_distrib, ← Finset.sum_neg_distrib]
    congr 1
    · refine Finset.sum_congr rfl fun k _ => ?_
      rw [smul_smul, ← neg_smul]; congr 1; ring
    · refine Finset.sum_congr rfl fun k _ => ?_
      rw [← Finset.sum_neg_distrib]
      refine Finset.sum_congr rfl fun i _ => ?_
      rw [neg_smul]
  | callback D =>
    change rhsCallback N d D x y = _
    unfold rhsCallback
    rw [foldl_add_sum (fun i => (-1 : F) • D i (y i)), sub_eq_add_neg, ← Finset.sum_neg_distrib]
    simp only [Form.coef]
    congr 1
    · rw [← neg_smul]; congr 1; ring
    · refine Finset.sum_congr rfl fun i _ => ?_
      rw [neg_smul, one_smul]

/-- Block row `i` of the shifted linearization: `(A - σ B) y = B x`. -/
def RowEq (N : Nodes F) (σ : F) (x y : ℕ → V) (i : ℕ) : Prop :=
  (N.s i - σ) • y i + (N.beta (i+1) * (1 - σ * N.rxi i)) • y (i+1) = x i + (N.beta (i+1) * N.rxi i) • x (i+1)

theorem smul_solve {a : F} (ha : a ≠ 0) {u w : V} : (1 / a) • w = u ↔ w = a • u := by
  constructor
  · intro h; rw [← h, smul_smul, mul_one_div_cancel ha, one_smul]
  · intro h; rw [h, smul_smul, one_div_mul_cancel ha, one_smul]

/-- The first stage satisfies the block rows with a zero last block. -/
theorem backRow_rows {N : Nodes F} {σ : F} {d : ℕ} (hd : 2 ≤ d) (g : GoodShift N d σ) (x : ℕ → V) :
    ∀ i, i+1 < d → RowEq N σ x (fun i => if i < d-1 then backRow N σ d x (d-2-i) else 0) i := by
  intro i hi
  have hne : N.s i - σ ≠ 0 := sub_ne_zero.2 (g.node i hi)
  unfold RowEq
  dsimp only
  rw [if_pos (show i < d-1 by omega)]
  by_cases h : i = d-2
  · subst h
    rw [if_neg (show ¬ d-2+1 < d-1 by omega), smul_zero, add_zero, Nat.sub_self, backRow, show d-2+1 = d-1 by omega,
      smul_smul, mul_one_div_cancel hne, one_smul]
  · rw [if_pos (show i+1 < d-1 by omega)]
    obtain ⟨m, hm⟩ : ∃ m, d-2-i = m+1 := ⟨d-2-i-1, by omega⟩
    rw [hm, backRow, show d-3-m = i by omega, smul_smul, mul_one_div_cancel hne, one_smul, show d-2-(i+1) = m by omega, neg_mul, neg_smul]
    abel

/-- The basis functions at the shift satisfy the homogeneous rows. -/
theorem evalNRT_row {N : Nodes F} {σ : F} {d : ℕ} (g : GoodShift N d σ) {i : ℕ} (hi : i+1 < d) :
    (N.s i - σ) * evalNRT N σ i + (N.beta (i+1) * (1 - σ * N.rxi i)) * evalNRT N σ (i+1) = 0 := by
  have h1 : 1 - σ * N.rxi i ≠ 0 := sub_ne_zero.2 (fun e => g.nopole i hi e.symm)
  have h2 := g.scale (i+1) (by omega)
  rw [evalNRT]
  field_simp
  ring

theorem evalNRT_ne {N : Nodes F} {σ : F} {d : ℕ} (g : GoodShift N d σ) : ∀ i < d, evalNRT N σ i ≠ 0 := by
  intro i
  induction i with
  | zero => intro _; rw [evalNRT]; exact one_div_ne_zero (g.scale 0 (by omega))
  | succ i ih =>
    intro hi
    rw [evalNRT]
    refine div_ne_zero (mul_ne_zero (sub_ne_zero.2 (fun e => g.node i hi e.symm)) (ih (by omega))) (mul_ne_zero (g.scale _ (by omega))
      (sub_ne_zero.2 (fun e => g.nopole i hi e.symm)))

/-- Two solutions of the block rows with the same last block agree. -/
theorem rows_unique {N : Nodes F} {σ : F} {d : ℕ} (g : GoodShift N d σ) {x y y' : ℕ → V} (h : ∀ i, i+1 < d → RowEq N σ x y i)
    (h' : ∀ i, i+1 < d → RowEq N σ x y' i) (hl : y (d-1) = y' (d-1)) : ∀ i < d, y i = y' i := by
  intro i hi
  obtain ⟨m, hm⟩ : ∃ m, i + m = d-1 := ⟨d-1-i, by omega⟩
  induction m generalizing i with
  | zero => rw [show i = d-1 by omega]; exact hl
  | succ m ih =>
    by_cases hlast : i+1 < d
    · have e1 := h i hlast
      have e2 := h' i hlast
      unfold RowEq at e1 e2
      rw [← e2, ih (i+1) hlast (by omega)] at e1
      have e3 := add_right_cancel e1
      have hne : N.s i - σ ≠ 0 := sub_ne_zero.2 (g.node i hlast)
      calc y i = (1 / (N.s i - σ)) • (N.s i - σ) • y i := by rw [smul_smul, one_div_mul_cancel hne, one_smul]
        _ = y' i := by rw [e3, smul_smul, one_div_mul_cancel hne, one_smul]
    · rw [show i = d-1 by omega]; exact hl

/-- The value of the rational function with `d+1` terms, as an operator. -/
theorem ratValue_apply (N : Nodes F) (n : ℕ) (D : ℕ → V →ₗ[F] V) (z : F) (v : V) :
    (ratValue N.s N.beta N.rxi n D z) v = ∑ k ∈ Finset.range n, ratBasis N.s N.beta N.rxi k z • D k v := by
  unfold ratValue
  rw [LinearMap.sum_apply]
  rfl

/-- Characterization of the operator: block rows of the shifted linearization and the last row with the coefficients. -/
theorem fullMult_spec {N : Nodes F} {σ : F} {d : ℕ} (hd : 2 ≤ d) (g : GoodShift N d σ) {p : Form F V} {ksp : V → V}
    (hk : IsExactSolver (ratValue N.s N.beta N.rxi (d+1) p.coef σ) ksp) (x y : ℕ → V) :
    (∃ y', fullMult N σ d p ksp x = some y' ∧ ∀ i < d, y' i = y i) ↔
    (∀ i, i+1 < d → RowEq N σ x y i) ∧
      (∑ i ∈ Finset.range d, p.coef i (y i)) + (evalNRT N σ d / evalNRT N σ (d-1)) • p.coef d (y (d-1)) =
        -((1 / N.beta d) • p.coef d (x (d-1))) := by
  have hdd : d = (d-1)+1 := by omega
  have ht := evalNRT_ne g (d-1) (by omega)
  set y0 : ℕ → V := fun i => backRow N σ d x (d-2-i) with hy0
  have hy0row := backRow_rows hd g x
  have hR : ∀ v, (ratValue N.s N.beta N.rxi (d+1) p.coef σ) v =
      (∑ i ∈ Finset.range (d-1), p.coef i (evalNRT N σ i • v)) + evalNRT N σ (d-1) • p.coef (d-1) v + evalNRT N σ d • p.coef d v := by
    intro v
    rw [ratValue_apply, Finset.sum_range_succ]
    conv_lhs => rw [hdd]
    rw [Finset.sum_range_succ, ← hdd]
    simp only [evalNRT_eq, map_smul]
  -- rows and last row for the result
  have key : ∀ v, rhs N d p x y0 = (ratValue N.s N.beta N.rxi (d+1) p.coef σ) v →
      (∀ i, i+1 < d → RowEq N σ x (fun i => if i < d-1 then y0 i + evalNRT N σ i • v else evalNRT N σ (d-1) • v) i) ∧
      (∑ i ∈ Finset.range d, p.coef i ((fun i => if i < d-1 then y0 i + evalNRT N σ i • v else evalNRT N σ (d-1) • v) i)) +
        (evalNRT N σ d / evalNRT N σ (d-1)) • p.coef d ((fun i => if i < d-1 then y0 i + evalNRT N σ i • v else evalNRT N σ (d-1) • v) (d-1)) =
        -((1 / N.beta d) • p.coef d (x (d-1))) := by
    intro v hv
    constructor
    · intro i hi
      have h1 := hy0row i hi
      have h2 := evalNRT_row g hi
      unfold RowEq at h1 ⊢
      rw [← h1]
      dsimp only
      rw [if_pos (show i < d-1 by omega), if_pos (show i < d-1 by omega)]
      have h3 : (N.s i - σ) • evalNRT N σ i • v + (N.beta (i+1) * (1 - σ * N.rxi i)) • evalNRT N σ (i+1) • v = 0 := by
        rw [smul_smul, smul_smul, ← add_smul, h2, zero_smul]
      by_cases hl : i+1 < d-1
      · rw [if_pos hl, if_pos hl, smul_add, smul_add]
        calc _ = ((N.s i - σ) • y0 i + (N.beta (i+1) * (1 - σ * N.rxi i)) • y0 (i+1)) +
              ((N.s i - σ) • evalNRT N σ i • v + (N.beta (i+1) * (1 - σ * N.rxi i)) • evalNRT N σ (i+1) • v) := by abel
          _ = _ := by rw [h3, add_zero]
      · have e : d-1 = i+1 := by omega
        rw [if_neg hl, if_neg hl, smul_add, smul_zero, add_zero, e]
        calc _ = (N.s i - σ) • y0 i + ((N.s i - σ) • evalNRT N σ i • v + (N.beta (i+1) * (1 - σ * N.rxi i)) • evalNRT N σ (i+1) • v) := by abel
          _ = _ := by rw [h3, add_zero]
    · rw [rhs_eq, hR] at hv
      conv_lhs => rw [hdd]
      rw [Finset.sum_range_succ, ← hdd]
      dsimp only
      rw [if_neg (show ¬ d-1 < d-1 by omega), Finset.sum_congr rfl (fun i hi => by
        rw [if_pos (Finset.mem_range.1 hi), map_add]), Finset.sum_add_distrib, map_smul, map_smul, smul_smul, div_mul_cancel₀ _ ht]
      rw [sub_eq_iff_eq_add] at hv
      rw [hv]
      abel
  have huniq : ∀ y, (∀ i, i+1 < d → RowEq N σ x y i) → ∀ i < d, y i =
      if i < d-1 then y0 i + evalNRT N σ i • ((1 / evalNRT N σ (d-1)) • y (d-1)) else evalNRT N σ (d-1) • ((1 / evalNRT N σ (d-1)) • y (d-1)) := by
    intro y hy
    apply rows_unique g hy
    · intro i hi
      have h1 := hy0row i hi
      have h2 := evalNRT_row g hi
      generalize (1 / evalNRT N σ (d-1)) • y (d-1) = v
      unfold RowEq at h1 ⊢
      rw [← h1]
      dsimp only
      rw [if_pos (show i < d-1 by omega), if_pos (show i < d-1 by omega)]
      have h3 : (N.s i - σ) • evalNRT N σ i • v + (N.beta (i+1) * (1 - σ * N.rxi i)) • evalNRT N σ (i+1) • v = 0 := by
        rw [smul_smul, smul_smul, ← add_smul, h2, zero_smul]
      by_cases hl : i+1 < d-1
      · rw [if_pos hl, if_pos hl, smul_add, smul_add]
        calc _ = ((N.s i - σ) • y0 i + (N.beta (i+1) * (1 - σ * N.rxi i)) • y0 (i+1)) +
              ((N.s i - σ) • evalNRT N σ i • v + (N.beta (i+1) * (1 - σ * N.rxi i)) • evalNRT N σ (i+1) • v) := by abel
          _ = _ := by rw [h3, add_zero]
      · have e : d-1 = i+1 := by omega
        rw [if_neg hl, if_neg hl, smul_add, smul_zero, add_zero, e]
        calc _ = (N.s i - σ) • y0 i + ((N.s i - σ) • evalNRT N σ i • v + (N.beta (i+1) * (1 - σ * N.rxi i)) • evalNRT N σ (i+1) • v) := by abel
          _ = _ := by rw [h3, add_zero]
    · rw [if_neg (show ¬ d-1 < d-1 by omega), smul_smul, mul_one_div_cancel ht, one_smul]
  unfold fullMult
  rw [if_neg (show ¬ d < 2 by omega)]
  dsimp only
  constructor
  · rintro ⟨y', e, hy'⟩
    injection e with e
    obtain ⟨k1, k2⟩ := key (ksp (rhs N d p x y0)) (hk.1 _).symm
    rw [e] at k1 k2
    refine ⟨fun i hi => ?_, ?_⟩
    · have := k1 i hi
      unfold RowEq at this ⊢
      rw [hy' i (by omega), hy' (i+1) hi] at this
      exact this
    · rw [← k2, hy' (d-1) (by omega)]
      congr 1
      exact Finset.sum_congr rfl fun i hi => by rw [hy' i (Finset.mem_range.1 hi)]
  · rintro ⟨h1, h2⟩
    refine ⟨_, rfl, ?_⟩
    obtain ⟨v, hv⟩ : ∃ v, v = (1 / evalNRT N σ (d-1)) • y (d-1) := ⟨_, rfl⟩
    have hu := huniq y h1
    rw [← hv] at hu
    have hlast : y (d-1) = evalNRT N σ (d-1) • v := by rw [hv, smul_smul, mul_one_div_cancel ht, one_smul]
    have hrhs : rhs N d p x y0 = (ratValue N.s N.beta N.rxi (d+1) p.coef σ) v := by
      rw [rhs_eq, hR, ← h2]
      conv_lhs => rw [hdd]
      rw [Finset.sum_range_succ, ← hdd, hlast, map_smul, map_smul, smul_smul, div_mul_cancel₀ _ ht,
        Finset.sum_congr rfl (fun i hi => by rw [hu i (by have := Finset.mem_range.1 hi; omega), if_pos (Finset.mem_range.1 hi), map_add]),
        Finset.sum_add_distrib]
      abel
    intro i hi
    rw [hrhs, hk.2, hu i hi]

end Verif.NEP
