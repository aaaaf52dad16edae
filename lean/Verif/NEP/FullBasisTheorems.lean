import Verif.NEP.FullBasisLemmas

/-! Eigenpairs of the operators of NLEIGS (C103). -/
set_option linter.all false

namespace Verif.NEP

variable {F V : Type*} [Field F] [AddCommGroup V] [Module F V]

/-- `v` is an eigenvector of the rational interpolant with `d+1` terms and coefficients `D` at `lam`. -/
def IsRatPair (N : Nodes F) (d : ℕ) (D : ℕ → V →ₗ[F] V) (lam : F) (v : V) : Prop :=
  v ≠ 0 ∧ (ratValue N.s N.beta N.rxi (d+1) D lam) v = 0

/-- The operator applied to the blocks `x` gives `θ` times the blocks `x`, and these do not vanish. -/
def IsOpPair (N : Nodes F) (σ : F) (d : ℕ) (p : Form F V) (ksp : V → V) (θ : F) (x : ℕ → V) : Prop :=
  (∃ i < d, x i ≠ 0) ∧ ∃ y, fullMult N σ d p ksp x = some y ∧ ∀ i < d, y i = θ • x i

theorem ratBasis_step {N : Nodes F} {lam : F} {i : ℕ} (hs : N.beta (i+1) ≠ 0) (hp : lam * N.rxi i ≠ 1) :
    (N.beta (i+1) * (1 - lam * N.rxi i)) * ratBasis N.s N.beta N.rxi (i+1) lam = (lam - N.s i) * ratBasis N.s N.beta N.rxi i lam := by
  rw [← evalNRT_eq, ← evalNRT_eq, evalNRT]
  have h1 : 1 - lam * N.rxi i ≠ 0 := sub_ne_zero.2 (fun e => hp e.symm)
  field_simp

/-- The ratio of the last two basis functions at the shift, when the last pole is at infinity. -/
theorem evalNRT_ratio {N : Nodes F} {σ : F} {d : ℕ} (hd : 1 ≤ d) (ht : evalNRT N σ (d-1) ≠ 0) (hs : N.beta d ≠ 0)
    (hlast : N.rxi (d-1) = 0) : evalNRT N σ d / evalNRT N σ (d-1) = (σ - N.s (d-1)) / N.beta d := by
  obtain ⟨e, rfl⟩ : ∃ e, d = e+1 := ⟨d-1, by omega⟩
  rw [Nat.add_sub_cancel] at *
  rw [evalNRT, hlast, mul_zero, sub_zero, mul_one]
  field_simp

/-- C103 (an eigenpair of the rational interpolant is one of the operator). -/
theorem C103_forward_partial {N : Nodes F} {σ lam : F} {d : ℕ} (hd : 2 ≤ d) (g : GoodShift N d σ) (hlast : N.rxi (d-1) = 0)
    {p : Form F V} {ksp : V → V} (hk : IsExactSolver (ratValue N.s N.beta N.rxi (d+1) p.coef σ) ksp) {v : V}
    (h : IsRatPair N d p.coef lam v) (hne : lam ≠ σ) (hpole : ∀ i, i+1 < d → lam * N.rxi i ≠ 1) :
    IsOpPair N σ d p ksp (1 / (lam - σ)) (fun i => ratBasis N.s N.beta N.rxi i lam • v) ∧ backTransform σ (1 / (lam - σ)) = lam := by
  have hls : lam - σ ≠ 0 := sub_ne_zero.2 hne
  refine ⟨⟨⟨0, by omega, ?_⟩, ?_⟩, ?_⟩
  · have h0 := g.scale 0 (by omega)
    dsimp only
    rw [← evalNRT_eq, evalNRT]
    exact smul_ne_zero (one_div_ne_zero h0) h.1
  · refine (fullMult_spec hd g hk _ (fun i => (1 / (lam - σ)) • ratBasis N.s N.beta N.rxi i lam • v)).2 ⟨fun i hi => ?_, ?_⟩
    · have hst := ratBasis_step (N := N) (lam := lam) (i := i) (g.scale (i+1) (by omega)) (hpole i hi)
      unfold RowEq
      simp only [smul_smul]
      rw [← add_smul, ← add_smul]
      congr 1
      rw [one_div]
      field_simp
      linear_combination hst
    · have ht := evalNRT_ne g (d-1) (by omega)
      have hbd := g.scale d le_rfl
      rw [evalNRT_ratio (by omega) ht hbd hlast]
      have hst := ratBasis_step (N := N) (lam := lam) (i := d-1) (by rw [show d-1+1 = d by omega]; exact hbd)
        (by rw [hlast, mul_zero]; exact zero_ne_one)
      rw [show d-1+1 = d by omega, hlast, mul_zero, sub_zero, mul_one] at hst
      have hR := h.2
      rw [ratValue_apply, Finset.sum_range_succ] at hR
      have hsum : ∑ i ∈ Finset.range d, p.coef i ((1 / (lam - σ)) • ratBasis N.s N.beta N.rxi i lam • v) =
          (1 / (lam - σ)) • -(ratBasis N.s N.beta N.rxi d lam • p.coef d v) := by
        rw [← eq_neg_of_add_eq_zero_left hR, Finset.smul_sum]
        exact Finset.sum_congr rfl fun i _ => by rw [map_smul, map_smul]
      rw [hsum]
      simp only [map_smul, smul_smul, smul_neg]
      rw [← neg_smul, ← add_smul, ← neg_smul]
      congr 1
      field_simp
      linear_combination (-1 : F) * hst
  · unfold backTransform
    rw [one_div_one_div]; ring

/-- C103 (an eigenpair of the operator is one of the rational interpolant, and the eigenvector is the first block). -/
theorem C103_backward_partial {N : Nodes F} {σ θ : F} {d : ℕ} (hd : 2 ≤ d) (g : GoodShift N d σ) (hlast : N.rxi (d-1) = 0)
    {p : Form F V} {ksp : V → V} (hk : IsExactSolver (ratValue N.s N.beta N.rxi (d+1) p.coef σ) ksp) {x : ℕ → V}
    (h : IsOpPair N σ d p ksp θ x) (hθ : θ ≠ 0) (hpole : ∀ i, i+1 < d → backTransform σ θ * N.rxi i ≠ 1) :
    IsRatPair N d p.coef (backTransform σ θ) (x 0) ∧
      ∀ i < d, x i = (N.beta 0 * ratBasis N.s N.beta N.rxi i (backTransform σ θ)) • x 0 := by
  obtain ⟨lam, hlam⟩ : ∃ lam, lam = backTransform σ θ := ⟨_, rfl⟩
  rw [← hlam] at hpole ⊢
  have hl : θ * (lam - σ) = 1 := by rw [hlam]; unfold backTransform; field_simp; ring
  obtain ⟨⟨i0, hi0, hx0⟩, y, hy, hyx⟩ := h
  obtain ⟨rows, last⟩ := (fullMult_spec hd g hk x (fun i => θ • x i)).1 ⟨y, hy, hyx⟩
  have b0 := g.scale 0 (by omega)
  have hform : ∀ i < d, x i = (N.beta 0 * ratBasis N.s N.beta N.rxi i lam) • x 0 := by
    intro i
    induction i with
    | zero => intro _; rw [← evalNRT_eq, evalNRT, mul_one_div_cancel b0, one_smul]
    | succ i ih =>
      intro hi
      have hr := rows i hi
      unfold RowEq at hr
      have hst := ratBasis_step (N := N) (lam := lam) (i := i) (g.scale (i+1) (by omega)) (hpole i hi)
      have hb := g.scale (i+1) (by omega)
      have h1 : 1 - lam * N.rxi i ≠ 0 := sub_ne_zero.2 (fun e => hpole i hi e.symm)
      have hc : N.beta (i+1) * (1 - lam * N.rxi i) ≠ 0 := mul_ne_zero hb h1
      have e1 : (N.beta (i+1) * (1 - lam * N.rxi i)) • x (i+1) = (lam - N.s i) • x i := by
        have : θ • ((N.beta (i+1) * (1 - lam * N.rxi i)) • x (i+1)) = θ • ((lam - N.s i) • x i) := by
          dsimp only at hr
          rw [smul_smul, smul_smul] at hr
          have e2 : (θ * (N.beta (i+1) * (1 - lam * N.rxi i))) • x (i+1) =
              ((N.beta (i+1) * (1 - σ * N.rxi i)) * θ) • x (i+1) - (N.beta (i+1) * N.rxi i) • x (i+1) := by
            rw [← sub_smul]; congr 1
            linear_combination (-1 : F) * N.beta (i+1) * N.rxi i * hl
          rw [smul_smul, smul_smul, e2]
          have e3 : (θ * (lam - N.s i)) • x i = x i - ((N.s i - σ) * θ) • x i := by
            rw [show θ * (lam - N.s i) = 1 - (N.s i - σ) * θ by linear_combination hl, sub_smul, one_smul]
          rw [e3, sub_eq_sub_iff_add_eq_add, add_comm, hr]
        have h2 := congrArg (fun u => (1 / θ) • u) this
        simpa only [smul_smul, one_div_mul_cancel hθ, one_smul, ← mul_assoc, one_mul] using h2
      rw [ih (by omega), smul_smul] at e1
      have e4 := congrArg (fun u => (1 / (N.beta (i+1) * (1 - lam * N.rxi i))) • u) e1
      rw [smul_smul, one_div_mul_cancel hc, one_smul, smul_smul] at e4
      rw [e4]; congr 1
      rw [one_div, inv_mul_eq_iff_eq_mul₀ hc]
      linear_combination (-1 : F) * N.beta 0 * hst
  refine ⟨⟨?_, ?_⟩, hform⟩
  · intro h0
    apply hx0
    rw [hform i0 hi0, h0, smul_zero]
  · have ht := evalNRT_ne g (d-1) (by omega)
    have hbd := g.scale d le_rfl
    rw [evalNRT_ratio (by omega) ht hbd hlast] at last
    have hst := ratBasis_step (N := N) (lam := lam) (i := d-1) (by rw [show d-1+1 = d by omega]; exact hbd)
      (by rw [hlast, mul_zero]; exact zero_ne_one)
    rw [show d-1+1 = d by omega, hlast, mul_zero, sub_zero, mul_one] at hst
    rw [hform (d-1) (by omega)] at last
    have hsum : ∑ i ∈ Finset.range d, p.coef i (θ • x i) =
        (θ * N.beta 0) • ∑ i ∈ Finset.range d, ratBasis N.s N.beta N.rxi i lam • p.coef i (x 0) := by
      rw [Finset.smul_sum]
      refine Finset.sum_congr rfl fun i hi => ?_
      rw [hform i (Finset.mem_range.1 hi), map_smul, map_smul, smul_smul, smul_smul]
      congr 1; ring
    rw [hsum] at last
    rw [ratValue_apply, Finset.sum_range_succ]
    simp only [map_smul, smul_smul] at last
    rw [← neg_smul] at last
    have hc : θ * N.beta 0 ≠ 0 := mul_ne_zero hθ b0
    have e : (θ * N.beta 0) • ((∑ i ∈ Finset.range d, ratBasis N.s N.beta N.rxi i lam • p.coef i (x 0)) +
        ratBasis N.s N.beta N.rxi d lam • p.coef d (x 0)) = 0 := by
      rw [smul_add, eq_sub_of_add_eq last, ← sub_smul, smul_smul, ← add_smul]
      rw [show (-(1 / N.beta d * (N.beta 0 * ratBasis N.s N.beta N.rxi (d-1) lam)) -
        (σ - N.s (d-1)) / N.beta d * (θ * (N.beta 0 * ratBasis N.s N.beta N.rxi (d-1) lam)) +
        θ * N.beta 0 * ratBasis N.s N.beta N.rxi d lam) = 0 from ?_, zero_smul]
      field_simp
      linear_combination (N.beta 0 * θ) * hst + (N.beta 0 * ratBasis N.s N.beta N.rxi (d-1) lam) * hl
    rcases smul_eq_zero.1 e with h0 | h0
    · exact absurd h0 hc
    · exact h0

/-! ### Compact form -/

theorem solver_neg {B : V →ₗ[F] V} {k : V → V} (h : IsExactSolver B k) (w : V) : k (-w) = -k w := by
  have h1 : B (-k w) = -w := by rw [map_neg, h.1]
  rw [← h1, h.2]

theorem comb_toarRow (N : Nodes F) (σ : F) (d nv : ℕ) (U : ℕ → V) (S : ℕ → ℕ → F) (m : ℕ) (hm : m + 2 ≤ d) :
    comb U nv (toarRow N σ d S m) = backRow N σ d (fun b => comb U nv (S b)) m := by
  induction m with
  | zero =>
    rw [backRow]; unfold comb
    simp only [toarRow, Finset.smul_sum, ← Finset.sum_add_distrib]
    refine Finset.sum_congr rfl fun j _ => ?_
    simp only [smul_smul, ← add_smul]
    congr 1; ring
  | succ m ih =>
    rw [backRow, ← ih (by omega), show d-3-m+1 = d-2-m by omega]; unfold comb
    simp only [toarRow, Finset.smul_sum, ← Finset.sum_add_distrib]
    refine Finset.sum_congr rfl fun j _ => ?_
    simp only [smul_smul, ← add_smul]
    congr 1; ring

theorem toarVec_eq {N : Nodes F} {σ : F} {d nv : ℕ} (hd : 2 ≤ d) {p : Form F V} (hnt : ∀ nt c A, p = .split nt c A → 1 ≤ nt)
    {ksp : V → V} {B : V →ₗ[F] V} (hk : IsExactSolver B ksp) (U : ℕ → V) (S : ℕ → ℕ → F) :
    toarVec N σ d nv p ksp U S =
      ksp (rhs N d p (fun b => comb U nv (S b)) (fun i => backRow N σ d (fun b => comb U nv (S b)) (d-2-i))) := by
  have hdd : d = (d-1)+1 := by omega
  have hw : ∀ k, k < d-1 → toarW N σ d nv U S k = backRow N σ d (fun b => comb U nv (S b)) (d-2-k) := by
    intro k hkd
    rw [toarW, if_neg (by omega), comb_toarRow _ _ _ _ _ _ _ (by omega)]
  have hwl : toarW N σ d nv U S (d-1) = (1 / N.beta d) • comb U nv (S (d-1)) := by rw [toarW, if_pos rfl]
  suffices h : ∃ q, toarVec N σ d nv p ksp U S = (-1 : F) • ksp q ∧
      q = -(rhs N d p (fun b => comb U nv (S b)) (fun i => backRow N σ d (fun b => comb U nv (S b)) (d-2-i))) by
    obtain ⟨q, h1, h2⟩ := h
    rw [h1, h2, solver_neg hk, neg_smul, one_smul, neg_neg]
  rw [rhs_eq]
  cases p with
  | split nt c A =>
    refine ⟨_, rfl, ?_⟩
    have hnt' := hnt nt c A rfl
    rw [foldl_add_sum (fun k => A (k+1) _)]
    rw [add_comm, ← Finset.sum_range_succ' (fun k => A k (∑ j ∈ Finset.range d, (if j < d-1 then c j k else c d k) • toarW N σ d nv U S j)),
      show nt - 1 + 1 = nt by omega]
    have : ∀ k, A k (∑ j ∈ Finset.range d, (if j < d-1 then c j k else c d k) • toarW N σ d nv U S j) =
        (∑ j ∈ Finset.range (d-1), c j k • A k (backRow N σ d (fun b => comb U nv (S b)) (d-2-j))) +
          (1 / N.beta d) • c d k • A k (comb U nv (S (d-1))) := by
      intro k
      conv_lhs => rw [hdd]
      rw [Finset.sum_range_succ, ← hdd, if_neg (show ¬ d-1 < d-1 by omega), hwl, map_add, map_sum]
      congr 1
      · refine Finset.sum_congr rfl fun j hj => ?_
        rw [if_pos (Finset.mem_range.1 hj), hw j (Finset.mem_range.1 hj), map_smul]
      · rw [map_smul, map_smul, smul_comm]
    rw [Finset.sum_congr rfl fun k _ => this k, Finset.sum_add_distrib, Finset.sum_comm, ← Finset.smul_sum]
    simp only [Form.coef, LinearMap.sum_apply, LinearMap.smul_apply]
    abel
  | callback D =>
    refine ⟨_, rfl, ?_⟩
    conv_lhs => rw [hdd]
    rw [Finset.sum_range_succ, ← hdd, if_neg (show ¬ d-1 < d-1 by omega), hwl, one_smul, map_smul, Finset.sum_congr rfl (fun j hj => by
      rw [one_smul, if_pos (Finset.mem_range.1 hj), hw j (Finset.mem_range.1 hj)])]
    simp only [Form.coef]
    abel

/-- C103 (compact form): the coefficients produced by the Krylov step represent, on the extended basis, the result of the full operator.
`x` are the coefficients of the new vector on the extended basis and `r0` the coefficients of the first stage, with a zero for the new
column. -/
theorem C103_compact_partial {N : Nodes F} {σ : F} {d nv : ℕ} (hd : 2 ≤ d) {p : Form F V} (hnt : ∀ nt c A, p = .split nt c A → 1 ≤ nt)
    {ksp : V → V} (hk : IsExactSolver (ratValue N.s N.beta N.rxi (d+1) p.coef σ) ksp) (U : ℕ → V) (S r0 : ℕ → ℕ → F) (x : ℕ → F)
    (hx : comb U (nv+1) x = toarVec N σ d nv p ksp U S) (hr : ∀ k < d-1, ∀ j < nv, r0 k j = toarRow N σ d S (d-2-k) j)
    (hr0 : ∀ k < d-1, r0 k nv = 0) :
    ∃ y, fullMult N σ d p ksp (fun b => comb U nv (S b)) = some y ∧
      ∀ k < d, comb U (nv+1) (toarCoef N σ d nv r0 x k) = y k := by
  unfold fullMult
  rw [if_neg (show ¬ d < 2 by omega)]
  refine ⟨_, rfl, fun k hkd => ?_⟩
  dsimp only
  rw [← toarVec_eq hd hnt hk, ← hx]
  by_cases hk1 : k < d-1
  · rw [if_pos hk1, ← comb_toarRow _ _ _ _ _ _ _ (by omega)]
    unfold comb
    rw [Finset.smul_sum, Finset.sum_range_succ, Finset.sum_range_succ (f := fun i => evalNRT N σ k • x i • U i), ← add_assoc, ← Finset.sum_add_distrib]
    congr 1
    · refine Finset.sum_congr rfl fun j hj => ?_
      have hj' := Finset.mem_range.1 hj
      rw [toarCoef, if_pos hk1, if_pos (by omega), hr k hk1 j hj', add_smul, mul_smul]
    · rw [toarCoef, if_pos hk1, if_pos le_rfl, hr0 k hk1, zero_add, mul_smul]
  · rw [if_neg hk1]
    unfold comb
    rw [Finset.smul_sum]
    refine Finset.sum_congr rfl fun j hj => ?_
    have hj' := Finset.mem_range.1 hj
    rw [toarCoef, if_neg hk1, if_pos (by omega), mul_smul]

/-- C103 fails when the last pole is finite. With three terms, scaling factors one, nodes `s0`, `s1`, pole `1/r` for the last function
and infinity for the other, the operator does not have the eigenpair of the interpolant. -/
theorem C103_false {K : Type*} [Field K] {s0 s1 r σ lam : K} (h0 : s0 ≠ σ) (hl0 : lam ≠ s0) (hσ : 1 - σ * r ≠ 0) (hl : 1 - lam * r ≠ 0)
    (hls : lam ≠ σ) (hgen : (1 - σ * r) * (1 - lam * r) ≠ 1 - s1 * r)
    {D : ℕ → K} (hD : D 2 ≠ 0) :
    let N : Nodes K := ⟨fun i => if i = 0 then s0 else s1, fun _ => 1, fun i => if i = 0 then 0 else r⟩
    let p : Form K K := .callback (fun i => LinearMap.lsmul K K (D i))
    ∀ ksp, IsExactSolver (ratValue N.s N.beta N.rxi 3 p.coef σ) ksp → IsRatPair N 2 p.coef lam (1 : K) →
      ¬ ∃ θ, θ ≠ 0 ∧ backTransform σ θ = lam ∧ IsOpPair N σ 2 p ksp θ (fun i => ratBasis N.s N.beta N.rxi i lam • (1 : K)) := by
  intro N p ksp hk hpair
  rintro ⟨θ, hθ, hb, -, y, hy, hyx⟩
  have g : GoodShift N 2 σ := by
    refine ⟨fun i hi => ?_, fun i hi => ?_, fun i _ => one_ne_zero⟩
    · obtain rfl : i = 0 := by omega
      simpa [N] using h0
    · obtain rfl : i = 0 := by omega
      simp [N]
  obtain ⟨-, last⟩ := (fullMult_spec le_rfl g hk _ (fun i => θ • ratBasis N.s N.beta N.rxi i lam • (1 : K))).1 ⟨y, hy, hyx⟩
  have hR := hpair.2
  rw [ratValue_apply] at hR
  have hθl : θ * (lam - σ) = 1 := by rw [← hb]; unfold backTransform; field_simp; ring
  have h0' : σ - s0 ≠ 0 := sub_ne_zero.2 (fun e => h0 e.symm)
  have hl0' : lam - s0 ≠ 0 := sub_ne_zero.2 hl0
  have hls' : lam - σ ≠ 0 := sub_ne_zero.2 hls
  have b0 : ratBasis N.s N.beta N.rxi 0 lam = 1 := by rw [← evalNRT_eq]; simp [evalNRT, N]
  have b1 : ratBasis N.s N.beta N.rxi 1 lam = lam - s0 := by rw [← evalNRT_eq]; simp [evalNRT, N]
  have b2 : ratBasis N.s N.beta N.rxi 2 lam = (lam - s1) * (lam - s0) / (1 - lam * r) := by rw [← evalNRT_eq]; simp [evalNRT, N]
  have t1 : evalNRT N σ 1 = σ - s0 := by simp [evalNRT, N]
  have t2 : evalNRT N σ 2 = (σ - s1) * (σ - s0) / (1 - σ * r) := by simp [evalNRT, N]
  have hbeta : N.beta 2 = 1 := rfl
  have hcoef : ∀ i, p.coef i = LinearMap.lsmul K K (D i) := fun _ => rfl
  simp only [Finset.sum_range_succ, Finset.sum_range_zero, b0, b1, b2, t1, t2, hbeta, hcoef, LinearMap.lsmul_apply, smul_eq_mul,
    show 2 - 1 = 1 from rfl] at hR last
  apply hgen
  have hσ' : 1 - r * σ ≠ 0 := by rwa [mul_comm]
  have hc : D 2 * (lam - s0) * (lam - σ) * ((1 - σ * r) * (1 - lam * r) - (1 - s1 * r)) = 0 := by
    field_simp at hR last
    have l2 : (0 + D 0 * θ + (lam - s0) * D 1 * θ) * (1 - r * σ) + (lam - s0) * D 2 * θ * (σ - s1) = -((lam - s0) * D 2) * (1 - r * σ) := by
      linear_combination last
    linear_combination ((lam - σ) * (1 - lam * r)) * l2 - (1 - σ * r) * hR -
      ((D 0 + (lam - s0) * D 1) * (1 - r * σ) * (1 - lam * r) + (lam - s0) * D 2 * (σ - s1) * (1 - lam * r)) * hθl
  rcases mul_eq_zero.1 hc with h | h
  · exact absurd h (mul_ne_zero (mul_ne_zero hD hl0') hls')
  · exact sub_eq_zero.1 h

/-! ### A case meeting the hypotheses: `R(z) = z (z-1) - 2`, shift 3, eigenvalue 2 -/

/-- Nodes 0, 1, 1, ... with all poles at infinity. -/
def fbNodes : Nodes ℚ := ⟨fun i => if i = 0 then 0 else 1, fun _ => 1, fun _ => 0⟩

/-- Divided differences -2, 0, 1 as scalar operators. -/
def fbForm : Form ℚ ℚ := .callback fun i => LinearMap.lsmul ℚ ℚ (if i = 0 then -2 else if i = 2 then 1 else 0)

theorem fb_value (z v : ℚ) : (ratValue fbNodes.s fbNodes.beta fbNodes.rxi 3 fbForm.coef z) v = (z * (z - 1) - 2) * v := by
  rw [ratValue_apply]
  simp only [Finset.sum_range_succ, Finset.sum_range_zero, ← evalNRT_eq, evalNRT]
  simp [fbNodes, fbForm, Form.coef]
  ring

theorem fb_good : GoodShift fbNodes 2 3 := by
  refine ⟨fun i hi => ?_, fun i hi => by simp [fbNodes], fun i _ => one_ne_zero⟩
  obtain rfl : i = 0 := by omega
  simp [fbNodes]

theorem fb_solver : IsExactSolver (ratValue fbNodes.s fbNodes.beta fbNodes.rxi 3 fbForm.coef 3) (fun w => w / 4) := by
  refine ⟨fun w => ?_, fun u => ?_⟩
  · rw [fb_value]; ring
  · show (ratValue fbNodes.s fbNodes.beta fbNodes.rxi 3 fbForm.coef 3) u / 4 = u
    rw [fb_value]; ring

example : IsOpPair fbNodes 3 2 fbForm (fun w => w / 4) (1 / (2 - 3)) (fun i => ratBasis fbNodes.s fbNodes.beta fbNodes.rxi i 2 • (5 : ℚ)) :=
  (C103_forward_partial (lam := 2) (v := (5 : ℚ)) le_rfl fb_good rfl fb_solver ⟨by norm_num, by rw [fb_value]; norm_num⟩ (by norm_num)
    (fun i _ => by simp [fbNodes])).1

example : IsRatPair fbNodes 2 fbForm.coef (backTransform 3 (1 / (2 - 3))) (ratBasis fbNodes.s fbNodes.beta fbNodes.rxi 0 2 • (5 : ℚ)) :=
  (C103_backward_partial le_rfl fb_good rfl fb_solver
    (C103_forward_partial (lam := 2) (v := (5 : ℚ)) le_rfl fb_good rfl fb_solver ⟨by norm_num, by rw [fb_value]; norm_num⟩ (by norm_num)
      (fun i _ => by simp [fbNodes])).1 (by norm_num) (fun i _ => by simp [fbNodes])).1

/-- The hypotheses of the compact form hold with one basis vector, extended by a zero coefficient. -/
example : ∃ (r0 : ℕ → ℕ → ℚ) (x : ℕ → ℚ) (y : ℕ → ℚ), fullMult fbNodes 3 2 fbForm (fun w => w / 4) (fun b => comb (fun _ => (1 : ℚ)) 1
      (fun _ => (1 : ℚ))) = some y ∧ ∀ k < 2, comb (fun _ => (1 : ℚ)) 2 (toarCoef fbNodes 3 2 1 r0 x k) = y k :=
  ⟨fun k j => if j < 1 then toarRow fbNodes 3 2 (fun _ _ => 1) (2-2-k) j else 0,
    fun j => if j = 0 then toarVec fbNodes 3 2 1 fbForm (fun w => w / 4) (fun _ => (1 : ℚ)) (fun _ _ => 1) else 0,
    C103_compact_partial (N := fbNodes) (σ := 3) (d := 2) (nv := 1) le_rfl (p := fbForm) (fun nt c A h => by cases h) fb_solver
      (fun _ => (1 : ℚ)) (fun _ _ => (1 : ℚ)) _ _
      (by unfold comb; rw [Finset.sum_range_succ, Finset.sum_range_one]; dsimp only; rw [if_pos rfl, if_neg (by omega), zero_smul, add_zero, smul_eq_mul, mul_one])
      (fun k _ j hj => if_pos hj) (fun k _ => if_neg (by omega))⟩

/-- The hypotheses of the negation hold. -/
example : let N : Nodes ℚ := ⟨fun i => if i = 0 then 0 else 1, fun _ => 1, fun i => if i = 0 then 0 else 1/2⟩
    let p : Form ℚ ℚ := .callback (fun i => LinearMap.lsmul ℚ ℚ (if i = 0 then -3 else if i = 2 then 1 else 0))
    IsExactSolver (ratValue N.s N.beta N.rxi 3 p.coef (-1)) (fun w => -(3/5) * w) ∧ IsRatPair N 2 p.coef (-2) (1 : ℚ) ∧
      ((1 - (-1) * (1/2)) * (1 - (-2) * (1/2)) : ℚ) ≠ 1 - 1 * (1/2) := by
  intro N p
  have hv : ∀ z v : ℚ, (ratValue N.s N.beta N.rxi 3 p.coef z) v = (-3 + (z - 1) * z / (1 - z * (1/2))) * v := by
    intro z v
    rw [ratValue_apply]
    simp only [Finset.sum_range_succ, Finset.sum_range_zero, ← evalNRT_eq, evalNRT]
    simp [N, p, Form.coef]
    ring
  refine ⟨⟨fun w => ?_, fun u => ?_⟩, ⟨one_ne_zero, ?_⟩, by norm_num⟩
  · rw [hv]; ring
  · show -(3/5) * (ratValue N.s N.beta N.rxi 3 p.coef (-1)) u = u
    rw [hv]; ring
  · show (ratValue N.s N.beta N.rxi 3 p.coef (-2)) 1 = 0
    rw [hv]; norm_num

end Verif.NEP
