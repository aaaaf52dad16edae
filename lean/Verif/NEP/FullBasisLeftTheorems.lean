import Verif.NEP.FullBasisTheorems

/-! Left eigenvectors of NLEIGS (C104). -/
set_option linter.all false

namespace Verif.NEP

variable {F V : Type*} [Field F] [AddCommGroup V] [Module F V]

/-- In split form, all matrices of the problem are symmetric. -/
def SymForm (p : Form F V) (tr : (V →ₗ[F] V) →ₗ[F] (V →ₗ[F] V)) : Prop :=
  match p with
  | .split nt c A => ∀ k < nt, tr (A k) = A k
  | .callback D => True

theorem tProd_eq {p : Form F V} {tr : (V →ₗ[F] V) →ₗ[F] (V →ₗ[F] V)} (h : SymForm p tr) (i : ℕ) (z : V) :
    tProd p tr i z = tr (p.coef i) z := by
  cases p with
  | split nt c A =>
    simp only [tProd, Form.coef, map_sum, LinearMap.sum_apply]
    rw [foldl_add_sum (fun k => c i k • A k z), zero_add]
    refine Finset.sum_congr rfl fun k hk => ?_
    rw [map_smul, h k (Finset.mem_range.1 hk), LinearMap.smul_apply]
  | callback D => rfl

/-- Summation by parts for a lower bidiagonal system against an upper bidiagonal one. -/
theorem bidiag_pair (pair : V →ₗ[F] V →ₗ[F] F) {a f e : ℕ → F} {X Y U g : ℕ → V} {n : ℕ}
    (hY : ∀ i < n, a i • Y i + f i • Y (i+1) = X i + e i • X (i+1)) (hU0 : U 0 = a 0 • g 0)
    (hU : ∀ i, i+1 < n → U (i+1) = a (i+1) • g (i+1) + f i • g i) : ∀ m, m < n →
      ∑ i ∈ Finset.range (m+1), pair (Y i) (U i) + f m * pair (Y (m+1)) (g m) =
        ∑ i ∈ Finset.range (m+1), pair (X i + e i • X (i+1)) (g i) := by
  intro m
  induction m with
  | zero =>
    intro hm
    rw [Finset.sum_range_one, Finset.sum_range_one, ← hY 0 hm, hU0]
    simp only [map_add, map_smul, LinearMap.add_apply, LinearMap.smul_apply, smul_eq_mul]
  | succ m ih =>
    intro hm
    rw [Finset.sum_range_succ, Finset.sum_range_succ (n := m+1), ← ih (by omega), ← hY (m+1) hm, hU m hm]
    simp only [map_add, map_smul, LinearMap.add_apply, LinearMap.smul_apply, smul_eq_mul]
    ring

theorem fwdRow_rows {N : Nodes F} {σ : F} {d : ℕ} (g : GoodShift N d σ) (hd : 2 ≤ d) (q x : ℕ → V) :
    (x 0 - q 0 = (N.s 0 - σ) • fwdRow N σ q x 0) ∧ ∀ i, i+2 < d → x (i+1) - q (i+1) =
      (N.s (i+1) - σ) • fwdRow N σ q x (i+1) + (N.beta (i+1) * (1 - σ * N.rxi i)) • fwdRow N σ q x i := by
  constructor
  · have hne : N.s 0 - σ ≠ 0 := sub_ne_zero.2 (g.node 0 (by omega))
    rw [fwdRow, smul_smul, mul_div_cancel₀ _ hne, neg_smul, neg_smul, one_smul, one_smul]
    abel
  · intro i hi
    have hne : N.s (i+1) - σ ≠ 0 := sub_ne_zero.2 (g.node (i+1) (by omega))
    rw [fwdRow, smul_smul, mul_div_cancel₀ _ hne, neg_smul, neg_smul, one_smul, one_smul]
    abel

/-- C104 (transpose): with symmetric matrices in split form, or in callback form, the transposed operator is the transpose of the
operator, for the pairing `pair` of vectors and the transposition `tr` of matrices. -/
theorem C104_transpose_partial {N : Nodes F} {σ : F} {d : ℕ} (hd : 2 ≤ d) (g : GoodShift N d σ) {p : Form F V}
    {tr : (V →ₗ[F] V) →ₗ[F] (V →ₗ[F] V)} {pair : V →ₗ[F] V →ₗ[F] F} (htr : ∀ B u w, pair (B u) w = pair u (tr B w))
    (hsym : SymForm p tr) {ksp kspT : V → V} (hk : IsExactSolver (ratValue N.s N.beta N.rxi (d+1) p.coef σ) ksp)
    (hkT : IsExactSolver (tr (ratValue N.s N.beta N.rxi (d+1) p.coef σ)) kspT) (x u : ℕ → V) :
    ∃ y w, fullMult N σ d p ksp x = some y ∧ fullMultT N σ d p tr kspT u = some w ∧
      ∑ i ∈ Finset.range d, pair (y i) (u i) = ∑ i ∈ Finset.range d, pair (x i) (w i) := by
  have hkk : ∀ a b, pair (ksp a) b = pair a (kspT b) := by
    intro a b
    conv_lhs => rw [← hkT.1 b]
    rw [← htr, hk.1]
  unfold fullMult fullMultT
  rw [if_neg (show ¬ d < 2 by omega), if_neg (show ¬ d < 2 by omega)]
  refine ⟨_, _, rfl, rfl, ?_⟩
  dsimp only
  obtain ⟨n, rfl⟩ : ∃ n, d = n+2 := ⟨d-2, by omega⟩
  simp only [show n+2-1 = n+1 by omega, show n+2-2 = n by omega]
  rw [foldl_add_sum (fun i => evalNRT N σ i • u i)]
  set w := evalNRT N σ (n+1) • u (n+1) + ∑ i ∈ Finset.range (n+1), evalNRT N σ i • u i with hw
  set z := kspT w with hz
  set G := fwdRow N σ (fun i => tProd p tr i z) u with hG
  obtain ⟨f0, f1⟩ := fwdRow_rows g hd (fun i => tProd p tr i z) u
  rw [← hG] at f0 f1
  have rows := backRow_rows hd g x
  set Y : ℕ → V := fun i => if i < n+2-1 then backRow N σ (n+2) x (n+2-2-i) else 0 with hY
  have hYi : ∀ i < n+1, backRow N σ (n+2) x (n - i) = Y i := fun i hi => by
    show _ = if i < n+2-1 then _ else _
    rw [if_pos (by omega)]; rfl
  have hYn : Y (n+1) = 0 := if_neg (by omega)
  have hr : rhs N (n+2) p x (fun i => backRow N σ (n+2) x (n - i)) =
      -((1 / N.beta (n+2)) • p.coef (n+2) (x (n+1))) - ∑ i ∈ Finset.range (n+1), p.coef i (Y i) := by
    rw [rhs_eq]
    congr 1
    exact Finset.sum_congr rfl fun i hi => by rw [hYi i (Finset.mem_range.1 hi)]
  rw [hr]
  set v := ksp (-((1 / N.beta (n+2)) • p.coef (n+2) (x (n+1))) - ∑ i ∈ Finset.range (n+1), p.coef i (Y i)) with hv
  have hq : ∀ i a, pair (p.coef i a) z = pair a (tProd p tr i z) := fun i a => by rw [tProd_eq hsym, htr]
  have hvw : pair v w = -(1 / N.beta (n+2)) * pair (x (n+1)) (tProd p tr (n+2) z) - ∑ i ∈ Finset.range (n+1), pair (Y i) (tProd p tr i z) := by
    rw [hv, hkk, ← hz]
    simp only [map_sub, map_neg, map_smul, map_sum, LinearMap.sub_apply, LinearMap.neg_apply, LinearMap.smul_apply, LinearMap.sum_apply,
      smul_eq_mul, hq]
    ring
  have key := bidiag_pair pair (n := n+1) (a := fun i => N.s i - σ) (f := fun i => N.beta (i+1) * (1 - σ * N.rxi i))
    (e := fun i => N.beta (i+1) * N.rxi i) (X := x) (Y := Y) (U := fun i => u i - tProd p tr i z) (g := G)
    (fun i hi => rows i (by omega)) f0 (fun i hi => f1 i (by omega)) n (by omega)
  rw [hYn] at key
  simp only [map_zero, LinearMap.zero_apply, mul_zero, add_zero] at key
  have hL : ∑ i ∈ Finset.range (n+2), pair (if i < n+1 then backRow N σ (n+2) x (n-i) + evalNRT N σ i • v else evalNRT N σ (n+1) • v) (u i) =
      ∑ i ∈ Finset.range (n+1), pair (Y i) (u i) + pair v w := by
    rw [Finset.sum_range_succ, if_neg (show ¬ n+1 < n+1 by omega), Finset.sum_congr rfl (fun i hi => by
      rw [if_pos (Finset.mem_range.1 hi), hYi i (Finset.mem_range.1 hi), map_add, LinearMap.add_apply]), Finset.sum_add_distrib, hw]
    simp only [map_add, map_smul, map_sum, LinearMap.smul_apply, smul_eq_mul]
    ring
  rw [hL, hvw]
  have hR : ∑ i ∈ Finset.range (n+2), pair (x i) (if i = 0 then G 0 else if i < n+1 then G i + (N.beta i * N.rxi (i-1)) • G (i-1)
      else (-1 / N.beta (n+2)) • tProd p tr (n+2) z + (N.beta (n+1) * N.rxi n) • G n) =
      ∑ i ∈ Finset.range (n+1), pair (x i + (N.beta (i+1) * N.rxi i) • x (i+1)) (G i) -
        (1 / N.beta (n+2)) * pair (x (n+1)) (tProd p tr (n+2) z) := by
    rw [Finset.sum_range_succ, if_neg (show ¬ n+1 = 0 by omega), if_neg (show ¬ n+1 < n+1 by omega)]
    have : ∀ m ≤ n, ∑ i ∈ Finset.range (m+1), pair (x i) (if i = 0 then G 0 else if i < n+1 then G i + (N.beta i * N.rxi (i-1)) • G (i-1)
        else (-1 / N.beta (n+2)) • tProd p tr (n+2) z + (N.beta (n+1) * N.rxi n) • G n) + (N.beta (m+1) * N.rxi m) * pair (x (m+1)) (G m) =
        ∑ i ∈ Finset.range (m+1), pair (x i + (N.beta (i+1) * N.rxi i) • x (i+1)) (G i) := by
      intro m
      induction m with
      | zero =>
        intro _
        rw [Finset.sum_range_one, Finset.sum_range_one, if_pos rfl]
        simp only [map_add, map_smul, LinearMap.add_apply, LinearMap.smul_apply, smul_eq_mul]
      | succ m ih =>
        intro hm
        rw [Finset.sum_range_succ, Finset.sum_range_succ (n := m+1), ← ih (by omega), if_neg (show ¬ m+1 = 0 by omega),
          if_pos (show m+1 < n+1 by omega), Nat.add_sub_cancel]
        simp only [map_add, map_smul, LinearMap.add_apply, LinearMap.smul_apply, smul_eq_mul]
        ring
    rw [← this n le_rfl]
    simp only [map_add, map_smul, LinearMap.add_apply, LinearMap.smul_apply, smul_eq_mul]
    ring
  rw [hR, ← key]
  simp only [map_sub, Finset.sum_sub_distrib]
  ring

/-- C104 (left eigenvectors): with symmetric matrices in split form, or in callback form, the vector extracted from a left eigenvector of
the operator is a left eigenvector of the rational interpolant. `cj` and `cjv` are the conjugations of scalars and vectors; the left
eigenvector has blocks `x`, whose conjugates form an eigenvector of the transposed operator. -/
theorem C104_left_partial {N : Nodes F} {σ θ : F} {d : ℕ} (hd : 2 ≤ d) (g : GoodShift N d σ) (hlast : N.rxi (d-1) = 0) {p : Form F V}
    {tr : (V →ₗ[F] V) →ₗ[F] (V →ₗ[F] V)} (hsym : SymForm p tr) {kspT : V → V}
    (hkT : IsExactSolver (tr (ratValue N.s N.beta N.rxi (d+1) p.coef σ)) kspT)
    {cj : F → F} {cjv : V → V} (hadd : ∀ a b, cjv (a + b) = cjv a + cjv b) (hsm : ∀ a w, cjv (cj a • w) = a • cjv w)
    (hinv : ∀ w, cjv (cjv w) = w) {x w : ℕ → V} (hx : ∃ i < d, x i ≠ 0)
    (hw : fullMultT N σ d p tr kspT (fun i => cjv (x i)) = some w) (hwx : ∀ i < d, w i = θ • cjv (x i)) (hθ : θ ≠ 0)
    (hpole : ∀ i, i+1 < d → backTransform σ θ * N.rxi i ≠ 1) :
    extractLeft N σ d cj cjv kspT x ≠ 0 ∧
      (tr (ratValue N.s N.beta N.rxi (d+1) p.coef (backTransform σ θ))) (cjv (extractLeft N σ d cj cjv kspT x)) = 0 := by
  have hz0 : cjv 0 = 0 := by
    have := hadd 0 0
    rw [add_zero] at this
    exact left_eq_add.1 this
  obtain ⟨lam, hlam⟩ : ∃ lam, lam = backTransform σ θ := ⟨_, rfl⟩
  rw [← hlam] at hpole ⊢
  have hl : θ * (lam - σ) = 1 := by rw [hlam]; unfold backTransform; field_simp; ring
  have hE : cjv (extractLeft N σ d cj cjv kspT x) =
      kspT (evalNRT N σ (d-1) • cjv (x (d-1)) + ∑ i ∈ Finset.range (d-1), evalNRT N σ i • cjv (x i)) := by
    unfold extractLeft
    rw [hinv, foldl_add_sum (fun i => cj (evalNRT N σ i) • x i), hadd, hsm]
    congr 2
    have : ∀ m, cjv (∑ i ∈ Finset.range m, cj (evalNRT N σ i) • x i) = ∑ i ∈ Finset.range m, evalNRT N σ i • cjv (x i) := by
      intro m
      induction m with
      | zero => rw [Finset.sum_range_zero, Finset.sum_range_zero, hz0]
      | succ m ih => rw [Finset.sum_range_succ, Finset.sum_range_succ, hadd, ih, hsm]
    exact this _
  obtain ⟨u, hu⟩ : ∃ u : ℕ → V, u = fun i => cjv (x i) := ⟨_, rfl⟩
  have hui : ∀ i, cjv (x i) = u i := fun i => by rw [hu]
  rw [← hu] at hw
  simp only [hui] at hwx hE
  obtain ⟨n, rfl⟩ : ∃ n, d = n+2 := ⟨d-2, by omega⟩
  simp only [show n+2-1 = n+1 by omega] at hlast hE
  unfold fullMultT at hw
  rw [if_neg (show ¬ n+2 < 2 by omega)] at hw
  dsimp only at hw
  injection hw with hw
  simp only [show n+2-1 = n+1 by omega, show n+2-2 = n by omega] at hw
  rw [foldl_add_sum (fun i => evalNRT N σ i • u i)] at hw
  obtain ⟨W, hW⟩ : ∃ W, W = evalNRT N σ (n+1) • u (n+1) + ∑ i ∈ Finset.range (n+1), evalNRT N σ i • u i := ⟨_, rfl⟩
  rw [← hW] at hw hE
  obtain ⟨z, hz⟩ : ∃ z, z = kspT W := ⟨_, rfl⟩
  rw [← hz] at hw hE
  rw [hE]
  obtain ⟨q, hq⟩ : ∃ q : ℕ → V, q = fun i => tProd p tr i z := ⟨_, rfl⟩
  have hqi : ∀ i, tProd p tr i z = q i := fun i => by rw [hq]
  rw [← hq] at hw
  rw [hqi] at hw
  obtain ⟨f0, f1⟩ := fwdRow_rows g hd q u
  obtain ⟨G, hG⟩ : ∃ G, G = fwdRow N σ q u := ⟨_, rfl⟩
  rw [← hG] at hw f0 f1
  have hqc : ∀ i, q i = tr (p.coef i) z := fun i => by rw [← hqi, tProd_eq hsym]
  have hRz : ∀ a, (tr (ratValue N.s N.beta N.rxi (n+2+1) p.coef a)) z = ∑ k ∈ Finset.range (n+2+1), evalNRT N a k • q k := by
    intro a
    unfold ratValue
    rw [map_sum, LinearMap.sum_apply]
    refine Finset.sum_congr rfl fun k _ => ?_
    rw [map_smul, LinearMap.smul_apply, hqc, evalNRT_eq]
  have w0 : G 0 = θ • u 0 := by rw [← hwx 0 (by omega), ← hw]; exact (if_pos rfl).symm
  have wi : ∀ i < n, G (i+1) + (N.beta (i+1) * N.rxi i) • G i = θ • u (i+1) := by
    intro i hi
    rw [← hwx (i+1) (by omega), ← hw]
    dsimp only
    rw [if_neg (show ¬ i+1 = 0 by omega), if_pos (show i+1 < n+1 by omega), Nat.add_sub_cancel]
  have wn : (-1 / N.beta (n+2)) • q (n+2) + (N.beta (n+1) * N.rxi n) • G n = θ • u (n+1) := by
    rw [← hwx (n+1) (by omega), ← hw]
    dsimp only
    rw [if_neg (show ¬ n+1 = 0 by omega), if_neg (show ¬ n+1 < n+1 by omega)]
  have cancel : ∀ a b : V, θ • a = θ • b → a = b := fun a b h => by
    have := congrArg (fun t => (1 / θ) • t) h
    simpa only [smul_smul, one_div_mul_cancel hθ, one_smul] using this
  -- the coefficients of the left vector
  have q0 : q 0 = (lam - N.s 0) • G 0 := by
    apply cancel
    have : q 0 = u 0 - (N.s 0 - σ) • G 0 := by rw [← f0]; abel
    rw [this, smul_sub, ← w0, smul_smul, smul_smul]
    nth_rewrite 1 [← one_smul F (G 0)]
    rw [← sub_smul]; congr 1
    linear_combination (-1 : F) * hl
  have qi : ∀ i < n, q (i+1) = (lam - N.s (i+1)) • G (i+1) - (N.beta (i+1) * (1 - lam * N.rxi i)) • G i := by
    intro i hi
    apply cancel
    have : q (i+1) = u (i+1) - ((N.s (i+1) - σ) • G (i+1) + (N.beta (i+1) * (1 - σ * N.rxi i)) • G i) := by rw [← f1 i (by omega)]; abel
    rw [this, smul_sub, ← wi i hi]
    simp only [smul_add, smul_sub, smul_smul]
    have e1 : (θ * (lam - N.s (i+1))) • G (i+1) = G (i+1) - (θ * (N.s (i+1) - σ)) • G (i+1) := by
      rw [show θ * (lam - N.s (i+1)) = 1 - θ * (N.s (i+1) - σ) by linear_combination hl, sub_smul, one_smul]
    have e2 : (θ * (N.beta (i+1) * (1 - lam * N.rxi i))) • G i =
        (θ * (N.beta (i+1) * (1 - σ * N.rxi i))) • G i - (N.beta (i+1) * N.rxi i) • G i := by
      rw [← sub_smul]; congr 1
      linear_combination (-1 : F) * N.beta (i+1) * N.rxi i * hl
    rw [e1, e2]; abel
  have bs : ∀ a i, i ≤ n → a * N.rxi i ≠ 1 →
      evalNRT N a i * (a - N.s i) = evalNRT N a (i+1) * (N.beta (i+1) * (1 - a * N.rxi i)) := by
    intro a i hi h1
    have := ratBasis_step (N := N) (lam := a) (i := i) (g.scale (i+1) (by omega)) h1
    rw [← evalNRT_eq, ← evalNRT_eq] at this
    linear_combination (-1 : F) * this
  have tele : ∀ m ≤ n, ∑ k ∈ Finset.range (m+1), evalNRT N lam k • q k = (evalNRT N lam (m+1) * (N.beta (m+1) * (1 - lam * N.rxi m))) • G m := by
    intro m
    induction m with
    | zero =>
      intro _
      rw [Finset.sum_range_one, q0, smul_smul, bs lam 0 (by omega) (hpole 0 (by omega))]
    | succ m ih =>
      intro hm
      rw [Finset.sum_range_succ, ih (by omega), qi m (by omega), smul_sub, smul_smul, smul_smul, bs lam (m+1) hm (hpole (m+1) (by omega))]
      abel
  have teleσ : ∀ m ≤ n, ∑ k ∈ Finset.range (m+1), evalNRT N σ k • (u k - q k) = -((evalNRT N σ (m+1) * (N.beta (m+1) * (1 - σ * N.rxi m))) • G m) := by
    intro m
    induction m with
    | zero =>
      intro _
      rw [Finset.sum_range_one, f0, smul_smul, ← bs σ 0 (by omega) (g.nopole 0 (by omega)), ← neg_smul]
      congr 1; ring
    | succ m ih =>
      intro hm
      rw [Finset.sum_range_succ, ih (by omega), f1 m (by omega), smul_add, smul_smul, smul_smul, ← bs σ (m+1) hm (g.nopole (m+1) (by omega))]
      rw [show evalNRT N σ (m+1) * (N.s (m+1) - σ) = -(evalNRT N σ (m+1) * (σ - N.s (m+1))) by ring, neg_smul]
      abel
  have ht := evalNRT_ne g (n+1) (by omega)
  have hb2 := g.scale (n+2) le_rfl
  have hratio : ∀ a, evalNRT N a (n+2) = (a - N.s (n+1)) / N.beta (n+2) * evalNRT N a (n+1) := by
    intro a
    rw [evalNRT, hlast, mul_zero, sub_zero, mul_one]; ring
  have hsys : W = ∑ k ∈ Finset.range (n+2+1), evalNRT N σ k • q k := by
    rw [← hRz, hz, hkT.1]
  have qn : q (n+1) = -(((lam - N.s (n+1)) / N.beta (n+2)) • q (n+2)) - (N.beta (n+1) * (1 - lam * N.rxi n)) • G n := by
    have h1 := teleσ n le_rfl
    simp only [smul_sub, Finset.sum_sub_distrib] at h1
    rw [Finset.sum_range_succ, Finset.sum_range_succ, hratio, hW] at hsys
    have h2 : evalNRT N σ (n+1) • q (n+1) = evalNRT N σ (n+1) • (u (n+1) - (N.beta (n+1) * (1 - σ * N.rxi n)) • G n -
        ((σ - N.s (n+1)) / N.beta (n+2)) • q (n+2)) := by
      rw [smul_sub, smul_sub, smul_smul, smul_smul]
      rw [mul_comm ((σ - N.s (n+1)) / N.beta (n+2))] at hsys
      have h3 := sub_eq_iff_eq_add.1 h1
      rw [h3] at hsys
      have h4 := hsys
      rw [← sub_eq_zero] at h4 ⊢
      rw [← neg_eq_zero, ← h4]
      abel
    have h5 := congrArg (fun t => (1 / evalNRT N σ (n+1)) • t) h2
    simp only [smul_smul, one_div_mul_cancel ht, one_smul] at h5
    rw [h5]
    apply cancel
    simp only [smul_sub, ← wn, smul_neg, smul_smul]
    have e2 : (θ * (N.beta (n+1) * (1 - lam * N.rxi n))) • G n =
        (θ * (N.beta (n+1) * (1 - σ * N.rxi n))) • G n - (N.beta (n+1) * N.rxi n) • G n := by
      rw [← sub_smul]; congr 1
      linear_combination (-1 : F) * N.beta (n+1) * N.rxi n * hl
    have e1 : (θ * ((lam - N.s (n+1)) / N.beta (n+2))) • q (n+2) =
        (θ * ((σ - N.s (n+1)) / N.beta (n+2))) • q (n+2) - (-1 / N.beta (n+2)) • q (n+2) := by
      rw [← sub_smul]; congr 1
      field_simp
      linear_combination hl
    rw [e1, e2]; abel
  constructor
  · intro h0
    have hzz : z = 0 := by rw [← hE, h0, hz0]
    have hqz : ∀ i, q i = 0 := fun i => by rw [hqc, hzz, map_zero]
    have hGn : G n = 0 := by
      rw [hqz, hqz, smul_zero, neg_zero, zero_sub, eq_comm, neg_eq_zero, smul_eq_zero] at qn
      rcases qn with h | h
      · exact absurd h (mul_ne_zero (g.scale (n+1) (by omega)) (sub_ne_zero.2 (fun e => hpole n (by omega) e.symm)))
      · exact h
    have hGall : ∀ m ≤ n, G (n - m) = 0 := by
      intro m
      induction m with
      | zero => intro _; exact hGn
      | succ m ih =>
        intro hm
        have h1 := qi (n-(m+1)) (by omega)
        rw [show n-(m+1)+1 = n-m by omega, ih (by omega), hqz, smul_zero, zero_sub, eq_comm, neg_eq_zero, smul_eq_zero] at h1
        rcases h1 with h | h
        · exact absurd h (mul_ne_zero (g.scale _ (by omega)) (sub_ne_zero.2 (fun e => hpole (n-(m+1)) (by omega) e.symm)))
        · exact h
    have hG0 : ∀ i ≤ n, G i = 0 := fun i hi => by have := hGall (n-i) (by omega); rwa [show n-(n-i) = i by omega] at this
    obtain ⟨i, hi, hxi⟩ := hx
    have hu0 : u i = 0 := by
      apply cancel
      rw [smul_zero]
      rcases Nat.eq_zero_or_pos i with h | h
      · rw [h, ← w0, hG0 0 (by omega)]
      · obtain ⟨j, rfl⟩ : ∃ j, i = j+1 := ⟨i-1, by omega⟩
        by_cases hj : j < n
        · rw [← wi j hj, hG0 _ (by omega), hG0 _ (by omega), smul_zero, add_zero]
        · obtain rfl : j = n := by omega
          rw [← wn, hqz, hG0 _ (by omega), smul_zero, smul_zero, add_zero]
    apply hxi
    rw [← hinv (x i), hui, hu0, hz0]
  · rw [hRz, Finset.sum_range_succ, Finset.sum_range_succ, tele n le_rfl, qn, hratio]
    rw [smul_sub, smul_neg, smul_smul, smul_smul, mul_comm ((lam - N.s (n+1)) / N.beta (n+2))]
    abel

/-- C104 fails in split form with a nonsymmetric matrix: for every problem with one matrix that is not symmetric and a nonzero first
coefficient, the transposed operator is not the transpose of the operator. -/
theorem C104_false {N : Nodes F} {σ : F} (g : GoodShift N 2 σ) {c : ℕ → ℕ → F} {A : V →ₗ[F] V} (hc : c 0 0 ≠ 0)
    {tr : (V →ₗ[F] V) →ₗ[F] (V →ₗ[F] V)} {pair : V →ₗ[F] V →ₗ[F] F} (htr : ∀ B u w, pair (B u) w = pair u (tr B w))
    (hns : ∃ a b, pair (A a) b ≠ pair a (A b)) {ksp kspT : V → V}
    (hk : IsExactSolver (ratValue N.s N.beta N.rxi 3 (Form.split 1 c (fun _ => A)).coef σ) ksp)
    (hkT : IsExactSolver (tr (ratValue N.s N.beta N.rxi 3 (Form.split 1 c (fun _ => A)).coef σ)) kspT) :
    ∃ x u y w, fullMult N σ 2 (Form.split 1 c (fun _ => A)) ksp x = some y ∧ fullMultT N σ 2 (Form.split 1 c (fun _ => A)) tr kspT u = some w ∧
      ∑ i ∈ Finset.range 2, pair (y i) (u i) ≠ ∑ i ∈ Finset.range 2, pair (x i) (w i) := by
  obtain ⟨a, b, hab⟩ := hns
  have hne : N.s 0 - σ ≠ 0 := sub_ne_zero.2 (g.node 0 (by omega))
  have ht := evalNRT_ne g 1 (by omega)
  set R := ratValue N.s N.beta N.rxi 3 (Form.split 1 c (fun _ => A)).coef σ with hR
  have hkk : ∀ a b, pair (ksp a) b = pair a (kspT b) := by
    intro a b
    conv_lhs => rw [← hkT.1 b]
    rw [← htr, hk.1]
  refine ⟨fun i => if i = 0 then (N.s 0 - σ) • a else 0, fun i => if i = 1 then (1 / evalNRT N σ 1) • (tr R) b else 0, _, _, rfl, rfl, ?_⟩
  dsimp only
  simp only [Finset.sum_range_succ, Finset.sum_range_zero, zero_add, show (2:ℕ)-1 = 1 from rfl, show (2:ℕ)-2 = 0 from rfl,
    List.range_one, List.foldl_cons, List.foldl_nil, if_true, zero_ne_one, one_ne_zero, if_false, smul_zero, add_zero, smul_smul,
    mul_one_div_cancel ht, one_smul, lt_self_iff_false, map_zero, LinearMap.zero_apply, Nat.lt_one_iff, hkT.2, Nat.zero_sub, Nat.sub_self,
    backRow, fwdRow, tProd, rhs, rhsSplit, zero_add, one_div_mul_cancel hne]
  simp only [map_smul, LinearMap.smul_apply, smul_eq_mul, hkk, hkT.2]
  intro h
  apply hab
  have h2 : c 0 0 * (pair (A a) b - pair a (A b)) = 0 := by
    field_simp at h
    linear_combination (-(c 0 0)) * h
  rcases mul_eq_zero.1 h2 with h3 | h3
  · exact absurd h3 hc
  · exact sub_eq_zero.1 h3

/-! ### Cases meeting the hypotheses -/

/-- Pairing and transposition of 2-vectors and 2x2 matrices over the rationals. -/
def pair2 : (Fin 2 → ℚ) →ₗ[ℚ] (Fin 2 → ℚ) →ₗ[ℚ] ℚ := LinearMap.mk₂ ℚ (fun x y => x ⬝ᵥ y) (fun a b c => add_dotProduct a b c)
  (fun r a b => by simp) (fun a b c => dotProduct_add a b c) (fun r a b => by simp)

def tr2 : ((Fin 2 → ℚ) →ₗ[ℚ] (Fin 2 → ℚ)) →ₗ[ℚ] ((Fin 2 → ℚ) →ₗ[ℚ] (Fin 2 → ℚ)) where
  toFun B := Matrix.toLin' (LinearMap.toMatrix' B).transpose
  map_add' a b := by simp
  map_smul' r a := by simp

theorem tr2_adj (B : (Fin 2 → ℚ) →ₗ[ℚ] (Fin 2 → ℚ)) (u w : Fin 2 → ℚ) : pair2 (B u) w = pair2 u (tr2 B w) := by
  show (B u) ⬝ᵥ w = u ⬝ᵥ (Matrix.toLin' (LinearMap.toMatrix' B).transpose w)
  rw [Matrix.toLin'_apply, Matrix.dotProduct_mulVec, Matrix.vecMul_transpose, LinearMap.toMatrix'_mulVec]

/-- A nonsymmetric matrix. -/
def A2 : (Fin 2 → ℚ) →ₗ[ℚ] (Fin 2 → ℚ) := Matrix.toLin' !![1, 1; 0, 1]

/-- Coefficients 1, 0, 0 of the only matrix. -/
def c2 : ℕ → ℕ → ℚ := fun i _ => if i = 0 then 1 else 0

theorem A2_value : ratValue fbNodes.s fbNodes.beta fbNodes.rxi 3 (Form.split 1 c2 (fun _ => A2)).coef 3 = A2 := by
  apply LinearMap.ext
  intro v
  rw [ratValue_apply]
  simp only [Finset.sum_range_succ, Finset.sum_range_zero, ← evalNRT_eq, evalNRT]
  simp [fbNodes, Form.coef, c2]

theorem A2_solver : IsExactSolver A2 (fun w => ![w 0 - w 1, w 1]) := by
  refine ⟨fun w => ?_, fun u => ?_⟩
  · ext i; fin_cases i <;> simp [A2, Matrix.mulVec, dotProduct, Fin.sum_univ_two]
  · ext i; fin_cases i <;> simp [A2, Matrix.mulVec, dotProduct, Fin.sum_univ_two]

theorem A2T_solver : IsExactSolver (tr2 A2) (fun w => ![w 0, w 1 - w 0]) := by
  have h : ∀ w, tr2 A2 w = ![w 0, w 0 + w 1] := by
    intro w
    show Matrix.toLin' (LinearMap.toMatrix' A2).transpose w = _
    rw [A2, LinearMap.toMatrix'_toLin']
    ext i; fin_cases i <;> simp [Matrix.mulVec, dotProduct, Fin.sum_univ_two]
  refine ⟨fun w => ?_, fun u => ?_⟩
  · rw [h]; ext i; fin_cases i <;> simp
  · rw [h]; ext i; fin_cases i <;> simp

/-- The negation applies. -/
example : ∃ x u y w, fullMult fbNodes 3 2 (Form.split 1 c2 (fun _ => A2)) (fun w => ![w 0 - w 1, w 1]) x = some y ∧
    fullMultT fbNodes 3 2 (Form.split 1 c2 (fun _ => A2)) tr2 (fun w => ![w 0, w 1 - w 0]) u = some w ∧
      ∑ i ∈ Finset.range 2, pair2 (y i) (u i) ≠ ∑ i ∈ Finset.range 2, pair2 (x i) (w i) :=
  C104_false fb_good (by simp [c2]) tr2_adj ⟨![0, 1], ![1, 0], by
    show (A2 ![0,1]) ⬝ᵥ ![1,0] ≠ ![0,1] ⬝ᵥ (A2 ![1,0])
    simp [A2, dotProduct, Fin.sum_univ_two, Matrix.mulVec]⟩ (by rw [A2_value]; exact A2_solver) (by rw [A2_value]; exact A2T_solver)

/-- The transpose in callback form with the same nonsymmetric matrix. -/
theorem D2_value : ratValue fbNodes.s fbNodes.beta fbNodes.rxi 3 (Form.callback (fun i => if i = 0 then A2 else 0)).coef 3 = A2 := by
  apply LinearMap.ext
  intro v
  rw [ratValue_apply]
  simp only [Finset.sum_range_succ, Finset.sum_range_zero, ← evalNRT_eq, evalNRT]
  simp [fbNodes, Form.coef]

example (x u : ℕ → Fin 2 → ℚ) : ∃ y w, fullMult fbNodes 3 2 (Form.callback (fun i => if i = 0 then A2 else 0)) (fun w => ![w 0 - w 1, w 1]) x = some y ∧
    fullMultT fbNodes 3 2 (Form.callback (fun i => if i = 0 then A2 else 0)) tr2 (fun w => ![w 0, w 1 - w 0]) u = some w ∧
      ∑ i ∈ Finset.range 2, pair2 (y i) (u i) = ∑ i ∈ Finset.range 2, pair2 (x i) (w i) :=
  C104_transpose_partial (p := Form.callback (fun i => if i = 0 then A2 else 0)) le_rfl fb_good tr2_adj trivial (by rw [D2_value]; exact A2_solver) (by rw [D2_value]; exact A2T_solver) x u

/-- Left vector of `R(z) = z (z-1) - 2` at the eigenvalue 2 with shift 3, blocks `(1,1)`. -/
example : extractLeft fbNodes 3 2 id id (fun w => w / 4) (fun i => (1 : ℚ)) ≠ 0 :=
  (C104_left_partial (θ := -1) (tr := LinearMap.id) le_rfl fb_good rfl (p := fbForm) trivial fb_solver (fun _ _ => rfl) (fun _ _ => rfl)
    (fun _ => rfl) ⟨0, by omega, by norm_num⟩ rfl (by
      intro i hi
      have : i = 0 ∨ i = 1 := by omega
      rcases this with rfl | rfl
      · norm_num [fwdRow, tProd, fbNodes, fbForm, evalNRT]
      · norm_num [fwdRow, tProd, fbNodes, fbForm, evalNRT]) (by norm_num) (fun i _ => by simp [fbNodes])).1

end Verif.NEP
