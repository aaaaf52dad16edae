import Verif.LME.PassLemmas
import Mathlib.Analysis.InnerProductSpace.PiL2
/-!
C86, C88: the Krylov solver for Lyapunov equations.

`lift n W Y` is the operator `W Y W^*`, `lowRank 𝕜 r Z` is `Z Z^*`, `resid A X b` is `A X + X A^* + b b^*`
(`ResidualLemmas.lean`).
-/
set_option linter.all false
namespace Verif.LME
noncomputable section
open Verif.BV Verif.MFN Matrix
variable {𝕜 : Type} [RCLike 𝕜] {E : Type} [NormedAddCommGroup E] [InnerProductSpace 𝕜 E]

/-- What the dense solver is expected to do (C87): the product `Y = L L^*` solves the projected equation. -/
def DenseOK (dense : Dense 𝕜) : Prop := ∀ n G c L, dense n G c = some L →
  mat n G * (mat n L * (mat n L)ᴴ) + mat n L * (mat n L)ᴴ * (mat n G)ᴴ = projRhs n ((c ^ 2 : ℝ) : 𝕜)

/-- What the rank-revealing SVD is expected to do: the rank is at most the size, the right factor is unitary,
the first columns of the left factor are orthogonal, with nonincreasing norms, and for full rank the product of the
factors is the matrix. -/
def SvdOK (svd : RankSVD 𝕜) : Prop := ∀ n L US Vt rk, svd n L = some (US, Vt, rk) →
  rk ≤ n ∧ mat n Vt * (mat n Vt)ᴴ = 1 ∧ (rk = n → mat n US * mat n Vt = mat n L) ∧
  (∀ j l, j < l → l < rk → ∑ i ∈ Finset.range n, star (US i j) * US i l = 0 ∧
    ∑ i ∈ Finset.range n, ‖US i l‖ ^ 2 ≤ ∑ i ∈ Finset.range n, ‖US i j‖ ^ 2)

theorem lastRow_eq (n : Nat) (hn : 0 < n) (L : Nat → Nat → 𝕜) :
    lastRow n L = Real.sqrt (∑ j : Fin n, ‖(mat n L * (mat n L)ᴴ) ⟨n - 1, by omega⟩ j‖ ^ 2) := by
  unfold lastRow
  congr 1
  rw [← Fin.sum_univ_eq_sum_range (fun j => ‖∑ k ∈ Finset.range n, L (n - 1) k * star (L j k)‖ ^ 2)]
  refine Finset.sum_congr rfl fun j _ => ?_
  rw [← Fin.sum_univ_eq_sum_range (fun k => L (n - 1) k * star (L j k))]
  simp only [Matrix.mul_apply, mat, of_apply, conjTranspose_apply]

/-- For orthonormal `W`, the norm of `W Y e_n` is the norm of the last column of `Y`. -/
theorem lastCombo_norm (n : Nat) (hn : 0 < n) (W : Nat → E) (hW : ONList 𝕜 (cols W n)) (L : Nat → Nat → 𝕜) :
    ‖lastCombo n hn W (mat n L * (mat n L)ᴴ)‖ = lastRow n L := by
  rw [lastRow_eq n hn]
  have hon : Orthonormal 𝕜 (fun i : Fin n => W i) := by
    constructor
    · intro i; exact hW.unit _ (List.mem_map.2 ⟨i, List.mem_range.2 i.2, rfl⟩)
    · intro i j hij
      have hp := List.pairwise_iff_getElem.1 hW.orth
      rcases lt_or_gt_of_ne hij with h | h
      · simpa [cols] using hp i j (by simpa [cols] using i.2) (by simpa [cols] using j.2) h
      · have := hp j i (by simpa [cols] using j.2) (by simpa [cols] using i.2) h
        simp only [cols, List.getElem_map, List.getElem_range] at this
        exact inner_eq_zero_symm.1 this
  symm
  rw [Real.sqrt_eq_iff_eq_sq (Finset.sum_nonneg fun _ _ => by positivity) (norm_nonneg _)]
  unfold lastCombo
  have h2 := hon.inner_sum (fun i => (mat n L * (mat n L)ᴴ) i ⟨n - 1, by omega⟩) (fun i => (mat n L * (mat n L)ᴴ) i ⟨n - 1, by omega⟩) Finset.univ
  rw [inner_self_eq_norm_sq_to_K] at h2
  have hH : ∀ i j : Fin n, (mat n L * (mat n L)ᴴ) i j = star ((mat n L * (mat n L)ᴴ) j i) := by
    intro i j
    rw [← conjTranspose_apply]
    congr 1
    rw [conjTranspose_mul, conjTranspose_conjTranspose]
  have h3 : (((‖∑ i : Fin n, (mat n L * (mat n L)ᴴ) i ⟨n - 1, by omega⟩ • W i‖ ^ 2 : ℝ)) : 𝕜) =
      ((∑ j : Fin n, ‖(mat n L * (mat n L)ᴴ) ⟨n - 1, by omega⟩ j‖ ^ 2 : ℝ) : 𝕜) := by
    push_cast
    rw [h2]
    refine Finset.sum_congr rfl fun i _ => ?_
    rw [RCLike.conj_mul, hH i, norm_star]
  exact_mod_cast h3.symm

/-- Everything that is known about a successful run, from which the theorems follow. -/
theorem lyap_all [FiniteDimensional 𝕜 E] (o : OrthOpts) (he : o.eta ≤ 1) (A : E →ₗ[𝕜] E) (P : Lim) (hP : 0 < P.ncv) (ht : 0 < P.tol)
    (dense : Dense 𝕜) (hd : DenseOK dense) (svd : RankSVD 𝕜) (hsv : SvdOK svd) (rrank : Option Nat) (b : E)
    (buf : Nat → Nat → 𝕜) (rank nouter : Nat) (errest : ℝ) (Z : Nat → E)
    (h : lyapVec (ipForm 𝕜 E) o A (Module.finrank 𝕜 E) P dense svd rrank b buf = .done rank nouter errest Z) :
    ∃ (n : Nat) (hn : 0 < n) (W : Nat → E) (G : Nat → Nat → 𝕜) (L US Vt : Nat → Nat → 𝕜) (lrank : Nat) (beta : ℝ) (u : E),
      b = (‖b‖ : 𝕜) • W 0 ∧ dense n G ‖b‖ = some L ∧ svd n L = some (US, Vt, lrank) ∧ rank = rankOf rrank lrank ∧
      errest < P.tol ∧ errest = beta * lastRow n L ∧ 0 ≤ beta ∧
      (∀ z, resid A (lift n W (mat n L * (mat n L)ᴴ)) b z =
        (beta : 𝕜) • (inner 𝕜 (lastCombo n hn W (mat n L * (mat n L)ᴴ)) z • u +
          inner 𝕜 u z • lastCombo n hn W (mat n L * (mat n L)ᴴ))) ∧
      n ≤ nouter * P.ncv ∧ (nouter - 1) * P.ncv < n ∧ 0 < nouter ∧
      ((0 < beta ∧ ‖u‖ = 1) ∨ (beta = 0 ∧ u = 0)) ∧
      (nouter = 1 → ONList 𝕜 (cols W n) ∧ (0 < beta → ONList 𝕜 (cols W n ++ [u]))) ∧
      ((nouter = 1 ∨ n = nouter * P.ncv) → rank = n → ∀ z, lowRank 𝕜 rank Z z = lift n W (mat n L * (mat n L)ᴴ) z) := by
  unfold lyapVec at h
  by_cases hb : ‖b‖ = 0
  · rw [if_pos hb] at h; cases h
  rw [if_neg hb] at h
  dsimp only at h
  have hp0 := pass0_ok o he A P hP ht dense ‖b‖ (((‖b‖⁻¹ : ℝ) : 𝕜) • b) (P.maxIt + 1) (start0 P ‖b‖ b buf)
    (before_start o A P b hb buf) rfl (by simp [start0]; omega) (by omega)
  dsimp only at hp0
  generalize pass0 (ipForm 𝕜 E) o A (Module.finrank 𝕜 E) P dense ‖b‖ (P.maxIt + 1) (start0 P ‖b‖ b buf) = s at *
  cases hst : s.stat with
  | running => rw [hst] at h; cases h
  | error => rw [hst] at h; cases h
  | fail => rw [hst] at h; cases h
  | conv L =>
    rw [hst] at h hp0
    dsimp only at h hp0
    obtain ⟨q1, q2, q3, q4, q5, q6, q7, ⟨beta, u, r1, r2, r3, r4, r5, r6⟩, q9⟩ := hp0
    cases hsvd : svd s.n L with
    | none => rw [hsvd] at h; cases h
    | some q =>
      rw [hsvd] at h
      dsimp only at h
      obtain ⟨US, Vt, lrank⟩ := q
      injection h with h1 h2 h3 h4
      dsimp only at h1 h4
      have hn : 0 < s.n := by omega
      have hW0 : allCols o A P.ncv (((‖b‖⁻¹ : ℝ) : 𝕜) • b) 0 = ((‖b‖⁻¹ : ℝ) : 𝕜) • b := by
        have := allCols_lt o A P.ncv (((‖b‖⁻¹ : ℝ) : 𝕜) • b) 0 0 hP
        simp only [zero_mul, add_zero] at this
        rw [this]
        have hu : ‖((‖b‖⁻¹ : ℝ) : 𝕜) • b‖ = 1 := (before_start o A P b hb buf).unit
        exact (arn_unit o he A P.ncv (P.ncv + 1) hP _ hu (fun _ _ => 0) (fun _ _ => 0) (fun _ _ _ => rfl)).2.2.1
      have hb0 : b = (‖b‖ : 𝕜) • allCols o A P.ncv (((‖b‖⁻¹ : ℝ) : 𝕜) • b) 0 := by
        rw [hW0, smul_smul, ← RCLike.ofReal_mul, mul_inv_cancel₀ hb, RCLike.ofReal_one, one_smul]
      have hherm : (mat s.n L * (mat s.n L)ᴴ)ᴴ = mat s.n L * (mat s.n L)ᴴ := by
        rw [conjTranspose_mul, conjTranspose_conjTranspose]
      have hbeta : 0 ≤ beta := by rcases r4 with r4 | r4 <;> [exact r4.1.le; exact r4.1.ge]
      refine ⟨s.n, hn, allCols o A P.ncv (((‖b‖⁻¹ : ℝ) : 𝕜) • b), s.G, L, US, Vt, lrank, beta, u, hb0, q7, hsvd, h1.symm,
        h3 ▸ q9, h3 ▸ r3, hbeta, ?_, ?_, ?_, by omega, r4, ?_, ?_⟩
      · intro z
        exact resid_krylov A _ s.n hn s.G beta u r2 _ hherm ‖b‖ b hb0 (hd _ _ _ _ q7) z
      · rw [← h2, q2]
        calc (s.its - 1) * P.ncv + s.m ≤ (s.its - 1) * P.ncv + P.ncv := by omega
          _ = s.its * P.ncv := by rw [← Nat.succ_mul, Nat.succ_eq_add_one, Nat.sub_add_cancel q1]
      · rw [← h2, q2]; omega
      · intro hno
        rw [← h2] at hno
        exact ⟨r6 hno, fun hb => r5 hb hno⟩
      · intro hno hrk z
        rw [← h2] at hno
        have hm : s.its = 1 ∨ s.m = P.ncv := by
          rcases hno with hno | hno
          · exact .inl hno
          · right
            have : s.its * P.ncv = (s.its - 1) * P.ncv + P.ncv := by
              rw [← Nat.succ_mul, Nat.succ_eq_add_one, Nat.sub_add_cancel q1]
            omega
        have hnm : s.n = s.its * s.m := by
          rcases hm with hm | hm
          · rw [q2, hm]; omega
          · rw [q2, hm, ← Nat.succ_mul, Nat.succ_eq_add_one, Nat.sub_add_cancel q1]
        have hp1 := pass1_ok o A P US Vt rank (((‖b‖⁻¹ : ℝ) : 𝕜) • b) s.m q4 s.M s.buf s.its hm
          (fun k hk => by
            rcases Nat.lt_or_ge (k + 1) s.its with hlt | hge
            · rw [q5 k hlt]
              rcases hm with hm | hm
              · omega
              · exact hm.symm
            · rw [show k = s.its - 1 by omega]; exact q6) s.its le_rfl
        have hfr : lrank = s.n := by
          have := (hsv _ _ _ _ _ hsvd).1
          have h5 : rank ≤ lrank := by
            rw [← h1]; unfold rankOf
            cases rrank with
            | none => exact le_rfl
            | some r => exact min_le_left _ _
          omega
        have hprod := (hsv _ _ _ _ _ hsvd).2.2.1 hfr
        rw [hrk]
        refine lowRank_eq_lift s.n _ (mat s.n L) Z ?_ z
        intro c
        rw [← h4, h1]
        have hz := hp1.2.2 c (by rw [hrk]; exact c.2)
        unfold pass1
        rw [hz, ← hnm, hrk, ← Fin.sum_univ_eq_sum_range (fun i => (∑ l ∈ Finset.range s.n, US i l * Vt l c) • allCols o A P.ncv (((‖b‖⁻¹ : ℝ) : 𝕜) • b) i)]
        refine Finset.sum_congr rfl fun i _ => ?_
        congr 1
        rw [← hprod, Matrix.mul_apply, ← Fin.sum_univ_eq_sum_range (fun l => US i l * Vt l c)]
        rfl

/-- **C86, partial.** When LMEKRYLOV declares convergence for a right-hand side vector, there are the columns `W` of the
Krylov basis (of all cycles) and the solution `Y = L L^*` of the projected equation given by the dense solver such that
the residual of `X = W Y W^*` is
`beta (w u^* + u w^*)` with `w = W Y e_n`, and the estimate `errest` is `beta` times the norm of the last row of `Y`.
If there was a single cycle, `errest` is exactly the spectral norm of the residual: the residual is bounded
by `errest` and the bound is attained. -/
theorem C86_residual_partial [FiniteDimensional 𝕜 E] (o : OrthOpts) (he : o.eta ≤ 1) (A : E →ₗ[𝕜] E) (P : Lim) (hP : 0 < P.ncv) (ht : 0 < P.tol)
    (dense : Dense 𝕜) (hd : DenseOK dense) (svd : RankSVD 𝕜) (hsv : SvdOK svd) (rrank : Option Nat) (b : E)
    (buf : Nat → Nat → 𝕜) (rank nouter : Nat) (errest : ℝ) (Z : Nat → E)
    (h : lyapVec (ipForm 𝕜 E) o A (Module.finrank 𝕜 E) P dense svd rrank b buf = .done rank nouter errest Z) :
    errest < P.tol ∧
    ∃ (n : Nat) (hn : 0 < n) (W : Nat → E) (G L : Nat → Nat → 𝕜) (beta : ℝ) (u : E),
      b = (‖b‖ : 𝕜) • W 0 ∧ dense n G ‖b‖ = some L ∧ n ≤ nouter * P.ncv ∧
      (∀ z, resid A (lift n W (mat n L * (mat n L)ᴴ)) b z = (beta : 𝕜) • (inner 𝕜 (lastCombo n hn W (mat n L * (mat n L)ᴴ)) z • u + inner 𝕜 u z • lastCombo n hn W (mat n L * (mat n L)ᴴ))) ∧
      errest = beta * Real.sqrt (∑ j, ‖(mat n L * (mat n L)ᴴ) ⟨n - 1, by omega⟩ j‖ ^ 2) ∧
      (nouter = 1 → (∀ z, ‖resid A (lift n W (mat n L * (mat n L)ᴴ)) b z‖ ≤ errest * ‖z‖) ∧ (∃ z, ‖z‖ = 1 ∧ ‖resid A (lift n W (mat n L * (mat n L)ᴴ)) b z‖ = errest)) := by
  obtain ⟨n, hn, W, G, L, US, Vt, lrank, beta, u, p1, p2, p3, p4, p5, p6, p7, p8, p9, p10, p11, p12, p13, p14⟩ :=
    lyap_all o he A P hP ht dense hd svd hsv rrank b buf rank nouter errest Z h
  refine ⟨p5, n, hn, W, G, L, beta, u, p1, p2, p9, p8, by rw [← lastRow_eq n hn]; exact p6, ?_⟩
  intro hno
  obtain ⟨o1, o2⟩ := p13 hno
  have hw := lastCombo_norm n hn W o1 L
  rcases p12 with ⟨hb, hu⟩ | ⟨hb, hu⟩
  · have o3 := o2 hb
    have hort : inner 𝕜 u (lastCombo n hn W (mat n L * (mat n L)ᴴ)) = 0 := by
      unfold lastCombo
      rw [inner_sum]
      refine Finset.sum_eq_zero fun i _ => ?_
      rw [inner_smul_right]
      have := (List.pairwise_append.1 o3.orth).2.2 (W i) (List.mem_map.2 ⟨i, List.mem_range.2 i.2, rfl⟩) u (by simp)
      rw [inner_eq_zero_symm.1 this, mul_zero]
    constructor
    · intro z
      rw [p8, norm_smul, RCLike.norm_ofReal, abs_of_pos hb, p6, mul_assoc, ← hw]
      exact mul_le_mul_of_nonneg_left (rank2_le _ _ hu hort z) hb.le
    · refine ⟨u, hu, ?_⟩
      rw [p8, norm_smul, RCLike.norm_ofReal, abs_of_pos hb, p6, rank2_at _ _ hu hort, hw]
  · have h0 : errest = 0 := by rw [p6, hb, zero_mul]
    have hr : ∀ z, resid A (lift n W (mat n L * (mat n L)ᴴ)) b z = 0 := by
      intro z; rw [p8, hb]; simp
    refine ⟨fun z => by rw [hr, h0]; simp, W 0, o1.unit _ (List.mem_map.2 ⟨0, List.mem_range.2 hn, rfl⟩), by rw [hr, h0]; simp⟩

/-- **C86, other norm.** The estimate is not the Frobenius norm, which `LMEComputeError` reports: for a run with a single
cycle, the sum of squares of the entries of the residual is twice the square of the estimate (in any orthonormal
basis). -/
theorem C86_frobenius [FiniteDimensional 𝕜 E] (o : OrthOpts) (he : o.eta ≤ 1) (A : E →ₗ[𝕜] E) (P : Lim) (hP : 0 < P.ncv) (ht : 0 < P.tol)
    (dense : Dense 𝕜) (hd : DenseOK dense) (svd : RankSVD 𝕜) (hsv : SvdOK svd) (rrank : Option Nat) (b : E)
    (buf : Nat → Nat → 𝕜) (rank : Nat) (errest : ℝ) (Z : Nat → E)
    (h : lyapVec (ipForm 𝕜 E) o A (Module.finrank 𝕜 E) P dense svd rrank b buf = .done rank 1 errest Z)
    {ι : Type} [Fintype ι] (e : OrthonormalBasis ι 𝕜 E) :
    ∃ (n : Nat) (W : Nat → E) (G L : Nat → Nat → 𝕜), dense n G ‖b‖ = some L ∧
      (rank = n → ∀ z, lowRank 𝕜 rank Z z = lift n W (mat n L * (mat n L)ᴴ) z) ∧ ∑ k, ‖resid A (lift n W (mat n L * (mat n L)ᴴ)) b (e k)‖ ^ 2 = 2 * errest ^ 2 := by
  obtain ⟨n, hn, W, G, L, US, Vt, lrank, beta, u, p1, p2, p3, p4, p5, p6, p7, p8, p9, p10, p11, p12, p13, p14⟩ :=
    lyap_all o he A P hP ht dense hd svd hsv rrank b buf rank 1 errest Z h
  refine ⟨n, W, G, L, p2, p14 (.inl rfl), ?_⟩
  obtain ⟨o1, o2⟩ := p13 rfl
  have hw := lastCombo_norm n hn W o1 L
  rcases p12 with ⟨hb, hu⟩ | ⟨hb, hu⟩
  · have o3 := o2 hb
    have hort : inner 𝕜 u (lastCombo n hn W (mat n L * (mat n L)ᴴ)) = 0 := by
      unfold lastCombo
      rw [inner_sum]
      refine Finset.sum_eq_zero fun i _ => ?_
      rw [inner_smul_right]
      have := (List.pairwise_append.1 o3.orth).2.2 (W i) (List.mem_map.2 ⟨i, List.mem_range.2 i.2, rfl⟩) u (by simp)
      rw [inner_eq_zero_symm.1 this, mul_zero]
    have hsum : ∀ x : E, ∑ k, ‖inner 𝕜 x (e k)‖ ^ 2 = ‖x‖ ^ 2 := by
      intro x
      rw [← e.sum_sq_norm_inner_left x]
    have hk : ∀ k, ‖resid A (lift n W (mat n L * (mat n L)ᴴ)) b (e k)‖ ^ 2 =
        beta ^ 2 * (‖inner 𝕜 (lastCombo n hn W (mat n L * (mat n L)ᴴ)) (e k)‖ ^ 2 +
          ‖inner 𝕜 u (e k)‖ ^ 2 * ‖lastCombo n hn W (mat n L * (mat n L)ᴴ)‖ ^ 2) := by
      intro k
      rw [p8, norm_smul, RCLike.norm_ofReal, abs_of_pos hb, mul_pow, rank2_norm_sq _ _ hu hort]
    rw [Finset.sum_congr rfl fun k _ => hk k, ← Finset.mul_sum, Finset.sum_add_distrib, ← Finset.sum_mul, hsum, hsum, hu, hw, p6]
    ring
  · have h0 : errest = 0 := by rw [p6, hb, zero_mul]
    have hr : ∀ z, resid A (lift n W (mat n L * (mat n L)ᴴ)) b z = 0 := by
      intro z; rw [p8, hb]; simp
    rw [h0]
    simp [hr]

/-- **C88, partial.** If the numerical rank is the dimension of the Krylov space, the rank is not limited by the user, and
there was a single cycle or all cycles had the same number of columns, the factor returned represents the projected
solution lifted to the full space. -/
theorem C88_solution_partial [FiniteDimensional 𝕜 E] (o : OrthOpts) (he : o.eta ≤ 1) (A : E →ₗ[𝕜] E) (P : Lim) (hP : 0 < P.ncv) (ht : 0 < P.tol)
    (dense : Dense 𝕜) (hd : DenseOK dense) (svd : RankSVD 𝕜) (hsv : SvdOK svd) (rrank : Option Nat) (b : E)
    (buf : Nat → Nat → 𝕜) (rank nouter : Nat) (errest : ℝ) (Z : Nat → E)
    (h : lyapVec (ipForm 𝕜 E) o A (Module.finrank 𝕜 E) P dense svd rrank b buf = .done rank nouter errest Z) :
    ∃ (n : Nat) (hn : 0 < n) (W : Nat → E) (G L : Nat → Nat → 𝕜) (beta : ℝ) (u : E),
      dense n G ‖b‖ = some L ∧ n ≤ nouter * P.ncv ∧
      (∀ z, resid A (lift n W (mat n L * (mat n L)ᴴ)) b z = (beta : 𝕜) • (inner 𝕜 (lastCombo n hn W (mat n L * (mat n L)ᴴ)) z • u + inner 𝕜 u z • lastCombo n hn W (mat n L * (mat n L)ᴴ))) ∧
      errest = beta * Real.sqrt (∑ j, ‖(mat n L * (mat n L)ᴴ) ⟨n - 1, by omega⟩ j‖ ^ 2) ∧
      ((nouter = 1 ∨ n = nouter * P.ncv) → rank = n → ∀ z, lowRank 𝕜 rank Z z = lift n W (mat n L * (mat n L)ᴴ) z) ∧
      (nouter = 1 → rank = n → ∀ z, ‖resid A (lowRank 𝕜 rank Z) b z‖ ≤ errest * ‖z‖) := by
  obtain ⟨n, hn, W, G, L, US, Vt, lrank, beta, u, p1, p2, p3, p4, p5, p6, p7, p8, p9, p10, p11, p12, p13, p14⟩ :=
    lyap_all o he A P hP ht dense hd svd hsv rrank b buf rank nouter errest Z h
  refine ⟨n, hn, W, G, L, beta, u, p2, p9, p8, by rw [← lastRow_eq n hn]; exact p6, p14, ?_⟩
  intro hno hrk z
  have hX := p14 (.inl hno) hrk
  have e : resid A (lowRank 𝕜 rank Z) b z = resid A (lift n W (mat n L * (mat n L)ᴴ)) b z := by
    unfold resid; rw [hX, hX]
  rw [e]
  obtain ⟨o1, o2⟩ := p13 hno
  have hw := lastCombo_norm n hn W o1 L
  rcases p12 with ⟨hb, hu⟩ | ⟨hb, hu⟩
  · have o3 := o2 hb
    have hort : inner 𝕜 u (lastCombo n hn W (mat n L * (mat n L)ᴴ)) = 0 := by
      unfold lastCombo
      rw [inner_sum]
      refine Finset.sum_eq_zero fun i _ => ?_
      rw [inner_smul_right]
      have := (List.pairwise_append.1 o3.orth).2.2 (W i) (List.mem_map.2 ⟨i, List.mem_range.2 i.2, rfl⟩) u (by simp)
      rw [inner_eq_zero_symm.1 this, mul_zero]
    rw [p8, norm_smul, RCLike.norm_ofReal, abs_of_pos hb, p6, mul_assoc, ← hw]
    exact mul_le_mul_of_nonneg_left (rank2_le _ _ hu hort z) hb.le
  · rw [p8, hb, p6, hb]; simp

end
end Verif.LME
