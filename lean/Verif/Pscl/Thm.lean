import Verif.Pscl.Lemmas
/-!
Properties C190 to C193: diagonal balancing of polynomial eigenproblems.
-/
set_option linter.all false
namespace Verif.Pscl
noncomputable section
open Classical

section solve
variable {ι K : Type} [Field K]

/-- C190: an eigenpair of the operator applied by the solver gives an eigenpair of the polynomial, if the solver works with the diagonal exactly when the vectors
are corrected afterwards. -/
theorem C190_partial (s : Solver) (p : Obj ι K) (d : ℕ) (A : ℕ → (ι → K) →ₗ[K] (ι → K)) (solve : (ι → K) →ₗ[K] (ι → K))
    (hd : 0 < d) (hsf : p.sfactor ≠ 0) (hD : ∀ D, p.Dr = some D → ∀ i, D i ≠ 0) (hsolve : ∀ x, A d (solve x) = x)
    (hc : p.Dr.isSome = true → usesDr s = p.scale.isDiag) (theta : K) (v : ℕ → ι → K) (h : BlockEig d (blockOp s p d A solve) theta v) :
    PolyEig d A (retVal p theta) (retVec p (v 0)) := by
  obtain ⟨⟨j0, hj0, hv0⟩, he⟩ := h
  have hp := block_pow he (fun j hj => by unfold blockOp; rw [if_pos hj])
  have hn := workDr_ne s p hD
  rw [retVec_eq s p hc]
  obtain ⟨D, hDD⟩ : ∃ D, D = workDr s p := ⟨_, rfl⟩
  rw [← hDD] at hn ⊢
  obtain ⟨x, hx⟩ : ∃ x, x = mulDr D (v 0) := ⟨_, rfl⟩
  rw [← hx]
  have hv : v 0 ≠ 0 := by
    intro h0
    apply hv0
    rw [hp j0 hj0, h0, smul_zero]
  have hxv : v 0 = divDr D x := by rw [hx, div_mulDr D hn]
  have hl := he (d - 1) (by omega)
  unfold blockOp at hl
  rw [if_neg (by omega), hp (d - 1) (by omega), smul_smul, ← pow_succ', Nat.sub_add_cancel hd] at hl
  unfold lastBlock at hl
  rw [← hDD] at hl
  have hl2 := congrArg (mulDr D) hl
  rw [mul_divDr D hn, mulDr_smul, ← hx] at hl2
  have hl3 := congrArg (A d) hl2
  rw [map_smul, hsolve, map_smul] at hl3
  refine ⟨?_, ?_⟩
  · intro h0
    apply hv
    rw [hxv, h0]
    cases D with
    | none => rfl
    | some d => funext i; simp [divDr]
  · rw [Finset.sum_range_succ]
    have hsum : ∑ j ∈ Finset.range d, p.sfactor ^ j • A j (mulDr D (v j)) = ∑ j ∈ Finset.range d, retVal p theta ^ j • A j x := by
      apply Finset.sum_congr rfl
      intro j hj
      rw [hp j (Finset.mem_range.1 hj), mulDr_smul, ← hx, map_smul, smul_smul]
      unfold retVal
      rw [mul_pow]
    rw [hsum] at hl3
    have : retVal p theta ^ d • A d x = p.sfactor ^ d • (theta ^ d • A d x) := by
      rw [smul_smul]; unfold retVal; rw [mul_pow]
    rw [this, ← hl3, smul_smul]
    have : p.sfactor ^ d * (-1 / p.sfactor ^ d) = -1 := by field_simp
    rw [this, neg_smul, one_smul, add_neg_cancel]

/-- C190: under the same condition no eigenpair of the polynomial is lost. -/
theorem C190_complete (s : Solver) (p : Obj ι K) (d : ℕ) (A : ℕ → (ι → K) →ₗ[K] (ι → K)) (solve : (ι → K) →ₗ[K] (ι → K))
    (hd : 0 < d) (hsf : p.sfactor ≠ 0) (hD : ∀ D, p.Dr = some D → ∀ i, D i ≠ 0) (hsolve : ∀ x, solve (A d x) = x)
    (hc : p.Dr.isSome = true → usesDr s = p.scale.isDiag) (lam : K) (x : ι → K) (h : PolyEig d A lam x) :
    ∃ theta v, BlockEig d (blockOp s p d A solve) theta v ∧ retVal p theta = lam ∧ retVec p (v 0) = x := by
  have hn := workDr_ne s p hD
  obtain ⟨D, hDD⟩ : ∃ D, D = workDr s p := ⟨_, rfl⟩
  rw [← hDD] at hn
  obtain ⟨theta, ht⟩ : ∃ theta, theta = lam / p.sfactor := ⟨_, rfl⟩
  have hst : p.sfactor * theta = lam := by rw [ht]; field_simp
  have hne : divDr D x ≠ 0 := by
    intro h0
    apply h.1
    have := congrArg (mulDr D) h0
    rw [mul_divDr D hn] at this
    rw [this]
    cases D with
    | none => rfl
    | some d => funext i; simp [mulDr]
  refine ⟨theta, fun j => theta ^ j • divDr D x, ⟨⟨0, hd, by simpa using hne⟩, ?_⟩, hst, ?_⟩
  · intro j hj
    unfold blockOp
    by_cases hj' : j + 1 < d
    · rw [if_pos hj']
      show theta ^ (j + 1) • divDr D x = _
      rw [smul_smul, pow_succ']
    · rw [if_neg hj']
      have hjd : j + 1 = d := by omega
      unfold lastBlock
      rw [← hDD]
      have hsum : ∑ k ∈ Finset.range d, p.sfactor ^ k • A k (mulDr D (theta ^ k • divDr D x)) = -(lam ^ d • A d x) := by
        have h2 := h.2
        rw [Finset.sum_range_succ] at h2
        rw [← eq_neg_iff_add_eq_zero.2 h2]
        apply Finset.sum_congr rfl
        intro k _
        rw [mulDr_smul, mul_divDr D hn, map_smul, smul_smul, ← mul_pow, hst]
      rw [hsum, map_neg, map_smul, hsolve, smul_neg, smul_smul, smul_smul, ← pow_succ', hjd]
      have hcf : -((-1 / p.sfactor ^ d * lam ^ d)) = theta ^ d := by
        rw [ht, div_pow]; field_simp
      rw [← neg_smul, hcf]
      have key : ∀ (c : K), divDr D (c • x) = c • divDr D x := by
        intro c
        cases D with
        | none => rfl
        | some d => funext i; simp only [divDr, Pi.smul_apply, smul_eq_mul]; ring
      exact key _
  · rw [retVec_eq s p hc, ← hDD]
    show mulDr D (theta ^ 0 • divDr D x) = x
    rw [pow_zero, one_smul, mul_divDr D hn]

/-- C190: the histories of settings for which the pairs are right: TOAR and QARNOLDI if diagonal scaling is selected now or never was, STOAR and LINEAR if it is not
selected now. -/
theorem C190_history_partial (s : Solver) (computed : ι → K) (hcomp : ∀ i, computed i ≠ 0) (sf : K) (hsf : sf ≠ 0) (ss : List Scale) (t : Scale)
    (hyp : if usesDr s = true then t.isDiag = true ∨ ∀ u ∈ ss, u.isDiag = false else t.isDiag = false)
    (d : ℕ) (A : ℕ → (ι → K) →ₗ[K] (ι → K)) (solve : (ι → K) →ₗ[K] (ι → K)) (hd : 0 < d) (hsolve : ∀ x, A d (solve x) = x)
    (theta : K) (v : ℕ → ι → K) (h : BlockEig d (blockOp s (history computed sf (ss ++ [t])) d A solve) theta v) :
    PolyEig d A (retVal (history computed sf (ss ++ [t])) theta) (retVec (history computed sf (ss ++ [t])) (v 0)) := by
  refine C190_partial s _ d A solve hd (by rw [history_sf]; exact hsf) ?_ hsolve ?_ theta v h
  · intro D hD
    rw [history_Dr] at hD
    split_ifs at hD
    cases hD
    exact hcomp
  · intro hs
    rw [history_scale]
    rw [history_Dr] at hs
    by_cases hu : usesDr s = true
    · rw [if_pos hu] at hyp
      rw [hu]
      rcases hyp with h1 | h1
      · exact h1.symm
      · by_cases ht : t.isDiag = true
        · exact ht.symm
        · exfalso
          rw [if_neg] at hs
          · cases hs
          · rintro ⟨u, hu1, hu2⟩
            rcases List.mem_append.1 hu1 with h2 | h2
            · rw [h1 u h2] at hu2; cases hu2
            · rw [List.mem_singleton.1 h2] at hu2; exact ht hu2
    · rw [if_neg hu] at hyp
      rw [hyp]
      simpa using hu
end solve

section balance
variable {m : ℕ} {𝕜 : Type} [RCLike 𝕜]

/-- C191: for every regular polynomial the diagonals consist of powers of two, and the row sums of the scaled matrix are between 1/2 and 2; the column sums are between
1/32 and 32 if the stopping condition was met. -/
theorem C191_partial (nmat : ℕ) (A : ℕ → Matrix (Fin m) (Fin m) 𝕜) (hr : Regular nmat A) (lam sf : ℝ) (hl : 0 < lam) (hs : 0 < sf) (its : ℕ) (hi : 0 < its) :
    ∃ b stop, build nmat A lam sf its = some (b, stop) ∧ (∀ i, PowTwo (b.Dl i)) ∧ (∀ j, PowTwo (b.Dr j)) ∧
      (∀ i, 1 / 2 ≤ ∑ j, b.Dl i ^ 2 * buildM nmat A lam sf i j * b.Dr j ^ 2 ∧ ∑ j, b.Dl i ^ 2 * buildM nmat A lam sf i j * b.Dr j ^ 2 ≤ 2) ∧
      (stop = true → ∀ j, 1 / 32 ≤ ∑ i, b.Dl i ^ 2 * buildM nmat A lam sf i j * b.Dr j ^ 2 ∧
        ∑ i, b.Dl i ^ 2 * buildM nmat A lam sf i j * b.Dr j ^ 2 ≤ 32) := by
  have g := regular_good nmat A lam sf hl hs hr
  have h0 : Inv (buildM nmat A lam sf) ({ M := buildM nmat A lam sf, Dl := fun _ => 1, Dr := fun _ => 1 } : Bal m) :=
    ⟨fun i j => by simp, fun i => ⟨0, by simp⟩, fun j => ⟨0, by simp⟩⟩
  obtain ⟨r, h1, h2, h3, h4⟩ := loop_spec (buildM nmat A lam sf) its _ h0 g
  have habs : ∀ i j, |r.1.M i j| = r.1.Dl i ^ 2 * buildM nmat A lam sf i j * r.1.Dr j ^ 2 := by
    intro i j
    rw [h2.1 i j]
    apply abs_of_nonneg
    have := buildM_nonneg nmat A lam sf hl hs i j
    positivity
  refine ⟨r.1, r.2, h1, h2.2.1, h2.2.2, ?_, ?_⟩
  · intro i
    have := h3 (Or.inl hi) i
    unfold rsum at this
    rw [Finset.sum_congr rfl fun j _ => habs i j] at this
    exact this
  · intro hst j
    have := h4 hst j
    unfold csum at this
    rw [Finset.sum_congr rfl fun i _ => habs i j] at this
    exact this

/-- C191, remark: with a column that is zero in all coefficients (a singular polynomial) the conversion of the logarithm of zero is undefined. -/
theorem C191_singular (nmat : ℕ) (A : ℕ → Matrix (Fin m) (Fin m) 𝕜) (lam sf : ℝ) (hl : 0 < lam) (hs : 0 < sf) (its : ℕ) (hi : 0 < its)
    (j : Fin m) (hz : ∀ k i, k < nmat → A k i j = 0) : build nmat A lam sf its = none := by
  obtain ⟨k, rfl⟩ : ∃ k, its = k + 1 := ⟨its - 1, by omega⟩
  have : sweep ({ M := buildM nmat A lam sf, Dl := fun _ => 1, Dr := fun _ => 1 } : Bal m) = none := by
    unfold sweep
    refine if_pos ⟨j, ?_⟩
    rw [csum_zero]
    intro i
    exact (buildM_zero nmat A lam sf hl hs i j).2 fun k hk => hz k i hk
  simp only [build, loop, this]

/-- C192: without scalar scaling the weights are the powers of the squared estimate. -/
theorem C192_partial (nmat : ℕ) (A : ℕ → Matrix (Fin m) (Fin m) 𝕜) (lam : ℝ) : buildM nmat A lam 1 = wanted nmat A 1 lam := by
  funext i j
  unfold buildM wanted
  apply Finset.sum_congr rfl
  intro k _
  rw [weight_eq, one_pow, RCLike.ofReal_one, one_mul, mul_one, ← pow_two, ← pow_two, ← pow_mul, ← pow_mul, Nat.mul_comm]

/-- C192 is false with any scaling factor other than one: the weights belong neither to an estimate of the eigenvalues of the original problem nor to one of those of
the scaled problem. -/
theorem C192_false (sf lam : ℝ) (hs : 0 < sf) (hs1 : sf ≠ 1) (hl : 0 < lam) :
    ∃ A : ℕ → Matrix (Fin 1) (Fin 1) ℝ, Regular 3 A ∧ buildM 3 A lam sf ≠ wanted 3 A sf (lam / sf) ∧ buildM 3 A lam sf ≠ wanted 3 A sf lam := by
  refine ⟨fun k => if k = 1 then 1 else 0, ⟨1, ?_⟩, ?_, ?_⟩
  · simp [Finset.sum_range_succ]
  · intro h
    have := congrFun (congrFun h 0) 0
    simp [buildM, wanted, Finset.sum_range_succ, weight] at this
    rw [← mul_pow, div_mul_cancel₀ _ hs.ne'] at this
    have h2 : lam ^ 2 * (sf - 1) = 0 := by nlinarith
    rcases mul_eq_zero.1 h2 with h3 | h3
    · exact (pow_pos hl 2).ne' h3
    · exact hs1 (by linarith)
  · intro h
    have := congrFun (congrFun h 0) 0
    simp [buildM, wanted, Finset.sum_range_succ, weight] at this
    have h2 : lam ^ 2 * sf * (sf - 1) = 0 := by nlinarith
    rcases mul_eq_zero.1 h2 with h3 | h3
    · exact (mul_pos (pow_pos hl 2) hs).ne' h3
    · exact hs1 (by linarith)

/-- C193: if no diagonal scaling is selected the vectors of the user are not touched. -/
theorem C193_partial (s : Scale) (hs : s.isDiag = false) (nmat : ℕ) (A : ℕ → Matrix (Fin m) (Fin m) 𝕜) (lam sf : ℝ) (its : ℕ) (x : Mem m) :
    setupDiag s nmat A lam sf its x = some x := by
  unfold setupDiag
  rw [if_neg (by rw [hs]; decide)]

/-- C193 is false whenever diagonal scaling is selected: the diagonal used does not depend on what the user provided, and a vector that is not made of powers of
two is overwritten. -/
theorem C193_false (s : Scale) (hs : s.isDiag = true) (nmat : ℕ) (A : ℕ → Matrix (Fin m) (Fin m) 𝕜) (hr : Regular nmat A) (lam sf : ℝ) (hl : 0 < lam)
    (hsf : 0 < sf) (its : ℕ) (hi : 0 < its) (x : Mem m) (dl dr : ℕ) (hne : dl ≠ dr) (j : Fin m) (hj : ¬ PowTwo (x.vec dr j)) :
    ∃ y, setupDiag s nmat A lam sf its (provide x dl dr) = some y ∧ y.Dr = some dr ∧ y.vec dr ≠ x.vec dr ∧
      ∀ x' : Mem m, ∃ y', setupDiag s nmat A lam sf its (provide x' dl dr) = some y' ∧ y'.vec dr = y.vec dr := by
  obtain ⟨b, stop, h1, h2, h3, -⟩ := C191_partial nmat A hr lam sf hl hsf its hi
  have key : ∀ x' : Mem m, ∃ y, setupDiag s nmat A lam sf its (provide x' dl dr) = some y ∧ y.Dr = some dr ∧ y.vec dr = b.Dr := by
    intro x'
    have hset : setupDiag s nmat A lam sf its (provide x' dl dr) =
        some { create (provide x' dl dr) with vec := Function.update (Function.update x'.vec dl b.Dl) dr b.Dr } := by
      unfold setupDiag
      rw [if_pos hs, h1]
      rfl
    refine ⟨_, hset, rfl, ?_⟩
    · show (Function.update (Function.update x'.vec dl b.Dl) dr b.Dr) dr = b.Dr
      rw [Function.update_self]
  obtain ⟨y, e1, e2, e3⟩ := key x
  refine ⟨y, e1, e2, ?_, ?_⟩
  · intro h
    apply hj
    rw [← h, e3]
    exact h3 j
  · intro x'
    obtain ⟨y', f1, f2, f3⟩ := key x'
    exact ⟨y', f1, by rw [f3, e3]⟩
end balance

end
end Verif.Pscl
