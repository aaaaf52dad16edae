import Verif.Harm.Thm
import Mathlib.Data.Complex.Basic
/-! Properties C186-C189: error estimates, target, refined vectors, failures. -/
set_option linter.all false
namespace Verif.Harm
noncomputable section
open Classical
variable {𝕜 : Type} [RCLike 𝕜] {E : Type} [NormedAddCommGroup E] [InnerProductSpace 𝕜 E]

/-- C186, harmonic extraction: the estimate is the norm of the residual of the normalized vector (`y` has no component in locked columns; always
the case if none is locked). -/
theorem C186_partial {Op : E →ₗ[𝕜] E} {s : State 𝕜 E} {r : ℕ → E} (h : Decomp Op s r) (hb : 0 ≤ s.beta) {tau : 𝕜} {g : ℕ → 𝕜}
    (hg : translateG s.n s.A tau s.beta = some g) {theta : 𝕜} {y : ℕ → 𝕜} (hy : EigPair s.n (translateA s.n s.A g s.beta) theta y)
    (hy0 : ∀ i, i < s.nconv → y i = 0) (sigma : ℝ) :
    ‖comb s.V s.n y‖ = 1 ∧
    ‖Op (comb s.V s.n y) - theta • comb s.V s.n y‖ = estimate ⟨true, false⟩ s.n g s.beta ‖y (s.n - 1)‖ sigma := by
  constructor
  · have := norm_comb h.orth y
    rw [hy.unit] at this
    nlinarith [norm_nonneg (comb s.V s.n y), sq_nonneg (‖comb s.V s.n y‖ - 1)]
  · have h1 : Op (comb s.V s.n y) - theta • comb s.V s.n y = ((s.beta : 𝕜) * y (s.n - 1)) • (s.V s.n - comb s.V s.n g) := by
      rw [op_comb_trans h g y hy0, ← comb_smul, comb_congr (fun i hi => by rw [hy.eq i hi])]
      abel
    rw [h1, norm_smul, norm_resvec h.orth g, norm_mul, RCLike.norm_ofReal, abs_of_nonneg hb]
    simp only [estimate, if_true, if_false, Bool.false_eq_true]
    ring

/-- C186, Ritz extraction. -/
theorem C186_ritz {Op : E →ₗ[𝕜] E} {s : State 𝕜 E} {r : ℕ → E} (h : Decomp Op s r) (hb : 0 ≤ s.beta) (g : ℕ → 𝕜)
    {theta : 𝕜} {y : ℕ → 𝕜} (hy : EigPair s.n s.A theta y) (hy0 : ∀ i, i < s.nconv → y i = 0) (sigma : ℝ) :
    ‖Op (comb s.V s.n y) - theta • comb s.V s.n y‖ = estimate ⟨false, false⟩ s.n g s.beta ‖y (s.n - 1)‖ sigma := by
  have h1 : Op (comb s.V s.n y) - theta • comb s.V s.n y = ((s.beta : 𝕜) * y (s.n - 1)) • s.V s.n := by
    rw [op_comb h y hy0, ← comb_smul, comb_congr (fun i hi => by rw [hy.eq i hi])]
    abel
  have hn : ‖s.V s.n‖ = 1 := by
    have := norm_resvec (𝕜 := 𝕜) h.orth (fun _ => 0)
    have h2 : comb s.V s.n (fun _ => (0 : 𝕜)) = 0 := by unfold comb; simp
    rw [h2, sub_zero] at this
    rw [this]; unfold gammaOf; simp
  rw [h1, norm_smul, hn, norm_mul, RCLike.norm_ofReal, abs_of_nonneg hb]
  simp only [estimate, if_true, if_false, Bool.false_eq_true]
  ring

/-- Residual of the vector with coefficients `Q*z` in terms of the matrix of which the singular value decomposition is computed. -/
theorem refined_residual {Op : E →ₗ[𝕜] E} {s : State 𝕜 E} {r : ℕ → E} (h : Decomp Op s r) (h0 : s.nconv = 0) {d : Dense 𝕜} (hs : IsSchur s.n 0 s.A d)
    (theta : 𝕜) (z : ℕ → 𝕜) :
    ‖Op (comb s.V s.n (refinedVec s.n d.Q z)) - theta • comb s.V s.n (refinedVec s.n d.Q z)‖ ^ 2 =
      ∑ i ∈ Finset.range (s.n + 1), ‖∑ j ∈ Finset.range s.n, refinedMat s.n d s.beta theta i j * z j‖ ^ 2 := by
  have hsz := h.size
  have hN : s.n < s.n + 1 := Nat.lt_succ_self _
  set W : ℕ → E := fun j => if j < s.n then rot s.V s.n d.Q j else s.V s.n with hW
  have hWo : Orthon 𝕜 W (s.n + 1) := by
    intro i j hi hj
    simp only [hW]
    by_cases hin : i < s.n
    · by_cases hjn : j < s.n
      · rw [if_pos hin, if_pos hjn, rot_orth h.orth hs hin hjn]
      · rw [if_pos hin, if_neg hjn, if_neg (by omega)]
        exact inner_comb_col h.orth hN _
    · by_cases hjn : j < s.n
      · rw [if_neg hin, if_pos hjn, if_neg (by omega), ← inner_conj_symm]
        unfold rot
        rw [inner_comb_col h.orth hN, map_zero]
      · rw [if_neg hin, if_neg hjn, if_pos (by omega), h.orth s.n s.n hN hN, if_pos rfl]
  have hx : comb s.V s.n (refinedVec s.n d.Q z) = comb W s.n z := by
    have : comb W s.n z = comb (rot s.V s.n d.Q) s.n z := comb_congr fun i hi => by simp only [hW]; rw [if_pos hi]
    rw [this, comb_rot]; rfl
  have hOp : Op (comb s.V s.n (refinedVec s.n d.Q z)) = comb W s.n (fun i => ∑ j ∈ Finset.range s.n, d.T i j * z j) +
      ((s.beta : 𝕜) * refinedVec s.n d.Q z (s.n - 1)) • s.V s.n := by
    rw [op_comb h _ (fun i hi => by omega)]
    congr 1
    have : comb W s.n (fun i => ∑ j ∈ Finset.range s.n, d.T i j * z j) = comb (rot s.V s.n d.Q) s.n (fun i => ∑ j ∈ Finset.range s.n, d.T i j * z j) :=
      comb_congr fun i hi => by simp only [hW]; rw [if_pos hi]
    rw [this, comb_rot]
    refine comb_congr fun i hi => ?_
    congr 1
    unfold refinedVec
    simp only [Finset.mul_sum]
    rw [Finset.sum_comm]
    have hl : ∀ j ∈ Finset.range s.n, ∑ k ∈ Finset.range s.n, s.A i k * (d.Q k j * z j) = ∑ k ∈ Finset.range s.n, d.Q i k * (d.T k j * z j) := by
      intro j hj
      have := hs.sim i j hi (Nat.zero_le _) (Finset.mem_range.1 hj)
      have h2 := congrArg (· * z j) this
      simp only [Finset.sum_mul] at h2
      rw [show ∑ k ∈ Finset.range s.n, s.A i k * (d.Q k j * z j) = ∑ k ∈ Finset.range s.n, s.A i k * d.Q k j * z j from
        Finset.sum_congr rfl fun k _ => by ring, h2]
      exact Finset.sum_congr rfl fun k _ => by ring
    rw [Finset.sum_congr rfl hl, Finset.sum_comm]
  have hres : Op (comb s.V s.n (refinedVec s.n d.Q z)) - theta • comb s.V s.n (refinedVec s.n d.Q z) =
      comb W s.n (fun i => ∑ j ∈ Finset.range s.n, refinedMat s.n d s.beta theta i j * z j) +
        (∑ j ∈ Finset.range s.n, refinedMat s.n d s.beta theta s.n j * z j) • W s.n := by
    rw [hOp, hx, ← comb_smul]
    have h1 : (∑ j ∈ Finset.range s.n, refinedMat s.n d s.beta theta s.n j * z j) = (s.beta : 𝕜) * refinedVec s.n d.Q z (s.n - 1) := by
      unfold refinedVec refinedMat
      rw [Finset.mul_sum]
      refine Finset.sum_congr rfl fun j hj => ?_
      rw [if_pos rfl, if_neg (by omega), sub_zero]
      unfold extraRow; ring
    have h2 : W s.n = s.V s.n := by simp only [hW]; rw [if_neg (lt_irrefl _)]
    rw [h1, h2]
    have h3 : comb W s.n (fun i => ∑ j ∈ Finset.range s.n, refinedMat s.n d s.beta theta i j * z j) =
        comb W s.n (fun i => ∑ j ∈ Finset.range s.n, d.T i j * z j) - comb W s.n (fun i => theta * z i) := by
      rw [← comb_sub]
      refine comb_congr fun i hi => ?_
      congr 1
      unfold refinedMat
      have h4 : ∀ j ∈ Finset.range s.n, ((if i = s.n then extraRow s.n d s.beta j else d.T i j) - if i = j ∧ i < s.n then theta else 0) * z j =
          d.T i j * z j - if i = j then theta * z i else 0 := by
        intro j hj
        rw [if_neg (by omega : ¬ i = s.n)]
        by_cases hij : i = j
        · rw [if_pos ⟨hij, hi⟩, if_pos hij, hij]; ring
        · rw [if_neg (fun hh => hij hh.1), if_neg hij]; ring
      rw [Finset.sum_congr rfl h4, Finset.sum_sub_distrib, Finset.sum_ite_eq, if_pos (Finset.mem_range.2 hi)]
    rw [h3]; abel
  rw [hres, norm_comb_add hWo, Finset.sum_range_succ]

theorem refined_norm {s : State 𝕜 E} {d : Dense 𝕜} {A : ℕ → ℕ → 𝕜} (ho : Orthon 𝕜 s.V (s.n + 1)) (hs : IsSchur s.n 0 A d) (z : ℕ → 𝕜) :
    ‖comb s.V s.n (refinedVec s.n d.Q z)‖ ^ 2 = ∑ j ∈ Finset.range s.n, ‖z j‖ ^ 2 := by
  have hN : s.n < s.n + 1 := Nat.lt_succ_self _
  have hx : comb s.V s.n (refinedVec s.n d.Q z) = comb (rot s.V s.n d.Q) s.n z := by rw [comb_rot]; rfl
  have h1 : inner 𝕜 (comb (rot s.V s.n d.Q) s.n z) (comb (rot s.V s.n d.Q) s.n z) = ∑ i ∈ Finset.range s.n, (starRingEnd 𝕜) (z i) * z i :=
    inner_comb_comb (N := s.n) (fun i j hi hj => rot_orth ho hs hi hj) le_rfl z z
  rw [sum_conj_self, inner_self_eq_norm_sq_to_K] at h1
  rw [hx]
  exact_mod_cast h1

/-- C186, refined (not harmonic) extraction: the estimate is the norm of the residual of the refined vector, which is normalized. -/
theorem C186_refined {Op : E →ₗ[𝕜] E} {s : State 𝕜 E} {r : ℕ → E} (h : Decomp Op s r) (h0 : s.nconv = 0) {d : Dense 𝕜} (hs : IsSchur s.n 0 s.A d)
    {theta : 𝕜} {sigma : ℝ} {w : ℕ → 𝕜} (hw : SmallestSing s.n (refinedMat s.n d s.beta theta) sigma w) (g : ℕ → 𝕜) (last : ℝ) :
    ‖comb s.V s.n (refinedVec s.n d.Q w)‖ = 1 ∧
    ‖Op (comb s.V s.n (refinedVec s.n d.Q w)) - theta • comb s.V s.n (refinedVec s.n d.Q w)‖ =
      estimate ⟨false, true⟩ s.n g s.beta last sigma := by
  constructor
  · have h1 := refined_norm h.orth hs w
    rw [hw.unit] at h1
    nlinarith [norm_nonneg (comb s.V s.n (refinedVec s.n d.Q w)), sq_nonneg (‖comb s.V s.n (refinedVec s.n d.Q w)‖ - 1)]
  · have h1 := refined_residual h h0 hs theta w
    rw [hw.attained] at h1
    simp only [estimate, if_true]
    exact (sq_eq_sq₀ (norm_nonneg _) hw.nonneg).1 h1

/-- C188 (partial): the refined vector has the smallest residual for `theta` among all unit vectors of the search space; exact arithmetic, no
locked columns. -/
theorem C188_partial {Op : E →ₗ[𝕜] E} {s : State 𝕜 E} {r : ℕ → E} (h : Decomp Op s r) (h0 : s.nconv = 0) {d : Dense 𝕜} (hs : IsSchur s.n 0 s.A d)
    {theta : 𝕜} {sigma : ℝ} {w : ℕ → 𝕜} (hw : SmallestSing s.n (refinedMat s.n d s.beta theta) sigma w) (c : ℕ → 𝕜) (hc : ‖comb s.V s.n c‖ = 1) :
    ‖Op (comb s.V s.n (refinedVec s.n d.Q w)) - theta • comb s.V s.n (refinedVec s.n d.Q w)‖ ≤
      ‖Op (comb s.V s.n c) - theta • comb s.V s.n c‖ := by
  set z : ℕ → 𝕜 := fun i => ∑ j ∈ Finset.range s.n, (starRingEnd 𝕜) (d.Q j i) * c j with hz
  have hcz : comb s.V s.n c = comb s.V s.n (refinedVec s.n d.Q z) := by
    refine comb_congr fun i hi => ?_
    congr 1
    let QM : Matrix (Fin s.n) (Fin s.n) 𝕜 := Matrix.of fun i j => d.Q i j
    have h1 : QM.conjTranspose * QM = 1 := by
      ext a b
      rw [Matrix.mul_apply, Matrix.one_apply]
      have := hs.unit a b a.2 b.2
      rw [Finset.sum_range] at this
      simp only [Fin.ext_iff]
      exact this
    have h2 : QM * QM.conjTranspose = 1 := mul_eq_one_comm.1 h1
    have h3 : ∀ j, (hj : j < s.n) → ∑ k ∈ Finset.range s.n, d.Q i k * (starRingEnd 𝕜) (d.Q j k) = if i = j then 1 else 0 := by
      intro j hj
      have := congrFun (congrFun h2 ⟨i, hi⟩) ⟨j, hj⟩
      rw [Matrix.mul_apply, Matrix.one_apply] at this
      rw [Finset.sum_range]
      simp only [Fin.ext_iff] at this
      exact this
    unfold refinedVec
    simp only [hz, Finset.mul_sum]
    rw [Finset.sum_comm]
    have h4 : ∀ j ∈ Finset.range s.n, ∑ k ∈ Finset.range s.n, d.Q i k * ((starRingEnd 𝕜) (d.Q j k) * c j) = if i = j then c i else 0 := by
      intro j hj
      have := congrArg (· * c j) (h3 j (Finset.mem_range.1 hj))
      simp only [Finset.sum_mul] at this
      rw [show ∑ k ∈ Finset.range s.n, d.Q i k * ((starRingEnd 𝕜) (d.Q j k) * c j) = ∑ k ∈ Finset.range s.n, d.Q i k * (starRingEnd 𝕜) (d.Q j k) * c j from
        Finset.sum_congr rfl fun k _ => by ring, this]
      by_cases hij : i = j
      · rw [if_pos hij, if_pos hij, hij, one_mul]
      · rw [if_neg hij, if_neg hij, zero_mul]
    rw [Finset.sum_congr rfl h4, Finset.sum_ite_eq, if_pos (Finset.mem_range.2 hi)]
  have hzu : ∑ j ∈ Finset.range s.n, ‖z j‖ ^ 2 = 1 := by
    rw [← refined_norm h.orth hs z, ← hcz, hc, one_pow]
  have h5 := hw.least z hzu
  rw [← hw.attained, ← refined_residual h h0 hs theta w, ← refined_residual h h0 hs theta z, ← hcz] at h5
  exact (sq_le_sq₀ (norm_nonneg _) (norm_nonneg _)).1 h5

/-- C188: as long as some value has not converged all requested columns are updated. -/
theorem C188_update (k nv : ℕ) (h : k < nv) (refined : Bool) : arnoldiUpdate refined k nv = some (k + 1) := by
  unfold arnoldiUpdate
  cases refined
  · simp only [Bool.false_eq_true, if_false]
    rw [min_eq_left (by omega), if_pos (by omega)]
  · simp only [if_true]
    rw [if_pos (by omega)]

/-- C188: in Hermitian problems the locked vectors are returned as they are. -/
theorem C188_hermitian (n : ℕ) (Q z : ℕ → ℕ → 𝕜) (V : ℕ → E) (j : ℕ) : returned true true n Q z V j = V j := if_pos rfl

/-- C188: a single converged pair is returned as a multiple of the computed vector, so it is an eigenvector if the computed one is exact. -/
theorem C188_single {Op : E →ₗ[𝕜] E} {V : ℕ → E} {theta : 𝕜} (h : Op (V 0) = theta • V 0) (hermitian : Bool) (Q z : ℕ → ℕ → 𝕜) :
    Op (returned true hermitian 1 Q z V 0) = theta • returned true hermitian 1 Q z V 0 := by
  unfold returned
  cases hermitian
  · simp only [Bool.false_eq_true, if_false, if_true, Finset.sum_range_one, LinearMap.map_smul, h]
    rw [smul_comm]
  · simp only [if_true, h]

/-- C188 is false when all values of the search space have converged: with refined extraction the solver ends with an error (without, it does not). -/
theorem C188_all_false (nv : ℕ) (h : 0 < nv) : arnoldiUpdate true nv nv = none ∧ arnoldiUpdate false nv nv = some nv := by
  constructor
  · unfold arnoldiUpdate
    simp only [if_true]
    rw [if_neg (by omega)]
  · unfold arnoldiUpdate
    simp only [Bool.false_eq_true, if_false]
    rw [min_eq_right (by omega), if_pos le_rfl]

/-- C187 (partial): with a shift of origin `sigma` the pairs returned are harmonic Ritz pairs of the problem with respect to `target+sigma`; this is the target if
the shift is zero. -/
theorem C187_partial {P : E →ₗ[𝕜] E} {sigma : 𝕜} {s : State 𝕜 E} {r : ℕ → E} (h : Decomp (shiftOp P sigma) s r) (h0 : s.nconv = 0) {target : 𝕜}
    {g : ℕ → 𝕜} (hg : translateG s.n s.A target s.beta = some g) {theta : 𝕜} {y : ℕ → 𝕜}
    (hy : EigPair s.n (translateA s.n s.A g s.beta) theta y) (z : ℕ → 𝕜) :
    inner 𝕜 (P (comb s.V s.n z) - (target + sigma) • comb s.V s.n z)
      (P (comb s.V s.n y) - backShift sigma theta • comb s.V s.n y) = 0 := by
  have := C184_partial h h0 hg hy z
  have h1 : ∀ (x : E) (t : 𝕜), shiftOp P sigma x - t • x = P x - (t + sigma) • x := by
    intro x t
    unfold shiftOp
    rw [LinearMap.sub_apply, LinearMap.smul_apply, LinearMap.id_apply, add_smul]
    abel
  rw [h1, h1] at this
  exact this

/-- C189 (partial): the translation fails exactly if the target is an eigenvalue of the projected matrix. -/
theorem C189_partial (n : ℕ) (A : ℕ → ℕ → 𝕜) (tau : 𝕜) (beta : ℝ) :
    translateG n A tau beta = none ↔ ∃ y : Fin n → 𝕜, y ≠ 0 ∧ ∀ i : Fin n, ∑ j : Fin n, A i j * y j = tau * y i := by
  have h1 : translateG n A tau beta = none ↔ (shifted n A tau).det = 0 := by
    unfold translateG
    by_cases hd : (shifted n A tau).det = 0
    · rw [if_pos hd]; exact ⟨fun _ => hd, fun _ => rfl⟩
    · rw [if_neg hd]; exact ⟨fun hh => (by cases hh), fun hh => absurd hh hd⟩
  rw [h1, ← Matrix.exists_mulVec_eq_zero_iff]
  refine exists_congr fun y => and_congr_right fun _ => ?_
  rw [funext_iff]
  refine forall_congr' fun i => ?_
  have : (shifted n A tau).mulVec y i = ∑ j : Fin n, A i j * y j - tau * y i := by
    unfold Matrix.mulVec dotProduct shifted
    simp only [Matrix.of_apply, sub_mul, Finset.sum_sub_distrib, ite_mul, zero_mul, Finset.sum_ite_eq, Finset.mem_univ, if_true]
  rw [this]
  simp only [Pi.zero_apply, sub_eq_zero]

/-- C189 is false: for a real skew-symmetric operator and target 0 the translation fails for every search space of odd dimension. -/
theorem C189_false {F : Type} [NormedAddCommGroup F] [InnerProductSpace ℝ F] {Op : F →ₗ[ℝ] F} (hOp : ∀ x y, inner ℝ (Op x) y = -inner ℝ x (Op y))
    {s : State ℝ F} {r : ℕ → F} (h : Decomp Op s r) (h0 : s.nconv = 0) (hodd : Odd s.n) : translateG s.n s.A 0 s.beta = none := by
  have hA : ∀ i j, i < s.n → j < s.n → s.A i j = inner ℝ (s.V i) (Op (s.V j)) := by
    intro i j hi hj
    rw [h.rel j (by omega) hj, inner_add_right, inner_col_comb h.orth (Nat.le_succ _) _ (by omega : i < s.n + 1), if_pos hi]
    by_cases hjn : j + 1 = s.n
    · rw [if_pos hjn, inner_smul_right, h.orth i s.n (by omega) (Nat.lt_succ_self _), if_neg (by omega), mul_zero, add_zero]
    · rw [if_neg hjn, inner_zero_right, add_zero]
  have hskew : (shifted s.n s.A 0).transpose = -shifted s.n s.A 0 := by
    ext i j
    simp only [Matrix.transpose_apply, Matrix.neg_apply, shifted, Matrix.of_apply, ite_self, sub_zero]
    rw [hA j i j.2 i.2, hA i j i.2 j.2, ← hOp, real_inner_comm]
  have hdet : (shifted s.n s.A 0).det = 0 := by
    have h1 := Matrix.det_transpose (shifted s.n s.A 0)
    rw [hskew, Matrix.det_neg, Fintype.card_fin, hodd.neg_one_pow] at h1
    linarith
  unfold translateG
  rw [if_pos hdet]

end
end Verif.Harm
