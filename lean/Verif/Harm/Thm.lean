import Verif.Harm.Lemmas
/-! Properties C184-C189: harmonic and refined extraction. -/
set_option linter.all false
namespace Verif.Harm
noncomputable section
open Classical
variable {𝕜 : Type} [RCLike 𝕜] {E : Type} [NormedAddCommGroup E] [InnerProductSpace 𝕜 E]

/-- The vector `u-V*g` is orthogonal to `(Op-tau)v_j` for every active column. -/
theorem resvec_orth {Op : E →ₗ[𝕜] E} {s : State 𝕜 E} {r : ℕ → E} (h : Decomp Op s r) {tau : 𝕜} {g : ℕ → 𝕜}
    (hg : translateG s.n s.A tau s.beta = some g) {j : ℕ} (hj0 : s.nconv ≤ j) (hj : j < s.n) :
    inner 𝕜 (Op (s.V j) - tau • s.V j) (s.V s.n - comb s.V s.n g) = 0 := by
  have hN : s.n < s.n + 1 := Nat.lt_succ_self _
  have h1 : Op (s.V j) - tau • s.V j = comb s.V s.n (fun i => s.A i j - if i = j then tau else 0) +
      (if j + 1 = s.n then (s.beta : 𝕜) else 0) • s.V s.n := by
    rw [h.rel j hj0 hj, comb_sub]
    have : comb s.V s.n (fun i => if i = j then tau else 0) = tau • s.V j := by
      rw [comb_single s.V hj _ (fun i _ hi => if_neg hi), if_pos rfl]
    rw [this]
    have h3 : (if j + 1 = s.n then (s.beta : 𝕜) else 0) • s.V s.n = if j + 1 = s.n then (s.beta : 𝕜) • s.V s.n else 0 := by
      by_cases hjn : j + 1 = s.n
      · rw [if_pos hjn, if_pos hjn]
      · rw [if_neg hjn, if_neg hjn, zero_smul]
    rw [h3]; abel
  rw [h1, inner_add_left, inner_sub_right, inner_sub_right, inner_comb_col h.orth hN, inner_comb_comb h.orth hN.le, inner_smul_left, inner_smul_left,
    h.orth s.n s.n hN hN, if_pos rfl, inner_col_comb h.orth hN.le g hN, if_neg (lt_irrefl _), translateG_eq hg j hj]
  by_cases hjn : j + 1 = s.n
  · rw [if_pos hjn]; simp
  · rw [if_neg hjn]; simp

/-- C184 (partial): the residual of every eigenpair of the translated matrix is orthogonal to `(Op-tau)v` for every vector `v` of the search space; exact arithmetic,
no locked columns.  (With locked columns: `C184_active`.) -/
theorem C184_partial {Op : E →ₗ[𝕜] E} {s : State 𝕜 E} {r : ℕ → E} (h : Decomp Op s r) (h0 : s.nconv = 0) {tau : 𝕜} {g : ℕ → 𝕜}
    (hg : translateG s.n s.A tau s.beta = some g) {theta : 𝕜} {y : ℕ → 𝕜} (hy : EigPair s.n (translateA s.n s.A g s.beta) theta y) (z : ℕ → 𝕜) :
    inner 𝕜 (Op (comb s.V s.n z) - tau • comb s.V s.n z) (Op (comb s.V s.n y) - theta • comb s.V s.n y) = 0 := by
  have h1 : Op (comb s.V s.n y) - theta • comb s.V s.n y = ((s.beta : 𝕜) * y (s.n - 1)) • (s.V s.n - comb s.V s.n g) := by
    rw [op_comb_trans h g y (fun i hi => by omega), ← comb_smul, comb_congr (fun i hi => by rw [hy.eq i hi])]
    abel
  rw [h1, inner_smul_right]
  have h2 : Op (comb s.V s.n z) - tau • comb s.V s.n z = ∑ j ∈ Finset.range s.n, z j • (Op (s.V j) - tau • s.V j) := by
    unfold comb
    rw [map_sum, Finset.smul_sum, ← Finset.sum_sub_distrib]
    refine Finset.sum_congr rfl fun j _ => ?_
    rw [LinearMap.map_smul, smul_sub, smul_comm]
  rw [h2, sum_inner, Finset.sum_eq_zero, mul_zero]
  intro j hj
  rw [inner_smul_left, resvec_orth h hg (by omega) (Finset.mem_range.1 hj), mul_zero]

/-- C184 with locked columns: for eigenvectors and test vectors that involve active columns only. -/
theorem C184_active {Op : E →ₗ[𝕜] E} {s : State 𝕜 E} {r : ℕ → E} (h : Decomp Op s r) {tau : 𝕜} {g : ℕ → 𝕜}
    (hg : translateG s.n s.A tau s.beta = some g) {theta : 𝕜} {y : ℕ → 𝕜} (hy : EigPair s.n (translateA s.n s.A g s.beta) theta y)
    (hy0 : ∀ i, i < s.nconv → y i = 0) (z : ℕ → 𝕜) (hz : ∀ i, i < s.nconv → z i = 0) :
    inner 𝕜 (Op (comb s.V s.n z) - tau • comb s.V s.n z) (Op (comb s.V s.n y) - theta • comb s.V s.n y) = 0 := by
  have h1 : Op (comb s.V s.n y) - theta • comb s.V s.n y = ((s.beta : 𝕜) * y (s.n - 1)) • (s.V s.n - comb s.V s.n g) := by
    rw [op_comb_trans h g y hy0, ← comb_smul, comb_congr (fun i hi => by rw [hy.eq i hi])]
    abel
  rw [h1, inner_smul_right]
  have h2 : Op (comb s.V s.n z) - tau • comb s.V s.n z = ∑ j ∈ Finset.range s.n, z j • (Op (s.V j) - tau • s.V j) := by
    unfold comb
    rw [map_sum, Finset.smul_sum, ← Finset.sum_sub_distrib]
    refine Finset.sum_congr rfl fun j _ => ?_
    rw [LinearMap.map_smul, smul_sub, smul_comm]
  rw [h2, sum_inner, Finset.sum_eq_zero, mul_zero]
  intro j hj
  by_cases hjl : j < s.nconv
  · rw [hz j hjl, zero_smul, inner_zero_left]
  · rw [inner_smul_left, resvec_orth h hg (by omega) (Finset.mem_range.1 hj), mul_zero]

/-- C184, second part: for a self-adjoint operator and a real target the harmonic Ritz values are real. -/
theorem C184_real {Op : E →ₗ[𝕜] E} (hOp : ∀ x y, inner 𝕜 (Op x) y = inner 𝕜 x (Op y)) {s : State 𝕜 E} {r : ℕ → E} (h : Decomp Op s r)
    (h0 : s.nconv = 0) {tau : ℝ} {g : ℕ → 𝕜} (hg : translateG s.n s.A (tau : 𝕜) s.beta = some g) {theta : 𝕜} {y : ℕ → 𝕜}
    (hy : EigPair s.n (translateA s.n s.A g s.beta) theta y) (hne : Op (comb s.V s.n y) ≠ (tau : 𝕜) • comb s.V s.n y) :
    RCLike.im theta = 0 := by
  have key := C184_partial h h0 hg hy y
  set x := comb s.V s.n y with hx
  set B := Op x - (tau : 𝕜) • x with hB
  have h1 : Op x - theta • x = B - (theta - (tau : 𝕜)) • x := by rw [hB, sub_smul]; abel
  rw [h1, inner_sub_right, inner_smul_right] at key
  have h2 : (starRingEnd 𝕜) (inner 𝕜 B x) = inner 𝕜 B x := by
    rw [inner_conj_symm, hB, inner_sub_left, inner_sub_right, hOp, inner_smul_left, inner_smul_right, RCLike.conj_ofReal]
  have hBB : inner 𝕜 B B = ((‖B‖ ^ 2 : ℝ) : 𝕜) := by rw [inner_self_eq_norm_sq_to_K]; push_cast; rfl
  have hBn : B ≠ 0 := sub_ne_zero.2 hne
  obtain ⟨c, hc⟩ : ∃ c : ℝ, inner 𝕜 B x = (c : 𝕜) := by
    have := RCLike.conj_eq_iff_real.1 h2
    exact this
  rw [hBB, hc] at key
  have h3 := congrArg RCLike.im key
  simp only [map_sub, RCLike.ofReal_im, RCLike.im_mul_ofReal, map_zero] at h3
  have hc0 : c ≠ 0 := by
    intro hc0
    rw [hc0] at key
    simp only [RCLike.ofReal_zero, mul_zero, sub_zero] at key
    have : ‖B‖ ^ 2 = 0 := by exact_mod_cast key
    exact hBn (norm_eq_zero.1 (by simpa using this))
  have h4 : RCLike.im theta * c = 0 := by linarith
  exact (mul_eq_zero.1 h4).resolve_right hc0

/-- The columns after the update of the basis. -/
theorem restartV_eq {s : State 𝕜 E} {A : ℕ → ℕ → 𝕜} {g : ℕ → 𝕜} {d : Dense 𝕜} {m : ℕ} (hs : IsSchur s.n s.nconv A d) (hsz : s.nconv < s.n) (hm : m < s.n)
    {j : ℕ} (hj : j < m) : restartV s.n s.nconv m d g s.V j = rot s.V s.n d.Q j := by
  unfold restartV
  rw [if_neg (by omega : ¬ j = m)]
  by_cases hl : s.nconv ≤ j
  · rw [if_pos ⟨hl, hj⟩]
    unfold rot comb
    refine Finset.sum_subset (fun x hx => Finset.mem_range.2 (Finset.mem_Ico.1 hx).2) fun x hx hx2 => ?_
    have h1 := Finset.mem_range.1 hx
    have h2 : x < s.nconv := by
      by_contra hh
      exact hx2 (Finset.mem_Ico.2 ⟨by omega, h1⟩)
    rw [hs.rows x j h2 (by omega), if_neg (by omega), zero_smul]
  · rw [if_neg (fun hh => hl hh.1)]
    unfold rot
    rw [comb_single s.V (by omega : j < s.n) _ (fun i hi hij => by rw [hs.cols i j hi (by omega), if_neg hij]), hs.cols j j (by omega) (by omega),
      if_pos rfl, one_smul]

/-- Orthonormality of the basis after the restart. -/
theorem restart_orth {s : State 𝕜 E} {A : ℕ → ℕ → 𝕜} {g : ℕ → 𝕜} {d : Dense 𝕜} {m : ℕ} (ho : Orthon 𝕜 s.V (s.n + 1)) (hs : IsSchur s.n s.nconv A d)
    (hsz : s.nconv < s.n) (hm : m < s.n) : Orthon 𝕜 (restartV s.n s.nconv m d g s.V) (m + 1) := by
  have hN : s.n < s.n + 1 := Nat.lt_succ_self _
  set gt := gtilde s.n m d.Q g with hgt
  set u : E := s.V s.n - comb s.V s.n gt with hu
  have hlast : restartV s.n s.nconv m d g s.V m = ((1 / gammaOf s.n gt : ℝ) : 𝕜) • u := by
    unfold restartV; rw [if_pos rfl]; rfl
  have hperp : ∀ j, j < m → inner 𝕜 (rot s.V s.n d.Q j) u = (0 : 𝕜) := by
    intro j hj
    rw [hu]
    unfold rot
    rw [inner_sub_right, inner_comb_col ho hN, inner_comb_comb ho hN.le]
    have h1 : ∑ r ∈ Finset.range s.n, (starRingEnd 𝕜) (d.Q r j) * gt r =
        ∑ r ∈ Finset.range s.n, (starRingEnd 𝕜) (d.Q r j) * g r +
          ∑ i ∈ Finset.range m, (∑ r ∈ Finset.range s.n, (starRingEnd 𝕜) (d.Q r j) * d.Q r i) * ghat s.n m d.Q g i := by
      simp only [hgt, gtilde, mul_add, Finset.sum_add_distrib, Finset.mul_sum, Finset.sum_mul]
      congr 1
      rw [Finset.sum_comm]
      exact Finset.sum_congr rfl fun i _ => Finset.sum_congr rfl fun r _ => by ring
    rw [h1]
    rw [show ∑ i ∈ Finset.range m, (∑ r ∈ Finset.range s.n, (starRingEnd 𝕜) (d.Q r j) * d.Q r i) * ghat s.n m d.Q g i =
      (∑ r ∈ Finset.range s.n, (starRingEnd 𝕜) (d.Q r j) * d.Q r j) * ghat s.n m d.Q g j from Finset.sum_eq_single j ?_ ?_]
    · rw [hs.unit j j (by omega) (by omega), if_pos rfl, one_mul]
      unfold ghat
      rw [if_pos hj]; ring
    · intro b hb hbj
      rw [hs.unit j b (by omega) (by have := Finset.mem_range.1 hb; omega), if_neg (Ne.symm hbj), zero_mul]
    · intro hh; exact absurd (Finset.mem_range.2 hj) hh
  have hun : inner 𝕜 u u = ((gammaOf s.n gt ^ 2 : ℝ) : 𝕜) := by
    rw [inner_self_eq_norm_sq_to_K, norm_resvec ho gt]; push_cast; rfl
  have hgp := gammaOf_pos s.n gt
  intro i j hi hj
  by_cases him : i = m
  · by_cases hjm : j = m
    · rw [him, hjm, if_pos rfl, hlast, inner_smul_left, inner_smul_right, hun, RCLike.conj_ofReal]
      have : (1 / gammaOf s.n gt) * ((1 / gammaOf s.n gt) * gammaOf s.n gt ^ 2) = 1 := by field_simp
      exact_mod_cast this
    · rw [him, hlast, restartV_eq hs hsz hm (by omega), inner_smul_left, ← inner_conj_symm, hperp j (by omega), if_neg (by omega)]
      simp
  · by_cases hjm : j = m
    · rw [hjm, hlast, restartV_eq hs hsz hm (by omega), inner_smul_right, hperp i (by omega), if_neg (by omega), mul_zero]
    · rw [restartV_eq hs hsz hm (by omega), restartV_eq hs hsz hm (by omega), rot_orth ho hs (by omega) (by omega)]

/-- C185, one restart: the decomposition holds again after the restart and the continued Arnoldi factorization. -/
theorem C185_cycle {Op : E →ₗ[𝕜] E} {s s' : State 𝕜 E} {r : ℕ → E} (h : Decomp Op s r) {tau : 𝕜} {g : ℕ → 𝕜}
    (hg : translateG s.n s.A tau s.beta = some g) {d : Dense 𝕜} (hs : IsSchur s.n s.nconv (translateA s.n s.A g s.beta) d) {k m : ℕ}
    (hk : s.nconv ≤ k) (hkm : k < m) (hm : m < s.n) (hck : Cut d.T s.n k) (hcm : Cut d.T s.n m)
    (hc : Continues Op k m (restartV s.n s.nconv m d g s.V) (restartA s.n s.nconv k m d g s.beta) s') :
    Decomp Op s' (lockRes s g d r) := by
  have hsz := h.size
  have hsz' := hc.size
  set V1 := restartV s.n s.nconv m d g s.V with hV1
  set A1 := restartA s.n s.nconv k m d g s.beta with hA1
  have hV : ∀ j, j < m → s'.V j = rot s.V s.n d.Q j := fun j hj => by rw [hc.keepV j hj.le, hV1, restartV_eq hs hsz hm hj]
  have horth : Orthon 𝕜 s'.V (m + 1) := by
    intro i j hi hj
    rw [hc.keepV i (by omega), hc.keepV j (by omega)]
    exact restart_orth h.orth hs hsz hm i j hi hj
  refine ⟨by rw [hc.nconv]; omega, hc.orth horth, ?_, ?_, ?_⟩
  · intro j hj0 hj
    rw [hc.nconv] at hj0
    by_cases hjm : m ≤ j
    · exact hc.rel j hjm hj
    have hjm : j < m := by omega
    rw [if_neg (by omega), add_zero, hV j hjm, op_rot h hs (by omega) (by omega) hcm hm.le hjm]
    -- split the sum of the new representation
    have hsum : comb s'.V s'.n (fun i => s'.A i j) = comb s'.V (m + 1) (fun i => s'.A i j) := by
      refine comb_extend s'.V (by omega) _ fun x hx hx2 => ?_
      have hxm : m < x := by omega
      have : s'.A x j = 0 := by
        rw [hc.keepA x j hjm, hA1]
        unfold restartA
        rw [if_pos ⟨hj0, hjm⟩, if_neg (by omega)]
        by_cases hxn : x = s.n
        · rw [if_pos hxn]
        · rw [if_neg hxn]
          unfold recoverA
          rw [if_neg (by omega)]
          by_cases hxl : x < s.n
          · exact hcm x j (by omega) hxl hjm
          · rw [hs.beyond x j (by omega)]
            unfold translateA
            rw [if_neg (by omega)]
            exact h.clean x j (by omega) (by omega)
      exact this
    rw [hsum, comb_succ]
    have hrow : s'.A m j = extraRow s.n d s.beta j * (gammaOf s.n (gtilde s.n m d.Q g) : 𝕜) := by
      rw [hc.keepA m j hjm, hA1]; unfold restartA; rw [if_pos ⟨hj0, hjm⟩, if_pos rfl]
    have hlast : s'.V m = ((1 / gammaOf s.n (gtilde s.n m d.Q g) : ℝ) : 𝕜) • (s.V s.n - comb s.V s.n (gtilde s.n m d.Q g)) := by
      rw [hc.keepV m le_rfl, hV1]; unfold restartV; rw [if_pos rfl]; rfl
    have hmain : comb s'.V m (fun i => s'.A i j) =
        comb (rot s.V s.n d.Q) m (fun i => d.T i j + ((s.beta : 𝕜) * d.Q (s.n - 1) j) * ghat s.n m d.Q g i) := by
      refine comb_congr fun i him => ?_
      rw [hV i him]
      congr 1
      rw [hc.keepA i j hjm, hA1]
      unfold restartA
      rw [if_pos ⟨hj0, hjm⟩, if_neg (by omega), if_neg (by omega)]
      unfold recoverA
      rw [if_pos ⟨him, hj0, hjm⟩]; ring
    rw [hmain, hrow, hlast, comb_add, comb_smul, smul_smul]
    have hgp := gammaOf_pos s.n (gtilde s.n m d.Q g)
    have hcoef : extraRow s.n d s.beta j * (gammaOf s.n (gtilde s.n m d.Q g) : 𝕜) * ((1 / gammaOf s.n (gtilde s.n m d.Q g) : ℝ) : 𝕜) =
        (s.beta : 𝕜) * d.Q (s.n - 1) j := by
      unfold extraRow
      have : ((gammaOf s.n (gtilde s.n m d.Q g) : ℝ) : 𝕜) * ((1 / gammaOf s.n (gtilde s.n m d.Q g) : ℝ) : 𝕜) = 1 := by
        rw [← RCLike.ofReal_mul]
        have : gammaOf s.n (gtilde s.n m d.Q g) * (1 / gammaOf s.n (gtilde s.n m d.Q g)) = 1 := by field_simp
        rw [this, RCLike.ofReal_one]
      rw [mul_assoc, this, mul_one]
    rw [hcoef]
    have hgt : comb s.V s.n (gtilde s.n m d.Q g) = comb s.V s.n g + comb (rot s.V s.n d.Q) m (ghat s.n m d.Q g) := by
      rw [comb_rot, ← comb_add]; rfl
    rw [hgt]
    simp only [smul_sub, smul_add]
    abel
  · intro j hj
    rw [hc.nconv] at hj ⊢
    rw [hV j (by omega)]
    have hrep : ∀ i, i < k → s'.A i j • s'.V i = d.T i j • rot s.V s.n d.Q i := by
      intro i hi
      rw [hV i (by omega)]
      congr 1
      rw [hc.keepA i j (by omega), hA1]
      unfold restartA
      rw [if_neg (by omega), if_neg (by omega)]
    rw [comb_congr (V := s'.V) hrep]
    by_cases hl : s.nconv ≤ j
    · unfold lockRes
      rw [if_pos hl]
      exact op_rot h hs hl (by omega) hck (by omega) hj
    · have hl' : j < s.nconv := by omega
      unfold lockRes
      rw [if_neg hl]
      have hrot : ∀ i, i < s.nconv → rot s.V s.n d.Q i = s.V i := by
        intro i hi
        unfold rot
        rw [comb_single s.V (by omega : i < s.n) _ (fun b hb hbj => by rw [hs.cols b i hb hi, if_neg hbj]), hs.cols i i (by omega) hi, if_pos rfl, one_smul]
      rw [hrot j hl', h.locked j hl']
      congr 1
      rw [comb_extend (rot s.V s.n d.Q) hk _ (fun x h2 h1 => hs.lockedZero x j h2 (by omega) hl')]
      refine comb_congr fun i hil => ?_
      rw [hrot i hil, hs.lockedBlock i j hil hl']
      unfold translateA
      rw [if_neg (by omega)]
  · intro i j hj hi
    rw [hc.nconv] at hj
    by_cases hjm : m ≤ j
    · exact hc.clean i j hjm hi
    rw [hc.keepA i j (by omega), hA1]
    unfold restartA
    rw [if_pos ⟨hj, by omega⟩, if_neg (by omega)]
    by_cases hxn : i = s.n
    · rw [if_pos hxn]
    · rw [if_neg hxn]
      unfold recoverA
      rw [if_neg (by omega)]
      by_cases hxl : i < s.n
      · exact hcm i j (by omega) hxl (by omega)
      · rw [hs.beyond i j (by omega)]
        unfold translateA
        rw [if_neg (by omega)]
        exact h.clean i j (by omega) (by omega)

/-- C185 (partial): the decomposition holds after any number of restarts; exact arithmetic, no breakdown. -/
theorem C185_partial {Op : E →ₗ[𝕜] E} {tau : 𝕜} {s0 : State 𝕜 E} {r0 : ℕ → E} (h0 : Decomp Op s0 r0) {s : State 𝕜 E} {r : ℕ → E}
    (h : Reach Op tau s0 r0 s r) : Decomp Op s r := by
  induction h with
  | start => exact h0
  | next s s' r g d k m _ hg hs hk hkm hm hck hcm hc ih => exact C185_cycle ih hg hs hk hkm hm hck hcm hc

/-- C185, locked vectors: columns locked before are not changed by a restart, and the residual with which a column is locked has the norm
`beta*gamma*|last component of the Schur vector|`. -/
theorem C185_locked {Op : E →ₗ[𝕜] E} {s s' : State 𝕜 E} {r : ℕ → E} (h : Decomp Op s r) (hb : 0 ≤ s.beta) {tau : 𝕜} {g : ℕ → 𝕜}
    (hg : translateG s.n s.A tau s.beta = some g) {d : Dense 𝕜} (hs : IsSchur s.n s.nconv (translateA s.n s.A g s.beta) d) {k m : ℕ}
    (hk : s.nconv ≤ k) (hkm : k < m) (hm : m < s.n) (hck : Cut d.T s.n k) (hcm : Cut d.T s.n m)
    (hc : Continues Op k m (restartV s.n s.nconv m d g s.V) (restartA s.n s.nconv k m d g s.beta) s') :
    (∀ j, j < s.nconv → s'.V j = s.V j ∧
      Op (s'.V j) - comb s'.V s'.nconv (fun i => s'.A i j) = Op (s.V j) - comb s.V s.nconv (fun i => s.A i j)) ∧
    ∀ j, s.nconv ≤ j → j < k → ‖Op (s'.V j) - comb s'.V s'.nconv (fun i => s'.A i j)‖ = ‖d.Q (s.n - 1) j‖ * (s.beta * gammaOf s.n g) := by
  have hsz := h.size
  have hD := C185_cycle h hg hs hk hkm hm hck hcm hc
  refine ⟨fun j hj => ⟨?_, ?_⟩, fun j hj0 hj => ?_⟩
  · rw [hc.keepV j (by omega)]
    unfold restartV
    rw [if_neg (by omega), if_neg (by omega)]
  · rw [hD.locked j (by rw [hc.nconv]; omega), h.locked j hj, add_sub_cancel_left, add_sub_cancel_left]
    unfold lockRes
    rw [if_neg (by omega)]
  · rw [hD.locked j (by rw [hc.nconv]; omega), add_sub_cancel_left]
    unfold lockRes
    rw [if_pos hj0, norm_smul, norm_resvec h.orth g, norm_mul, RCLike.norm_ofReal, abs_of_nonneg hb]
    ring

end
end Verif.Harm
