import Verif.BVB.BlockThm
/-!
C112 for TSQR, TSQRCHOL and SVQB, and what is false of the code.
-/
set_option linter.all false
namespace Verif.BVB.Block
open scoped ComplexOrder
variable {𝕜 : Type} [RCLike 𝕜] {E : Type} [NormedAddCommGroup E] [InnerProductSpace 𝕜 E]

theorem isUnit_right {n : ℕ} {A B : Matrix (Fin n) (Fin n) 𝕜} (h : IsUnit (A * B)) : IsUnit B := by
  rw [Matrix.isUnit_iff_isUnit_det, Matrix.det_mul] at h
  rw [Matrix.isUnit_iff_isUnit_det]
  exact isUnit_of_mul_isUnit_right h

/-! ### TSQR -/

/-- What C113 gives: orthonormal columns and a triangular factor of linearly independent columns. -/
structure IsQRof (qr : ℕ → (ℕ → E) → (ℕ → E) × (ℕ → ℕ → 𝕜)) : Prop where
  orth : ∀ n W, LinearIndependent 𝕜 (fun i : Fin n => W i) → Orthonormal (𝕜 := 𝕜) n (qr n W).1
  prod : ∀ n W, LinearIndependent 𝕜 (fun i : Fin n => W i) → ∀ j < n, W j = ∑ i ∈ Finset.range n, (qr n W).2 i j • (qr n W).1 i
  upper : ∀ n W i j, j < i → (qr n W).2 i j = 0

theorem projW_li {l k : ℕ} (V : ℕ → E) (hlk : l ≤ k) (hli : LinearIndependent 𝕜 (fun i : Fin k => V i)) :
    LinearIndependent 𝕜 (fun i : Fin (k - l) => proj (𝕜 := 𝕜) l k V (l + i)) :=
  Matrix.linearIndependent_of_posDef_gram (gramW_posDef V hlk hli)

/-- C112 for TSQR: only the upper triangle of `R` is written, so the product is with that triangle. -/
theorem tsqr_partial {qr : ℕ → (ℕ → E) → (ℕ → E) × (ℕ → ℕ → 𝕜)} (hq : IsQRof qr) {m l k : ℕ} (hlk : l ≤ k) (hm : k ≤ m) (V : ℕ → E) (B : ℕ → 𝕜)
    (rin : Option (User 𝕜)) (hu : ∀ u, rin = some u → k ≤ u.lda) (hli : LinearIndependent 𝕜 (fun i : Fin k => V i)) (ho : Orthonormal (𝕜 := 𝕜) l V) :
    SameOutside l k V (tsqr qr m l k V B rin).V ∧ Orthonormal (𝕜 := 𝕜) k (tsqr qr m l k V B rin).V
    ∧ (∀ u, rin = some u → ∃ R, (tsqr qr m l k V B rin).R = some R
      ∧ (∀ j, l ≤ j → j < k → V j = ∑ i ∈ Finset.range (j + 1), R (i + j * u.lda) • (tsqr qr m l k V B rin).V i)
      ∧ (∀ j i, i < u.lda → ¬ (l ≤ j ∧ j < k ∧ i ≤ j) → R (i + j * u.lda) = u.a (i + j * u.lda))) := by
  have hsV := start_V (𝕜 := 𝕜) V B hlk hm
  obtain ⟨W, hW⟩ : ∃ W : ℕ → E, W = fun i => proj (𝕜 := 𝕜) l k V (l + i) := ⟨_, rfl⟩
  have hWli : LinearIndependent 𝕜 (fun i : Fin (k - l) => W i) := by rw [hW]; exact projW_li V hlk hli
  obtain ⟨f, hf⟩ : ∃ f, f = qr (k - l) W := ⟨_, rfl⟩
  have q1 := hq.orth _ _ hWli
  have q2 := hq.prod _ _ hWli
  have q3 := hq.upper (k - l) W
  rw [← hf] at q1 q2 q3
  have hVdef : (tsqr qr m l k V B rin).V = fun j => if l ≤ j ∧ j < k then f.1 (j - l) else proj (𝕜 := 𝕜) l k V j := by
    show (fun j => if l ≤ j ∧ j < k then (qr (k - l) (fun i => (start m l k V B).1 (l + i))).1 (j - l) else (start m l k V B).1 j) = _
    rw [hsV, ← hW, ← hf]
  -- the triangular factor is invertible
  have hWj : ∀ j : Fin (k - l), W j = ∑ i : Fin (k - l), toM (k - l) f.2 i j • f.1 i := by
    intro j
    rw [q2 j j.2, ← Fin.sum_univ_eq_sum_range (fun i => f.2 i j • f.1 i)]
    rfl
  have hgram : (toM (k - l) f.2).conjTranspose * toM (k - l) f.2 = toM (k - l) (gramW (𝕜 := 𝕜) l k V) := by
    ext i j
    have : toM (k - l) (gramW (𝕜 := 𝕜) l k V) i j = inner 𝕜 (W i) (W j) := by rw [hW]; rfl
    rw [this, hWj i, hWj j, sum_inner, Matrix.mul_apply]
    apply Finset.sum_congr rfl
    intro t _
    rw [inner_smul_left, inner_sum]
    congr 1
    rw [Finset.sum_eq_single t]
    · rw [inner_smul_right, q1 t t.2 t t.2, if_pos rfl, mul_one]
    · intro b _ hb
      rw [inner_smul_right, q1 t t.2 b b.2, if_neg (fun e => hb (Fin.ext e.symm)), mul_zero]
    · intro h; exact absurd (Finset.mem_univ _) h
  have hdet : IsUnit (toM (k - l) f.2) := by
    have h1 := (gramW_posDef V hlk hli).isUnit
    rw [← hgram] at h1
    exact isUnit_right h1
  obtain ⟨Ri, hRi⟩ : ∃ Ri, toM (k - l) f.2 * Ri = 1 := ⟨_, Matrix.mul_nonsing_inv _ ((Matrix.isUnit_iff_isUnit_det _).1 hdet)⟩
  obtain ⟨S, hS⟩ : ∃ S : ℕ → ℕ → 𝕜, toM (k - l) S = Ri :=
    ⟨fun i j => if h : i < k - l ∧ j < k - l then Ri ⟨i, h.1⟩ ⟨j, h.2⟩ else 0, by ext i j; simp [toM]⟩
  have hcomb : (tsqr qr m l k V B rin).V = comb l k V S := by
    rw [hVdef]
    funext j
    unfold comb
    by_cases hj : l ≤ j ∧ j < k
    · rw [if_pos hj, if_pos hj]
      have e1 : ∀ t : Fin (k - l), S t (j - l) • proj (𝕜 := 𝕜) l k V (l + t)
          = ∑ i : Fin (k - l), (toM (k - l) f.2 i t * Ri t ⟨j - l, by omega⟩) • f.1 i := by
        intro t
        have : proj (𝕜 := 𝕜) l k V (l + t) = W t := by rw [hW]
        rw [this, hWj t, Finset.smul_sum]
        apply Finset.sum_congr rfl
        intro i _
        rw [smul_smul, mul_comm, ← hS]
        rfl
      rw [Finset.sum_congr rfl (fun t _ => e1 t), Finset.sum_comm]
      have e2 : ∀ i : Fin (k - l), ∑ t : Fin (k - l), (toM (k - l) f.2 i t * Ri t ⟨j - l, by omega⟩) • f.1 i = if i = ⟨j - l, by omega⟩ then f.1 (j - l) else 0 := by
        intro i
        rw [← Finset.sum_smul, ← Matrix.mul_apply, hRi, Matrix.one_apply]
        by_cases h : i = ⟨j - l, by omega⟩
        · rw [if_pos h, if_pos h, one_smul, h]
        · rw [if_neg h, if_neg h, zero_smul]
      rw [Finset.sum_congr rfl (fun i _ => e2 i), Finset.sum_ite_eq', if_pos (Finset.mem_univ _)]
    · rw [if_neg hj, if_neg hj]
      unfold proj
      rw [if_neg hj]
  have hRS : toM (k - l) f.2 * toM (k - l) S = 1 := by rw [hS, hRi]
  refine ⟨by rw [hcomb]; exact comb_same l k V S, by rw [hcomb]; exact comb_orth hlk ho S (inv_orth hRS hgram), ?_⟩
  intro u hru
  subst hru
  have hku := hu u rfl
  obtain ⟨R, hR⟩ : ∃ R, R = store true m l k (setBlk m l (k - l) f.2 (start m l k V B).2) u.lda u.a := ⟨_, rfl⟩
  have hRR : (tsqr qr m l k V B (some u)).R = some R := by
    show some (store true m l k (setBlk m l (k - l) (qr (k - l) (fun i => (start m l k V B).1 (l + i))).2 (start m l k V B).2) u.lda u.a) = _
    rw [hsV, ← hW, ← hf, hR]
  have hup : ∀ j, l ≤ j → j < k → ∀ i, i ≤ j → R (i + j * u.lda) = if i < l then inner 𝕜 (V i) (V j) else f.2 (i - l) (j - l) := by
    intro j h1 h2 i hij
    rw [hR, store_addr _ _ _ (by omega) hku, if_pos (by simp; omega), setBlk_addr _ _ _ (by omega) (by omega)]
    by_cases hil : i < l
    · rw [if_neg (by omega), if_pos hil]
      exact start_B V B hlk hm hil ⟨h1, h2⟩
    · rw [if_pos (by omega), if_neg hil]
  refine ⟨R, hRR, ?_, ?_⟩
  · intro j h1 h2
    rw [hcomb]
    have hfac := comb_isFactor (ld := k) V hlk S f.2 (mul_eq_one_comm.1 hRS)
      (fun a => if a % k < l then inner 𝕜 (V (a % k)) (V (a / k)) else f.2 (a % k - l) (a / k - l))
      (fun i hi j h1 h2 => by
        have ed : (i + j * k) / k = j := by rw [Nat.add_mul_div_right _ _ (by omega), Nat.div_eq_of_lt (by omega), zero_add]
        have em : (i + j * k) % k = i := by rw [Nat.add_mul_mod_self_right, Nat.mod_eq_of_lt (by omega)]
        rw [ed, em, if_pos hi])
      (fun i hi1 hi2 j h1 h2 => by
        have ed : (i + j * k) / k = j := by rw [Nat.add_mul_div_right _ _ (by omega), Nat.div_eq_of_lt (by omega), zero_add]
        have em : (i + j * k) % k = i := by rw [Nat.add_mul_mod_self_right, Nat.mod_eq_of_lt (by omega)]
        rw [ed, em, if_neg (by omega)]) j h1 h2
    conv_lhs => rw [hfac]
    dsimp only
    symm
    rw [← Finset.sum_range_add_sum_Ico _ (show j + 1 ≤ k by omega)]
    have hz : ∑ i ∈ Finset.Ico (j + 1) k, (if (i + j * k) % k < l then inner 𝕜 (V ((i + j * k) % k)) (V ((i + j * k) / k)) else f.2 ((i + j * k) % k - l) ((i + j * k) / k - l)) • comb l k V S i = 0 := by
      apply Finset.sum_eq_zero
      intro i hi
      rw [Finset.mem_Ico] at hi
      have ed : (i + j * k) / k = j := by rw [Nat.add_mul_div_right _ _ (by omega), Nat.div_eq_of_lt (by omega), zero_add]
      have em : (i + j * k) % k = i := by rw [Nat.add_mul_mod_self_right, Nat.mod_eq_of_lt (by omega)]
      rw [ed, em, if_neg (by omega), q3 _ _ (by omega), zero_smul]
    rw [hz, add_zero]
    apply Finset.sum_congr rfl
    intro i hi
    rw [Finset.mem_range] at hi
    have ed : (i + j * k) / k = j := by rw [Nat.add_mul_div_right _ _ (by omega), Nat.div_eq_of_lt (by omega), zero_add]
    have em : (i + j * k) % k = i := by rw [Nat.add_mul_mod_self_right, Nat.mod_eq_of_lt (by omega)]
    show _ = (if (i + j * k) % k < l then inner 𝕜 (V ((i + j * k) % k)) (V ((i + j * k) / k)) else f.2 ((i + j * k) % k - l) ((i + j * k) / k - l)) • _
    rw [ed, em, hup j h1 h2 i (by omega)]
  · intro j i hi hn
    rw [hR, store_addr _ _ _ hi hku, if_neg (by simp; omega)]

/-- The entries of `R` below the diagonal keep their old values: `R` is not upper triangular, and the product with all its rows is not the old basis. -/
theorem tsqr_stale {qr : ℕ → (ℕ → ℝ) → (ℕ → ℝ) × (ℕ → ℕ → ℝ)} (m l k : ℕ) (hlk : l + 2 ≤ k) (hm : k ≤ m) (V : ℕ → ℝ) (B : ℕ → ℝ) :
    ∃ R, (tsqr (𝕜 := ℝ) qr m l k V B (some ⟨k, k, fun _ => 7⟩)).R = some R ∧ ¬ IsUpper l k k R := by
  refine ⟨_, rfl, fun h => ?_⟩
  have h1 := h l le_rfl (by omega) (l + 1) (by omega) (by omega)
  dsimp only at h1
  rw [store_addr _ _ _ (by omega) le_rfl, if_neg (by simp)] at h1
  norm_num at h1

/-! ### TSQRCHOL -/

/-- What C114 gives: an upper triangular matrix whose Gram matrix is that of the columns. -/
structure IsROf (onlyR : ℕ → (ℕ → E) → ℕ → ℕ → 𝕜) : Prop where
  gram : ∀ n W (i j : Fin n), ((toM n (onlyR n W)).conjTranspose * toM n (onlyR n W)) i j = inner 𝕜 (W i) (W j)
  upper : ∀ n W i j, j < i → onlyR n W i j = 0

/-- C112 for TSQRCHOL. The leading dimension of `R` must be its number of rows. -/
theorem tsqrchol_partial {K : Kern 𝕜} (hK : IsKern K) {onlyR : ℕ → (ℕ → E) → ℕ → ℕ → 𝕜} (hr : IsROf onlyR) {m l k : ℕ} (hlk : l ≤ k) (hm : k ≤ m) (V : ℕ → E)
    (B : ℕ → 𝕜) (rin : Option (User 𝕜)) (hu : ∀ u, rin = some u → u.lda = u.rows ∧ k ≤ u.rows) (hli : LinearIndependent 𝕜 (fun i : Fin k => V i))
    (ho : Orthonormal (𝕜 := 𝕜) l V) :
    SameOutside l k V (tsqrchol K onlyR m l k V B rin).V ∧ Orthonormal (𝕜 := 𝕜) k (tsqrchol K onlyR m l k V B rin).V
    ∧ (∀ u, rin = some u → ∃ R, (tsqrchol K onlyR m l k V B rin).R = some R ∧ GoodR l k V (tsqrchol K onlyR m l k V B rin).V u R) := by
  have hsV := start_V (𝕜 := 𝕜) V B hlk hm
  obtain ⟨C, hC⟩ : ∃ C, C = onlyR (k - l) (fun i => (start m l k V B).1 (l + i)) := ⟨_, rfl⟩
  have hgram : (toM (k - l) C).conjTranspose * toM (k - l) C = toM (k - l) (gramW (𝕜 := 𝕜) l k V) := by
    ext i j
    rw [hC, hr.gram, hsV]
    rfl
  have hCu : ∀ i j, j < i → C i j = 0 := by intro i j h; rw [hC]; exact hr.upper _ _ i j h
  have hCM : up (k - l) C = toM (k - l) C := by
    ext i j
    unfold up
    by_cases h : i.1 ≤ j.1
    · rw [if_pos h]; rfl
    · rw [if_neg h]; exact (hCu i j (by omega)).symm
  have hdet : IsUnit (toM (k - l) C) := by
    have h1 := (gramW_posDef V hlk hli).isUnit
    rw [← hgram] at h1
    exact isUnit_right h1
  have hdiag : ∀ i < k - l, C i i ≠ 0 := by
    intro i hi h0
    have h2 : (toM (k - l) C).det = ∏ i : Fin (k - l), C i i := Matrix.det_of_upperTriangular (fun i j hij => hCu i j hij)
    have h3 := (Matrix.isUnit_iff_isUnit_det _).1 hdet
    rw [h2, Finset.prod_eq_zero (Finset.mem_univ (⟨i, hi⟩ : Fin (k - l))) h0] at h3
    exact not_isUnit_zero h3
  obtain ⟨R, hR⟩ : ∃ R, R = setBlk m l (k - l) C (start m l k V B).2 := ⟨_, rfl⟩
  have hRb : ∀ i < k - l, ∀ j < k - l, blk R m l i j = C i j := fun i hi j hj => by rw [hR, blk_setBlk _ _ (by omega) hi hj]
  cases rin with
  | none =>
    have hV : (tsqrchol K onlyR m l k V B none).V = comb l k V (blk (setUp m l (k - l) (K.trtri (k - l) (blk R m l)) R) m l) := by
      rw [← multIn_comb V B _ hlk hm, hR, hC]
      rfl
    have hinv : toM (k - l) C * toM (k - l) (blk (setUp m l (k - l) (K.trtri (k - l) (blk R m l)) R) m l) = 1 := by
      have e : toM (k - l) (blk (setUp m l (k - l) (K.trtri (k - l) (blk R m l)) R) m l) = up (k - l) (K.trtri (k - l) (blk R m l)) := by
        apply up_eq_toM
        intro i hi j hj
        rw [blk_setUp _ _ (by omega) hi hj]
        by_cases hij : i ≤ j
        · rw [if_pos hij, if_pos hij]
        · rw [if_neg hij, if_neg hij, hRb i hi j hj]; exact hCu i j (by omega)
      rw [e, ← hCM, show up (k - l) C = up (k - l) (blk R m l) from up_congr (fun i hi j hj _ => (hRb i hi j hj).symm)]
      exact hK.trtri _ _ (fun i hi => by rw [hRb i hi i hi]; exact hdiag i hi)
    refine ⟨by rw [hV]; exact comb_same l k V _, by rw [hV]; exact comb_orth hlk ho _ (inv_orth hinv hgram), fun u h => absurd h (by simp)⟩
  | some u =>
    obtain ⟨hlda, hku⟩ := hu u rfl
    obtain ⟨S, hS⟩ : ∃ S, S = invInto K m u.rows l k R u.a := ⟨_, rfl⟩
    have hV : (tsqrchol K onlyR m l k V B (some u)).V = comb l k V (blk S u.rows l) := by
      have : (tsqrchol K onlyR m l k V B (some u)).V = multIn l k u.lda S (start m l k V B).1 := by rw [hS, hR, hC]; rfl
      rw [this, multIn_comb V B _ hlk hm, hlda]
    obtain ⟨A3, hA3⟩ : ∃ A3, A3 = blk (setBlk u.rows l (k - l) (blk R m l) (cpy u.a (l * u.rows) (fun _ => 0) 0 ((k - l) * k))) u.rows l := ⟨_, rfl⟩
    have hA3' : ∀ i < k - l, ∀ j < k - l, A3 i j = C i j := fun i hi j hj => by rw [hA3, blk_setBlk _ _ (by omega) hi hj, hRb i hi j hj]
    have hSb : ∀ i < k - l, ∀ j < k - l, blk S u.rows l i j = if i ≤ j then K.trtri (k - l) A3 i j else 0 := by
      intro i hi j hj
      rw [hS, invInto_blk R u.a hlk hku hi hj, ← hA3]
      by_cases hij : i ≤ j
      · rw [if_pos hij, if_pos hij]
      · rw [if_neg hij, if_neg hij, hRb i hi j hj]; exact hCu i j (by omega)
    have hinv : toM (k - l) C * toM (k - l) (blk S u.rows l) = 1 := by
      rw [up_eq_toM hSb, ← hCM, show up (k - l) C = up (k - l) A3 from up_congr (fun i hi j hj _ => (hA3' i hi j hj).symm)]
      exact hK.trtri _ _ (fun i hi => by rw [hA3' i hi i hi]; exact hdiag i hi)
    refine ⟨by rw [hV]; exact comb_same l k V _, by rw [hV]; exact comb_orth hlk ho _ (inv_orth hinv hgram), ?_⟩
    intro u' hu'
    obtain rfl := Option.some.inj hu'
    have hRR : (tsqrchol K onlyR m l k V B (some u)).R = some (store true m l k R u.lda S) := by rw [hS, hR, hC]; rfl
    have hlow : ∀ j, l ≤ j → j < k → ∀ i, j < i → i < k → store true m l k R u.lda S (i + j * u.lda) = 0 := by
      intro j h1 h2 i hji hik
      rw [store_addr _ _ _ (by omega) (by omega), if_neg (by simp; omega), hlda]
      have := hSb (i - l) (by omega) (j - l) (by omega)
      rw [if_neg (by omega)] at this
      unfold blk at this
      rw [show l + (i - l) = i by omega, show l + (j - l) = j by omega] at this
      exact this
    have hup : ∀ j, l ≤ j → j < k → ∀ i, i ≤ j → store true m l k R u.lda S (i + j * u.lda) = if i < l then inner 𝕜 (V i) (V j) else C (i - l) (j - l) := by
      intro j h1 h2 i hij
      rw [store_addr _ _ _ (by omega) (by omega), if_pos (by simp; omega), hR, setBlk_addr _ _ _ (by omega) (by omega)]
      by_cases hil : i < l
      · rw [if_neg (by omega), if_pos hil]
        exact start_B V B hlk hm hil ⟨h1, h2⟩
      · rw [if_pos (by omega), if_neg hil]
    refine ⟨_, hRR, ?_, hlow, ?_⟩
    · rw [hV]
      apply comb_isFactor V hlk (blk S u.rows l) C (mul_eq_one_comm.1 hinv)
      · intro i hi j h1 h2
        rw [hup j h1 h2 i (by omega), if_pos hi]
      · intro i hi1 hi2 j h1 h2
        by_cases hij : i ≤ j
        · rw [hup j h1 h2 i hij, if_neg (by omega)]
        · rw [hlow j h1 h2 i (by omega) hi2]; exact (hCu _ _ (by omega)).symm
    · intro i hi j hj
      rw [store_addr _ _ _ hi (by omega), if_neg (fun h => hj h.1), hlda, hS]
      exact invInto_outside R u.a hlk hku (by omega) hj

end Verif.BVB.Block
