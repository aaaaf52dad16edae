import Verif.BVB.BlockThm2
/-!
C112 for SVQB, the choice of the method, and what is false of the code.
-/
set_option linter.all false
namespace Verif.BVB.Block
open scoped ComplexOrder
variable {𝕜 : Type} [RCLike 𝕜] {E : Type} [NormedAddCommGroup E] [InnerProductSpace 𝕜 E]

/-- The scaling of SVQB. -/
noncomputable def scl (B : ℕ → 𝕜) (ld l : ℕ) (i : ℕ) : ℝ := 1 / Real.sqrt (RCLike.re (blk B ld l i i))

/-- Entries of the two matrices of SVQB. -/
theorem svqb_entries (K : Kern 𝕜) {ld lds l k : ℕ} (hlk : l ≤ k) (hk : k ≤ ld) (hks : k ≤ lds) (B U : ℕ → 𝕜) :
    ∃ A : ℕ → ℕ → 𝕜, (∀ i < k - l, ∀ j < k - l, A i j = blk B ld l i j * (scl B ld l i : 𝕜) * (scl B ld l j : 𝕜))
      ∧ (∀ i < k - l, ∀ j < k - l, blk (svqbArr K ld lds l k B U).2 lds l i j
          = (K.syev (k - l) A).1 i j * (scl B ld l i : 𝕜) / ((Real.sqrt ((K.syev (k - l) A).2 j) : ℝ) : 𝕜))
      ∧ (∀ i < k - l, ∀ j < k - l, blk (svqbArr K ld lds l k B U).1 ld l i j
          = (K.syev (k - l) A).1 j i * ((Real.sqrt ((K.syev (k - l) A).2 i) : ℝ) : 𝕜) / (scl B ld l j : 𝕜))
      ∧ (∀ i < ld, ∀ j, ¬ ((l ≤ i ∧ i < k) ∧ (l ≤ j ∧ j < k)) → (svqbArr K ld lds l k B U).1 (i + j * ld) = B (i + j * ld))
      ∧ (∀ i < lds, ∀ j, ¬ ((l ≤ i ∧ i < k) ∧ (l ≤ j ∧ j < k)) → (svqbArr K ld lds l k B U).2 (i + j * lds) = U (i + j * lds)) := by
  obtain ⟨S1, hS1⟩ : ∃ S1, S1 = setBlk lds l (k - l) (fun i j => blk B ld l i j * (scl B ld l i : 𝕜)) U := ⟨_, rfl⟩
  obtain ⟨S2, hS2⟩ : ∃ S2, S2 = setBlk lds l (k - l) (fun i j => blk S1 lds l i j * (scl B ld l j : 𝕜)) S1 := ⟨_, rfl⟩
  obtain ⟨f, hf⟩ : ∃ f, f = K.syev (k - l) (blk S2 lds l) := ⟨_, rfl⟩
  obtain ⟨S3, hS3⟩ : ∃ S3, S3 = setBlk lds l (k - l) f.1 S2 := ⟨_, rfl⟩
  obtain ⟨R1, hR1⟩ : ∃ R1, R1 = setBlk ld l (k - l) (fun i j => blk S3 lds l j i) B := ⟨_, rfl⟩
  obtain ⟨S4, hS4⟩ : ∃ S4, S4 = setBlk lds l (k - l) (fun i j => blk S3 lds l i j * (scl B ld l i : 𝕜)) S3 := ⟨_, rfl⟩
  obtain ⟨R2, hR2⟩ : ∃ R2, R2 = setBlk ld l (k - l) (fun i j => blk R1 ld l i j * ((Real.sqrt (f.2 i) : ℝ) : 𝕜)) R1 := ⟨_, rfl⟩
  have hdef : svqbArr K ld lds l k B U = (setBlk ld l (k - l) (fun i j => blk R2 ld l i j / (scl B ld l j : 𝕜)) R2,
      setBlk lds l (k - l) (fun i j => blk S4 lds l i j / ((Real.sqrt (f.2 j) : ℝ) : 𝕜)) S4) := by
    rw [hR2, hS4, hR1, hS3, hf, hS2, hS1]
    rfl
  rw [hdef]
  refine ⟨blk S2 lds l, ?_, ?_, ?_, ?_, ?_⟩
  · intro i hi j hj
    rw [hS2, blk_setBlk _ _ (by omega) hi hj, hS1, blk_setBlk _ _ (by omega) hi hj]
  · intro i hi j hj
    rw [← hf]
    show blk (setBlk lds l (k - l) _ S4) lds l i j = _
    rw [blk_setBlk _ _ (by omega) hi hj, hS4, blk_setBlk _ _ (by omega) hi hj, hS3, blk_setBlk _ _ (by omega) hi hj]
  · intro i hi j hj
    rw [← hf]
    show blk (setBlk ld l (k - l) _ R2) ld l i j = _
    rw [blk_setBlk _ _ (by omega) hi hj, hR2, blk_setBlk _ _ (by omega) hi hj, hR1, blk_setBlk _ _ (by omega) hi hj, hS3, blk_setBlk _ _ (by omega) hj hi]
  · intro i hi j hn
    show setBlk ld l (k - l) _ R2 _ = _
    rw [setBlk_addr _ _ _ hi (by omega), if_neg (by omega), hR2, setBlk_addr _ _ _ hi (by omega), if_neg (by omega), hR1, setBlk_addr _ _ _ hi (by omega),
      if_neg (by omega)]
  · intro i hi j hn
    show setBlk lds l (k - l) _ S4 _ = _
    rw [setBlk_addr _ _ _ hi (by omega), if_neg (by omega), hS4, setBlk_addr _ _ _ hi (by omega), if_neg (by omega), hS3, setBlk_addr _ _ _ hi (by omega),
      if_neg (by omega), hS2, setBlk_addr _ _ _ hi (by omega), if_neg (by omega), hS1, setBlk_addr _ _ _ hi (by omega), if_neg (by omega)]

/-- The algebra of SVQB: with `A = D G D`, `A U = U diag(e)`, `S = D U diag(e)^{-1/2}` we have `S^H G S = I`; and the matrix
`diag(e)^{1/2} U^T D^{-1}` is the inverse of `S` when the scalars are real. -/
theorem svqb_algebra {n : ℕ} {G U S R : Matrix (Fin n) (Fin n) 𝕜} {D e : Fin n → ℝ} (hG : G.PosDef) (hD : ∀ i, 0 < D i)
    (hU : U.conjTranspose * U = 1)
    (hA : (Matrix.diagonal (fun i => (D i : 𝕜)) * G * Matrix.diagonal (fun i => (D i : 𝕜))) * U = U * Matrix.diagonal (fun i => (e i : 𝕜)))
    (hS : ∀ i j, S i j = U i j * (D i : 𝕜) / ((Real.sqrt (e j) : ℝ) : 𝕜)) (hR : ∀ i j, R i j = U j i * ((Real.sqrt (e i) : ℝ) : 𝕜) / (D j : 𝕜)) :
    (∀ i, 0 < e i) ∧ S.conjTranspose * G * S = 1 ∧ ((∀ x : 𝕜, star x = x) → S * R = 1) := by
  obtain ⟨Dm, hDm⟩ : ∃ Dm : Matrix (Fin n) (Fin n) 𝕜, Dm = Matrix.diagonal (fun i => (D i : 𝕜)) := ⟨_, rfl⟩
  have hDh : Dm.conjTranspose = Dm := by
    rw [hDm, Matrix.diagonal_conjTranspose]
    congr 1
    funext i
    exact RCLike.conj_ofReal _
  have hUU : U * U.conjTranspose = 1 := mul_eq_one_comm.1 hU
  have hDne : ∀ i, (D i : 𝕜) ≠ 0 := fun i => RCLike.ofReal_ne_zero.2 (hD i).ne'
  have hQ : U.conjTranspose * (Dm.conjTranspose * G * Dm) * U = Matrix.diagonal (fun i => (e i : 𝕜)) := by
    rw [hDh, Matrix.mul_assoc, hDm, hA, ← Matrix.mul_assoc, hU, Matrix.one_mul]
  have hinjU : Function.Injective U.mulVec := by
    intro x y hxy
    have := congrArg (U.conjTranspose.mulVec) hxy
    simpa [Matrix.mulVec_mulVec, hU] using this
  have hinjD : Function.Injective Dm.mulVec := by
    intro x y hxy
    funext i
    have := congrFun hxy i
    rw [hDm, Matrix.mulVec_diagonal, Matrix.mulVec_diagonal] at this
    exact mul_left_cancel₀ (hDne i) this
  have hpd : (Matrix.diagonal (fun i => (e i : 𝕜)) : Matrix (Fin n) (Fin n) 𝕜).PosDef := by
    rw [← hQ]
    exact (hG.conjTranspose_mul_mul_same hinjD).conjTranspose_mul_mul_same hinjU
  have he : ∀ i, 0 < e i := by
    intro i
    have := hpd.diag_pos (i := i)
    rw [Matrix.diagonal_apply_eq] at this
    exact RCLike.ofReal_pos.1 this
  have hsq : ∀ i, (Real.sqrt (e i)) ≠ 0 := fun i => (Real.sqrt_pos.2 (he i)).ne'
  have hsq' : ∀ i, ((Real.sqrt (e i) : ℝ) : 𝕜) ≠ 0 := fun i => RCLike.ofReal_ne_zero.2 (hsq i)
  have hss : ∀ i, ((Real.sqrt (e i) : ℝ) : 𝕜) * ((Real.sqrt (e i) : ℝ) : 𝕜) = (e i : 𝕜) := fun i => by
    rw [← RCLike.ofReal_mul, Real.mul_self_sqrt (he i).le]
  obtain ⟨L, hL⟩ : ∃ L : Matrix (Fin n) (Fin n) 𝕜, L = Matrix.diagonal (fun i => 1 / ((Real.sqrt (e i) : ℝ) : 𝕜)) := ⟨_, rfl⟩
  have hLh : L.conjTranspose = L := by
    rw [hL, Matrix.diagonal_conjTranspose]
    congr 1
    funext i
    show star (1 / ((Real.sqrt (e i) : ℝ) : 𝕜)) = _
    rw [star_div₀, star_one]
    congr 1
    exact RCLike.conj_ofReal _
  have hSm : S = Dm * U * L := by
    ext i j
    rw [hS, hL, Matrix.mul_diagonal, hDm, Matrix.diagonal_mul]
    ring
  refine ⟨he, ?_, ?_⟩
  · calc S.conjTranspose * G * S = L.conjTranspose * (U.conjTranspose * (Dm.conjTranspose * G * Dm) * U) * L := by
          rw [hSm, Matrix.conjTranspose_mul, Matrix.conjTranspose_mul]
          simp only [Matrix.mul_assoc]
      _ = 1 := by
          rw [hQ, hLh, hL, Matrix.diagonal_mul_diagonal, Matrix.diagonal_mul_diagonal, ← Matrix.diagonal_one]
          congr 1
          funext i
          rw [← hss i]
          have := hsq' i
          field_simp
  · intro hreal
    have hRm : R = Matrix.diagonal (fun i => ((Real.sqrt (e i) : ℝ) : 𝕜)) * U.conjTranspose * Matrix.diagonal (fun i => 1 / (D i : 𝕜)) := by
      ext i j
      rw [hR, Matrix.mul_diagonal, Matrix.diagonal_mul, Matrix.conjTranspose_apply, hreal]
      ring
    have h1 : L * Matrix.diagonal (fun i => ((Real.sqrt (e i) : ℝ) : 𝕜)) = 1 := by
      rw [hL, Matrix.diagonal_mul_diagonal, ← Matrix.diagonal_one]
      congr 1
      funext i
      exact one_div_mul_cancel (hsq' i)
    have h2 : Dm * Matrix.diagonal (fun i => 1 / (D i : 𝕜)) = 1 := by
      rw [hDm, Matrix.diagonal_mul_diagonal, ← Matrix.diagonal_one]
      congr 1
      funext i
      exact mul_one_div_cancel (hDne i)
    calc S * R = Dm * (U * ((L * Matrix.diagonal (fun i => ((Real.sqrt (e i) : ℝ) : 𝕜))) * U.conjTranspose)) * Matrix.diagonal (fun i => 1 / (D i : 𝕜)) := by
          rw [hSm, hRm]
          simp only [Matrix.mul_assoc]
      _ = 1 := by rw [h1, Matrix.one_mul, hUU, Matrix.mul_one, h2]

/-- C112 for SVQB: orthonormal columns; the factor `R` is right for real scalars. -/
theorem svqb_partial {K : Kern 𝕜} (hK : IsKern K) {m l k : ℕ} (hlk : l ≤ k) (hm : k ≤ m) (V : ℕ → E) (B : ℕ → 𝕜) (rin : Option (User 𝕜))
    (hu : ∀ u, rin = some u → k ≤ u.lda) (hli : LinearIndependent 𝕜 (fun i : Fin k => V i)) (ho : Orthonormal (𝕜 := 𝕜) l V) :
    SameOutside l k V (svqb K m l k V B rin).V ∧ Orthonormal (𝕜 := 𝕜) k (svqb K m l k V B rin).V
    ∧ (∀ u, rin = some u → ∃ R, (svqb K m l k V B rin).R = some R
      ∧ ((∀ x : 𝕜, star x = x) → IsFactor l k u.lda V (svqb K m l k V B rin).V R)
      ∧ (∀ i < u.lda, ∀ j, ¬ (l ≤ j ∧ j < k) → R (i + j * u.lda) = u.a (i + j * u.lda))) := by
  obtain ⟨B1, hB1⟩ : ∃ B1, B1 = dotInto (start m l k V B).1 l k l k m (start m l k V B).2 := ⟨_, rfl⟩
  have hG : ∀ i < k - l, ∀ j < k - l, blk B1 m l i j = gramW (𝕜 := 𝕜) l k V i j := fun i hi j hj => by rw [hB1]; exact dot_blk V B hlk hm hi hj
  have hGM : toM (k - l) (blk B1 m l) = toM (k - l) (gramW (𝕜 := 𝕜) l k V) := toM_congr hG
  have hpd : (toM (k - l) (blk B1 m l)).PosDef := by rw [hGM]; exact gramW_posDef V hlk hli
  have htop : ∀ i < l, ∀ j, l ≤ j → j < k → B1 (i + j * m) = inner 𝕜 (V i) (V j) := fun i hi j h1 h2 => by rw [hB1]; exact dot_top V B hlk hm hi ⟨h1, h2⟩
  have hscl : ∀ i : Fin (k - l), 0 < scl B1 m l i := by
    intro i
    have h1 := hpd.diag_pos (i := i)
    have h2 : 0 < RCLike.re (blk B1 m l i i) := (RCLike.pos_iff.1 h1).1
    exact one_div_pos.2 (Real.sqrt_pos.2 h2)
  have key : ∀ lds (U : ℕ → 𝕜), k ≤ lds → (toM (k - l) (blk (svqbArr K m lds l k B1 U).2 lds l)).conjTranspose * toM (k - l) (gramW (𝕜 := 𝕜) l k V)
        * toM (k - l) (blk (svqbArr K m lds l k B1 U).2 lds l) = 1
      ∧ ((∀ x : 𝕜, star x = x) → toM (k - l) (blk (svqbArr K m lds l k B1 U).2 lds l) * toM (k - l) (blk (svqbArr K m lds l k B1 U).1 m l) = 1) := by
    intro lds U hlds
    obtain ⟨A, a1, a2, a3, _⟩ := svqb_entries K hlk hm hlds B1 U
    have hAm : toM (k - l) A = Matrix.diagonal (fun i : Fin (k - l) => (scl B1 m l i : 𝕜)) * toM (k - l) (blk B1 m l) * Matrix.diagonal (fun i : Fin (k - l) => (scl B1 m l i : 𝕜)) := by
      ext i j
      rw [Matrix.mul_diagonal, Matrix.diagonal_mul]
      show A i j = _
      rw [a1 i i.2 j j.2, mul_comm (blk B1 m l i j)]
      rfl
    have hAh : (toM (k - l) A).IsHermitian := by
      ext i j
      show star (A j i) = A i j
      rw [a1 j j.2 i i.2, a1 i i.2 j j.2, star_mul', star_mul']
      have e1 : star (blk B1 m l j i) = blk B1 m l i j := congrFun (congrFun hpd.1 i) j
      have e2 : ∀ t : ℕ, star (scl B1 m l t : 𝕜) = (scl B1 m l t : 𝕜) := fun t => RCLike.conj_ofReal _
      rw [e1, e2, e2]
      ring
    obtain ⟨s1, s2⟩ := hK.syev (k - l) A hAh
    rw [hAm] at s2
    obtain ⟨_, r1, r2⟩ := svqb_algebra (S := toM (k - l) (blk (svqbArr K m lds l k B1 U).2 lds l)) (R := toM (k - l) (blk (svqbArr K m lds l k B1 U).1 m l)) hpd hscl s1 s2
      (fun i j => a2 i i.2 j j.2) (fun i j => a3 i i.2 j j.2)
    rw [hGM] at r1
    exact ⟨r1, r2⟩
  cases rin with
  | none =>
    have hV : (svqb K m l k V B none).V = comb l k V (blk (svqbArr K m m l k B1 B1).2 m l) := by
      rw [← multIn_comb V B _ hlk hm, hB1]
      rfl
    obtain ⟨k1, _⟩ := key m B1 hm
    exact ⟨by rw [hV]; exact comb_same l k V _, by rw [hV]; exact comb_orth hlk ho _ k1, fun u h => absurd h (by simp)⟩
  | some u =>
    have hku := hu u rfl
    have hV : (svqb K m l k V B (some u)).V = comb l k V (blk (svqbArr K m u.lda l k B1 u.a).2 u.lda l) := by
      rw [← multIn_comb V B _ hlk hm, hB1]
      rfl
    obtain ⟨k1, k2⟩ := key u.lda u.a hku
    refine ⟨by rw [hV]; exact comb_same l k V _, by rw [hV]; exact comb_orth hlk ho _ k1, ?_⟩
    intro u' hu'
    obtain rfl := Option.some.inj hu'
    have hRR : (svqb K m l k V B (some u)).R = some (store false m l k (svqbArr K m u.lda l k B1 u.a).1 u.lda (svqbArr K m u.lda l k B1 u.a).2) := by
      rw [hB1]; rfl
    obtain ⟨A, _, _, _, a4, a5⟩ := svqb_entries K hlk hm hku B1 u.a
    refine ⟨_, hRR, fun hreal => ?_, ?_⟩
    · rw [hV]
      apply comb_isFactor V hlk _ _ (k2 hreal)
      · intro i hi j h1 h2
        rw [store_addr _ _ _ (by omega) (by omega), if_pos (by simp; omega), a4 i (by omega) j (by omega)]
        exact htop i hi j h1 h2
      · intro i hi1 hi2 j h1 h2
        rw [store_addr _ _ _ (by omega) (by omega), if_pos (by simp; omega)]
        unfold blk
        rw [show l + (i - l) = i by omega, show l + (j - l) = j by omega]
    · intro i hi j hj
      rw [store_addr _ _ _ hi (by omega), if_neg (fun h => hj h.1)]
      exact a5 i hi j (by omega)

end Verif.BVB.Block
