import Verif.BVB.BlockLem
/-!
C112: block orthogonalization.
-/
set_option linter.all false
namespace Verif.BVB.Block
open scoped ComplexOrder
variable {𝕜 : Type} [RCLike 𝕜] {E : Type} [NormedAddCommGroup E] [InnerProductSpace 𝕜 E]

/-! ### Cholesky -/

/-- What `cholFactor` leaves: a factor with nonzero diagonal in the upper triangle of the block. -/
theorem cholFactor_some {K : Kern 𝕜} (hK : IsKern K) {eps : ℝ} {ld l k : ℕ} (hlk : l ≤ k) (hk : k ≤ ld) {saved : ℕ → ℕ → 𝕜} {B B1 : ℕ → 𝕜}
    (hh : (toM (k - l) (blk B ld l)).IsHermitian) (hs : ∀ i < k - l, ∀ j < k - l, saved i j = blk B ld l i j) (h : cholFactor K eps ld l k saved B = some B1) :
    ∃ C : ℕ → ℕ → 𝕜, (∀ i < k - l, C i i ≠ 0) ∧ (∀ i < k - l, ∀ j < k - l, i ≤ j → blk B1 ld l i j = C i j)
      ∧ (∀ i < ld, ∀ j, ¬ ((l ≤ i ∧ i < k) ∧ (l ≤ j ∧ j < k)) → B1 (i + j * ld) = B (i + j * ld))
      ∧ ((toM (k - l) (blk B ld l)).PosDef → (up (k - l) C).conjTranspose * up (k - l) C = toM (k - l) (blk B ld l)) := by
  unfold cholFactor at h
  cases hp : K.potrf (k - l) (blk B ld l) with
  | some C =>
    rw [hp] at h
    dsimp only at h
    obtain rfl := Option.some.inj h
    obtain ⟨h1, h2⟩ := hK.potrf _ _ _ hh hp
    refine ⟨C, h1, fun i hi j hj hij => by rw [blk_setUp _ _ (by omega) hi hj, if_pos hij], fun i hi j hn => ?_, fun _ => h2⟩
    rw [setUp_addr _ _ _ hi (by omega), if_neg (by omega)]
  | none =>
    rw [hp] at h
    dsimp only at h
    obtain ⟨B', hB'⟩ : ∃ B', B' = setBlk ld l (k - l) (fun i j => if i = j then saved i j + ((50 * eps : ℝ) : 𝕜) else saved i j) B := ⟨_, rfl⟩
    rw [← hB'] at h
    cases hp2 : K.potrf (k - l) (blk B' ld l) with
    | none => rw [hp2] at h; exact absurd h (by simp)
    | some C =>
      rw [hp2] at h
      dsimp only at h
      obtain rfl := Option.some.inj h
      have hherm : (toM (k - l) (blk B' ld l)).IsHermitian := by
        ext i j
        show star (blk B' ld l j i) = blk B' ld l i j
        rw [hB', blk_setBlk _ _ (by omega) j.2 i.2, blk_setBlk _ _ (by omega) i.2 j.2]
        have hij : star (saved j i) = saved i j := by
          rw [hs _ j.2 _ i.2, hs _ i.2 _ j.2]
          exact congrFun (congrFun hh i) j
        by_cases he : i.1 = j.1
        · rw [if_pos he.symm, if_pos he, star_add, hij]
          congr 1
          exact RCLike.conj_ofReal _
        · rw [if_neg (fun e => he e.symm), if_neg he, hij]
      obtain ⟨h1, h2⟩ := hK.potrf _ _ _ hherm hp2
      refine ⟨C, h1, fun i hi j hj hij => by rw [blk_setUp _ _ (by omega) hi hj, if_pos hij], fun i hi j hn => ?_, fun hpd => absurd hp (hK.potrf_some _ _ hpd)⟩
      rw [setUp_addr _ _ _ hi (by omega), if_neg (by omega), hB', setBlk_addr _ _ _ hi (by omega), if_neg (by omega)]

theorem cholFactor_ne {K : Kern 𝕜} (hK : IsKern K) {eps : ℝ} {ld l k : ℕ} {saved : ℕ → ℕ → 𝕜} {B : ℕ → 𝕜}
    (h : (toM (k - l) (blk B ld l)).PosDef) : ∃ B1, cholFactor K eps ld l k saved B = some B1 := by
  unfold cholFactor
  cases hp : K.potrf (k - l) (blk B ld l) with
  | some C => exact ⟨_, rfl⟩
  | none => exact absurd hp (hK.potrf_some _ _ h)

/-- `S = inv(R)` with `R^H R = G` gives orthonormal columns. -/
theorem inv_orth {n : ℕ} {S R G : Matrix (Fin n) (Fin n) 𝕜} (hRS : R * S = 1) (hG : R.conjTranspose * R = G) : S.conjTranspose * G * S = 1 := by
  rw [← hG, Matrix.mul_assoc, Matrix.mul_assoc, hRS, Matrix.mul_one, ← Matrix.conjTranspose_mul, hRS, Matrix.conjTranspose_one]

/-- What the user gets in `R`. -/
structure GoodR (l k : ℕ) (V V' : ℕ → E) (u : User 𝕜) (R : ℕ → 𝕜) : Prop where
  /-- the old columns are the new columns times the columns of `R` -/
  factor : IsFactor l k u.lda V V' R
  /-- zeros below the diagonal -/
  upper : IsUpper l k u.lda R
  /-- the other columns of `R` are not changed -/
  other : ∀ i < u.lda, ∀ j, ¬ (l ≤ j ∧ j < k) → R (i + j * u.lda) = u.a (i + j * u.lda)

/-- C112 for CHOL. (i) If no error is reported, the old columns are the new columns times `R`, also when the Gram matrix had to be perturbed. (ii) With linearly independent
columns and orthonormal leading columns no error is reported and all columns are orthonormal. The leading dimension of `R` must be its number of rows. -/
theorem chol_partial {K : Kern 𝕜} (hK : IsKern K) (eps : ℝ) {m l k : ℕ} (hlk : l ≤ k) (hm : k ≤ m) (V : ℕ → E) (B : ℕ → 𝕜) (rin : Option (User 𝕜))
    (hu : ∀ u, rin = some u → u.lda = u.rows ∧ k ≤ u.rows) :
    (∀ o, chol K eps m l k V B rin = some o → SameOutside l k V o.V ∧ (rin = none → o.R = none) ∧ (∀ u, rin = some u → ∃ R, o.R = some R ∧ GoodR l k V o.V u R))
    ∧ (LinearIndependent 𝕜 (fun i : Fin k => V i) → Orthonormal (𝕜 := 𝕜) l V → ∃ o, chol K eps m l k V B rin = some o ∧ Orthonormal (𝕜 := 𝕜) k o.V) := by
  obtain ⟨B1, hB1⟩ : ∃ B1, B1 = dotInto (start m l k V B).1 l k l k m (start m l k V B).2 := ⟨_, rfl⟩
  have hG : ∀ i < k - l, ∀ j < k - l, blk B1 m l i j = gramW (𝕜 := 𝕜) l k V i j := fun i hi j hj => by rw [hB1]; exact dot_blk V B hlk hm hi hj
  have hGM : toM (k - l) (blk B1 m l) = toM (k - l) (gramW (𝕜 := 𝕜) l k V) := toM_congr hG
  have hherm : (toM (k - l) (blk B1 m l)).IsHermitian := by rw [hGM]; exact gramW_herm l k V _
  have htop : ∀ i < l, ∀ j, l ≤ j → j < k → B1 (i + j * m) = inner 𝕜 (V i) (V j) := fun i hi j h1 h2 => by rw [hB1]; exact dot_top V B hlk hm hi ⟨h1, h2⟩
  cases rin with
  | none =>
    have hdef : chol K eps m l k V B none = (match cholInv0 K eps m l k B1 with | none => none | some S => some ⟨multIn l k m S (start m l k V B).1, none⟩) := by
      rw [hB1]; rfl
    have key : ∀ S, cholInv0 K eps m l k B1 = some S → ∃ C : ℕ → ℕ → 𝕜, up (k - l) C * toM (k - l) (blk S m l) = 1
        ∧ ((toM (k - l) (blk B1 m l)).PosDef → (up (k - l) C).conjTranspose * up (k - l) C = toM (k - l) (blk B1 m l)) := by
      intro S hS
      unfold cholInv0 at hS
      cases hc : cholFactor K eps m l k (blk B1 m l) B1 with
      | none => rw [hc] at hS; exact absurd hS (by simp)
      | some B2 =>
        rw [hc] at hS
        dsimp only at hS
        obtain rfl := Option.some.inj hS
        obtain ⟨C, c1, c2, c3, c4⟩ := cholFactor_some hK hlk hm hherm (fun _ _ _ _ => rfl) hc
        refine ⟨C, ?_, c4⟩
        have e : toM (k - l) (blk (zeroBelow m l k (setUp m l (k - l) (K.trtri (k - l) (blk B2 m l)) B2)) m l) = up (k - l) (K.trtri (k - l) (blk B2 m l)) := by
          apply up_eq_toM
          intro i hi j hj
          unfold blk
          rw [zeroBelow_addr _ _ (by omega) hm]
          by_cases hij : i ≤ j
          · rw [if_neg (by omega), if_pos hij]
            have := blk_setUp (ld := m) (l := l) (n := k - l) (K.trtri (k - l) (blk B2 m l)) B2 (by omega) hi hj
            rw [if_pos hij] at this
            exact this
          · rw [if_pos (by omega), if_neg hij]
        rw [e, show up (k - l) C = up (k - l) (blk B2 m l) from up_congr (fun i hi j hj hij => (c2 i hi j hj hij).symm)]
        exact hK.trtri _ _ (fun i hi => by rw [c2 i hi i hi le_rfl]; exact c1 i hi)
    refine ⟨?_, ?_⟩
    · intro o ho
      rw [hdef] at ho
      cases hc : cholInv0 K eps m l k B1 with
      | none => rw [hc] at ho; exact absurd ho (by simp)
      | some S =>
        rw [hc] at ho
        obtain rfl := Option.some.inj ho
        refine ⟨?_, fun _ => rfl, fun u hu => absurd hu (by simp)⟩
        show SameOutside l k V (multIn l k m S (start m l k V B).1)
        rw [multIn_comb V B S hlk hm]
        exact comb_same l k V _
    · intro hli ho
      have hpd : (toM (k - l) (blk B1 m l)).PosDef := by rw [hGM]; exact gramW_posDef V hlk hli
      obtain ⟨B2, hB2⟩ := cholFactor_ne hK (eps := eps) (saved := blk B1 m l) hpd
      obtain ⟨S, hS⟩ : ∃ S, cholInv0 K eps m l k B1 = some S := by
        unfold cholInv0
        rw [hB2]
        exact ⟨_, rfl⟩
      obtain ⟨C, k1, k2⟩ := key S hS
      refine ⟨⟨multIn l k m S (start m l k V B).1, none⟩, by rw [hdef, hS], ?_⟩
      show Orthonormal (𝕜 := 𝕜) k (multIn l k m S (start m l k V B).1)
      rw [multIn_comb V B S hlk hm]
      exact comb_orth hlk ho _ (inv_orth k1 (by rw [k2 hpd, hGM]))
  | some u =>
    obtain ⟨hlda, hku⟩ := hu u rfl
    have hdef : chol K eps m l k V B (some u) = (match cholInv1 K eps m u.rows l k B1 u.a with
        | none => none | some (R, S) => some ⟨multIn l k u.lda S (start m l k V B).1, some (store true m l k R u.lda S)⟩) := by
      rw [hB1]; rfl
    obtain ⟨U1, hU1⟩ : ∃ U1, U1 = setBlk u.rows l (k - l) (blk B1 m l) u.a := ⟨_, rfl⟩
    have hsaved : ∀ i < k - l, ∀ j < k - l, blk U1 u.rows l i j = blk B1 m l i j := fun i hi j hj => by rw [hU1, blk_setBlk _ _ (by omega) hi hj]
    have key : ∀ R S, cholInv1 K eps m u.rows l k B1 u.a = some (R, S) → ∃ C : ℕ → ℕ → 𝕜, up (k - l) C * toM (k - l) (blk S u.rows l) = 1
        ∧ ((toM (k - l) (blk B1 m l)).PosDef → (up (k - l) C).conjTranspose * up (k - l) C = toM (k - l) (blk B1 m l))
        ∧ (∀ i < l, ∀ j, l ≤ j → j < k → R (i + j * m) = inner 𝕜 (V i) (V j))
        ∧ (∀ i, l ≤ i → i < k → ∀ j, l ≤ j → j < k → i ≤ j → R (i + j * m) = C (i - l) (j - l))
        ∧ (∀ i, i < k → ∀ j, l ≤ j → j < k → j < i → S (i + j * u.rows) = 0)
        ∧ (∀ i < u.rows, ∀ j, ¬ (l ≤ j ∧ j < k) → S (i + j * u.rows) = u.a (i + j * u.rows)) := by
      intro R S hRS
      unfold cholInv1 at hRS
      dsimp only at hRS
      rw [← hU1] at hRS
      cases hc : cholFactor K eps m l k (blk U1 u.rows l) B1 with
      | none => rw [hc] at hRS; exact absurd hRS (by simp)
      | some B2 =>
        rw [hc] at hRS
        dsimp only at hRS
        have := Option.some.inj hRS
        rw [Prod.mk.injEq] at this
        obtain ⟨rfl, rfl⟩ := this
        obtain ⟨C, c1, c2, c3, c4⟩ := cholFactor_some hK hlk hm hherm hsaved hc
        refine ⟨C, ?_, c4, ?_, ?_, ?_, ?_⟩
        · obtain ⟨A3, hA3⟩ : ∃ A3, A3 = blk (setBlk u.rows l (k - l) (blk B2 m l) (cpy U1 (l * u.rows) (fun _ => 0) 0 ((k - l) * k))) u.rows l := ⟨_, rfl⟩
          have hA3' : ∀ i < k - l, ∀ j < k - l, A3 i j = blk B2 m l i j := fun i hi j hj => by rw [hA3, blk_setBlk _ _ (by omega) hi hj]
          have e : toM (k - l) (blk (zeroBelow u.rows l k (invInto K m u.rows l k B2 U1)) u.rows l) = up (k - l) (K.trtri (k - l) A3) := by
            apply up_eq_toM
            intro i hi j hj
            unfold blk
            rw [zeroBelow_addr _ _ (by omega) hku]
            by_cases hij : i ≤ j
            · rw [if_neg (by omega), if_pos hij]
              have := invInto_blk (K := K) (ld := m) B2 U1 hlk hku hi hj
              rw [if_pos hij, ← hA3] at this
              exact this
            · rw [if_pos (by omega), if_neg hij]
          rw [e, show up (k - l) C = up (k - l) A3 from up_congr (fun i hi j hj hij => by rw [hA3' i hi j hj, c2 i hi j hj hij])]
          exact hK.trtri _ _ (fun i hi => by rw [hA3' i hi i hi, c2 i hi i hi le_rfl]; exact c1 i hi)
        · intro i hi j h1 h2
          rw [zeroBelow_addr _ _ (by omega) hm, if_neg (by omega), c3 i (by omega) j (by omega)]
          exact htop i hi j h1 h2
        · intro i hi1 hi2 j h1 h2 hij
          rw [zeroBelow_addr _ _ (by omega) hm, if_neg (by omega), ← c2 (i - l) (by omega) (j - l) (by omega) (by omega)]
          unfold blk
          rw [show l + (i - l) = i by omega, show l + (j - l) = j by omega]
        · intro i hi j h1 h2 hij
          rw [zeroBelow_addr _ _ (by omega) hku, if_pos (by omega)]
        · intro i hi j hj
          rw [zeroBelow_addr _ _ hi hku, if_neg (by omega), invInto_outside _ _ hlk hku hi hj, hU1, setBlk_addr _ _ _ hi (by omega), if_neg (by omega)]
    refine ⟨?_, ?_⟩
    · intro o ho
      rw [hdef] at ho
      cases hc : cholInv1 K eps m u.rows l k B1 u.a with
      | none => rw [hc] at ho; exact absurd ho (by simp)
      | some RS =>
        obtain ⟨R, S⟩ := RS
        rw [hc] at ho
        obtain rfl := Option.some.inj ho
        obtain ⟨C, k1, k2, k3, k4, k5, k6⟩ := key R S hc
        have hV : multIn l k u.lda S (start m l k V B).1 = comb l k V (blk S u.rows l) := by rw [multIn_comb V B S hlk hm, hlda]
        have hlow : ∀ j, l ≤ j → j < k → ∀ i, j < i → i < k → store true m l k R u.lda S (i + j * u.lda) = 0 := by
          intro j h1 h2 i hji hik
          rw [store_addr _ _ _ (by omega) (by omega), if_neg (by simp; omega), hlda]
          exact k5 i hik j h1 h2 hji
        have hup : ∀ j, l ≤ j → j < k → ∀ i, i ≤ j → store true m l k R u.lda S (i + j * u.lda) = R (i + j * m) := by
          intro j h1 h2 i hij
          rw [store_addr _ _ _ (by omega) (by omega), if_pos (by simp; omega)]
        refine ⟨?_, fun h => absurd h (by simp), ?_⟩
        · show SameOutside l k V (multIn l k u.lda S (start m l k V B).1)
          rw [hV]
          exact comb_same l k V _
        · intro u' hu'
          obtain rfl := Option.some.inj hu'
          refine ⟨_, rfl, ?_, hlow, ?_⟩
          · show IsFactor l k u.lda V (multIn l k u.lda S (start m l k V B).1) _
            rw [hV]
            apply comb_isFactor V hlk (blk S u.rows l) (fun i j => if i ≤ j then C i j else 0)
            · exact mul_eq_one_comm.1 k1
            · intro i hi j h1 h2
              rw [hup j h1 h2 i (by omega)]
              exact k3 i hi j h1 h2
            · intro i hi1 hi2 j h1 h2
              by_cases hij : i ≤ j
              · rw [hup j h1 h2 i hij, k4 i hi1 hi2 j h1 h2 hij, if_pos (by omega)]
              · rw [hlow j h1 h2 i (by omega) hi2, if_neg (by omega)]
          · intro i hi j hj
            rw [store_addr _ _ _ hi (by omega), if_neg (fun h => hj h.1), hlda]
            exact k6 i (by omega) j hj
    · intro hli ho
      have hpd : (toM (k - l) (blk B1 m l)).PosDef := by rw [hGM]; exact gramW_posDef V hlk hli
      obtain ⟨B2, hB2⟩ := cholFactor_ne hK (eps := eps) (saved := blk U1 u.rows l) hpd
      obtain ⟨⟨R, S⟩, hRS⟩ : ∃ RS, cholInv1 K eps m u.rows l k B1 u.a = some RS := by
        unfold cholInv1
        dsimp only
        rw [← hU1, hB2]
        exact ⟨_, rfl⟩
      obtain ⟨C, k1, k2, _⟩ := key R S hRS
      refine ⟨⟨multIn l k u.lda S (start m l k V B).1, some (store true m l k R u.lda S)⟩, by rw [hdef, hRS], ?_⟩
      show Orthonormal (𝕜 := 𝕜) k (multIn l k u.lda S (start m l k V B).1)
      rw [multIn_comb V B S hlk hm, hlda]
      exact comb_orth hlk ho _ (inv_orth k1 (by rw [k2 hpd, hGM]))

end Verif.BVB.Block
