import Verif.BVB.Block
/-!
Lemmas for C112: entries of the arrays and the algebra of the block methods.
-/
set_option linter.all false
namespace Verif.BVB.Block
open scoped ComplexOrder
variable {𝕜 : Type} [RCLike 𝕜] {E : Type} [NormedAddCommGroup E] [InnerProductSpace 𝕜 E]

/-! ### Entries -/

theorem setBlk_addr {ld l n i : ℕ} (j : ℕ) (v : ℕ → ℕ → 𝕜) (B : ℕ → 𝕜) (hi : i < ld) (h : l + n ≤ ld) :
    setBlk ld l n v B (i + j * ld) = if (l ≤ i ∧ i < l + n) ∧ (l ≤ j ∧ j < l + n) then v (i - l) (j - l) else B (i + j * ld) := grid_addr j v B hi h

theorem blk_setBlk {ld l n i j : ℕ} (v : ℕ → ℕ → 𝕜) (B : ℕ → 𝕜) (h : l + n ≤ ld) (hi : i < n) (hj : j < n) : blk (setBlk ld l n v B) ld l i j = v i j := by
  unfold blk
  rw [setBlk_addr _ _ _ (by omega) h, if_pos (by omega)]
  congr 1 <;> omega

theorem setUp_addr {ld l n i : ℕ} (j : ℕ) (v : ℕ → ℕ → 𝕜) (B : ℕ → 𝕜) (hi : i < ld) (h : l + n ≤ ld) :
    setUp ld l n v B (i + j * ld) = if (l ≤ i ∧ i < l + n) ∧ (l ≤ j ∧ j < l + n) ∧ i ≤ j then v (i - l) (j - l) else B (i + j * ld) := by
  unfold setUp
  rw [setBlk_addr _ _ _ hi h]
  by_cases h1 : (l ≤ i ∧ i < l + n) ∧ (l ≤ j ∧ j < l + n)
  · rw [if_pos h1]
    by_cases h2 : i ≤ j
    · rw [if_pos (show i - l ≤ j - l by omega), if_pos (by tauto)]
    · rw [if_neg (show ¬ i - l ≤ j - l by omega), if_neg (by tauto)]
      unfold blk
      rw [show l + (i - l) = i by omega, show l + (j - l) = j by omega]
  · rw [if_neg h1, if_neg (by tauto)]

theorem blk_setUp {ld l n i j : ℕ} (v : ℕ → ℕ → 𝕜) (B : ℕ → 𝕜) (h : l + n ≤ ld) (hi : i < n) (hj : j < n) :
    blk (setUp ld l n v B) ld l i j = if i ≤ j then v i j else blk B ld l i j := by
  unfold setUp
  rw [blk_setBlk _ _ h hi hj]

theorem zeroBelow_addr {ld l k i : ℕ} (j : ℕ) (B : ℕ → 𝕜) (hi : i < ld) (h : k ≤ ld) :
    zeroBelow ld l k B (i + j * ld) = if (l ≤ j ∧ j < k) ∧ j < i ∧ i < k then 0 else B (i + j * ld) := by
  unfold zeroBelow
  by_cases hlk : l ≤ k - 1
  · have := forR_inv (f := fun i B => cpy B (i + 1 + i * ld) (fun _ => (0 : 𝕜)) 0 (k - i - 1)) (s := B)
      (fun N (t : ℕ → 𝕜) => ∀ i < ld, ∀ j, t (i + j * ld) = if (l ≤ j ∧ j < N) ∧ j < i ∧ i < k then 0 else B (i + j * ld)) hlk
      (fun i hi j => by rw [if_neg (by omega)])
      (fun I h1 h2 t ht i hi j => by
        rw [cpy_addr j I (I + 1) (k - I - 1) 0 t _ hi (by omega)]
        by_cases hc : j = I ∧ I + 1 ≤ i ∧ i < I + 1 + (k - I - 1)
        · rw [if_pos hc, if_pos (by omega)]
        · rw [if_neg hc, ht i hi j]
          by_cases hd : (l ≤ j ∧ j < I) ∧ j < i ∧ i < k
          · rw [if_pos hd, if_pos (by omega)]
          · rw [if_neg hd, if_neg (by omega)])
    rw [this i hi j]
    by_cases hd : (l ≤ j ∧ j < k - 1) ∧ j < i ∧ i < k
    · rw [if_pos hd, if_pos (by omega)]
    · rw [if_neg hd, if_neg (by omega)]
  · rw [forR_empty (by omega), if_neg (by omega)]

theorem store_addr {tri : Bool} {m l k lda i : ℕ} (j : ℕ) (B U : ℕ → 𝕜) (hi : i < lda) (hk : k ≤ lda) :
    store tri m l k B lda U (i + j * lda) = if (l ≤ j ∧ j < k) ∧ i < (if tri then j + 1 else k) then B (i + j * m) else U (i + j * lda) := by
  unfold store
  by_cases hlk : l ≤ k
  · have := forR_inv (f := fun j U => cpy U (0 + j * lda) B (j * m) (if tri then j + 1 else k)) (s := U)
      (fun N (t : ℕ → 𝕜) => ∀ i < lda, ∀ j, t (i + j * lda) = if (l ≤ j ∧ j < N) ∧ i < (if tri then j + 1 else k) then B (i + j * m) else U (i + j * lda)) hlk
      (fun i hi j => by rw [if_neg (by omega)])
      (fun J h1 h2 t ht i hi j => by
        rw [cpy_addr j J 0 (if tri then J + 1 else k) (J * m) t B hi (by split_ifs <;> omega)]
        by_cases hc : j = J ∧ 0 ≤ i ∧ i < 0 + (if tri then J + 1 else k)
        · obtain ⟨rfl, _, h5⟩ := hc
          rw [if_pos ⟨rfl, by omega, h5⟩, if_pos ⟨by omega, by omega⟩]
          congr 1
          omega
        · rw [if_neg hc, ht i hi j]
          by_cases hd : (l ≤ j ∧ j < J) ∧ i < (if tri then j + 1 else k)
          · rw [if_pos hd, if_pos ⟨by omega, hd.2⟩]
          · rw [if_neg hd, if_neg]
            rintro ⟨h6, h7⟩
            by_cases hjJ : j = J
            · subst hjJ; exact hc ⟨rfl, by omega, by omega⟩
            · exact hd ⟨by omega, h7⟩)
    exact this i hi j
  · rw [forR_empty (by omega), if_neg (by omega)]

theorem invInto_blk {K : Kern 𝕜} {ld lds l k : ℕ} (B U : ℕ → 𝕜) (hlk : l ≤ k) (h : k ≤ lds) {i j : ℕ} (hi : i < k - l) (hj : j < k - l) :
    blk (invInto K ld lds l k B U) lds l i j
      = if i ≤ j then K.trtri (k - l) (blk (setBlk lds l (k - l) (blk B ld l) (cpy U (l * lds) (fun _ => 0) 0 ((k - l) * k))) lds l) i j else blk B ld l i j := by
  unfold invInto
  rw [blk_setUp _ _ (by omega) hi hj, blk_setBlk _ _ (by omega) hi hj]

/-- Columns outside the range are not touched. -/
theorem invInto_outside {K : Kern 𝕜} {ld lds l k i j : ℕ} (B U : ℕ → 𝕜) (hlk : l ≤ k) (h : k ≤ lds) (hi : i < lds) (hj : ¬ (l ≤ j ∧ j < k)) :
    invInto K ld lds l k B U (i + j * lds) = U (i + j * lds) := by
  unfold invInto
  rw [setUp_addr _ _ _ hi (by omega), if_neg (by omega), setBlk_addr _ _ _ hi (by omega), if_neg (by omega)]
  unfold cpy
  rw [if_neg]
  rintro ⟨h1, h2⟩
  by_cases hjl : j < l
  · have : (j + 1) * lds ≤ l * lds := Nat.mul_le_mul_right _ hjl
    have e : (j + 1) * lds = j * lds + lds := by ring
    omega
  · have hjk : k ≤ j := by omega
    have e1 : k * lds ≤ j * lds := Nat.mul_le_mul_right _ hjk
    have e2 : (k - l) * k ≤ (k - l) * lds := Nat.mul_le_mul_left _ h
    have e3 : l * lds + (k - l) * lds = k * lds := by rw [← Nat.add_mul]; congr 1; omega
    omega

/-! ### The contracts depend on the entries only -/

theorem toM_congr {n : ℕ} {A A' : ℕ → ℕ → 𝕜} (h : ∀ i < n, ∀ j < n, A i j = A' i j) : toM n A = toM n A' := by
  ext i j; exact h i i.2 j j.2

theorem up_congr {n : ℕ} {A A' : ℕ → ℕ → 𝕜} (h : ∀ i < n, ∀ j < n, i ≤ j → A i j = A' i j) : up n A = up n A' := by
  ext i j
  unfold up
  by_cases hij : i.1 ≤ j.1
  · rw [if_pos hij, if_pos hij]; exact h i i.2 j j.2 hij
  · rw [if_neg hij, if_neg hij]

theorem up_eq_toM {n : ℕ} {A A' : ℕ → ℕ → 𝕜} (h : ∀ i < n, ∀ j < n, A i j = if i ≤ j then A' i j else 0) : toM n A = up n A' := by
  ext i j; exact h i i.2 j j.2

/-! ### The first phase -/

/-- The vectors after the projection. -/
noncomputable def proj (l k : ℕ) (V : ℕ → E) : ℕ → E :=
  fun j => if l ≤ j ∧ j < k then V j - ∑ i ∈ Finset.range l, (inner 𝕜 (V i) (V j) : 𝕜) • V i else V j

theorem start_V {m l k : ℕ} (V : ℕ → E) (B : ℕ → 𝕜) (hlk : l ≤ k) (hm : k ≤ m) : (start m l k V B).1 = proj (𝕜 := 𝕜) l k V := by
  unfold start proj
  by_cases hl : l = 0
  · subst hl
    rw [if_neg (by simp)]
    funext j
    simp
  · rw [if_pos hl]
    funext j
    show (if l ≤ j ∧ j < k then _ else _) = _
    by_cases h : l ≤ j ∧ j < k
    · rw [if_pos h, if_pos h]
      congr 1
      apply Finset.sum_congr rfl
      intro i hi
      rw [Finset.mem_range] at hi
      unfold dotInto
      rw [grid_addr j _ _ (by omega) (by omega), if_pos (by omega)]
      rw [show 0 + (i - 0) = i by omega, show l + (j - l) = j by omega]
    · rw [if_neg h, if_neg h]

theorem start_B {m l k : ℕ} (V : ℕ → E) (B : ℕ → 𝕜) (hlk : l ≤ k) (hm : k ≤ m) {i j : ℕ} (hi : i < l) (hj : l ≤ j ∧ j < k) :
    (start m l k V B).2 (i + j * m) = inner 𝕜 (V i) (V j) := by
  unfold start
  rw [if_pos (by omega)]
  show dotInto V 0 l l k m B (i + j * m) = _
  unfold dotInto
  rw [grid_addr j _ _ (by omega) (by omega), if_pos (by omega)]
  rw [show 0 + (i - 0) = i by omega, show l + (j - l) = j by omega]

/-- The Gram matrix of the projected columns. -/
noncomputable def gramW (l k : ℕ) (V : ℕ → E) : ℕ → ℕ → 𝕜 := fun i j => inner 𝕜 (proj (𝕜 := 𝕜) l k V (l + i)) (proj (𝕜 := 𝕜) l k V (l + j))

theorem dot_blk {m l k : ℕ} (V : ℕ → E) (B : ℕ → 𝕜) (hlk : l ≤ k) (hm : k ≤ m) {i j : ℕ} (hi : i < k - l) (hj : j < k - l) :
    blk (dotInto (start m l k V B).1 l k l k m (start m l k V B).2) m l i j = gramW (𝕜 := 𝕜) l k V i j := by
  unfold blk dotInto
  rw [grid_addr (l + j) _ _ (by omega) (by omega), if_pos (by omega), start_V V B hlk hm]
  rw [show l + (l + i - l) = l + i by omega, show l + (l + j - l) = l + j by omega]
  rfl

theorem dot_top {m l k : ℕ} (V : ℕ → E) (B : ℕ → 𝕜) (hlk : l ≤ k) (hm : k ≤ m) {i j : ℕ} (hi : i < l) (hj : l ≤ j ∧ j < k) :
    dotInto (start m l k V B).1 l k l k m (start m l k V B).2 (i + j * m) = inner 𝕜 (V i) (V j) := by
  unfold dotInto
  rw [grid_addr j _ _ (by omega) (by omega), if_neg (by omega), start_B V B hlk hm hi hj]

/-! ### Algebra -/

theorem proj_orth {l k : ℕ} {V : ℕ → E} (ho : Orthonormal (𝕜 := 𝕜) l V) {i j : ℕ} (hi : i < l) (hj : l ≤ j ∧ j < k) :
    inner 𝕜 (V i) (proj (𝕜 := 𝕜) l k V j) = 0 := by
  unfold proj
  rw [if_pos hj, inner_sub_right, inner_sum]
  have : ∀ t ∈ Finset.range l, inner 𝕜 (V i) ((inner 𝕜 (V t) (V j) : 𝕜) • V t) = if t = i then inner 𝕜 (V i) (V j) else 0 := by
    intro t ht
    rw [inner_smul_right, ho i hi t (Finset.mem_range.1 ht)]
    by_cases h : t = i
    · subst h; simp
    · rw [if_neg h, if_neg (fun e => h e.symm), mul_zero]
  rw [Finset.sum_congr rfl this, Finset.sum_ite_eq', if_pos (Finset.mem_range.2 hi), sub_self]

theorem sum_Ico_fin {M : Type*} [AddCommMonoid M] (l k : ℕ) (f : ℕ → M) : ∑ t ∈ Finset.Ico l k, f t = ∑ t : Fin (k - l), f (l + t) := by
  rw [Finset.sum_Ico_eq_sum_range, ← Fin.sum_univ_eq_sum_range (fun t => f (l + t))]

theorem gramW_herm (l k : ℕ) (V : ℕ → E) (n : ℕ) : (toM n (gramW (𝕜 := 𝕜) l k V)).IsHermitian := by
  ext i j
  show star (gramW (𝕜 := 𝕜) l k V j i) = gramW (𝕜 := 𝕜) l k V i j
  exact inner_conj_symm _ _

/-- The combination of the projected columns with the columns of `S`. -/
noncomputable def comb (l k : ℕ) (V : ℕ → E) (S : ℕ → ℕ → 𝕜) : ℕ → E :=
  fun j => if l ≤ j ∧ j < k then ∑ t : Fin (k - l), S t (j - l) • proj (𝕜 := 𝕜) l k V (l + t) else V j

theorem comb_congr {l k : ℕ} {V : ℕ → E} {S S' : ℕ → ℕ → 𝕜} (h : ∀ i < k - l, ∀ j < k - l, S i j = S' i j) : comb l k V S = comb l k V S' := by
  funext j
  unfold comb
  by_cases hj : l ≤ j ∧ j < k
  · rw [if_pos hj, if_pos hj]
    exact Finset.sum_congr rfl (fun t _ => by rw [h t t.2 (j - l) (by omega)])
  · rw [if_neg hj, if_neg hj]

theorem multIn_comb {m l k ld : ℕ} (V : ℕ → E) (B S : ℕ → 𝕜) (hlk : l ≤ k) (hm : k ≤ m) :
    multIn l k ld S (start m l k V B).1 = comb l k V (blk S ld l) := by
  funext j
  unfold multIn comb
  by_cases hj : l ≤ j ∧ j < k
  · rw [if_pos hj, if_pos hj, sum_Ico_fin, start_V V B hlk hm]
    apply Finset.sum_congr rfl
    intro t _
    unfold blk
    rw [show l + (j - l) = j by omega]
  · rw [if_neg hj, if_neg hj, start_V V B hlk hm]
    unfold proj
    rw [if_neg hj]

theorem comb_same (l k : ℕ) (V : ℕ → E) (S : ℕ → ℕ → 𝕜) : SameOutside l k V (comb l k V S) := by
  intro j hj
  unfold comb
  rw [if_neg hj]

/-- The result is orthonormal when `S^H G S = I`. -/
theorem comb_orth {l k : ℕ} {V : ℕ → E} (hlk : l ≤ k) (ho : Orthonormal (𝕜 := 𝕜) l V) (S : ℕ → ℕ → 𝕜)
    (hS : (toM (k - l) S).conjTranspose * toM (k - l) (gramW (𝕜 := 𝕜) l k V) * toM (k - l) S = 1) : Orthonormal (𝕜 := 𝕜) k (comb l k V S) := by
  have hlead : ∀ i < l, ∀ j, (l ≤ j ∧ j < k) → inner 𝕜 (V i) (comb l k V S j) = (0 : 𝕜) := by
    intro i hi j hj
    unfold comb
    rw [if_pos hj, inner_sum]
    apply Finset.sum_eq_zero
    intro t _
    rw [inner_smul_right, proj_orth ho hi (by omega), mul_zero]
  have hc : ∀ j, j < l → comb l k V S j = V j := fun j hj => comb_same l k V S j (by omega)
  intro i hi j hj
  by_cases hil : i < l
  · by_cases hjl : j < l
    · rw [hc i hil, hc j hjl]; exact ho i hil j hjl
    · rw [hc i hil, hlead i hil j (by omega), if_neg (by omega)]
  · by_cases hjl : j < l
    · rw [hc j hjl, ← inner_conj_symm, hlead j hjl i (by omega), if_neg (by omega), map_zero]
    · have e := congrFun (congrFun hS ⟨i - l, by omega⟩) ⟨j - l, by omega⟩
      rw [Matrix.one_apply, Matrix.mul_apply] at e
      have e' : (if (⟨i - l, by omega⟩ : Fin (k - l)) = ⟨j - l, by omega⟩ then (1 : 𝕜) else 0) = if i = j then 1 else 0 := by
        by_cases hij : i = j
        · subst hij; simp
        · rw [if_neg hij, if_neg]
          intro h
          rw [Fin.mk.injEq] at h
          omega
      rw [← e', ← e]
      unfold comb
      rw [if_pos ⟨by omega, hi⟩, if_pos ⟨by omega, hj⟩, inner_sum]
      apply Finset.sum_congr rfl
      intro u _
      rw [inner_smul_right, sum_inner, Matrix.mul_apply, mul_comm]
      congr 1
      apply Finset.sum_congr rfl
      intro t _
      rw [inner_smul_left]
      rfl

/-- The old columns are combinations of the new ones when `S R = I`. -/
theorem comb_factor {l k : ℕ} (V : ℕ → E) (hlk : l ≤ k) (S R : ℕ → ℕ → 𝕜) (hSR : toM (k - l) S * toM (k - l) R = 1) {j : ℕ} (hj : l ≤ j ∧ j < k) :
    V j = ∑ i ∈ Finset.range l, (inner 𝕜 (V i) (V j) : 𝕜) • comb l k V S i + ∑ i ∈ Finset.Ico l k, R (i - l) (j - l) • comb l k V S i := by
  have h1 : ∑ i ∈ Finset.range l, (inner 𝕜 (V i) (V j) : 𝕜) • comb l k V S i = ∑ i ∈ Finset.range l, (inner 𝕜 (V i) (V j) : 𝕜) • V i := by
    apply Finset.sum_congr rfl
    intro i hi
    rw [Finset.mem_range] at hi
    rw [comb_same l k V S i (by omega)]
  have h2 : ∑ i ∈ Finset.Ico l k, R (i - l) (j - l) • comb l k V S i = proj (𝕜 := 𝕜) l k V j := by
    rw [sum_Ico_fin]
    have : ∀ i : Fin (k - l), R (l + i - l) (j - l) • comb l k V S (l + i)
        = ∑ t : Fin (k - l), (toM (k - l) S t i * toM (k - l) R i ⟨j - l, by omega⟩) • proj (𝕜 := 𝕜) l k V (l + t) := by
      intro i
      unfold comb
      rw [if_pos (by omega), Finset.smul_sum]
      apply Finset.sum_congr rfl
      intro t _
      rw [smul_smul, mul_comm, show l + i.1 - l = i.1 by omega]
      rfl
    rw [Finset.sum_congr rfl (fun i _ => this i), Finset.sum_comm]
    have e : ∀ t : Fin (k - l), ∑ i : Fin (k - l), (toM (k - l) S t i * toM (k - l) R i ⟨j - l, by omega⟩) • proj (𝕜 := 𝕜) l k V (l + t)
        = if t = ⟨j - l, by omega⟩ then proj (𝕜 := 𝕜) l k V j else 0 := by
      intro t
      rw [← Finset.sum_smul, ← Matrix.mul_apply, hSR, Matrix.one_apply]
      by_cases h : t = ⟨j - l, by omega⟩
      · rw [if_pos h, if_pos h, one_smul, h]
        congr 1
        show l + (j - l) = j
        omega
      · rw [if_neg h, if_neg h, zero_smul]
    rw [Finset.sum_congr rfl (fun t _ => e t), Finset.sum_ite_eq', if_pos (Finset.mem_univ _)]
  rw [h1, h2]
  unfold proj
  rw [if_pos hj]
  abel

/-- The same with all rows in one array. -/
theorem comb_isFactor {l k ld : ℕ} (V : ℕ → E) (hlk : l ≤ k) (S R : ℕ → ℕ → 𝕜) (hSR : toM (k - l) S * toM (k - l) R = 1) (A : ℕ → 𝕜)
    (h1 : ∀ i < l, ∀ j, l ≤ j → j < k → A (i + j * ld) = inner 𝕜 (V i) (V j))
    (h2 : ∀ i, l ≤ i → i < k → ∀ j, l ≤ j → j < k → A (i + j * ld) = R (i - l) (j - l)) : IsFactor l k ld V (comb l k V S) A := by
  intro j hj1 hj2
  have := comb_factor V hlk S R hSR ⟨hj1, hj2⟩
  conv_lhs => rw [this]
  rw [← Finset.sum_range_add_sum_Ico _ hlk]
  congr 1
  · exact Finset.sum_congr rfl (fun i hi => by rw [h1 i (Finset.mem_range.1 hi) j hj1 hj2])
  · apply Finset.sum_congr rfl
    intro i hi
    rw [Finset.mem_Ico] at hi
    rw [h2 i hi.1 hi.2 j hj1 hj2]

/-- Linear independence with numbers as indices. -/
theorem li_iff {k : ℕ} {V : ℕ → E} (h : LinearIndependent 𝕜 (fun i : Fin k => V i)) (c : ℕ → 𝕜) (hc : ∑ i ∈ Finset.range k, c i • V i = 0) : ∀ i < k, c i = 0 := by
  rw [Fintype.linearIndependent_iff] at h
  intro i hi
  refine h (fun i => c i) ?_ ⟨i, hi⟩
  rw [Fin.sum_univ_eq_sum_range (fun i => c i • V i) k]
  exact hc

/-- Linearly independent columns have a positive definite Gram matrix after the projection. -/
theorem gramW_posDef {l k : ℕ} (V : ℕ → E) (hlk : l ≤ k) (hli : LinearIndependent 𝕜 (fun i : Fin k => V i)) :
    (toM (k - l) (gramW (𝕜 := 𝕜) l k V)).PosDef := by
  have hli2 : LinearIndependent 𝕜 (fun i : Fin (k - l) => proj (𝕜 := 𝕜) l k V (l + i)) := by
    rw [Fintype.linearIndependent_iff]
    intro g hg
    obtain ⟨g', hg'⟩ : ∃ g' : ℕ → 𝕜, ∀ t : Fin (k - l), g' t = g t := ⟨fun t => if h : t < k - l then g ⟨t, h⟩ else 0, fun t => by simp⟩
    have key := li_iff hli (fun i => if l ≤ i then g' (i - l) else - ∑ t : Fin (k - l), g t * inner 𝕜 (V i) (V (l + t))) (by
      rw [← Finset.sum_range_add_sum_Ico _ hlk, sum_Ico_fin, add_comm]
      have e1 : ∀ t : Fin (k - l), (if l ≤ l + t.1 then g' (l + t.1 - l) else - ∑ u : Fin (k - l), g u * inner 𝕜 (V (l + t.1)) (V (l + u))) • V (l + t)
          = g t • V (l + t) := by
        intro t
        rw [if_pos (by omega), show l + t.1 - l = t.1 by omega, hg']
      have e2 : ∀ i ∈ Finset.range l, (if l ≤ i then g' (i - l) else - ∑ u : Fin (k - l), g u * inner 𝕜 (V i) (V (l + u))) • V i
          = - ∑ u : Fin (k - l), (g u * inner 𝕜 (V i) (V (l + u))) • V i := by
        intro i hi
        rw [Finset.mem_range] at hi
        rw [if_neg (by omega), neg_smul, Finset.sum_smul]
      rw [Finset.sum_congr rfl e2, Finset.sum_congr rfl (fun t _ => e1 t), Finset.sum_neg_distrib, Finset.sum_comm, ← sub_eq_add_neg, ← Finset.sum_sub_distrib, ← hg]
      apply Finset.sum_congr rfl
      intro t _
      unfold proj
      rw [if_pos (by omega), smul_sub, Finset.smul_sum]
      congr 1
      exact Finset.sum_congr rfl (fun i _ => by rw [smul_smul]))
    intro t
    have := key (l + t) (by omega)
    rw [if_pos (by omega), show l + t.1 - l = t.1 by omega, hg'] at this
    exact this
  exact Matrix.posDef_gram_of_linearIndependent hli2

end Verif.BVB.Block
