import Verif.Cg.LobModel
import Verif.Iter.Two

/-!
# C165: Ritz values of EPSLOBPCG improve monotonically
-/
set_option linter.all false

namespace Verif.Cg

open Matrix Finset

/-! ## matrices -/

theorem exists_test {n : ℕ} (K : Matrix (Fin n) (Fin n) ℂ) (j : Fin n) :
    ∃ c : Fin n → ℂ, c ≠ 0 ∧ (∀ i, j < i → c i = 0) ∧ ∀ i, i < j → (K *ᵥ c) i = 0 := by
  let L : (Fin n → ℂ) →ₗ[ℂ] (Fin n → ℂ) :=
    { toFun := fun c i => if i < j then (K *ᵥ c) i else if i = j then 0 else c i
      map_add' := by
        intro x y; funext i
        simp only [mulVec_add, Pi.add_apply]
        split_ifs <;> simp
      map_smul' := by
        intro r x; funext i
        simp only [mulVec_smul, Pi.smul_apply, RingHom.id_apply]
        split_ifs <;> simp }
  have hns : ¬ Function.Surjective L := by
    intro hs
    obtain ⟨c, hc⟩ := hs (fun _ => 1)
    have := congrFun hc j
    have h2 : L c j = 0 := by
      show (if j < j then (K *ᵥ c) j else if j = j then 0 else c j) = 0
      simp
    rw [h2] at this
    exact zero_ne_one this
  have hni : ¬ Function.Injective L := fun h => hns (LinearMap.injective_iff_surjective.mp h)
  have hk : LinearMap.ker L ≠ ⊥ := fun h => hni (LinearMap.ker_eq_bot.mp h)
  obtain ⟨c, hc, hc0⟩ := Submodule.exists_mem_ne_zero_of_ne_bot hk
  have hL : ∀ i, (if i < j then (K *ᵥ c) i else if i = j then 0 else c i) = 0 := fun i => congrFun (LinearMap.mem_ker.mp hc) i
  refine ⟨c, hc0, fun i hi => ?_, fun i hi => ?_⟩
  · have := hL i
    rwa [if_neg (not_lt.mpr hi.le), if_neg (ne_of_gt hi)] at this
  · have := hL i
    rwa [if_pos hi] at this

/-- Ritz values of a larger space lie below those of a space spanned by the first `b` vectors. -/
theorem interlace {n b : ℕ} {G H M : Matrix (Fin n) (Fin n) ℂ} {th t0 : Fin n → ℝ} (hG : Mᴴ * G * M = 1) (hH : Mᴴ * H * M = diagonal (fun i => (th i : ℂ))) (hth : Monotone th)
    (hG0 : ∀ i k : Fin n, i.val < b → k.val < b → G i k = if i = k then 1 else 0) (hH0 : ∀ i k : Fin n, i.val < b → k.val < b → H i k = if i = k then (t0 i : ℂ) else 0)
    (ht0 : ∀ i k : Fin n, i ≤ k → k.val < b → t0 i ≤ t0 k) (j : Fin n) (hj : j.val < b) : th j ≤ t0 j := by
  obtain ⟨c, hc0, hc1, hc2⟩ := exists_test (Mᴴ * G) j
  obtain ⟨d, hd⟩ : ∃ d, (Mᴴ * G) *ᵥ c = d := ⟨_, rfl⟩
  have hinv : M * (Mᴴ * G) = 1 := mul_eq_one_comm.mp hG
  have hcd : c = M *ᵥ d := by rw [← hd, mulVec_mulVec, hinv, one_mulVec]
  have quad : ∀ K : Matrix (Fin n) (Fin n) ℂ, star c ⬝ᵥ (K *ᵥ c) = star d ⬝ᵥ ((Mᴴ * K * M) *ᵥ d) := by
    intro K
    rw [hcd, star_mulVec, ← dotProduct_mulVec, mulVec_mulVec, mulVec_mulVec, Matrix.mul_assoc]
  have lead : ∀ (K : Matrix (Fin n) (Fin n) ℂ) (f : Fin n → ℝ), (∀ i k : Fin n, i.val < b → k.val < b → K i k = if i = k then (f i : ℂ) else 0) →
      star c ⬝ᵥ (K *ᵥ c) = ((∑ i, f i * ‖c i‖ ^ 2 : ℝ) : ℂ) := by
    intro K f hK
    unfold dotProduct mulVec dotProduct
    push_cast
    apply sum_congr rfl
    intro i _
    by_cases hi : j < i
    · simp [hc1 i hi]
    · have hib : i.val < b := lt_of_le_of_lt (not_lt.mp hi) hj
      rw [sum_eq_single i]
      · rw [hK i i hib hib, if_pos rfl, Pi.star_apply]
        have : (star (c i)) * (c i) = ((‖c i‖ ^ 2 : ℝ) : ℂ) := by
          rw [mul_comm]; have := Complex.mul_conj' (c i); push_cast; exact this
        calc star (c i) * ((f i : ℂ) * c i) = (f i : ℂ) * (star (c i) * c i) := by ring
          _ = _ := by rw [this]; push_cast; ring
      · intro k _ hne
        by_cases hk : j < k
        · rw [hc1 k hk, mul_zero]
        · rw [hK i k hib (lt_of_le_of_lt (not_lt.mp hk) hj), if_neg (Ne.symm hne), zero_mul]
      · simp
  have diagq : ∀ f : Fin n → ℝ, star d ⬝ᵥ ((diagonal (fun i => (f i : ℂ))) *ᵥ d) = ((∑ i, f i * ‖d i‖ ^ 2 : ℝ) : ℂ) := by
    intro f
    unfold dotProduct
    push_cast
    apply sum_congr rfl
    intro i _
    rw [mulVec_diagonal, Pi.star_apply]
    have : (star (d i)) * (d i) = ((‖d i‖ ^ 2 : ℝ) : ℂ) := by
      rw [mul_comm]; have := Complex.mul_conj' (d i); push_cast; exact this
    calc star (d i) * ((f i : ℂ) * d i) = (f i : ℂ) * (star (d i) * d i) := by ring
      _ = _ := by rw [this]; push_cast; ring
  have e1 : ∑ i, ‖c i‖ ^ 2 = ∑ i, ‖d i‖ ^ 2 := by
    have h1 := lead G (fun _ => 1) (by intro i k hi hk; rw [hG0 i k hi hk]; simp)
    have h2 := diagq (fun _ => 1)
    rw [quad G, hG] at h1
    have h3 : (diagonal (fun i : Fin n => ((1 : ℝ) : ℂ))) = (1 : Matrix (Fin n) (Fin n) ℂ) := by simp
    rw [h3, h1] at h2
    have := Complex.ofReal_injective h2
    simpa using this
  have e2 : ∑ i, t0 i * ‖c i‖ ^ 2 = ∑ i, th i * ‖d i‖ ^ 2 := by
    have h1 := lead H t0 hH0
    rw [quad H, hH, diagq th] at h1
    exact (Complex.ofReal_injective h1).symm
  have hpos : 0 < ∑ i, ‖c i‖ ^ 2 := by
    have hne : ∃ i, c i ≠ 0 := by
      by_contra hn
      push Not at hn
      exact hc0 (funext hn)
    obtain ⟨i, hi⟩ := hne
    refine lt_of_lt_of_le (by positivity : 0 < ‖c i‖ ^ 2) (single_le_sum (f := fun i => ‖c i‖ ^ 2) (fun k _ => sq_nonneg _) (mem_univ i))
  have u1 : ∑ i, t0 i * ‖c i‖ ^ 2 ≤ t0 j * ∑ i, ‖c i‖ ^ 2 := by
    rw [mul_sum]
    apply sum_le_sum
    intro i _
    by_cases hi : j < i
    · simp [hc1 i hi]
    · exact mul_le_mul_of_nonneg_right (ht0 i j (not_lt.mp hi) hj) (sq_nonneg _)
  have u2 : th j * ∑ i, ‖d i‖ ^ 2 ≤ ∑ i, th i * ‖d i‖ ^ 2 := by
    rw [mul_sum]
    apply sum_le_sum
    intro i _
    by_cases hi : i < j
    · have : d i = 0 := by rw [← hd]; exact hc2 i hi
      simp [this]
    · exact mul_le_mul_of_nonneg_right (hth (not_lt.mp hi)) (sq_nonneg _)
  rw [← e1, ← e2] at u2
  exact le_of_mul_le_mul_right (u2.trans u1) hpos

/-! ## LOBPCG -/

variable {E : Type*} [NormedAddCommGroup E] [InnerProductSpace ℂ E]

/-- `X` consists of `bs` B-orthonormal Ritz vectors with values `t`, in the order of `le` -/
structure RitzBlock (A B : E →ₗ[ℂ] E) (bs : ℕ) (le : ℝ → ℝ → Prop) (X : ℕ → E) (t : ℕ → ℝ) : Prop where
  ortho : ∀ i < bs, ∀ j < bs, inner ℂ (X i) (B (X j)) = if i = j then (1 : ℂ) else 0
  ritz : ∀ i < bs, ∀ j < bs, inner ℂ (X i) (A (X j)) = if i = j then (t i : ℂ) else 0
  sorted : ∀ i j, i ≤ j → j < bs → le (t i) (t j)

theorem ritzX_eq (Z : ℕ → E) (bs nv : ℕ) (hb : bs ≤ nv) (M : Matrix (Fin nv) (Fin nv) ℂ) (j : Fin nv) :
    ritzX Z bs nv M j = ∑ r : Fin nv, M r j • Z r := by
  unfold ritzX ritzP
  rw [← sum_filter_add_sum_filter_not univ (fun r : Fin nv => bs ≤ r.val)]
  congr 1
  · apply sum_congr _ fun r _ => by simp
    ext r; simp
  · apply sum_congr _ fun r _ => by simp
    ext r; simp

theorem gram_quad (C : E →ₗ[ℂ] E) (Z : ℕ → E) (bs nv : ℕ) (hb : bs ≤ nv) (M : Matrix (Fin nv) (Fin nv) ℂ) (i j : Fin nv) :
    inner ℂ (ritzX Z bs nv M i) (C (ritzX Z bs nv M j)) = (Mᴴ * gram C Z nv * M) i j := by
  rw [ritzX_eq Z bs nv hb, ritzX_eq Z bs nv hb, map_sum, inner_sum, Matrix.mul_apply]
  apply sum_congr rfl
  intro r _
  rw [map_smul, inner_smul_right, sum_inner, Matrix.mul_apply, mul_comm]
  congr 1
  apply sum_congr rfl
  intro s _
  rw [inner_smul_left, conjTranspose_apply]
  rfl

/-- **C165, one iteration.**  For any preconditioned residuals `R` and directions `P`, any number of soft-locked columns and in the first iterations: the new block consists of B-orthonormal Ritz vectors
with values as stored, and each value is at least as good as before. -/
theorem C165_step {A B : E →ₗ[ℂ] E} {flip : Bool} {bs ini its : ℕ} {X R P : ℕ → E} {t t' : ℕ → ℝ} {M : Matrix (Fin (nvOf bs ini its)) (Fin (nvOf bs ini its)) ℂ} {eigr : Fin (nvOf bs ini its) → ℝ}
    (hini : ini ≤ bs) (hX : RitzBlock A B bs (if flip then (· ≥ ·) else (· ≤ ·)) X t)
    (hS : SolvedG (projA flip A (zcols X R P bs ini) (nvOf bs ini its)) (gram B (zcols X R P bs ini) (nvOf bs ini its)) eigr M)
    (ht' : ∀ j : Fin (nvOf bs ini its), t' j = valueOf flip (eigr j)) :
    RitzBlock A B bs (if flip then (· ≥ ·) else (· ≤ ·)) (ritzX (zcols X R P bs ini) bs (nvOf bs ini its) M) t' ∧
    ∀ j < bs, if flip then t j ≤ t' j else t' j ≤ t j := by
  have hb : bs ≤ nvOf bs ini its := by unfold nvOf; split_ifs <;> omega
  obtain ⟨nv, hnv⟩ : ∃ nv, nvOf bs ini its = nv := ⟨_, rfl⟩
  rw [hnv] at hb
  generalize nvOf bs ini its = nv' at *
  subst hnv
  obtain ⟨Z, hZ⟩ : ∃ Z, zcols X R P bs ini = Z := ⟨_, rfl⟩
  have hZX : ∀ i < bs, Z i = X i := by intro i hi; rw [← hZ]; unfold zcols; rw [if_pos hi]
  rw [hZ] at hS ⊢
  have hproj : projA flip A Z nv' = if flip then -gram A Z nv' else gram A Z nv' := rfl
  have hA' : ∀ i j : Fin nv', inner ℂ (ritzX Z bs nv' M i) (A (ritzX Z bs nv' M j)) = if i = j then ((valueOf flip (eigr i) : ℝ) : ℂ) else 0 := by
    intro i j
    rw [gram_quad A Z bs nv' hb]
    have h := hS.eig
    rw [hproj] at h
    have h2 := congrFun (congrFun h i) j
    rw [diagonal_apply] at h2
    cases flip
    · simp only [Bool.false_eq_true, if_false] at h2
      unfold valueOf
      simp only [Bool.false_eq_true, if_false]
      exact h2
    · simp only [if_true] at h2
      rw [Matrix.mul_neg, Matrix.neg_mul, Matrix.neg_apply] at h2
      unfold valueOf
      simp only [if_true]
      rw [← neg_eq_iff_eq_neg.mpr h2.symm.symm.symm]
      split_ifs <;> simp
  refine ⟨⟨?_, ?_, ?_⟩, ?_⟩
  · intro i hi j hj
    have := gram_quad B Z bs nv' hb M ⟨i, by omega⟩ ⟨j, by omega⟩
    rw [hS.orth, Matrix.one_apply] at this
    simpa using this
  · intro i hi j hj
    have := hA' ⟨i, by omega⟩ ⟨j, by omega⟩
    rw [← ht'] at this
    simpa using this
  · intro i j hij hj
    have h1 := ht' ⟨i, by omega⟩
    have h2 := ht' ⟨j, by omega⟩
    have h3 := hS.sorted (show (⟨i, by omega⟩ : Fin nv') ≤ ⟨j, by omega⟩ from hij)
    simp only at h1 h2
    rw [h1, h2]
    unfold valueOf
    cases flip
    · simpa using h3
    · simpa using h3
  · intro j hj
    have key := interlace (n := nv') (b := bs) (t0 := fun i => valueOf flip (t i)) hS.orth hS.eig hS.sorted ?_ ?_ ?_ ⟨j, by omega⟩ hj
    · have h1 := ht' ⟨j, by omega⟩
      simp only at h1 key
      unfold valueOf at h1 key
      cases flip
      · simp only [Bool.false_eq_true, if_false] at h1 key ⊢
        rw [h1]; exact key
      · simp only [if_true] at h1 key ⊢
        rw [h1]; linarith
    · intro i k hi hk
      show inner ℂ (Z i) (B (Z k)) = _
      rw [hZX i hi, hZX k hk, hX.ortho i hi k hk]
      simp [Fin.ext_iff]
    · intro i k hi hk
      rw [hproj]
      have h5 := hX.ritz i hi k hk
      rw [← hZX i hi, ← hZX k hk] at h5
      unfold valueOf
      cases flip
      · simp only [Bool.false_eq_true, if_false]
        show inner ℂ (Z i) (A (Z k)) = _
        rw [h5]; simp [Fin.ext_iff]
      · simp only [if_true]
        show -inner ℂ (Z i) (A (Z k)) = _
        rw [h5]
        by_cases hik : i = k
        · subst hik; simp
        · rw [if_neg (by intro h; exact hik (Fin.ext h)), if_neg hik, neg_zero]
    · intro i k hik hk
      have h5 := hX.sorted i k hik hk
      unfold valueOf
      cases flip
      · simpa using h5
      · simpa using h5

/-- **C165.**  Over any number of iterations on the same block, starting from Ritz vectors, every Ritz value is at least as good as at the beginning. -/
theorem C165 {A B : E →ₗ[ℂ] E} {flip : Bool} {bs : ℕ} {X X' : ℕ → E} {t t' : ℕ → ℝ} (hX : RitzBlock A B bs (if flip then (· ≥ ·) else (· ≤ ·)) X t)
    (h : Iterated A B flip bs X t X' t') :
    RitzBlock A B bs (if flip then (· ≥ ·) else (· ≤ ·)) X' t' ∧ ∀ j < bs, if flip then t j ≤ t' j else t' j ≤ t j := by
  induction h with
  | refl => exact ⟨hX, fun j _ => by cases flip <;> simp⟩
  | step X1 t1 R P ini its M eigr t2 _ hini hS ht ih =>
    obtain ⟨h1, h2⟩ := ih
    obtain ⟨h3, h4⟩ := C165_step hini h1 hS ht
    refine ⟨h3, fun j hj => ?_⟩
    have a := h2 j hj
    have b := h4 j hj
    cases flip
    · simp only [Bool.false_eq_true, if_false] at a b ⊢; exact b.trans a
    · simp only [if_true] at a b ⊢; exact a.trans b

/-- A case: `A = diag(0,1)`, block `e2` with value 1, preconditioned residual `e1`; the value becomes 0. -/
example : ∃ (X R P : ℕ → Iter.E2) (M : Matrix (Fin 2) (Fin 2) ℂ) (eigr : Fin 2 → ℝ),
    nvOf 1 0 1 = 2 ∧ RitzBlock (Iter.op2 0 0 0 1) LinearMap.id 1 (· ≤ ·) X (fun _ => 1) ∧
    SolvedG (projA false (Iter.op2 0 0 0 1) (zcols X R P 1 0) 2) (gram LinearMap.id (zcols X R P 1 0) 2) eigr M ∧ eigr 0 = 0 := by
  refine ⟨fun _ => Iter.vec2 0 1, fun _ => Iter.vec2 1 0, fun _ => 0, !![0, 1; 1, 0], ![0, 1], rfl, ⟨?_, ?_, ?_⟩, ⟨?_, ?_, ?_⟩, rfl⟩
  · intro i hi j hj
    interval_cases i; interval_cases j
    simp only [LinearMap.id_apply, Iter.inner2]; simp
  · intro i hi j hj
    interval_cases i; interval_cases j
    simp only [Iter.op2_vec, Iter.inner2]; simp
  · intro i j _ _; exact le_refl _
  · have : projA false (Iter.op2 0 0 0 1) (zcols (fun _ => Iter.vec2 0 1) (fun _ => Iter.vec2 1 0) (fun _ => 0) 1 0) 2 = (!![1, 0; 0, 0] : Matrix (Fin 2) (Fin 2) ℂ) := by
      funext i j
      show inner ℂ _ _ = _
      revert i j
      show ∀ i j : Fin 2, _
      intro i j
      fin_cases i <;> fin_cases j <;> simp [zcols, Iter.op2_vec, Iter.inner2, -inner_self_eq_norm_sq_to_K]
    rw [this]
    show ((!![0, 1; 1, 0] : Matrix (Fin 2) (Fin 2) ℂ)ᴴ * !![1, 0; 0, 0] * !![0, 1; 1, 0]) = diagonal (fun i : Fin 2 => (((![0, 1] : Fin 2 → ℝ) i : ℝ) : ℂ))
    ext i j
    fin_cases i <;> fin_cases j <;> simp [Matrix.mul_apply, Fin.sum_univ_two]
  · have : gram LinearMap.id (zcols (fun _ => Iter.vec2 0 1) (fun _ => Iter.vec2 1 0) (fun _ => 0) 1 0) 2 = (1 : Matrix (Fin 2) (Fin 2) ℂ) := by
      funext i j
      show inner ℂ _ _ = _
      revert i j
      show ∀ i j : Fin 2, _
      intro i j
      fin_cases i <;> fin_cases j <;> simp only [zcols, LinearMap.id_apply] <;> simp [Iter.inner2, -inner_self_eq_norm_sq_to_K]
    rw [this]
    show ((!![0, 1; 1, 0] : Matrix (Fin 2) (Fin 2) ℂ)ᴴ * 1 * !![0, 1; 1, 0]) = 1
    ext i j
    fin_cases i <;> fin_cases j <;> simp [Matrix.mul_apply, Fin.sum_univ_two]
  · show Monotone (![0, 1] : Fin 2 → ℝ)
    intro i j hij
    fin_cases i <;> fin_cases j <;> simp at hij ⊢

end Verif.Cg
