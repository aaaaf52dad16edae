import Verif.Bse.Model

/-! Helper lemmas: real and imaginary part of the dot product, structured pairs of operators. -/
set_option linter.all false

namespace Verif.Bse

open Finset Matrix

variable {n : ℕ}

/-- Real part of the dot product. -/
noncomputable def rdot (x y : Vc n) : ℝ := (dot x y).re
/-- Imaginary part of the dot product. -/
noncomputable def idot (x y : Vc n) : ℝ := (dot x y).im

theorem rdot_eq (x y : Vc n) : rdot x y = ∑ i, ((x i).re * (y i).re + (x i).im * (y i).im) := by
  simp [rdot, dot, dotProduct, Complex.re_sum]

theorem idot_eq (x y : Vc n) : idot x y = ∑ i, ((x i).re * (y i).im - (x i).im * (y i).re) := by
  simp only [idot, dot, dotProduct, Complex.im_sum]
  apply Finset.sum_congr rfl
  intro i _
  simp; ring

theorem rdot_comm (x y : Vc n) : rdot x y = rdot y x := by
  rw [rdot_eq, rdot_eq]; apply Finset.sum_congr rfl; intro i _; ring

theorem idot_anti (x y : Vc n) : idot x y = -idot y x := by
  rw [idot_eq, idot_eq, ← Finset.sum_neg_distrib]; apply Finset.sum_congr rfl; intro i _; ring

theorem idot_self (x : Vc n) : idot x x = 0 := by
  have := idot_anti x x; linarith

theorem rdot_add (x y z : Vc n) : rdot x (y + z) = rdot x y + rdot x z := by simp [rdot, dot, dotProduct_add]
theorem idot_add (x y z : Vc n) : idot x (y + z) = idot x y + idot x z := by simp [idot, dot, dotProduct_add]
theorem rdot_sub (x y z : Vc n) : rdot x (y - z) = rdot x y - rdot x z := by simp [rdot, dot, dotProduct_sub]
theorem idot_sub (x y z : Vc n) : idot x (y - z) = idot x y - idot x z := by simp [idot, dot, dotProduct_sub]
theorem rdot_neg (x y : Vc n) : rdot x (-y) = -rdot x y := by simp [rdot, dot]
theorem idot_neg (x y : Vc n) : idot x (-y) = -idot x y := by simp [idot, dot]
theorem rdot_zero (x : Vc n) : rdot x 0 = 0 := by simp [rdot, dot]
theorem idot_zero (x : Vc n) : idot x 0 = 0 := by simp [idot, dot]
theorem rdot_smul (r : ℝ) (x y : Vc n) : rdot x (r • y) = r * rdot x y := by
  rw [← Complex.coe_smul]; simp [rdot, dot, dotProduct_smul]
theorem idot_smul (r : ℝ) (x y : Vc n) : idot x (r • y) = r * idot x y := by
  rw [← Complex.coe_smul]; simp [idot, dot, dotProduct_smul]
theorem rdot_sum (x : Vc n) (s : Finset ℕ) (f : ℕ → Vc n) : rdot x (∑ i ∈ s, f i) = ∑ i ∈ s, rdot x (f i) := by
  induction s using Finset.induction_on with
  | empty => simp [rdot_zero]
  | insert a t h ih => rw [Finset.sum_insert h, Finset.sum_insert h, rdot_add, ih]
theorem idot_sum (x : Vc n) (s : Finset ℕ) (f : ℕ → Vc n) : idot x (∑ i ∈ s, f i) = ∑ i ∈ s, idot x (f i) := by
  induction s using Finset.induction_on with
  | empty => simp [idot_zero]
  | insert a t h ih => rw [Finset.sum_insert h, Finset.sum_insert h, idot_add, ih]
theorem rdot_smul_left (r : ℝ) (x y : Vc n) : rdot (r • x) y = r * rdot x y := by rw [rdot_comm, rdot_smul, rdot_comm]
theorem idot_smul_left (r : ℝ) (x y : Vc n) : idot (r • x) y = r * idot x y := by
  rw [idot_anti, idot_smul, idot_anti x y]; ring
theorem rdot_sum_left (x : Vc n) (s : Finset ℕ) (f : ℕ → Vc n) : rdot (∑ i ∈ s, f i) x = ∑ i ∈ s, rdot (f i) x := by
  rw [rdot_comm, rdot_sum]; apply Finset.sum_congr rfl; intro i _; rw [rdot_comm]
theorem idot_sum_left (x : Vc n) (s : Finset ℕ) (f : ℕ → Vc n) : idot (∑ i ∈ s, f i) x = ∑ i ∈ s, idot (f i) x := by
  rw [idot_anti, idot_sum, ← Finset.sum_neg_distrib]; apply Finset.sum_congr rfl; intro i _; rw [idot_anti x]; ring
theorem rdot_add_left (x y z : Vc n) : rdot (x + y) z = rdot x z + rdot y z := by
  rw [rdot_comm, rdot_add, rdot_comm z, rdot_comm z]
theorem idot_add_left (x y z : Vc n) : idot (x + y) z = idot x z + idot y z := by
  rw [idot_anti, idot_add, idot_anti z x, idot_anti z y]; ring

/-- A pair of real linear maps with the symmetries of `x ↦ R x + C conj x` and `x ↦ R x - C conj x`. -/
structure Pair (P M : Vc n → Vc n) : Prop where
  Padd : ∀ x y, P (x + y) = P x + P y
  Madd : ∀ x y, M (x + y) = M x + M y
  Psm : ∀ (r : ℝ) x, P (r • x) = r • P x
  Msm : ∀ (r : ℝ) x, M (r • x) = r • M x
  Psy : ∀ x y, rdot (P x) y = rdot x (P y)
  Msy : ∀ x y, rdot (M x) y = rdot x (M y)
  cr : ∀ x y, idot (P x) y = idot x (M y)

namespace Pair
variable {P M : Vc n → Vc n} (h : Pair P M)
include h

theorem cr' (x y : Vc n) : idot (M x) y = idot x (P y) := by
  rw [idot_anti, ← h.cr, idot_anti]; ring

theorem P0 : P 0 = 0 := by have := h.Psm 0 0; simpa using this
theorem M0 : M 0 = 0 := by have := h.Msm 0 0; simpa using this

theorem Psum (s : Finset ℕ) (f : ℕ → Vc n) : P (∑ i ∈ s, f i) = ∑ i ∈ s, P (f i) := by
  induction s using Finset.induction_on with
  | empty => simp [h.P0]
  | insert a t h' ih => rw [Finset.sum_insert h', Finset.sum_insert h', h.Padd, ih]
theorem Msum (s : Finset ℕ) (f : ℕ → Vc n) : M (∑ i ∈ s, f i) = ∑ i ∈ s, M (f i) := by
  induction s using Finset.induction_on with
  | empty => simp [h.M0]
  | insert a t h' ih => rw [Finset.sum_insert h', Finset.sum_insert h', h.Madd, ih]

end Pair

theorem dot_mulVec (A : Matrix (Fin n) (Fin n) ℂ) (x y : Vc n) : dot x (A *ᵥ y) = dot (Aᴴ *ᵥ x) y := by
  unfold dot
  rw [star_mulVec, dotProduct_mulVec]; simp

theorem dot_star (x y : Vc n) : dot y x = star (dot x y) := by
  unfold dot; rw [star_dotProduct]

theorem dot_sym (C : Matrix (Fin n) (Fin n) ℂ) (hC : Cᵀ = C) (x y : Vc n) : dot x (C *ᵥ star y) = dot y (C *ᵥ star x) := by
  unfold dot
  rw [dotProduct_mulVec, ← mulVec_transpose, hC, dotProduct_comm]

theorem shift_pos (B : Blk n) (x : Vc n) : applyShift B 1 x = B.R *ᵥ x + B.C *ᵥ star x := by
  unfold applyShift low
  rw [if_neg (by norm_num), add_comm]

theorem shift_neg (B : Blk n) (x : Vc n) : applyShift B (-1) x = B.R *ᵥ x - B.C *ᵥ star x := by
  unfold applyShift low
  rw [if_pos rfl, mulVec_neg]; abel

theorem star_rsmul (r : ℝ) (x : Vc n) : star (r • x) = r • star x := by
  ext i; simp

theorem pair_shift (B : Blk n) (hR : B.R.IsHermitian) (hC : B.Cᵀ = B.C) : Pair (applyShift B 1) (applyShift B (-1)) where
  Padd x y := by simp only [shift_pos, star_add, mulVec_add]; abel
  Madd x y := by simp only [shift_neg, star_add, mulVec_add]; abel
  Psm r x := by simp only [shift_pos, star_rsmul, mulVec_smul, smul_add]
  Msm r x := by simp only [shift_neg, star_rsmul, mulVec_smul, smul_sub]
  Psy x y := by
    rw [shift_pos, shift_pos, rdot_comm, rdot_add, rdot_add]
    unfold rdot
    rw [dot_mulVec, hR.eq, dot_star, dot_sym B.C hC y x]; simp
  Msy x y := by
    rw [shift_neg, shift_neg, rdot_comm, rdot_sub, rdot_sub]
    unfold rdot
    rw [dot_mulVec, hR.eq, dot_star, dot_sym B.C hC y x]; simp
  cr x y := by
    rw [shift_neg, shift_pos, idot_anti, idot_add, idot_sub]
    unfold idot
    rw [dot_mulVec, hR.eq, dot_star x, dot_sym B.C hC y x]; simp; ring

end Verif.Bse
