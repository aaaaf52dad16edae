import Verif.MFN.KrylovModel
import Verif.BV.KrylovTheorems
/-!
Lemmas on polynomials of Hessenberg matrices in Krylov relations.
-/
set_option linter.all false
namespace Verif.MFN
noncomputable section
open Verif.BV Polynomial
variable {𝕜 : Type} [RCLike 𝕜]

/-- First unit vector. -/
def e0 (n : Nat) : Fin n → 𝕜 := fun i => if i.val = 0 then 1 else 0

/-- Value of a polynomial at a matrix, first column. -/
def polyVec (q : 𝕜[X]) {n : Nat} (M : Matrix (Fin n) (Fin n) 𝕜) : Fin n → 𝕜 := (aeval M q).mulVec (e0 n)

theorem ext_mulVec (n : Nat) (H : Nat → Nat → 𝕜) (y : Fin n → 𝕜) (i : Nat) (hi : i < n) :
    ext ((mat n H).mulVec y) i = ∑ j ∈ Finset.range n, H i j * ext y j := by
  simp only [ext, hi, dif_pos, Matrix.mulVec, dotProduct, mat, Matrix.of_apply]
  rw [← Fin.sum_univ_eq_sum_range (fun j => H i j * if h : j < n then y ⟨j, h⟩ else 0)]
  refine Finset.sum_congr rfl fun j _ => ?_
  simp

theorem ext_ge {n : Nat} (y : Fin n → 𝕜) (i : Nat) (hi : n ≤ i) : ext y i = 0 := by
  simp [ext, Nat.not_lt.2 hi]

/-- Powers applied to the first unit vector. -/
def powVec (n : Nat) (H : Nat → Nat → 𝕜) (k : Nat) : Fin n → 𝕜 := (mat n H ^ k).mulVec (e0 n)

theorem powVec_succ (n : Nat) (H : Nat → Nat → 𝕜) (k : Nat) : powVec n H (k + 1) = (mat n H).mulVec (powVec n H k) := by
  unfold powVec
  rw [pow_succ', Matrix.mulVec_mulVec]

theorem powVec_support (n : Nat) (H : Nat → Nat → 𝕜) (hH : ∀ i j, j + 1 < i → H i j = 0) (k : Nat) :
    ∀ i, k < i → ext (powVec n H k) i = 0 := by
  induction k with
  | zero =>
    intro i hi
    simp only [powVec, pow_zero, Matrix.one_mulVec, ext, e0]
    split_ifs with h1 h2
    · omega
    · rfl
    · rfl
  | succ k ih =>
    intro i hi
    by_cases hin : i < n
    · rw [powVec_succ, ext_mulVec _ _ _ _ hin]
      refine Finset.sum_eq_zero fun j _ => ?_
      by_cases hj : j + 1 < i
      · rw [hH i j hj, zero_mul]
      · rw [ih j (by omega), mul_zero]
    · exact ext_ge _ _ (by omega)

theorem powVec_lead (d d' : Nat) (hd : 0 < d) (hdd : d ≤ d') (H H' : Nat → Nat → 𝕜)
    (h1 : ∀ i j, i < d → j < d → H' i j = H i j) (h2 : ∀ i j, i < d → d ≤ j → j < d' → H' i j = 0) (k : Nat) :
    ∀ i, i < d → ext (powVec d' H' k) i = ext (powVec d H k) i := by
  induction k with
  | zero =>
    intro i hi
    simp only [powVec, pow_zero, Matrix.one_mulVec, ext, e0, hi, dif_pos, show i < d' by omega]
  | succ k ih =>
    intro i hi
    rw [powVec_succ, powVec_succ, ext_mulVec _ _ _ _ (by omega), ext_mulVec _ _ _ _ hi]
    have hsub : Finset.range d ⊆ Finset.range d' := Finset.range_subset_range.2 hdd
    rw [← Finset.sum_subset hsub]
    · refine Finset.sum_congr rfl fun j hj => ?_
      have hj' := Finset.mem_range.1 hj
      rw [h1 i j hi hj', ih j hj']
    · intro j hj1 hj2
      have := Finset.mem_range.1 hj1
      have h3 : ¬ j < d := fun h => hj2 (Finset.mem_range.2 h)
      rw [h2 i j hi (by omega) this, zero_mul]

theorem polyVec_sum (q : 𝕜[X]) (n : Nat) (H : Nat → Nat → 𝕜) (i : Nat) :
    ext (polyVec q (mat n H)) i = ∑ k ∈ q.support, q.coeff k * ext (powVec n H k) i := by
  have : polyVec q (mat n H) = ∑ k ∈ q.support, q.coeff k • powVec n H k := by
    unfold polyVec powVec
    rw [aeval_eq_sum_range, Matrix.sum_mulVec]
    simp only [Matrix.smul_mulVec]
    symm
    refine Finset.sum_subset (fun k hk => Finset.mem_range.2 (Nat.lt_succ_of_le (le_natDegree_of_mem_supp k hk))) ?_
    intro k _ hk
    rw [notMem_support_iff.1 hk, zero_smul]
  rw [this]
  by_cases hi : i < n
  · simp only [ext, hi, dif_pos, Finset.sum_apply, Pi.smul_apply, smul_eq_mul]
  · simp [ext, hi]

theorem polyVec_lead (q : 𝕜[X]) (d d' : Nat) (hd : 0 < d) (hdd : d ≤ d') (H H' : Nat → Nat → 𝕜)
    (h1 : ∀ i j, i < d → j < d → H' i j = H i j) (h2 : ∀ i j, i < d → d ≤ j → j < d' → H' i j = 0) (i : Nat) (hi : i < d) :
    ext (polyVec q (mat d' H')) i = ext (polyVec q (mat d H)) i := by
  rw [polyVec_sum, polyVec_sum]
  exact Finset.sum_congr rfl fun k _ => by rw [powVec_lead d d' hd hdd H H' h1 h2 k i hi]

variable {E : Type} [AddCommGroup E] [Module 𝕜 E]

/-- Krylov relation of a sequence of `d` vectors: `A W = W H + u e_d^*`. -/
def KRel (A : E →ₗ[𝕜] E) (W : Nat → E) (d : Nat) (H : Nat → Nat → 𝕜) (u : E) : Prop :=
  ∀ j, j < d → A (W j) = ∑ i ∈ Finset.range d, H i j • W i + (if j + 1 = d then u else 0)

theorem KRel.apply {A : E →ₗ[𝕜] E} {W : Nat → E} {d : Nat} {H : Nat → Nat → 𝕜} {u : E} (h : KRel A W d H u) (hd : 0 < d)
    (y : Fin d → 𝕜) : A (∑ i ∈ Finset.range d, ext y i • W i) =
      ∑ i ∈ Finset.range d, ext ((mat d H).mulVec y) i • W i + ext y (d - 1) • u := by
  rw [map_sum]
  have h1 : ∀ i ∈ Finset.range d, A (ext y i • W i) =
      ∑ l ∈ Finset.range d, (H l i * ext y i) • W l + ext y i • (if i + 1 = d then u else 0) := by
    intro i hi
    rw [map_smul, h i (Finset.mem_range.1 hi), smul_add, Finset.smul_sum]
    congr 1
    exact Finset.sum_congr rfl fun l _ => by rw [smul_smul, mul_comm]
  rw [Finset.sum_congr rfl h1, Finset.sum_add_distrib, Finset.sum_comm]
  congr 1
  · refine Finset.sum_congr rfl fun l hl => ?_
    rw [ext_mulVec _ _ _ _ (Finset.mem_range.1 hl), Finset.sum_smul]
  · rw [Finset.sum_eq_single (d - 1)]
    · rw [if_pos (by omega)]
    · intro i hi hne
      rw [if_neg (by omega), smul_zero]
    · intro hc; exact absurd (Finset.mem_range.2 (by omega)) hc

theorem KRel.pow {A : E →ₗ[𝕜] E} {W : Nat → E} {d : Nat} {H : Nat → Nat → 𝕜} {u : E} (h : KRel A W d H u) (hd : 0 < d)
    (hH : ∀ i j, j + 1 < i → H i j = 0) (k : Nat) (hk : k < d ∨ u = 0) :
    (A ^ k) (W 0) = ∑ i ∈ Finset.range d, ext (powVec d H k) i • W i := by
  induction k with
  | zero =>
    rw [pow_zero, Module.End.one_apply, Finset.sum_eq_single 0]
    · simp [powVec, ext, e0, hd]
    · intro i hi hne
      have := Finset.mem_range.1 hi
      simp [powVec, ext, e0, this, hne]
    · intro hc; exact absurd (Finset.mem_range.2 hd) hc
  | succ k ih =>
    rw [pow_succ', Module.End.mul_apply, ih (hk.imp (by omega) id), h.apply hd, powVec_succ]
    rcases hk with hk | hk
    · rw [powVec_support d H hH k (d - 1) (by omega), zero_smul, add_zero]
    · rw [hk, smul_zero, add_zero]

theorem KRel.poly {A : E →ₗ[𝕜] E} {W : Nat → E} {d : Nat} {H : Nat → Nat → 𝕜} {u : E} (h : KRel A W d H u) (hd : 0 < d)
    (hH : ∀ i j, j + 1 < i → H i j = 0) (q : 𝕜[X]) (hq : q.natDegree < d ∨ u = 0) :
    (aeval A q) (W 0) = ∑ i ∈ Finset.range d, ext (polyVec q (mat d H)) i • W i := by
  have h1 : (aeval A q) (W 0) = ∑ k ∈ q.support, q.coeff k • (A ^ k) (W 0) := by
    rw [aeval_eq_sum_range, LinearMap.sum_apply]
    symm
    refine Finset.sum_subset (fun k hk => Finset.mem_range.2 (Nat.lt_succ_of_le (le_natDegree_of_mem_supp k hk))) ?_
    intro k _ hk
    rw [notMem_support_iff.1 hk, zero_smul]
  rw [h1]
  have h2 : ∀ k ∈ q.support, q.coeff k • (A ^ k) (W 0) =
      ∑ i ∈ Finset.range d, (q.coeff k * ext (powVec d H k) i) • W i := by
    intro k hk
    rw [h.pow hd hH k (hq.imp (fun hd => lt_of_le_of_lt (le_natDegree_of_mem_supp k hk) hd) id), Finset.smul_sum]
    exact Finset.sum_congr rfl fun i _ => smul_smul _ _ _
  rw [Finset.sum_congr rfl h2, Finset.sum_comm]
  refine Finset.sum_congr rfl fun i _ => ?_
  rw [polyVec_sum, Finset.sum_smul]

end
end Verif.MFN
