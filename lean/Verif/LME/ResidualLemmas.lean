import Verif.MFN.CycleLemmas
import Mathlib.Analysis.InnerProductSpace.Adjoint
import Mathlib.LinearAlgebra.Matrix.ConjTranspose
/-!
Operators of low rank, the residual of a Lyapunov equation, and its form when the solution comes from a Krylov relation.
-/
set_option linter.all false
namespace Verif.LME
noncomputable section
open Verif.BV Verif.MFN Matrix
variable {𝕜 : Type} [RCLike 𝕜] {E : Type} [NormedAddCommGroup E] [InnerProductSpace 𝕜 E]

/-- The operator `W Y W^*`, for vectors `W 0, ..., W (n-1)`. -/
def lift (n : Nat) (W : Nat → E) (Y : Matrix (Fin n) (Fin n) 𝕜) (z : E) : E :=
  ∑ i : Fin n, (Y *ᵥ fun j : Fin n => inner 𝕜 (W j) z) i • W i

/-- The operator `Z Z^*`, for vectors `Z 0, ..., Z (r-1)`: the solution in low-rank form. -/
def lowRank (𝕜 : Type) [RCLike 𝕜] [InnerProductSpace 𝕜 E] (r : Nat) (Z : Nat → E) (z : E) : E := ∑ c ∈ Finset.range r, inner 𝕜 (Z c) z • Z c

/-- The residual `A X + X A^* + b b^*` of the Lyapunov equation, applied to a vector. -/
def resid [FiniteDimensional 𝕜 E] (A : E →ₗ[𝕜] E) (X : E → E) (b z : E) : E :=
  A (X z) + X (A.adjoint z) + inner 𝕜 b z • b

/-- `W Y e_n`. -/
def lastCombo (n : Nat) (hn : 0 < n) (W : Nat → E) (Y : Matrix (Fin n) (Fin n) 𝕜) : E := ∑ i : Fin n, Y i ⟨n - 1, by omega⟩ • W i

/-- The right-hand side `-c e_0 e_0^*` of the projected equation. -/
def projRhs (n : Nat) (c : 𝕜) : Matrix (Fin n) (Fin n) 𝕜 := Matrix.of fun i j => if i.1 = 0 ∧ j.1 = 0 then -c else 0

theorem lift_ext (n : Nat) (W : Nat → E) (c : Fin n → 𝕜) :
    ∑ i : Fin n, c i • W i = ∑ i ∈ Finset.range n, MFN.ext c i • W i := by
  rw [← Fin.sum_univ_eq_sum_range (fun i => MFN.ext c i • W i)]
  exact Finset.sum_congr rfl fun i _ => by simp [MFN.ext]

theorem ext_last (n : Nat) (hn : 0 < n) (c : Fin n → 𝕜) : MFN.ext c (n - 1) = c ⟨n - 1, by omega⟩ := by
  unfold MFN.ext; rw [dif_pos (by omega)]

theorem comb_add (n : Nat) (W : Nat → E) (c d : Fin n → 𝕜) :
    ∑ i : Fin n, c i • W i + ∑ i : Fin n, d i • W i = ∑ i : Fin n, (c + d) i • W i := by
  rw [← Finset.sum_add_distrib]; exact Finset.sum_congr rfl fun i _ => by rw [Pi.add_apply, add_smul]

theorem resid_krylov [FiniteDimensional 𝕜 E] (A : E →ₗ[𝕜] E) (W : Nat → E) (n : Nat) (hn : 0 < n) (G : Nat → Nat → 𝕜) (beta : ℝ) (u : E)
    (h : KRel A W n G ((beta : 𝕜) • u)) (Y : Matrix (Fin n) (Fin n) 𝕜) (hY : Yᴴ = Y) (c : ℝ) (b : E)
    (hb : b = (c : 𝕜) • W 0) (hl : mat n G * Y + Y * (mat n G)ᴴ = projRhs n ((c ^ 2 : ℝ) : 𝕜)) (z : E) :
    resid A (lift n W Y) b z =
      (beta : 𝕜) • (inner 𝕜 (lastCombo n hn W Y) z • u + inner 𝕜 u z • lastCombo n hn W Y) := by
  set a : Fin n → 𝕜 := fun j => inner 𝕜 (W j) z with ha
  have e1 : A (lift n W Y z) = ∑ i : Fin n, (mat n G *ᵥ (Y *ᵥ a)) i • W i + (Y *ᵥ a) ⟨n - 1, by omega⟩ • (beta : 𝕜) • u := by
    unfold lift
    rw [lift_ext, h.apply hn, ← lift_ext, ext_last n hn]
  have e2 : (fun j : Fin n => inner 𝕜 (W j) (A.adjoint z)) =
      (mat n G)ᴴ *ᵥ a + fun j : Fin n => if j.1 + 1 = n then (beta : 𝕜) * inner 𝕜 u z else 0 := by
    funext j
    rw [LinearMap.adjoint_inner_right, h j.1 j.2, inner_add_left, sum_inner, Pi.add_apply]
    congr 1
    · rw [← Fin.sum_univ_eq_sum_range (fun i => inner 𝕜 (G i j.1 • W i) z)]
      simp only [mulVec, dotProduct, conjTranspose_apply, mat, of_apply, inner_smul_left, ha]
      rfl
    · by_cases hj : j.1 + 1 = n
      · rw [if_pos hj, if_pos hj, inner_smul_left, RCLike.conj_ofReal]
      · rw [if_neg hj, if_neg hj, inner_zero_left]
  have e3 : Y *ᵥ (fun j : Fin n => if j.1 + 1 = n then (beta : 𝕜) * inner 𝕜 u z else 0) =
      fun i => Y i ⟨n - 1, by omega⟩ * ((beta : 𝕜) * inner 𝕜 u z) := by
    funext i
    simp only [mulVec, dotProduct]
    rw [Finset.sum_eq_single ⟨n - 1, by omega⟩]
    · rw [if_pos (by simp only; omega)]
    · intro j _ hj
      rw [if_neg (fun hc => hj (Fin.ext (by simp only; omega))), mul_zero]
    · intro hc; exact absurd (Finset.mem_univ _) hc
  have e4 : lift n W Y (A.adjoint z) = ∑ i : Fin n, (Y *ᵥ ((mat n G)ᴴ *ᵥ a)) i • W i + ((beta : 𝕜) * inner 𝕜 u z) • lastCombo n hn W Y := by
    unfold lift lastCombo
    rw [e2, mulVec_add, e3, ← comb_add, Finset.smul_sum]
    congr 1
    exact Finset.sum_congr rfl fun i _ => by rw [smul_smul, mul_comm]
  have e5 : ∑ i : Fin n, (mat n G *ᵥ (Y *ᵥ a)) i • W i + ∑ i : Fin n, (Y *ᵥ ((mat n G)ᴴ *ᵥ a)) i • W i = -(inner 𝕜 b z • b) := by
    rw [comb_add, mulVec_mulVec, mulVec_mulVec, ← add_mulVec, hl]
    rw [Finset.sum_eq_single ⟨0, hn⟩]
    · simp only [mulVec, dotProduct, projRhs, of_apply, true_and]
      rw [Finset.sum_eq_single ⟨0, hn⟩]
      · rw [if_pos rfl, hb, inner_smul_left, RCLike.conj_ofReal, smul_smul, ← neg_smul]
        congr 1
        simp only [ha]
        push_cast
        ring
      · intro j _ hj
        rw [if_neg (fun hc => hj (Fin.ext hc)), zero_mul]
      · intro hc; exact absurd (Finset.mem_univ _) hc
    · intro i _ hi
      have : (projRhs n ((c ^ 2 : ℝ) : 𝕜) *ᵥ a) i = 0 := by
        simp only [mulVec, dotProduct, projRhs, of_apply]
        refine Finset.sum_eq_zero fun j _ => ?_
        rw [if_neg (fun hc => hi (Fin.ext hc.1)), zero_mul]
      rw [this, zero_smul]
    · intro hc; exact absurd (Finset.mem_univ _) hc
  have e6 : (Y *ᵥ a) ⟨n - 1, by omega⟩ = inner 𝕜 (lastCombo n hn W Y) z := by
    unfold lastCombo
    rw [sum_inner]
    simp only [mulVec, dotProduct, inner_smul_left, ha]
    refine Finset.sum_congr rfl fun j _ => ?_
    congr 1
    have := congrFun (congrFun hY ⟨n - 1, by omega⟩) j
    rw [conjTranspose_apply] at this
    exact this.symm
  unfold resid
  rw [e1, e4, e6]
  have : ∀ p q r s t : E, p + q + (r + s) + t = (p + r + t) + (q + s) := by intros; abel
  rw [this, e5, neg_add_cancel, zero_add, smul_add, smul_smul, smul_smul, smul_smul, mul_comm]

/-- The norm of the rank-two operator `w u^* + u w^*` with `u` a unit vector orthogonal to `w`. -/
theorem rank2_norm_sq (u w : E) (hu : ‖u‖ = 1) (hw : inner 𝕜 u w = 0) (z : E) :
    ‖inner 𝕜 w z • u + inner 𝕜 u z • w‖ ^ 2 = ‖inner 𝕜 w z‖ ^ 2 + ‖inner 𝕜 u z‖ ^ 2 * ‖w‖ ^ 2 := by
  have h0 : inner 𝕜 (inner 𝕜 w z • u) (inner 𝕜 u z • w) = 0 := by
    rw [inner_smul_left, inner_smul_right, hw]; simp
  have := norm_add_sq_eq_norm_sq_add_norm_sq_of_inner_eq_zero (𝕜 := 𝕜) (inner 𝕜 w z • u) (inner 𝕜 u z • w) h0
  rw [sq, this, norm_smul, norm_smul, hu]
  ring

theorem rank2_le (u w : E) (hu : ‖u‖ = 1) (hw : inner 𝕜 u w = 0) (z : E) :
    ‖inner 𝕜 w z • u + inner 𝕜 u z • w‖ ≤ ‖w‖ * ‖z‖ := by
  have h1 := rank2_norm_sq (𝕜 := 𝕜) u w hu hw z
  have hz : ‖z‖ ^ 2 = ‖inner 𝕜 u z‖ ^ 2 + ‖z - inner 𝕜 u z • u‖ ^ 2 := by
    have h0 : inner 𝕜 (inner 𝕜 u z • u) (z - inner 𝕜 u z • u) = 0 := by
      rw [inner_smul_left, inner_sub_right, inner_smul_right, inner_self_eq_norm_sq_to_K, hu]; simp
    have := norm_add_sq_eq_norm_sq_add_norm_sq_of_inner_eq_zero (𝕜 := 𝕜) (inner 𝕜 u z • u) (z - inner 𝕜 u z • u) h0
    rw [add_sub_cancel, norm_smul, hu] at this
    nlinarith [this]
  have hwz : inner 𝕜 w z = inner 𝕜 w (z - inner 𝕜 u z • u) := by
    rw [inner_sub_right, inner_smul_right, inner_eq_zero_symm.1 hw, mul_zero, sub_zero]
  have h2 : ‖inner 𝕜 w z‖ ≤ ‖w‖ * ‖z - inner 𝕜 u z • u‖ := by rw [hwz]; exact norm_inner_le_norm _ _
  have h3 : ‖inner 𝕜 w z‖ ^ 2 ≤ ‖w‖ ^ 2 * ‖z - inner 𝕜 u z • u‖ ^ 2 := by
    rw [← mul_pow]; exact pow_le_pow_left₀ (norm_nonneg _) h2 2
  refine le_of_sq_le_sq ?_ (by positivity) |>.trans le_rfl
  rw [h1, mul_pow, hz]
  nlinarith [h3]

theorem rank2_at (u w : E) (hu : ‖u‖ = 1) (hw : inner 𝕜 u w = 0) :
    ‖inner 𝕜 w u • u + inner 𝕜 u u • w‖ = ‖w‖ := by
  rw [inner_eq_zero_symm.1 hw, zero_smul, zero_add, inner_self_eq_norm_sq_to_K, hu]
  simp

/-- A product of factors is the lifted product. -/
theorem lowRank_eq_lift (n : Nat) (W : Nat → E) (Lm : Matrix (Fin n) (Fin n) 𝕜) (Z : Nat → E)
    (hZ : ∀ c : Fin n, Z c = ∑ i : Fin n, Lm i c • W i) (z : E) : lowRank 𝕜 n Z z = lift n W (Lm * Lmᴴ) z := by
  unfold lowRank lift
  rw [← Fin.sum_univ_eq_sum_range (fun c => inner 𝕜 (Z c) z • Z c), ← mulVec_mulVec]
  have h1 : ∀ c : Fin n, inner 𝕜 (Z c) z = (Lmᴴ *ᵥ fun j : Fin n => inner 𝕜 (W j) z) c := by
    intro c
    rw [hZ, sum_inner]
    simp only [mulVec, dotProduct, conjTranspose_apply, inner_smul_left]
    rfl
  simp only [mulVec, dotProduct] at h1 ⊢
  simp only [Finset.sum_smul]
  rw [Finset.sum_comm]
  refine Finset.sum_congr rfl fun c _ => ?_
  rw [h1 c, hZ, Finset.smul_sum]
  refine Finset.sum_congr rfl fun i _ => ?_
  rw [smul_smul, mul_comm]

end
end Verif.LME
