import Verif.GKL.SolveModel
import Mathlib.Analysis.InnerProductSpace.GramSchmidtOrtho
import Mathlib.Analysis.InnerProductSpace.Spectrum
import Mathlib.Analysis.InnerProductSpace.Adjoint
/-! The assumption on the dense solver can be met: every real square matrix has a singular value decomposition. -/
set_option linter.all false
namespace Verif.GKL
open Finset
local notation "Eu" m => EuclideanSpace ℝ (Fin m)

theorem svd_lin (m : ℕ) (T : (Eu m) →ₗ[ℝ] (Eu m)) : ∃ (p q : OrthonormalBasis (Fin m) ℝ (Eu m)) (w : Fin m → ℝ),
    (∀ a, 0 ≤ w a) ∧ (∀ a, T (q a) = w a • p a) ∧ (∀ a, LinearMap.adjoint T (p a) = w a • q a) := by
  have hsym : (LinearMap.adjoint T ∘ₗ T).IsSymmetric := LinearMap.isSymmetric_adjoint_mul_self T
  have hn : Module.finrank ℝ (Eu m) = m := finrank_euclideanSpace_fin
  obtain ⟨q, hq⟩ : ∃ q, q = hsym.eigenvectorBasis hn := ⟨_, rfl⟩
  have hS : ∀ i j, inner ℝ (T (q i)) (T (q j)) = if i = j then hsym.eigenvalues hn j else 0 := by
    intro i j
    rw [← LinearMap.adjoint_inner_right]
    have h1 : LinearMap.adjoint T (T (q j)) = hsym.eigenvalues hn j • q j := by
      have := hsym.apply_eigenvectorBasis hn j
      rw [hq]; exact this
    rw [h1, inner_smul_right, orthonormal_iff_ite.mp q.orthonormal i j]
    by_cases e : i = j
    · rw [if_pos e, if_pos e, mul_one]
    · rw [if_neg e, if_neg e, mul_zero]
  have hcard : Module.finrank ℝ (Eu m) = Fintype.card (Fin m) := by rw [hn, Fintype.card_fin]
  obtain ⟨p, hp⟩ : ∃ p : OrthonormalBasis (Fin m) ℝ (Eu m), p = InnerProductSpace.gramSchmidtOrthonormalBasis hcard (fun i => T (q i)) := ⟨_, rfl⟩
  have hpi : ∀ i, T (q i) = ‖T (q i)‖ • p i := by
    intro i
    by_cases h0 : T (q i) = 0
    · rw [h0, norm_zero, zero_smul]
    · have := InnerProductSpace.gramSchmidtOrthonormalBasis_apply_of_orthogonal (𝕜 := ℝ) hcard (f := fun i => T (q i)) (fun i j hij => by
        show inner ℝ (T (q i)) (T (q j)) = 0
        rw [hS, if_neg hij]) (i := i) h0
      rw [hp, this]
      show T (q i) = ‖T (q i)‖ • ((‖T (q i)‖⁻¹ : ℝ) • T (q i))
      rw [smul_smul, mul_inv_cancel₀ (norm_ne_zero_iff.mpr h0), one_smul]
  refine ⟨p, q, fun a => ‖T (q a)‖, fun a => norm_nonneg _, hpi, fun a => ?_⟩
  refine InnerProductSpace.ext_inner_right_basis q.toBasis fun j => ?_
  rw [OrthonormalBasis.coe_toBasis, LinearMap.adjoint_inner_left, hpi j, inner_smul_right, inner_smul_left, orthonormal_iff_ite.mp p.orthonormal a j,
    orthonormal_iff_ite.mp q.orthonormal a j]
  by_cases e : a = j
  · subst e
    rw [if_pos rfl]
    rfl
  · rw [if_neg e, mul_zero, mul_zero]

theorem svd_mat (m : ℕ) (M : Fin m → Fin m → ℝ) : ∃ (P Q : Fin m → Fin m → ℝ) (w : Fin m → ℝ), (∀ a, 0 ≤ w a) ∧
    (∀ a b, ∑ i, P i a * P i b = if a = b then 1 else 0) ∧ (∀ a b, ∑ i, Q i a * Q i b = if a = b then 1 else 0) ∧
    (∀ i a, ∑ j, M i j * Q j a = P i a * w a) ∧ (∀ j a, ∑ i, M i j * P i a = Q j a * w a) := by
  obtain ⟨p, q, w, h0, h1, h2⟩ := svd_lin m (Matrix.toEuclideanLin (Matrix.of M))
  have hin : ∀ x y : Eu m, inner ℝ x y = ∑ i, x i * y i := by
    intro x y
    rw [PiLp.inner_apply]
    exact sum_congr rfl fun i _ => by simp [mul_comm]
  have hT : ∀ (x : Eu m) i, (Matrix.toEuclideanLin (Matrix.of M) x) i = ∑ j, M i j * x j := by
    intro x i
    simp [Matrix.toLpLin_apply, Matrix.mulVec, dotProduct]
  have hTa : ∀ (x : Eu m) j, (LinearMap.adjoint (Matrix.toEuclideanLin (Matrix.of M)) x) j = ∑ i, M i j * x i := by
    intro x j
    rw [← Matrix.toEuclideanLin_conjTranspose_eq_adjoint]
    simp [Matrix.toLpLin_apply, Matrix.mulVec, dotProduct, Matrix.conjTranspose]
  refine ⟨fun i a => p a i, fun i a => q a i, w, h0, fun a b => ?_, fun a b => ?_, fun i a => ?_, fun j a => ?_⟩
  · rw [← hin, orthonormal_iff_ite.mp p.orthonormal a b]
  · rw [← hin, orthonormal_iff_ite.mp q.orthonormal a b]
  · rw [← hT, h1 a]; simp [mul_comm]
  · rw [← hTa, h2 a]; simp [mul_comm]

/-- Every matrix has a decomposition as asked for. -/
theorem isSvd_exists (c n : ℕ) (hc : c ≤ n) (B : ℕ → ℕ → ℝ) : ∃ d, IsSvd c n B d := by
  obtain ⟨P, Q, w, h0, h1, h2, h3, h4⟩ := svd_mat (n - c) (fun i j => B (c + i) (c + j))
  have hs : ∀ f : ℕ → ℝ, ∑ i ∈ Ico c n, f i = ∑ i : Fin (n - c), f (c + i) := by
    intro f; rw [Finset.sum_Ico_eq_sum_range, Finset.sum_range]
  let X : (Fin (n - c) → Fin (n - c) → ℝ) → ℕ → ℕ → ℝ := fun P i a => if h : c ≤ i ∧ i < n ∧ c ≤ a ∧ a < n then P ⟨i - c, by omega⟩ ⟨a - c, by omega⟩ else 0
  have hX : ∀ P (i : Fin (n - c)) a (ha : c ≤ a ∧ a < n), X P (c + i) a = P i ⟨a - c, by omega⟩ := by
    intro P i a ha
    have := i.2
    show (if h : c ≤ c + i ∧ c + i < n ∧ c ≤ a ∧ a < n then P ⟨c + i - c, by omega⟩ ⟨a - c, by omega⟩ else 0) = _
    rw [dif_pos ⟨by omega, by omega, ha.1, ha.2⟩]
    congr 1
    exact Fin.ext (by show c + i - c = i; omega)
  let W : ℕ → ℝ := fun a => if h : c ≤ a ∧ a < n then w ⟨a - c, by omega⟩ else 0
  have hW : ∀ a (ha : c ≤ a ∧ a < n), W a = w ⟨a - c, by omega⟩ := fun a ha => dif_pos ha
  have hXi : ∀ P i a (hi : c ≤ i ∧ i < n) (ha : c ≤ a ∧ a < n), X P i a = P ⟨i - c, by omega⟩ ⟨a - c, by omega⟩ := fun P i a hi ha =>
    dif_pos ⟨hi.1, hi.2, ha.1, ha.2⟩
  have hon : ∀ P : Fin (n - c) → Fin (n - c) → ℝ, (∀ a b, ∑ i, P i a * P i b = if a = b then 1 else 0) → ∀ a b, c ≤ a → a < n → c ≤ b → b < n →
      ∑ i ∈ Ico c n, X P i a * X P i b = if a = b then 1 else 0 := by
    intro P hP a b ha1 ha2 hb1 hb2
    rw [hs]
    have e : ∀ i : Fin (n - c), X P (c + i) a * X P (c + i) b = P i ⟨a - c, by omega⟩ * P i ⟨b - c, by omega⟩ := fun i => by rw [hX P i a ⟨ha1, ha2⟩, hX P i b ⟨hb1, hb2⟩]
    rw [sum_congr rfl fun i _ => e i, hP]
    by_cases h : a = b
    · subst h; rw [if_pos rfl, if_pos rfl]
    · rw [if_neg h, if_neg (fun e => h (by have := congrArg Fin.val e; simp only at this; omega))]
  refine ⟨⟨X P, X Q, W⟩, hon P h1, hon Q h2, ?_, ?_, ?_⟩
  · intro i a hi1 hi2 ha1 ha2
    show ∑ j ∈ Ico c n, B i j * X Q j a = X P i a * W a
    rw [hs, hXi P i a ⟨hi1, hi2⟩ ⟨ha1, ha2⟩, hW a ⟨ha1, ha2⟩, ← h3]
    refine sum_congr rfl fun j _ => ?_
    rw [hX Q j a ⟨ha1, ha2⟩]
    show B i (c + j) * _ = B (c + (i - c)) (c + j) * _
    rw [show c + (i - c) = i by omega]
  · intro j a hi1 hi2 ha1 ha2
    show ∑ i ∈ Ico c n, B i j * X P i a = X Q j a * W a
    rw [hs, hXi Q j a ⟨hi1, hi2⟩ ⟨ha1, ha2⟩, hW a ⟨ha1, ha2⟩, ← h4]
    refine sum_congr rfl fun i _ => ?_
    rw [hX P i a ⟨ha1, ha2⟩]
    show B (c + i) j * _ = B (c + i) (c + (j - c)) * _
    rw [show c + (j - c) = j by omega]
  · intro a ha1 ha2
    show 0 ≤ W a
    rw [hW a ⟨ha1, ha2⟩]; exact h0 _

open Classical in
/-- A dense solver that meets the assumption of the theorems. -/
noncomputable def exactDense : Dense := fun raw l k n alpha beta =>
  if h : l ≤ n then some (isSvd_exists l n h (bent (if raw then k else l) alpha beta)).choose else none

theorem exactDense_ok : DenseOK exactDense := by
  intro raw l k n alpha beta hn hl hr
  exact ⟨_, dif_pos hl, (isSvd_exists l n hl (bent (if raw then k else l) alpha beta)).choose_spec⟩

end Verif.GKL
