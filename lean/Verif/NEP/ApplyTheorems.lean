import Verif.NEP.ApplyModel
import Mathlib.Tactic

/-! Operator, adjoint and errors of the nonlinear eigensolvers (C98, C100). -/
set_option linter.all false
noncomputable section
open Classical Matrix

namespace Verif.NEP.Apply

variable {ι : Type} [Fintype ι]

/-! ### Specification -/

/-- The matrix `T(lam)`. -/
def matT (P : Problem ι) (lam : ℂ) : Matrix ι ι ℂ :=
  if P.split then ∑ j ∈ Finset.range P.nt, P.f j lam • P.A j else P.call lam

/-- Inner product, conjugate linear in the first argument. -/
def inner (u v : ι → ℂ) : ℂ := ∑ i, star (u i) * v i

/-- Norm of the documented backward error: `sum_j |f_j| ||A_j||` in split form, `||T||` otherwise. -/
def scaleT (P : Problem ι) (lam : ℂ) : ℝ :=
  if P.split then ∑ j ∈ Finset.range P.nt, normInf (P.A j) * ‖P.f j lam‖ else normInf (P.call lam)

/-- The documented denominators. -/
def denominator (P : Problem ι) (lam : ℂ) : ErrType → ℝ
  | .absolute => 1
  | .relative => ‖lam‖
  | .backward => scaleT P lam

/-- Scale of the vector in each error. -/
def vscale (x : ι → ℂ) : ErrType → ℝ
  | .absolute => 1
  | _ => norm2 x

/-- The documented error of the right eigenpair. -/
def rightError (P : Problem ι) (lam : ℂ) (x : ι → ℂ) (t : ErrType) : ℝ := norm2 (matT P lam *ᵥ x) / (denominator P lam t * vscale x t)

/-- The documented error of the left eigenpair, with `y^* T(lam)`. -/
def leftError (P : Problem ι) (lam : ℂ) (y : ι → ℂ) (t : ErrType) : ℝ := norm2 (conjV y ᵥ* matT P lam) / (denominator P lam t * vscale y t)

/-! ### C98 -/

theorem fold_sum {M : Type*} [AddCommMonoid M] (g : ℕ → M) (m : M) (n : ℕ) : (List.range n).foldl (fun s j => s + g j) m = m + ∑ j ∈ Finset.range n, g j := by
  induction n with
  | zero => simp
  | succ n ih => rw [List.range_succ, List.foldl_append, ih, Finset.sum_range_succ, List.foldl_cons, List.foldl_nil, add_assoc]

/-- C98 (function): the product with `T(lam)`. -/
theorem C98_function (P : Problem ι) (lam : ℂ) (x : ι → ℂ) : applyFunction P lam x = matT P lam *ᵥ x := by
  unfold applyFunction matT
  by_cases h : P.split = true
  · rw [if_pos h, if_pos h, fold_sum (fun i => P.f i lam • (P.A i *ᵥ x)), zero_add, Matrix.sum_mulVec]
    exact Finset.sum_congr rfl fun j _ => (Matrix.smul_mulVec _ _ _).symm
  · rw [if_neg h, if_neg h]

theorem conj_multHT (A : Matrix ι ι ℂ) (x : ι → ℂ) : conjV (multHT A (conjV x)) = Aᵀ *ᵥ x := by
  funext i
  unfold conjV multHT
  simp [Matrix.mulVec, dotProduct, Matrix.conjTranspose_apply]

theorem conjV_smul (c : ℂ) (v : ι → ℂ) : conjV (c • v) = star c • conjV v := by funext i; simp [conjV]

theorem conjV_sum (n : ℕ) (g : ℕ → ι → ℂ) : conjV (∑ j ∈ Finset.range n, g j) = ∑ j ∈ Finset.range n, conjV (g j) := by
  funext i; simp [conjV, Finset.sum_apply]

/-- What the code computes. -/
theorem applyAdjoint_eq (P : Problem ι) (lam : ℂ) (x : ι → ℂ) :
    applyAdjoint P lam x = (if P.split then ∑ j ∈ Finset.range P.nt, star (P.f j lam) • (P.A j)ᵀ else (P.call lam)ᵀ) *ᵥ x := by
  unfold applyAdjoint
  dsimp only
  by_cases h : P.split = true
  · rw [if_pos h, if_pos h, fold_sum (fun i => P.f i lam • multHT (P.A i) (conjV x)), zero_add, conjV_sum, Matrix.sum_mulVec]
    exact Finset.sum_congr rfl fun j _ => by rw [conjV_smul, conj_multHT, Matrix.smul_mulVec]
  · rw [if_neg h, if_neg h, conj_multHT]

/-- Real entries. -/
def RealEntries (A : Matrix ι ι ℂ) : Prop := ∀ i j, (A i j).im = 0

theorem transpose_eq {A : Matrix ι ι ℂ} (h : RealEntries A) : Aᴴ = Aᵀ := by
  ext i j
  rw [Matrix.conjTranspose_apply, Matrix.transpose_apply]
  exact Complex.conj_eq_iff_im.2 (h j i)

theorem adjoint_eq {P : Problem ι} {lam : ℂ} (h : if P.split then ∀ j < P.nt, RealEntries (P.A j) else RealEntries (P.call lam)) (x : ι → ℂ) :
    applyAdjoint P lam x = (matT P lam)ᴴ *ᵥ x := by
  rw [applyAdjoint_eq]
  unfold matT
  by_cases hs : P.split = true
  · rw [if_pos hs] at h
    rw [if_pos hs, if_pos hs, Matrix.conjTranspose_sum]
    congr 1
    refine Finset.sum_congr rfl fun j hj => ?_
    rw [Matrix.conjTranspose_smul, transpose_eq (h j (Finset.mem_range.1 hj))]
  · rw [if_neg hs] at h
    rw [if_neg hs, if_neg hs, transpose_eq h]

/-- C98 (adjoint): right for real coefficient matrices in split form (with any complex function values), and for a real matrix `T(lam)` in
callback form. -/
theorem C98_adjoint_partial {P : Problem ι} {lam : ℂ} (h : if P.split then ∀ j < P.nt, RealEntries (P.A j) else RealEntries (P.call lam)) (x y : ι → ℂ) :
    inner (applyAdjoint P lam x) y = inner x (applyFunction P lam y) := by
  rw [adjoint_eq h, C98_function]
  have e : ∀ u v : ι → ℂ, inner u v = star u ⬝ᵥ v := fun u v => by simp [inner, dotProduct]
  rw [e, e, Matrix.star_mulVec, Matrix.conjTranspose_conjTranspose, Matrix.dotProduct_mulVec]

/-- C98 in callback form holds exactly for the real matrices. -/
theorem C98_false_callback {P : Problem ι} (hs : P.split = false) (lam : ℂ) :
    (∀ x y : ι → ℂ, inner (applyAdjoint P lam x) y = inner x (applyFunction P lam y)) ↔ RealEntries (P.call lam) := by
  constructor
  · intro h i j
    have h1 := h (Pi.single i 1) (Pi.single j 1)
    rw [applyAdjoint_eq, C98_function, matT] at h1
    simp only [hs, Bool.false_eq_true, if_false] at h1
    have e1 : inner ((P.call lam)ᵀ *ᵥ Pi.single i (1:ℂ)) (Pi.single j 1) = star (P.call lam i j) := by
      unfold inner
      rw [Finset.sum_eq_single j]
      · simp
      · intro k _ hk; simp [Pi.single_eq_of_ne hk]
      · intro hk; exact absurd (Finset.mem_univ _) hk
    have e2 : inner (Pi.single i (1:ℂ)) (P.call lam *ᵥ Pi.single j 1) = P.call lam i j := by
      unfold inner
      rw [Finset.sum_eq_single i]
      · simp
      · intro k _ hk; simp [Pi.single_eq_of_ne hk]
      · intro hk; exact absurd (Finset.mem_univ _) hk
    rw [e1, e2] at h1
    exact Complex.conj_eq_iff_im.1 h1
  · intro h x y
    exact C98_adjoint_partial (by simp only [hs, Bool.false_eq_true, if_false]; exact h) x y

/-- C98 fails in split form: for one term with a function value different from zero it holds exactly for the real matrices. -/
theorem C98_false_split {P : Problem ι} (hs : P.split = true) (hn : P.nt = 1) (lam : ℂ) (hf : P.f 0 lam ≠ 0) :
    (∀ x y : ι → ℂ, inner (applyAdjoint P lam x) y = inner x (applyFunction P lam y)) ↔ RealEntries (P.A 0) := by
  constructor
  · intro h i j
    have h1 := h (Pi.single i 1) (Pi.single j 1)
    rw [applyAdjoint_eq, C98_function, matT] at h1
    simp only [hs, if_true, hn, Finset.sum_range_one] at h1
    have e1 : inner ((star (P.f 0 lam) • (P.A 0)ᵀ) *ᵥ Pi.single i (1:ℂ)) (Pi.single j 1) = P.f 0 lam * star (P.A 0 i j) := by
      unfold inner
      rw [Finset.sum_eq_single j]
      · simp
      · intro k _ hk; simp [Pi.single_eq_of_ne hk]
      · intro hk; exact absurd (Finset.mem_univ _) hk
    have e2 : inner (Pi.single i (1:ℂ)) ((P.f 0 lam • P.A 0) *ᵥ Pi.single j 1) = P.f 0 lam * P.A 0 i j := by
      unfold inner
      rw [Finset.sum_eq_single i]
      · simp
      · intro k _ hk; simp [Pi.single_eq_of_ne hk]
      · intro hk; exact absurd (Finset.mem_univ _) hk
    rw [e1, e2] at h1
    exact Complex.conj_eq_iff_im.1 (mul_left_cancel₀ hf h1)
  · intro h x y
    refine C98_adjoint_partial ?_ x y
    rw [if_pos hs]
    intro j hj
    rw [hn] at hj
    obtain rfl : j = 0 := by omega
    exact h

/-- A split problem with a complex function value and a real matrix. -/
example : (if (Problem.mk (ι := Fin 2) true 1 (fun _ z => z) (fun _ => !![1, 2; 0, 3]) (fun _ => 0)).split then
    ∀ j < 1, RealEntries (!![1, 2; 0, 3] : Matrix (Fin 2) (Fin 2) ℂ) else False) := by
  rw [if_pos rfl]
  intro j _ i k
  fin_cases i <;> fin_cases k <;> simp

/-! ### C100 -/

theorem norm2_nonneg (x : ι → ℂ) : 0 ≤ norm2 x := Real.sqrt_nonneg _

theorem norm2_zero : norm2 (0 : ι → ℂ) = 0 := by unfold norm2; simp

theorem norm2_conj (x : ι → ℂ) : norm2 (conjV x) = norm2 x := by unfold norm2 conjV; simp

theorem initNorms_ok {P : Problem ι} {nrma : ℕ → ℝ} (h : nrma 0 = 0 ∨ ∀ j < P.nt, nrma j = normInf (P.A j)) :
    ∀ j < P.nt, initNorms P nrma j = normInf (P.A j) := by
  intro j hj
  unfold initNorms
  by_cases h0 : nrma 0 = 0
  · rw [if_pos h0]; rw [if_pos hj]
  · rw [if_neg h0]; exact h.resolve_left h0 j hj

theorem norms_inv (P : Problem ι) (l : List (Call ι)) : normsAfter P l 0 = 0 ∨ ∀ j < P.nt, normsAfter P l j = normInf (P.A j) := by
  induction l with
  | nil => exact Or.inl rfl
  | cons c l ih =>
    cases c with
    | error t lam x y type =>
      rw [normsAfter]
      unfold computeError
      cases type with
      | absolute => exact ih
      | relative => exact ih
      | backward =>
        dsimp only
        by_cases h : P.split = true
        · rw [if_pos h]; exact Or.inr (initNorms_ok ih)
        · rw [if_neg h]; exact ih
    | conv lam res =>
      rw [normsAfter]
      unfold convergedNorm
      by_cases h : P.split = true
      · rw [if_pos h]; exact Or.inr (initNorms_ok ih)
      · rw [if_neg h]; exact ih

theorem weight_eq {P : Problem ι} {nrma : ℕ → ℝ} (h : ∀ j < P.nt, nrma j = normInf (P.A j)) (lam : ℂ) :
    weight P nrma lam = ∑ j ∈ Finset.range P.nt, normInf (P.A j) * ‖P.f j lam‖ := by
  unfold weight
  rw [fold_sum (fun j => nrma j * ‖P.f j lam‖), zero_add]
  exact Finset.sum_congr rfl fun j hj => by rw [h j (Finset.mem_range.1 hj)]

theorem computeError_eq (P : Problem ι) (l : List (Call ι)) (twosided : Bool) (lam : ℂ) (x y : ι → ℂ) (t : ErrType)
    (hd : denominator P lam t * vscale x t ≠ 0) :
    (computeError P twosided lam x y t (normsAfter P l)).1 =
      some ((if twosided then max (residualNorm P false lam x) (residualNorm P true lam y) else residualNorm P false lam x) / (denominator P lam t * vscale x t)) := by
  unfold computeError
  cases t with
  | absolute => simp [denominator, vscale]
  | relative => dsimp only [denominator, vscale] at *; unfold pdiv; rw [if_neg hd]
  | backward =>
    dsimp only [denominator, vscale] at *
    unfold scaleT at *
    by_cases h : P.split = true
    · simp only [if_pos h] at hd ⊢
      rw [weight_eq (initNorms_ok (norms_inv P l))]
      unfold pdiv; rw [if_neg hd]
    · simp only [if_neg h] at hd ⊢
      unfold pdiv; rw [if_neg hd]

/-- C100 (one-sided): after any earlier calls the error is the documented one, and zero for an exact eigenpair; the documented divisor is required not
to vanish. -/
theorem C100_right_partial (P : Problem ι) (l : List (Call ι)) (lam : ℂ) (x y : ι → ℂ) (t : ErrType) (hd : denominator P lam t * vscale x t ≠ 0) :
    (computeError P false lam x y t (normsAfter P l)).1 = some (rightError P lam x t) ∧
    (matT P lam *ᵥ x = 0 → (computeError P false lam x y t (normsAfter P l)).1 = some 0) := by
  have h : (computeError P false lam x y t (normsAfter P l)).1 = some (rightError P lam x t) := by
    rw [computeError_eq P l false lam x y t hd]
    simp only [Bool.false_eq_true, if_false]
    unfold residualNorm rightError
    simp only [Bool.false_eq_true, if_false, C98_function]
  refine ⟨h, fun hz => ?_⟩
  rw [h]; unfold rightError; rw [hz, norm2_zero, zero_div]

theorem denominator_nonneg (P : Problem ι) (lam : ℂ) (t : ErrType) : 0 ≤ denominator P lam t := by
  cases t with
  | absolute => exact zero_le_one
  | relative => exact norm_nonneg _
  | backward =>
    unfold denominator scaleT
    by_cases h : P.split = true
    · simp only [if_pos h]; exact Finset.sum_nonneg fun j _ => mul_nonneg (NNReal.coe_nonneg _) (norm_nonneg _)
    · simp only [if_neg h]; exact NNReal.coe_nonneg _

/-- C100 (two-sided): the larger of both errors, when the adjoint is right (real matrices) and both vectors have the same norm. -/
theorem C100_twosided_partial {P : Problem ι} {lam : ℂ} (h : if P.split then ∀ j < P.nt, RealEntries (P.A j) else RealEntries (P.call lam)) (l : List (Call ι))
    (x y : ι → ℂ) (t : ErrType) (hd : denominator P lam t * vscale x t ≠ 0) (hxy : norm2 x = norm2 y) :
    (computeError P true lam x y t (normsAfter P l)).1 = some (max (rightError P lam x t) (leftError P lam y t)) := by
  rw [computeError_eq P l true lam x y t hd]
  simp only [if_true]
  have hv : vscale y t = vscale x t := by cases t <;> simp [vscale, hxy]
  have hl : residualNorm P true lam y = norm2 (conjV y ᵥ* matT P lam) := by
    unfold residualNorm
    rw [if_pos rfl, adjoint_eq h, ← norm2_conj]
    congr 1
    funext i
    simp [conjV, Matrix.mulVec, Matrix.vecMul, dotProduct, Matrix.conjTranspose_apply, mul_comm]
  have hpos : 0 ≤ denominator P lam t * vscale x t := by
    refine mul_nonneg (denominator_nonneg P lam t) ?_
    cases t with
    | absolute => exact zero_le_one
    | relative => exact norm2_nonneg x
    | backward => exact norm2_nonneg x
  unfold rightError leftError
  rw [hv, hl, ← max_div_div_right hpos]
  unfold residualNorm
  simp only [Bool.false_eq_true, if_false, C98_function]

/-- C100 fails for the relative error of an exact eigenpair with eigenvalue zero: no number is returned. -/
theorem C100_false_zero (P : Problem ι) (nrma : ℕ → ℝ) (twosided : Bool) (x y : ι → ℂ) :
    (computeError P twosided 0 x y .relative nrma).1 = none := by
  simp [computeError, pdiv]

/-- The problem with constant complex matrix in callback form. -/
def badP : Problem (Fin 2) := ⟨false, 0, fun _ _ => 0, fun _ => 0, fun _ => !![Complex.I, 0; 1, 0]⟩

/-- C100 fails for complex problems in callback form: exact right and left eigenvectors, with error 2. -/
theorem C100_false_adjoint (nrma : ℕ → ℝ) :
    matT badP 1 *ᵥ ![0, 1] = 0 ∧ conjV ![1, Complex.I] ᵥ* matT badP 1 = 0 ∧
    (computeError badP true 1 ![0, 1] ![1, Complex.I] .absolute nrma).1 = some 2 := by
  have hT : matT badP 1 = !![Complex.I, 0; 1, 0] := by simp [matT, badP]
  have h0 : matT badP 1 *ᵥ ![0, 1] = 0 := by rw [hT]; ext i; fin_cases i <;> simp [Matrix.mulVec, dotProduct]
  refine ⟨h0, ?_, ?_⟩
  · rw [hT]; ext i; fin_cases i <;> simp [Matrix.vecMul, dotProduct, conjV]
  · have h1 : residualNorm badP false 1 ![0, 1] = 0 := by
      unfold residualNorm; simp only [Bool.false_eq_true, if_false, C98_function, h0, norm2_zero]
    have h2 : applyAdjoint badP 1 ![1, Complex.I] = ![2 * Complex.I, 0] := by
      rw [applyAdjoint_eq]
      simp only [badP, Bool.false_eq_true, if_false]
      ext i; fin_cases i <;> simp [Matrix.mulVec, dotProduct]; ring
    have h3 : residualNorm badP true 1 ![1, Complex.I] = 2 := by
      unfold residualNorm; rw [if_pos rfl, h2]; unfold norm2
      simp [Fin.sum_univ_two]
    simp [computeError, h1, h3]

/-- The scalar problem `T(lam) = lam`. -/
def scalP : Problem (Fin 1) := ⟨true, 1, fun _ z => z, fun _ => 1, fun _ => 0⟩

/-- C100 fails when the norms of the right and left vectors differ: both relative errors are 1, the code returns 2. -/
theorem C100_false_left (nrma : ℕ → ℝ) :
    rightError scalP 1 ![1] .relative = 1 ∧ leftError scalP 1 ![2] .relative = 1 ∧
    (computeError scalP true 1 ![1] ![2] .relative nrma).1 = some 2 := by
  have hT : matT scalP 1 = 1 := by simp [matT, scalP]
  have n1 : norm2 (![1] : Fin 1 → ℂ) = 1 := by simp [norm2]
  have n2 : norm2 (![2] : Fin 1 → ℂ) = 2 := by simp [norm2]
  have c2 : conjV (![2] : Fin 1 → ℂ) = ![2] := by ext i; fin_cases i; simp [conjV]
  refine ⟨?_, ?_, ?_⟩
  · unfold rightError; rw [hT, Matrix.one_mulVec]; simp [denominator, vscale, n1]
  · unfold leftError; rw [hT, Matrix.vecMul_one, c2]; simp [denominator, vscale, n2]
  · have h1 : residualNorm scalP false 1 ![1] = 1 := by
      unfold residualNorm; simp only [Bool.false_eq_true, if_false, C98_function, hT, Matrix.one_mulVec, n1]
    have h2 : residualNorm scalP true 1 ![2] = 2 := by
      unfold residualNorm; rw [if_pos rfl, applyAdjoint_eq]
      simp [scalP, n2]
    simp [computeError, h1, h2, n1, pdiv]

example : denominator scalP 1 .backward * vscale (![1] : Fin 1 → ℂ) .backward ≠ 0 := by
  simp [denominator, vscale, scaleT, scalP, norm2, normInf]

end Verif.NEP.Apply
