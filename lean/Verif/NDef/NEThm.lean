import Verif.NDef.NEModel
import Mathlib.Analysis.Calculus.Deriv.Inv

/-!
# C146: non-equivalence deflation
-/

set_option linter.all false

namespace Verif.NDef.NE
open Matrix

variable {ι : Type} [Fintype ι] [DecidableEq ι] {k : ℕ} {V W : Matrix ι (Fin k) ℂ} {e : Fin k → ℂ} {l : ℂ} {F J : Matrix ι ι ℂ}

/-- the factor of the deflation -/
noncomputable def K (V W : Matrix ι (Fin k) ℂ) (e : Fin k → ℂ) (l : ℂ) : Matrix ι ι ℂ := 1 - W * diagonal (alpha l e) * Vᴴ

theorem K_mulVec (x : ι → ℂ) : K V W e l *ᵥ x = x - W *ᵥ fun i => (Vᴴ *ᵥ x) i * alpha l e i := by
  unfold K
  rw [sub_mulVec, one_mulVec, ← mulVec_mulVec, ← mulVec_mulVec]
  congr 2
  funext i
  rw [mulVec_diagonal, mul_comm]

theorem mul_eq (h : ∀ i, l ≠ e i) (x : ι → ℂ) : mulNE F J V W e l false x = some (F *ᵥ (K V W e l *ᵥ x)) := by
  unfold mulNE
  rw [if_neg (by simpa [sub_eq_zero] using h), K_mulVec]
  simp

theorem star_mulVec' {n m : Type} [Fintype m] (A : Matrix n m ℂ) (x : m → ℂ) : star (A *ᵥ x) = A.map star *ᵥ star x := by
  funext i
  simp [mulVec, dotProduct, star_sum]

theorem map_H {n m : Type} (A : Matrix n m ℂ) : Aᴴ.map star = Aᵀ := by
  ext i j; simp

theorem KT_mulVec (x : ι → ℂ) : (K V W e l)ᵀ *ᵥ x = star (star x - V *ᵥ fun i => (Wᴴ *ᵥ star x) i * star (alpha l e i)) := by
  unfold K
  rw [transpose_sub, transpose_one, transpose_mul, transpose_mul, sub_mulVec, one_mulVec, star_sub, star_star, ← mulVec_mulVec, ← mulVec_mulVec, star_mulVec']
  congr 1
  have h1 : (Vᴴ)ᵀ = V.map star := by ext i j; rfl
  rw [h1]
  congr 1
  funext i
  rw [diagonal_transpose, mulVec_diagonal]
  simp only [Pi.star_apply, star_mul', star_star]
  rw [mul_comm]
  congr 1
  have := congrFun (star_mulVec' Wᴴ (star x)) i
  rw [star_star] at this
  simp only [Pi.star_apply] at this
  rw [this]
  exact congrFun (congrArg (· *ᵥ x) (map_H W).symm) i

theorem mulT_eq (h : ∀ i, l ≠ e i) (x : ι → ℂ) : mulTNE F J V W e l false x = some (Fᵀ *ᵥ ((K V W e l)ᵀ *ᵥ x)) := by
  unfold mulTNE
  rw [if_neg (by simpa [sub_eq_zero] using h), KT_mulVec]
  simp

theorem one_sub_alpha (h : l ≠ e i) : 1 - alpha l e i = 1 / (l - e i) := by
  unfold alpha
  have := sub_ne_zero.2 h
  field_simp
  ring

/-- the inverse of the factor -/
theorem K_inv (hVW : Vᴴ * W = 1) (h : ∀ i, l ≠ e i) :
    K V W e l * (1 + W * diagonal (fun i => alpha l e i / (1 - alpha l e i)) * Vᴴ) = 1 := by
  unfold K
  set D := diagonal (alpha l e) with hD
  set E := diagonal (fun i => alpha l e i / (1 - alpha l e i)) with hE
  have h1 : W * D * Vᴴ * (W * E * Vᴴ) = W * (D * E) * Vᴴ := by
    calc W * D * Vᴴ * (W * E * Vᴴ) = W * D * (Vᴴ * W) * E * Vᴴ := by simp only [Matrix.mul_assoc]
      _ = _ := by rw [hVW, Matrix.mul_one]; simp only [Matrix.mul_assoc]
  have h2 : E - D - D * E = 0 := by
    rw [hD, hE, diagonal_mul_diagonal, diagonal_sub, diagonal_sub, ← diagonal_zero, diagonal_eq_diagonal_iff]
    intro i
    have : 1 - alpha l e i ≠ 0 := by rw [one_sub_alpha (h i)]; exact one_div_ne_zero (sub_ne_zero.2 (h i))
    field_simp
    ring
  have : (1 - W * D * Vᴴ) * (1 + W * E * Vᴴ) = 1 + W * (E - D - D * E) * Vᴴ := by
    rw [Matrix.sub_mul, Matrix.one_mul, Matrix.mul_add, Matrix.mul_one, h1]
    simp only [Matrix.mul_sub, Matrix.sub_mul]
    abel
  rw [this, h2]; simp

theorem K_inv' (hVW : Vᴴ * W = 1) (h : ∀ i, l ≠ e i) :
    (1 + W * diagonal (fun i => alpha l e i / (1 - alpha l e i)) * Vᴴ) * K V W e l = 1 := mul_eq_one_comm.1 (K_inv hVW h)

theorem K_det (hVW : Vᴴ * W = 1) (h : ∀ i, l ≠ e i) : (K V W e l).det * ∏ i, (l - e i) = 1 := by
  have h1 : (K V W e l).det = ∏ i, (1 / (l - e i)) := by
    unfold K
    rw [Matrix.mul_assoc, Matrix.det_one_sub_mul_comm, Matrix.mul_assoc, hVW, Matrix.mul_one, ← diagonal_one, diagonal_sub, det_diagonal]
    exact Finset.prod_congr rfl fun i _ => one_sub_alpha (h i)
  rw [h1, ← Finset.prod_mul_distrib]
  exact Finset.prod_eq_one fun i _ => one_div_mul_cancel (sub_ne_zero.2 (h i))

/-- the product with the deflated operator as a matrix -/
noncomputable def That (F : Matrix ι ι ℂ) (V W : Matrix ι (Fin k) ℂ) (e : Fin k → ℂ) (l : ℂ) : Matrix ι ι ℂ := F * K V W e l

/-- **C146** (product and determinant).  For biorthogonal bases and a parameter that is none of the computed eigenvalues the product is with a matrix whose determinant times the product of
    the differences to the computed eigenvalues is the determinant of the original operator. -/
theorem C146_det (hVW : Vᴴ * W = 1) (h : ∀ i, l ≠ e i) :
    ∃ M : Matrix ι ι ℂ, (∀ x, mulNE F J V W e l false x = some (M *ᵥ x)) ∧ M.det * ∏ i, (l - e i) = F.det := by
  refine ⟨F * K V W e l, fun x => by rw [mul_eq h, mulVec_mulVec], ?_⟩
  rw [det_mul, mul_assoc, K_det hVW h, mul_one]

theorem solve_eq (hVW : Vᴴ * W = 1) (h : ∀ i, l ≠ e i) (b : ι → ℂ) :
    solveNE F V W e l b = some ((1 + W * diagonal (fun i => alpha l e i / (1 - alpha l e i)) * Vᴴ) *ᵥ (F⁻¹ *ᵥ b)) := by
  unfold solveNE
  rw [if_neg (by simpa [sub_eq_zero] using h)]
  dsimp only
  congr 1
  rw [add_mulVec, one_mulVec, ← mulVec_mulVec, ← mulVec_mulVec]
  congr 2
  funext i
  rw [mulVec_diagonal, mul_comm]

/-- **C146** (solve).  If the original operator is nonsingular, the solve inverts the product in both orders. -/
theorem C146_solve (hVW : Vᴴ * W = 1) (h : ∀ i, l ≠ e i) (hF : F.det ≠ 0) (b : ι → ℂ) :
    (∃ x, solveNE F V W e l b = some x ∧ mulNE F J V W e l false x = some b) ∧
      ∃ y, mulNE F J V W e l false b = some y ∧ solveNE F V W e l y = some b := by
  have hu := isUnit_iff_ne_zero.2 hF
  constructor
  · refine ⟨_, solve_eq hVW h b, ?_⟩
    rw [mul_eq h, mulVec_mulVec, mulVec_mulVec, mulVec_mulVec, Matrix.mul_assoc F, K_inv hVW h, Matrix.mul_one, mul_nonsing_inv _ hu, one_mulVec]
  · refine ⟨_, mul_eq h b, ?_⟩
    rw [solve_eq hVW h, mulVec_mulVec, mulVec_mulVec, mulVec_mulVec, Matrix.mul_assoc _ F⁻¹, nonsing_inv_mul _ hu, Matrix.mul_one, K_inv' hVW h, one_mulVec]

/-- **C146** (transposed solve).  The transposed solve inverts the transposed product in both orders. -/
theorem C146_solve_transpose (hVW : Vᴴ * W = 1) (h : ∀ i, l ≠ e i) (hF : F.det ≠ 0) (b : ι → ℂ) :
    (∃ x, solveTNE F V W e l b = some x ∧ mulTNE F J V W e l false x = some b) ∧
      ∃ y, mulTNE F J V W e l false b = some y ∧ solveTNE F V W e l y = some b := by
  have hu : IsUnit Fᵀ.det := by rw [det_transpose]; exact isUnit_iff_ne_zero.2 hF
  set G := 1 + W * diagonal (fun i => alpha l e i / (1 - alpha l e i)) * Vᴴ with hG
  have hGK : (K V W e l)ᵀ * Gᵀ = 1 := by rw [← transpose_mul, K_inv' hVW h, transpose_one]
  have hKG : Gᵀ * (K V W e l)ᵀ = 1 := by rw [← transpose_mul, K_inv hVW h, transpose_one]
  have hs : ∀ b, solveTNE F V W e l b = some (Gᵀ *ᵥ (Fᵀ⁻¹ *ᵥ b)) := by
    intro b
    unfold solveTNE
    rw [if_neg (by simpa [sub_eq_zero] using h)]
    dsimp only
    congr 1
    generalize Fᵀ⁻¹ *ᵥ b = x
    rw [hG, transpose_add, transpose_one, add_mulVec, one_mulVec, star_add, star_star, transpose_mul, transpose_mul, ← mulVec_mulVec, ← mulVec_mulVec, star_mulVec']
    congr 1
    have h1 : (Vᴴ)ᵀ = V.map star := by ext i j; rfl
    rw [h1]
    congr 1
    funext i
    rw [diagonal_transpose, mulVec_diagonal]
    simp only [Pi.star_apply, star_mul', star_star, star_div₀, star_sub, star_one]
    rw [mul_comm]
    congr 1
    have := congrFun (star_mulVec' Wᴴ (star x)) i
    rw [star_star] at this
    simp only [Pi.star_apply] at this
    rw [this]
    exact congrFun (congrArg (· *ᵥ x) (map_H W)) i
  constructor
  · refine ⟨_, hs b, ?_⟩
    rw [mulT_eq h, mulVec_mulVec, mulVec_mulVec, mulVec_mulVec, Matrix.mul_assoc Fᵀ, hGK, Matrix.mul_one, mul_nonsing_inv _ hu, one_mulVec]
  · refine ⟨_, mulT_eq h b, ?_⟩
    rw [hs, mulVec_mulVec, mulVec_mulVec, mulVec_mulVec, Matrix.mul_assoc _ Fᵀ⁻¹, nonsing_inv_mul _ hu, Matrix.mul_one, hKG, one_mulVec]

/-- **C146** (eigenvectors).  A null vector of the product is mapped to a null vector of the original operator, and a null vector of the transposed product to the left null vector of the original
    operator; non-zero vectors are mapped to non-zero vectors. -/
theorem C146_recover (hVW : Vᴴ * W = 1) (h : ∀ i, l ≠ e i) :
    (∀ u, mulNE F J V W e l false u = some 0 → F *ᵥ recR V W e l u = 0) ∧ (∀ u, recR V W e l u = 0 → u = 0) ∧
    (∀ w, mulTNE F J V W e l false w = some 0 → star (recL V W e l w) ᵥ* F = 0) ∧ ∀ w, recL V W e l w = 0 → w = 0 := by
  refine ⟨?_, ?_, ?_, ?_⟩
  · intro u hu
    rw [mul_eq h, Option.some_inj] at hu
    rw [← hu, K_mulVec]; rfl
  · intro u hu
    have : K V W e l *ᵥ u = 0 := by rw [K_mulVec]; exact hu
    calc u = (1 : Matrix ι ι ℂ) *ᵥ u := (one_mulVec u).symm
      _ = _ *ᵥ (K V W e l *ᵥ u) := by rw [← K_inv' hVW h, mulVec_mulVec]
      _ = 0 := by rw [this, mulVec_zero]
  · intro w hw
    rw [mulT_eq h, Option.some_inj, KT_mulVec] at hw
    rw [← mulVec_transpose]
    exact hw
  · intro w hw
    have h1 : (K V W e l)ᵀ *ᵥ w = 0 := by
      rw [KT_mulVec]
      have : star w - V *ᵥ (fun i => (Wᴴ *ᵥ star w) i * star (alpha l e i)) = 0 := hw
      rw [this, star_zero]
    have hKG : (1 + W * diagonal (fun i => alpha l e i / (1 - alpha l e i)) * Vᴴ)ᵀ * (K V W e l)ᵀ = 1 := by rw [← transpose_mul, K_inv hVW h, transpose_one]
    calc w = (1 : Matrix ι ι ℂ) *ᵥ w := (one_mulVec w).symm
      _ = _ *ᵥ ((K V W e l)ᵀ *ᵥ w) := by rw [← hKG, mulVec_mulVec]
      _ = 0 := by rw [h1, mulVec_zero]

theorem alpha_deriv {i : Fin k} (h : l ≠ e i) : HasDerivAt (fun m => alpha m e i) (1 / ((l - e i) * (l - e i))) l := by
  unfold alpha
  have hd := sub_ne_zero.2 h
  have h1 : HasDerivAt (fun m : ℂ => m - e i - 1) 1 l := ((hasDerivAt_id l).sub_const _).sub_const _
  have h2 : HasDerivAt (fun m : ℂ => m - e i) 1 l := (hasDerivAt_id l).sub_const _
  have := HasDerivAt.fun_div h1 h2 hd
  refine this.congr_deriv ?_
  rw [div_eq_div_iff (pow_ne_zero 2 hd) (mul_ne_zero hd hd)]
  ring

/-- **C146** (Jacobian, partial).  For a holomorphic operator with Jacobian, at every parameter that is none of the computed eigenvalues and none of these plus one, the product with the Jacobian is the
    derivative of the product with the function.  Partial: `C146_jacobian_false`. -/
theorem C146_jacobian_partial {T : ℂ → Matrix ι ι ℂ} (hT : MDeriv T J l) (h : ∀ i, l ≠ e i) (h1 : ∀ i, l ≠ e i + 1) (x : ι → ℂ) :
    ∃ y, mulNE (T l) J V W e l true x = some y ∧
      ∀ j, HasDerivAt (fun m => (T m *ᵥ (K V W e m *ᵥ x)) j) (y j) l := by
  have ha : ∀ i, alpha l e i ≠ 0 := by
    intro i
    unfold alpha
    refine div_ne_zero ?_ (sub_ne_zero.2 (h i))
    intro hc
    apply h1 i
    linear_combination hc
  refine ⟨_, by
    unfold mulNE
    rw [if_neg (by push Not; exact ⟨fun i => sub_ne_zero.2 (h i), fun _ => ha⟩)]
    exact if_pos rfl, ?_⟩
  dsimp only
  have hK : ∀ a, HasDerivAt (fun m => (K V W e m *ᵥ x) a) (-(W *ᵥ fun i => (Vᴴ *ᵥ x) i * (1 / ((l - e i) * (l - e i)))) a) l := by
    intro a
    have e1 : (fun m => (K V W e m *ᵥ x) a) = fun m => x a - ∑ i, W a i * ((Vᴴ *ᵥ x) i * alpha m e i) := by
      funext m; rw [K_mulVec]; rfl
    rw [e1]
    have e2 : HasDerivAt (fun m => ∑ i, W a i * ((Vᴴ *ᵥ x) i * alpha m e i)) (∑ i, W a i * ((Vᴴ *ᵥ x) i * (1 / ((l - e i) * (l - e i))))) l :=
      HasDerivAt.fun_sum fun i _ => ((alpha_deriv (h i)).const_mul _).const_mul _
    exact e2.const_sub (x a)
  intro j
  have hsum : HasDerivAt (fun m => ∑ a, T m j a * (K V W e m *ᵥ x) a)
      (∑ a, (J j a * (K V W e l *ᵥ x) a + T l j a * (-(W *ᵥ fun i => (Vᴴ *ᵥ x) i * (1 / ((l - e i) * (l - e i)))) a))) l :=
    HasDerivAt.fun_sum fun a _ => (hT j a).mul (hK a)
  refine hsum.congr_deriv ?_
  rw [Finset.sum_add_distrib]
  simp only [if_true, Pi.add_apply]
  rw [K_mulVec]
  congr 1
  show _ = (T l *ᵥ (-(W *ᵥ _))) j
  have : (fun i => (Vᴴ *ᵥ x) i * alpha l e i * ((1 / ((l - e i) * (l - e i))) / alpha l e i)) = fun i => (Vᴴ *ᵥ x) i * (1 / ((l - e i) * (l - e i))) := by
    funext i
    have := ha i
    field_simp
  rw [this]
  rfl

/-- **C146** (Jacobian, negation).  At a parameter that is a computed eigenvalue plus one the product with the Jacobian divides by zero, although the deflated operator has a derivative there. -/
theorem C146_jacobian_false (i : Fin k) (x : ι → ℂ) : mulNE F J V W e (e i + 1) true x = none := by
  unfold mulNE
  rw [if_pos]
  right
  refine ⟨rfl, i, ?_⟩
  unfold alpha
  simp

/-- the operator of the transposed products is `K T`, that of the products is `T K` -/
theorem C146_transpose (h : ∀ i, l ≠ e i) (x : ι → ℂ) :
    mulTNE F J V W e l false x = some ((K V W e l * F)ᵀ *ᵥ x) ∧ mulNE F J V W e l false x = some ((F * K V W e l) *ᵥ x) := by
  rw [mulT_eq h, mul_eq h, mulVec_mulVec, mulVec_mulVec, transpose_mul]
  exact ⟨rfl, rfl⟩

/-! ## The inner problems of the two sides differ -/

/-- the linear problem `A - l B` with `A = [0 1; 0 1]`, `B = diag(1, 2)` at `l = -1` -/
def wF : Matrix (Fin 2) (Fin 2) ℂ := !![1, 1; 0, 3]
/-- its Jacobian `-B` -/
def wJ : Matrix (Fin 2) (Fin 2) ℂ := !![-1, 0; 0, -2]
/-- the right eigenvector of the eigenvalue zero -/
def wV : Matrix (Fin 2) (Fin 1) ℂ := !![1; 0]
/-- the left eigenvector of the eigenvalue zero -/
def wW : Matrix (Fin 2) (Fin 1) ℂ := !![1; -1]

theorem w_alpha : alpha (-1) (fun _ : Fin 1 => (0 : ℂ)) 0 = 2 := by unfold alpha; norm_num

theorem w_F (x : Fin 2 → ℂ) : mulNE wF wJ wV wW (fun _ => 0) (-1) false x = some ![x 0 * (-1) + 2 * x 0 + x 1, 3 * (2 * x 0 + x 1)] := by
  unfold mulNE
  rw [if_neg (by push Not; exact ⟨fun i => by norm_num, fun h => by simp at h⟩)]
  simp only [Bool.false_eq_true, if_false, Option.some_inj]
  funext j
  fin_cases j <;> simp [wF, wV, wW, mulVec, dotProduct, Fin.sum_univ_two, w_alpha, vecHead, vecTail] <;> ring

theorem w_J (x : Fin 2 → ℂ) : mulNE wF wJ wV wW (fun _ => 0) (-1) true x = some ![x 0, -2 * (2 * x 0 + x 1) + 3 * x 0] := by
  unfold mulNE
  rw [if_neg (by push Not; exact ⟨fun i => by norm_num, fun h i => by fin_cases i; simp [w_alpha]⟩)]
  simp only [if_true, Option.some_inj]
  funext j
  fin_cases j <;> simp [wF, wJ, wV, wW, mulVec, dotProduct, Fin.sum_univ_two, w_alpha, vecHead, vecTail] <;> ring

theorem w_FT (x : Fin 2 → ℂ) : mulTNE wF wJ wV wW (fun _ => 0) (-1) false x = some ![-x 0 + 2 * x 1, -x 0 + 2 * x 1 + 3 * x 1] := by
  unfold mulTNE
  rw [if_neg (by push Not; exact ⟨fun i => by norm_num, fun h => by simp at h⟩)]
  simp only [Bool.false_eq_true, if_false, Option.some_inj]
  funext j
  fin_cases j <;> simp [wF, wV, wW, mulVec, dotProduct, Fin.sum_univ_two, w_alpha, vecHead, vecTail] <;> ring

theorem w_JT (x : Fin 2 → ℂ) : mulTNE wF wJ wV wW (fun _ => 0) (-1) true x = some ![-(-x 0 + 2 * x 1) - (x 0 - x 1), -2 * x 1 - (x 0 - x 1)] := by
  unfold mulTNE
  rw [if_neg (by push Not; exact ⟨fun i => by norm_num, fun h i => by fin_cases i; simp [w_alpha]⟩)]
  simp only [if_true, Option.some_inj]
  funext j
  fin_cases j <;> simp [wF, wJ, wV, wW, mulVec, dotProduct, Fin.sum_univ_two, w_alpha, vecHead, vecTail] <;> ring

/-- non-vacuity of the theorems of C146: the locked vectors of this problem are biorthogonal and eigenvectors, the operator is nonsingular, the parameter is admissible -/
example : wVᴴ * wW = 1 ∧ (∀ i : Fin 1, (-1 : ℂ) ≠ (fun _ => 0) i) ∧ (∀ i : Fin 1, (-1 : ℂ) ≠ (fun _ => 0) i + 1) ∧ wF.det ≠ 0 ∧
    (!![0, 1; 0, 1] : Matrix (Fin 2) (Fin 2) ℂ) * wV = 0 ∧ wWᴴ * (!![0, 1; 0, 1] : Matrix (Fin 2) (Fin 2) ℂ) = 0 := by
  refine ⟨?_, fun i => by norm_num, fun i => by norm_num, by simp [wF], ?_, ?_⟩
  · ext i j; fin_cases i; fin_cases j; simp [wV, wW, Matrix.mul_apply, Fin.sum_univ_two]
  · ext i j; fin_cases i <;> fin_cases j <;> simp [wV, Matrix.mul_apply, Fin.sum_univ_two]
  · ext i j; fin_cases i; fin_cases j <;> simp [wW, Matrix.mul_apply, Fin.sum_univ_two]

/-- **C146** (left and right, negation).  The operators applied with locked vectors do not form a two-sided eigenproblem: for the linear problem above no eigenvalue `μ` of the inner problem
    `T'(l) x = μ T(l) x` of the products is an eigenvalue of the inner problem of the transposed products. -/
theorem C146_sides_false (μ : ℂ) (x y a b c d : Fin 2 → ℂ)
    (ha : mulNE wF wJ wV wW (fun _ => 0) (-1) true x = some a) (hb : mulNE wF wJ wV wW (fun _ => 0) (-1) false x = some b) (hab : a = μ • b)
    (hc : mulTNE wF wJ wV wW (fun _ => 0) (-1) true y = some c) (hd : mulTNE wF wJ wV wW (fun _ => 0) (-1) false y = some d) (hcd : c = μ • d) :
    x = 0 ∨ y = 0 := by
  rw [w_J, Option.some_inj] at ha
  rw [w_F, Option.some_inj] at hb
  rw [w_JT, Option.some_inj] at hc
  rw [w_FT, Option.some_inj] at hd
  subst ha hb hc hd
  have a0 := congrFun hab 0
  have a1 := congrFun hab 1
  have c0 := congrFun hcd 0
  have c1 := congrFun hcd 1
  simp only [Pi.smul_apply, smul_eq_mul, cons_val_zero, cons_val_one] at a0 a1 c0 c1
  have p0 : x 0 * (3 * μ ^ 2 + 2 * μ + 2) = 0 := by linear_combination (2 + 3 * μ) * a0 - μ * a1
  have p1 : x 1 * (3 * μ ^ 2 + 2 * μ + 2) = 0 := by linear_combination (-1 - 6 * μ) * a0 - (1 - μ) * a1
  have q0 : y 0 * (3 * μ ^ 2 + 2 * μ + 1) = 0 := by linear_combination (1 + 5 * μ) * c0 - (1 + 2 * μ) * c1
  have q1 : y 1 * (3 * μ ^ 2 + 2 * μ + 1) = 0 := by linear_combination (-1 + μ) * c0 - μ * c1
  by_cases hp : 3 * μ ^ 2 + 2 * μ + 2 = 0
  · right
    have hq : 3 * μ ^ 2 + 2 * μ + 1 ≠ 0 := by
      intro h
      have : (1 : ℂ) = 0 := by linear_combination hp - h
      exact one_ne_zero this
    funext j
    fin_cases j
    · exact (mul_eq_zero.1 q0).resolve_right hq
    · exact (mul_eq_zero.1 q1).resolve_right hq
  · left
    funext j
    fin_cases j
    · exact (mul_eq_zero.1 p0).resolve_right hp
    · exact (mul_eq_zero.1 p1).resolve_right hp

end Verif.NDef.NE
