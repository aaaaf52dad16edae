import Verif.NDef.Model
import Mathlib.LinearAlgebra.Matrix.PosDef

/-!
# Linear algebra of invariant pairs
-/

set_option linter.all false

namespace Verif.NDef
open Matrix

section hat
variable {κ μ : Type} [Fintype κ] [DecidableEq κ] [Fintype μ] [DecidableEq μ] (f : MatFun)

theorem hfj_eq {H : Matrix κ κ ℂ} {l : ℂ} (hH : Dom f.Ω H) (hl : l ∈ f.Ω) :
    hfj f H l = (f.ev (fromBlocks H 1 0 (l • (1 : Matrix κ κ ℂ)))).toBlocks₁₂ := by
  unfold hfj hatArg
  rw [ev_blocks f (dom_blocks hH (dom_smul_one hl)) (dom_smul_one hl), toBlocks_fromBlocks₁₁]

theorem ev_hat {H : Matrix κ κ ℂ} {l : ℂ} (hH : Dom f.Ω H) (hl : l ∈ f.Ω) :
    f.ev (fromBlocks H 1 0 (l • (1 : Matrix κ κ ℂ))) = fromBlocks (f.ev H) (hfj f H l) 0 (f.at l • (1 : Matrix κ κ ℂ)) := by
  rw [ev_blocks f hH (dom_smul_one hl), hfj_eq f hH hl, ev_smul_one f hl]

/-- the function of the extended matrix: the new column is the hat function applied to the additional entries -/
theorem ev_ext {H : Matrix κ κ ℂ} {l : ℂ} (hH : Dom f.Ω H) (hl : l ∈ f.Ω) (t : Matrix κ μ ℂ) :
    f.ev (fromBlocks H t 0 (l • (1 : Matrix μ μ ℂ))) = fromBlocks (f.ev H) (hfj f H l * t) 0 (f.at l • (1 : Matrix μ μ ℂ)) := by
  have h := f.inter (fromBlocks H 1 0 (l • (1 : Matrix κ κ ℂ))) (fromBlocks H t 0 (l • (1 : Matrix μ μ ℂ)))
    (fromBlocks 1 0 0 t) (dom_blocks hH (dom_smul_one hl)) (dom_blocks hH (dom_smul_one hl)) (by
      rw [fromBlocks_multiply, fromBlocks_multiply]; simp)
  rw [ev_hat f hH hl, ev_blocks f hH (dom_smul_one hl), fromBlocks_multiply, fromBlocks_multiply] at h
  simp only [Matrix.mul_one, Matrix.mul_zero, add_zero, Matrix.one_mul, Matrix.zero_mul, zero_add] at h
  have h12 := (fromBlocks_inj.1 h).2.1
  rw [ev_blocks f hH (dom_smul_one hl), ← h12, ev_smul_one f hl]

/-- `(l - H) f[H,l] = f(l) - f(H)` -/
theorem hfj_left {H : Matrix κ κ ℂ} {l : ℂ} (hH : Dom f.Ω H) (hl : l ∈ f.Ω) :
    (l • (1 : Matrix κ κ ℂ) - H) * hfj f H l = f.at l • (1 : Matrix κ κ ℂ) - f.ev H := by
  have hd := dom_blocks (B := 1) hH (dom_smul_one (α := κ) hl)
  have h := f.inter _ _ (fromBlocks H 1 0 (l • (1 : Matrix κ κ ℂ))) hd hd rfl
  rw [ev_hat f hH hl, fromBlocks_multiply, fromBlocks_multiply] at h
  have h12 := (fromBlocks_inj.1 h).2.1
  simp only [Matrix.mul_one, Matrix.one_mul, Matrix.mul_smul, Matrix.smul_mul, add_zero, zero_add] at h12
  rw [Matrix.sub_mul, Matrix.smul_mul, Matrix.one_mul, sub_eq_sub_iff_add_eq_add, add_comm (l • _), h12, add_comm]

theorem hfj_comm {H : Matrix κ κ ℂ} {l : ℂ} (hH : Dom f.Ω H) (hl : l ∈ f.Ω) : H * hfj f H l = hfj f H l * H := by
  have hd := dom_blocks (B := 1) hH (dom_smul_one (α := κ) hl)
  have h := f.inter _ _ (fromBlocks H 0 0 H) hd hd (by
    rw [fromBlocks_multiply, fromBlocks_multiply]; simp)
  rw [ev_hat f hH hl, fromBlocks_multiply, fromBlocks_multiply] at h
  have h12 := (fromBlocks_inj.1 h).2.1
  simp only [Matrix.mul_zero, Matrix.zero_mul, add_zero, zero_add] at h12
  exact h12.symm

/-- `f[H,l] (l - H) = f(l) - f(H)` -/
theorem hfj_right {H : Matrix κ κ ℂ} {l : ℂ} (hH : Dom f.Ω H) (hl : l ∈ f.Ω) :
    hfj f H l * (l • (1 : Matrix κ κ ℂ) - H) = f.at l • (1 : Matrix κ κ ℂ) - f.ev H := by
  rw [← hfj_left f hH hl, Matrix.mul_sub, Matrix.sub_mul, hfj_comm f hH hl]; simp

theorem ev_submatrix (A : Matrix κ κ ℂ) (σ : μ ≃ κ) (hA : Dom f.Ω A) : f.ev (A.submatrix σ σ) = (f.ev A).submatrix σ σ := by
  have hd : Dom f.Ω (A.submatrix σ σ) := by
    intro z hz
    refine hA z ?_
    have : z • (1 : Matrix μ μ ℂ) - A.submatrix σ σ = (z • (1 : Matrix κ κ ℂ) - A).submatrix σ σ := by
      ext i j; simp [Matrix.one_apply]
    rw [this, det_submatrix_equiv_self] at hz
    exact hz
  have h := f.inter A (A.submatrix σ σ) ((1 : Matrix κ κ ℂ).submatrix id σ) hA hd (by
    ext i j
    simp only [mul_apply, Matrix.one_apply, submatrix_apply, id, mul_ite, mul_one, mul_zero, ite_mul, one_mul, zero_mul,
      Finset.sum_ite_eq', Finset.mem_univ, if_true]
    rw [Finset.sum_eq_single (σ.symm i)]
    · simp
    · intro b _ hb
      rw [if_neg]
      intro hc; exact hb (by rw [hc]; simp)
    · simp)
  ext i j
  have h2 := congrFun (congrFun h (σ i)) j
  simp [mul_apply, Matrix.one_apply, ← Equiv.eq_symm_apply] at h2
  rw [submatrix_apply, h2]

theorem dom_submatrix {Ω : Set ℂ} {A : Matrix κ κ ℂ} (σ : μ ≃ κ) (hA : Dom Ω A) : Dom Ω (A.submatrix σ σ) := by
  intro z hz
  refine hA z ?_
  have : z • (1 : Matrix μ μ ℂ) - A.submatrix σ σ = (z • (1 : Matrix κ κ ℂ) - A).submatrix σ σ := by
    ext i j; simp [Matrix.one_apply]
  rw [this, det_submatrix_equiv_self] at hz
  exact hz

end hat

section pair
variable {ι : Type} [Fintype ι] [DecidableEq ι] {κ μ : Type} [Fintype κ] [DecidableEq κ] [Fintype μ] [DecidableEq μ] (P : Prob ι)

/-- the nonlinear equation of an invariant pair: `sum_j A_j X f_j(H) = 0` -/
def InvPair (X : Matrix ι κ ℂ) (H : Matrix κ κ ℂ) : Prop := ∑ j, P.A j * X * (P.f j).ev H = 0

/-- all functions of the problem are defined at the number -/
def InΩ (l : ℂ) : Prop := ∀ j, l ∈ (P.f j).Ω

/-- all functions of the problem are defined on the matrix -/
def DomP (H : Matrix κ κ ℂ) : Prop := ∀ j, Dom (P.f j).Ω H

theorem T_mul (l : ℂ) (X : Matrix ι κ ℂ) : P.T l * X = ∑ j, (P.f j).at l • (P.A j * X) := by
  unfold Prob.T
  rw [Matrix.sum_mul]
  exact Finset.sum_congr rfl fun j _ => by rw [Matrix.smul_mul]

/-- first row of the deflated problem and extension of the invariant pair -/
theorem invPair_ext {X : Matrix ι κ ℂ} {H : Matrix κ κ ℂ} {l : ℂ} (hd : DomP P H) (hl : InΩ P l) (x : Matrix ι μ ℂ) (t : Matrix κ μ ℂ) :
    InvPair P (fromCols X x) (fromBlocks H t 0 (l • (1 : Matrix μ μ ℂ))) ↔
      InvPair P X H ∧ P.T l * x + Uhat P X H false l * t = 0 := by
  unfold InvPair
  have : ∀ j, P.A j * fromCols X x * (P.f j).ev (fromBlocks H t 0 (l • (1 : Matrix μ μ ℂ)))
      = fromCols (P.A j * X * (P.f j).ev H) (P.A j * X * (hfj (P.f j) H l) * t + (P.f j).at l • (P.A j * x)) := by
    intro j
    rw [ev_ext _ (hd j) (hl j), mul_fromCols, fromCols_mul_fromBlocks]
    simp only [Matrix.mul_zero, add_zero, Matrix.mul_smul, Matrix.mul_one, Matrix.mul_assoc]
  rw [Finset.sum_congr rfl fun j _ => this j]
  have hs : ∀ (a : Fin P.nt → Matrix ι κ ℂ) (b : Fin P.nt → Matrix ι μ ℂ), ∑ j, fromCols (a j) (b j) = fromCols (∑ j, a j) (∑ j, b j) := by
    intro a b
    ext i j
    rcases j with j | j <;> simp [Matrix.sum_apply]
  rw [hs, ← fromCols_zero, fromCols_inj.eq_iff, Finset.sum_add_distrib, T_mul]
  have h2 : ∑ j, P.A j * X * hfj (P.f j) H l * t = Uhat P X H false l * t := by
    unfold Uhat
    rw [Matrix.sum_mul]; rfl
  rw [h2, add_comm (Uhat P X H false l * t)]

theorem invPair_submatrix {X : Matrix ι κ ℂ} {H : Matrix κ κ ℂ} (hd : DomP P H) (σ : μ ≃ κ) (h : InvPair P X H) :
    InvPair P (X.submatrix id σ) (H.submatrix σ σ) := by
  unfold InvPair at *
  have : ∀ j, P.A j * X.submatrix id σ * (P.f j).ev (H.submatrix σ σ) = (P.A j * X * (P.f j).ev H).submatrix id σ := by
    intro j
    rw [ev_submatrix _ _ _ (hd j)]
    have : P.A j * X.submatrix id σ = (P.A j * X).submatrix id σ := by
      ext i k; simp [mul_apply]
    rw [this, submatrix_mul_equiv]
  rw [Finset.sum_congr rfl fun j _ => this j]
  ext i j
  have := congrFun (congrFun h i) (σ j)
  simp [Matrix.sum_apply] at this ⊢
  exact this

/-- `U(l) (l - H) = T(l) X` for an invariant pair -/
theorem Uhat_mul {X : Matrix ι κ ℂ} {H : Matrix κ κ ℂ} {l : ℂ} (hd : DomP P H) (hl : InΩ P l) (h : InvPair P X H) :
    Uhat P X H false l * (l • (1 : Matrix κ κ ℂ) - H) = P.T l * X := by
  unfold Uhat
  rw [Matrix.sum_mul, T_mul]
  have : ∀ j, P.A j * X * (if false = true then hfjp (P.f j) H l else hfj (P.f j) H l) * (l • (1 : Matrix κ κ ℂ) - H)
      = (P.f j).at l • (P.A j * X) - P.A j * X * (P.f j).ev H := by
    intro j
    rw [if_neg (by simp), Matrix.mul_assoc, hfj_right _ (hd j) (hl j), Matrix.mul_sub, Matrix.mul_smul, Matrix.mul_one]
  rw [Finset.sum_congr rfl fun j _ => this j, Finset.sum_sub_distrib, h, sub_zero]

/-- the two formulas for the coupling block agree on invariant pairs -/
theorem Uhat_eq_Usimp {X : Matrix ι κ ℂ} {H : Matrix κ κ ℂ} {l : ℂ} (hd : DomP P H) (hl : InΩ P l) (h : InvPair P X H) (hs : simpOk H l) :
    Uhat P X H false l = Usimp P X H false l := by
  unfold Usimp
  simp only [Bool.false_eq_true, if_false]
  rw [← Uhat_mul P hd hl h, Matrix.mul_assoc, mul_nonsing_inv _ (isUnit_iff_ne_zero.2 hs), Matrix.mul_one]

/-! ### The determinant -/

theorem qmat_mul (bc : ℕ → ℂ) (H : Matrix κ κ ℂ) (l : ℂ) (k : ℕ) :
    qmat bc H (bval bc l) k * (l • (1 : Matrix κ κ ℂ) - H) = bval bc l k • (1 : Matrix κ κ ℂ) - pmat bc H k := by
  induction k with
  | zero => simp [qmat, bval, pmat]
  | succ k ih =>
    rw [qmat, bval, pmat, Matrix.add_mul, Matrix.mul_assoc, ih]
    ext i j
    simp only [Matrix.mul_sub, Matrix.sub_mul, Matrix.mul_smul, Matrix.smul_mul, Matrix.mul_one, Matrix.one_mul, Matrix.sub_apply,
      Matrix.add_apply, Matrix.smul_apply, smul_eq_mul]
    ring

/-- the Gram matrix of the stacked matrices `X p_k(H)`, `k < midx` (with `k = 0` always present) -/
def Gram (bc : ℕ → ℂ) (X : Matrix ι κ ℂ) (H : Matrix κ κ ℂ) (midx : ℕ) : Matrix κ κ ℂ :=
  Xᴴ * X + ∑ k ∈ Finset.Ico 1 midx, (X * pmat bc H k)ᴴ * (X * pmat bc H k)

/-- the deflated operator as a matrix -/
def defl (T : Matrix ι ι ℂ) (U : Matrix ι κ ℂ) (X : Matrix ι κ ℂ) (A B : Matrix κ κ ℂ) : Matrix (ι ⊕ κ) (ι ⊕ κ) ℂ :=
  fromBlocks T U (A * Xᴴ) B

theorem defl_factor {bc : ℕ → ℂ} {X : Matrix ι κ ℂ} {H : Matrix κ κ ℂ} {l : ℂ} {midx : ℕ} {T : Matrix ι ι ℂ} {U : Matrix ι κ ℂ}
    (hU : U * (l • (1 : Matrix κ κ ℂ) - H) = T * X) :
    defl T U X (Amat bc H midx false (bval bc l)) (Bmat bc H (Xᴴ * X) midx (bval bc l))
        * fromBlocks 1 (-X) 0 (l • (1 : Matrix κ κ ℂ) - H)
      = fromBlocks T 0 (Amat bc H midx false (bval bc l) * Xᴴ) (-Gram bc X H midx) := by
  unfold defl
  rw [fromBlocks_multiply]
  congr 1
  · simp
  · rw [hU]; simp
  · simp
  · unfold Amat Bmat Gram
    rw [Matrix.sum_mul]
    have : ∀ k, (pmat bc H k)ᴴ * (Xᴴ * X * qmat bc H (bval bc l) k) * (l • (1 : Matrix κ κ ℂ) - H)
        = bval bc l k • ((pmat bc H k)ᴴ * (Xᴴ * X)) - (X * pmat bc H k)ᴴ * (X * pmat bc H k) := by
      intro k
      rw [Matrix.mul_assoc, Matrix.mul_assoc, qmat_mul, Matrix.mul_sub, Matrix.mul_sub, Matrix.mul_smul, Matrix.mul_smul, Matrix.mul_one,
        conjTranspose_mul]
      simp only [Matrix.mul_assoc]
    rw [Finset.sum_congr rfl fun k _ => this k, Finset.sum_sub_distrib]
    simp only [Bool.false_eq_true, if_false, Matrix.mul_neg, Matrix.add_mul, Matrix.one_mul, Matrix.sum_mul, Matrix.smul_mul, Matrix.mul_assoc]
    abel

theorem defl_det {bc : ℕ → ℂ} {X : Matrix ι κ ℂ} {H : Matrix κ κ ℂ} {l : ℂ} {midx : ℕ} {T : Matrix ι ι ℂ} {U : Matrix ι κ ℂ}
    (hU : U * (l • (1 : Matrix κ κ ℂ) - H) = T * X) :
    (defl T U X (Amat bc H midx false (bval bc l)) (Bmat bc H (Xᴴ * X) midx (bval bc l))).det * (l • (1 : Matrix κ κ ℂ) - H).det
      = T.det * (-Gram bc X H midx).det := by
  have h := congrArg Matrix.det (defl_factor (bc := bc) (midx := midx) hU)
  rw [det_mul, det_fromBlocks_zero₂₁, det_one, one_mul, det_fromBlocks_zero₁₂] at h
  exact h

end pair

end Verif.NDef
