import Verif.NDef.Spec
import Mathlib.Analysis.Calculus.Deriv.Mul
import Mathlib.Analysis.Calculus.Deriv.Add
import Mathlib.Analysis.Calculus.Deriv.Slope

/-!
# Derivatives of the blocks of the deflated operator
-/

set_option linter.all false

namespace Verif.NDef
open Matrix Filter Topology

section md
variable {α β γ : Type} [Fintype α] [Fintype β] [Fintype γ]

/-- a matrix depending on a parameter has a derivative, entry by entry -/
def MDeriv (M : ℂ → Matrix α β ℂ) (M' : Matrix α β ℂ) (l : ℂ) : Prop := ∀ i j, HasDerivAt (fun m => M m i j) (M' i j) l

theorem MDeriv.const (M : Matrix α β ℂ) (l : ℂ) : MDeriv (fun _ => M) 0 l := fun i j => hasDerivAt_const l (M i j)

theorem MDeriv.add {M N : ℂ → Matrix α β ℂ} {M' N' : Matrix α β ℂ} {l : ℂ} (hM : MDeriv M M' l) (hN : MDeriv N N' l) :
    MDeriv (fun m => M m + N m) (M' + N') l := fun i j => (hM i j).add (hN i j)

theorem MDeriv.sub {M N : ℂ → Matrix α β ℂ} {M' N' : Matrix α β ℂ} {l : ℂ} (hM : MDeriv M M' l) (hN : MDeriv N N' l) :
    MDeriv (fun m => M m - N m) (M' - N') l := fun i j => (hM i j).sub (hN i j)

theorem MDeriv.smul {f : ℂ → ℂ} {f' : ℂ} {l : ℂ} (hf : HasDerivAt f f' l) (M : Matrix α β ℂ) :
    MDeriv (fun m => f m • M) (f' • M) l := fun i j => by
  show HasDerivAt (fun m => f m * M i j) (f' * M i j) l
  exact hf.mul_const _

theorem MDeriv.mul {M : ℂ → Matrix α β ℂ} {N : ℂ → Matrix β γ ℂ} {M' : Matrix α β ℂ} {N' : Matrix β γ ℂ} {l : ℂ} (hM : MDeriv M M' l)
    (hN : MDeriv N N' l) : MDeriv (fun m => M m * N m) (M' * N l + M l * N') l := fun i j => by
  have : HasDerivAt (fun m => ∑ k, M m i k * N m k j) (∑ k, (M' i k * N l k j + M l i k * N' k j)) l :=
    HasDerivAt.fun_sum fun k _ => (hM i k).mul (hN k j)
  rw [Finset.sum_add_distrib] at this
  exact this

theorem MDeriv.mul_left {N : ℂ → Matrix β γ ℂ} {N' : Matrix β γ ℂ} {l : ℂ} (M : Matrix α β ℂ) (hN : MDeriv N N' l) :
    MDeriv (fun m => M * N m) (M * N') l := by
  have := (MDeriv.const M l).mul hN
  rw [Matrix.zero_mul, zero_add] at this
  exact this

theorem MDeriv.mul_right {M : ℂ → Matrix α β ℂ} {M' : Matrix α β ℂ} {l : ℂ} (hM : MDeriv M M' l) (N : Matrix β γ ℂ) :
    MDeriv (fun m => M m * N) (M' * N) l := by
  have := hM.mul (MDeriv.const N l)
  rw [Matrix.mul_zero, add_zero] at this
  exact this

theorem MDeriv.sum {σ : Type} (s : Finset σ) {M : σ → ℂ → Matrix α β ℂ} {M' : σ → Matrix α β ℂ} {l : ℂ} (h : ∀ k ∈ s, MDeriv (M k) (M' k) l) :
    MDeriv (fun m => ∑ k ∈ s, M k m) (∑ k ∈ s, M' k) l := fun i j => by
  simp only [Matrix.sum_apply]
  exact HasDerivAt.fun_sum fun k hk => h k hk i j

end md

section hat
variable {κ : Type} [Fintype κ] [DecidableEq κ] (f : MatFun)

/-- the argument of the functions with two different parameters -/
def hatArg2 (H : Matrix κ κ ℂ) (l m : ℂ) : Matrix ((κ ⊕ κ) ⊕ κ) ((κ ⊕ κ) ⊕ κ) ℂ :=
  fromBlocks (fromBlocks H 1 0 (l • (1 : Matrix κ κ ℂ))) (fromRows 0 1) 0 (m • (1 : Matrix κ κ ℂ))

/-- the upper right block is the divided difference -/
theorem hat_diff {H : Matrix κ κ ℂ} {l m : ℂ} (hH : Dom f.Ω H) (hl : l ∈ f.Ω) (hm : m ∈ f.Ω) :
    hfj f H m = hfj f H l + (m - l) • (f.ev (hatArg2 H l m)).toBlocks₁₂.toRows₁ := by
  have dA : Dom f.Ω (fromBlocks H 1 0 (l • (1 : Matrix κ κ ℂ))) := dom_blocks hH (dom_smul_one hl)
  have dB : Dom f.Ω (fromBlocks H 1 0 (m • (1 : Matrix κ κ ℂ))) := dom_blocks hH (dom_smul_one hm)
  have hM : Dom f.Ω (hatArg2 H l m) := dom_blocks dA (dom_smul_one hm)
  have h := f.inter (hatArg2 H l m) (fromBlocks H 1 0 (m • (1 : Matrix κ κ ℂ)))
    (fromRows (1 : Matrix (κ ⊕ κ) (κ ⊕ κ) ℂ) (fromCols 0 ((m - l) • (1 : Matrix κ κ ℂ)))) hM dB (by
      unfold hatArg2
      rw [fromBlocks_mul_fromRows, fromRows_mul_fromCols, fromRows_mul]
      simp only [Matrix.one_mul, Matrix.mul_one, Matrix.zero_mul, Matrix.mul_zero, zero_add, fromCols_mul_fromBlocks]
      congr 1
      · rw [fromBlocks_add]
        simp only [Matrix.mul_zero, Matrix.zero_mul, Matrix.one_mul, add_zero, sub_smul]
        congr 1
        abel
      · rw [mul_fromCols]
        simp [smul_smul, mul_comm])
  have e1 := ev_blocks f (B := fromRows (0 : Matrix κ κ ℂ) 1) dA (dom_smul_one (α := κ) hm)
  change f.ev (hatArg2 H l m) = _ at e1
  rw [e1, fromBlocks_mul_fromRows, fromRows_mul, Matrix.one_mul, Matrix.mul_one] at h
  have h1 := (fromRows_inj.eq_iff.1 h).1
  rw [ev_hat f hH hl, ev_hat f hH hm] at h1
  have h2 := congrArg toBlocks₁₂ h1
  rw [toBlocks_fromBlocks₁₂] at h2
  rw [← h2]
  ext i j
  simp only [toBlocks₁₂, Matrix.of_apply, Matrix.add_apply, fromBlocks_apply₁₂, mul_apply, fromCols_apply_inr, Matrix.smul_apply,
    Matrix.one_apply, smul_eq_mul, mul_ite, mul_one, mul_zero, Finset.sum_ite_eq', Finset.mem_univ, if_true, toRows₁]
  congr 1
  rw [mul_comm]
  rfl

theorem hatArg2_cont (H : Matrix κ κ ℂ) (l : ℂ) : Continuous fun m => hatArg2 H l m := by
  unfold hatArg2
  exact Continuous.matrix_fromBlocks continuous_const continuous_const continuous_const (continuous_id.smul continuous_const)

/-- the block `hfjp` is the derivative of the block `hfj` -/
theorem hfj_deriv {H : Matrix κ κ ℂ} {l : ℂ} (hH : Dom f.Ω H) (hl : l ∈ f.Ω) : MDeriv (fun m => hfj f H m) (hfjp f H l) l := by
  intro i j
  rw [hasDerivAt_iff_tendsto_slope]
  have hM : Dom f.Ω (hatArg2 H l l) := dom_blocks (dom_blocks hH (dom_smul_one hl)) (dom_smul_one hl)
  have hc : ContinuousAt (fun m => f.ev (hatArg2 H l m)) l :=
    ContinuousAt.comp (f := fun m => hatArg2 H l m) (g := fun M => f.ev M) (f.cont _ hM) (hatArg2_cont H l).continuousAt
  have hc2 : ContinuousAt (fun m => (f.ev (hatArg2 H l m)) (Sum.inl (Sum.inl i)) (Sum.inr j)) l :=
    ((continuous_apply_apply (Sum.inl (Sum.inl i)) (Sum.inr j)).continuousAt).comp hc
  have ht : Tendsto (fun m => (f.ev (hatArg2 H l m)) (Sum.inl (Sum.inl i)) (Sum.inr j)) (𝓝[≠] l) (𝓝 (hfjp f H l i j)) :=
    (hc2.tendsto).mono_left nhdsWithin_le_nhds
  refine ht.congr' ?_
  have hev : ∀ᶠ m in 𝓝[≠] l, m ∈ f.Ω := nhdsWithin_le_nhds (f.isOpen.mem_nhds hl)
  filter_upwards [hev, self_mem_nhdsWithin] with m hm hne
  have hne' : m - l ≠ 0 := sub_ne_zero.2 hne
  rw [slope_def_field, hat_diff f hH hl hm]
  show _ = (hfj f H l i j + (m - l) * (f.ev (hatArg2 H l m)) (Sum.inl (Sum.inl i)) (Sum.inr j) - hfj f H l i j) / (m - l)
  field_simp
  ring

/-- the derivative of a function at a number -/
theorem at_deriv {l : ℂ} (hl : l ∈ f.Ω) : HasDerivAt f.at (f.der l) l := by
  rw [hasDerivAt_iff_tendsto_slope]
  have hd := hfj_deriv f (dom_smul_one (α := Unit) hl) hl () ()
  have hc := hd.continuousAt
  have hv : hfj f (l • (1 : Matrix Unit Unit ℂ)) l () () = f.der l := by
    rw [hfj_eq f (dom_smul_one hl) hl]; rfl
  have ht : Tendsto (fun m => hfj f (l • (1 : Matrix Unit Unit ℂ)) m () ()) (𝓝[≠] l) (𝓝 (f.der l)) := by
    rw [← hv]; exact hc.tendsto.mono_left nhdsWithin_le_nhds
  refine ht.congr' ?_
  have hev : ∀ᶠ m in 𝓝[≠] l, m ∈ f.Ω := nhdsWithin_le_nhds (f.isOpen.mem_nhds hl)
  filter_upwards [hev, self_mem_nhdsWithin] with m hm hne
  have hne' : m - l ≠ 0 := sub_ne_zero.2 hne
  have h1 := hfj_left f (dom_smul_one (α := Unit) hl) hm
  rw [ev_smul_one f hl, ← sub_smul, ← sub_smul, Matrix.smul_mul, Matrix.one_mul] at h1
  have h2 := congrFun (congrFun h1 ()) ()
  simp only [Matrix.smul_apply, Matrix.one_apply_eq, smul_eq_mul, mul_one] at h2
  rw [slope_def_field, ← h2]
  field_simp

end hat

section blocks
variable {ι : Type} [Fintype ι] [DecidableEq ι] {κ : Type} [Fintype κ] [DecidableEq κ] (P : Prob ι)

theorem T_deriv {l : ℂ} (hl : InΩ P l) : MDeriv P.T (P.J l) l := by
  unfold Prob.T Prob.J
  exact MDeriv.sum _ fun j _ => MDeriv.smul (at_deriv _ (hl j)) _

theorem Uhat_deriv {X : Matrix ι κ ℂ} {H : Matrix κ κ ℂ} {l : ℂ} (hd : DomP P H) (hl : InΩ P l) :
    MDeriv (fun m => Uhat P X H false m) (Uhat P X H true l) l := by
  unfold Uhat
  refine MDeriv.sum _ fun j _ => ?_
  simp only [Bool.false_eq_true, if_false, if_true]
  exact MDeriv.mul_left _ (hfj_deriv _ (hd j) (hl j))

theorem bval_deriv (bc : ℕ → ℂ) (l : ℂ) (k : ℕ) : HasDerivAt (fun m => bval bc m k) (bder bc l k) l := by
  induction k with
  | zero => exact hasDerivAt_const l _
  | succ k ih =>
    have := ih.mul ((hasDerivAt_id l).sub_const (bc k))
    simp only [mul_one, id] at this
    exact this

theorem qmat_deriv (bc : ℕ → ℂ) (H : Matrix κ κ ℂ) (l : ℂ) (k : ℕ) : MDeriv (fun m => qmat bc H (bval bc m) k) (qmat bc H (bder bc l) k) l := by
  induction k with
  | zero => exact MDeriv.const 0 l
  | succ k ih => exact (MDeriv.mul_left _ ih).add (MDeriv.smul (bval_deriv bc l k) 1)

theorem Amat_deriv (bc : ℕ → ℂ) (H : Matrix κ κ ℂ) (midx : ℕ) (l : ℂ) :
    MDeriv (fun m => Amat bc H midx false (bval bc m)) (Amat bc H midx true (bder bc l)) l := by
  unfold Amat
  exact (MDeriv.const _ l).add (MDeriv.sum _ fun k _ => MDeriv.smul (bval_deriv bc l k) _)

theorem Bmat_deriv (bc : ℕ → ℂ) (H G : Matrix κ κ ℂ) (midx : ℕ) (l : ℂ) :
    MDeriv (fun m => Bmat bc H G midx (bval bc m)) (Bmat bc H G midx (bder bc l)) l := by
  unfold Bmat
  exact MDeriv.sum _ fun k _ => MDeriv.mul_left _ (MDeriv.mul_left _ (qmat_deriv bc H l k))

/-- the resolvent -/
theorem resolvent_deriv (H : Matrix κ κ ℂ) {l : ℂ} (hs : simpOk H l) :
    MDeriv (fun m => (m • (1 : Matrix κ κ ℂ) - H)⁻¹) (-((l • (1 : Matrix κ κ ℂ) - H)⁻¹ * (l • (1 : Matrix κ κ ℂ) - H)⁻¹)) l := by
  have hcM : Continuous fun m : ℂ => m • (1 : Matrix κ κ ℂ) - H := (continuous_id.smul continuous_const).sub continuous_const
  have hcd : Continuous fun m : ℂ => (m • (1 : Matrix κ κ ℂ) - H).det := hcM.matrix_det
  have hev : ∀ᶠ m in 𝓝 l, (m • (1 : Matrix κ κ ℂ) - H).det ≠ 0 := hcd.continuousAt.eventually_ne hs
  have hci : ContinuousAt (fun m : ℂ => (m • (1 : Matrix κ κ ℂ) - H)⁻¹) l := by
    have : (fun m : ℂ => (m • (1 : Matrix κ κ ℂ) - H)⁻¹) = fun m => ((m • (1 : Matrix κ κ ℂ) - H).det)⁻¹ • (m • (1 : Matrix κ κ ℂ) - H).adjugate := by
      funext M; rw [Matrix.inv_def, Ring.inverse_eq_inv']
    rw [this]
    exact (hcd.continuousAt.inv₀ hs).smul hcM.matrix_adjugate.continuousAt
  have hcp : ContinuousAt (fun m : ℂ => -((m • (1 : Matrix κ κ ℂ) - H)⁻¹ * (l • (1 : Matrix κ κ ℂ) - H)⁻¹)) l :=
    (hci.mul continuousAt_const).neg
  intro i j
  rw [hasDerivAt_iff_tendsto_slope]
  have hce : ContinuousAt (fun m : ℂ => (-((m • (1 : Matrix κ κ ℂ) - H)⁻¹ * (l • (1 : Matrix κ κ ℂ) - H)⁻¹)) i j) l :=
    ((continuous_apply_apply i j).continuousAt).comp hcp
  refine (hce.tendsto.mono_left nhdsWithin_le_nhds).congr' ?_
  have hev' : ∀ᶠ m in 𝓝[≠] l, (m • (1 : Matrix κ κ ℂ) - H).det ≠ 0 := nhdsWithin_le_nhds hev
  filter_upwards [hev', self_mem_nhdsWithin] with m hm hne
  have hne' : m - l ≠ 0 := sub_ne_zero.2 hne
  have u1 := isUnit_iff_ne_zero.2 hm
  have u2 : IsUnit (l • (1 : Matrix κ κ ℂ) - H).det := isUnit_iff_ne_zero.2 hs
  have hr : (m • (1 : Matrix κ κ ℂ) - H)⁻¹ - (l • (1 : Matrix κ κ ℂ) - H)⁻¹
      = (m - l) • -((m • (1 : Matrix κ κ ℂ) - H)⁻¹ * (l • (1 : Matrix κ κ ℂ) - H)⁻¹) := by
    have e1 : (l • (1 : Matrix κ κ ℂ) - H) - (m • (1 : Matrix κ κ ℂ) - H) = -(m - l) • (1 : Matrix κ κ ℂ) := by
      rw [neg_smul, sub_smul]; abel
    calc (m • (1 : Matrix κ κ ℂ) - H)⁻¹ - (l • (1 : Matrix κ κ ℂ) - H)⁻¹
        = (m • (1 : Matrix κ κ ℂ) - H)⁻¹ * ((l • (1 : Matrix κ κ ℂ) - H) - (m • (1 : Matrix κ κ ℂ) - H)) * (l • (1 : Matrix κ κ ℂ) - H)⁻¹ := by
          rw [Matrix.mul_sub, Matrix.sub_mul, Matrix.mul_assoc, mul_nonsing_inv _ u2, nonsing_inv_mul _ u1, Matrix.mul_one, Matrix.one_mul]
      _ = _ := by rw [e1, Matrix.mul_smul, Matrix.smul_mul, Matrix.mul_one, neg_smul, smul_neg]
  have hr2 := congrFun (congrFun hr i) j
  rw [Matrix.sub_apply, Matrix.smul_apply, smul_eq_mul] at hr2
  rw [slope_def_field, hr2]
  field_simp

theorem Usimp_deriv {X : Matrix ι κ ℂ} {H : Matrix κ κ ℂ} {l : ℂ} (hl : InΩ P l) (hs : simpOk H l) :
    MDeriv (fun m => Usimp P X H false m) (Usimp P X H true l) l := by
  have h := ((T_deriv P hl).mul_right X).mul (resolvent_deriv H hs)
  unfold Usimp
  simp only [Bool.false_eq_true, if_false, if_true]
  rw [Matrix.mul_neg, ← Matrix.mul_assoc, ← sub_eq_add_neg] at h
  exact h

end blocks

end Verif.NDef
