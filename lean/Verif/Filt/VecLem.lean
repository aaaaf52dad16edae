import Verif.Filt.CrArr
import Mathlib.Algebra.Polynomial.AlgebraMap
import Mathlib.Algebra.Algebra.Bilinear

/-! # The vector iteration runs in lockstep with the polynomials -/

set_option linter.all false

namespace Verif.Filt

open Polynomial Finset

variable {V : Type*} [AddCommGroup V] [Module ℝ V]

/-- State of the vector loop before iteration `k`. -/
structure VInv (I : CrIn) (A : V →ₗ[ℝ] V) (b : V) (k : ℕ) (t : VSt V) : Prop where
  s : CrInv I k t.s
  done : ¬ t.done
  p : t.p = aeval A (crSeq I k).p b
  r : t.r = aeval A (crSeq I k).r b
  ap : t.ap = A t.p
  x : A t.x = b - aeval A (crSeq I k).c b

theorem aeval_X_mul (A : V →ₗ[ℝ] V) (q : ℝ[X]) (b : V) : aeval A (X * q) b = A (aeval A q b) := by
  rw [map_mul, aeval_X]; rfl

theorem aeval_C_mul (A : V →ₗ[ℝ] V) (a : ℝ) (q : ℝ[X]) (b : V) : aeval A (C a * q) b = a • aeval A q b := by
  rw [← smul_eq_C_mul, map_smul]; rfl

theorem vIter_inv (I : CrIn) (hpart : Part I.nintv I.intv I.w) (A : V →ₗ[ℝ] V) (b : V) (k : ℕ) (t : VSt V)
    (h : VInv I A b k t) (hl : k + 4 ≤ I.ld) : VInv I A b (k + 1) (vIter I A t) := by
  obtain ⟨hr, hc, ha0, ha, hn⟩ := crA_inv I hpart k t.s h.s (by omega)
  obtain ⟨har, hrho, hbet, hn'⟩ := crB_inv I hpart k t.s h.s hl
  have hpos : ¬ (crB I (crA I t.s)).rho < 0 := by
    rw [hrho]; exact not_lt.mpr (rho_pos (pos_of_part hpart) (k + 1)).le
  have hbalp : (crB I (crA I t.s)).alp = psAl (Lf I.nintv I.intv I.w) (Ff I.nintv I.intv I.w I.bf I.nbase) (crSeq I k) := ha
  have hbalp0 : (crB I (crA I t.s)).alp0 = psAl0 (Lf I.nintv I.intv I.w) (crSeq I k) := ha0
  have er : t.r + (-(crB I (crA I t.s)).alp0) • t.ap = aeval A (crSeq I (k + 1)).r b := by
    show _ = aeval A (psSeq _ _ (k + 1)).r b
    rw [r_succ, map_sub, LinearMap.sub_apply, aeval_C_mul, aeval_X_mul, h.r, h.ap, h.p, hbalp0, neg_smul]
    show _ + _ = _ - _
    rw [← sub_eq_add_neg]; rfl
  rw [vIter, if_neg h.done]
  dsimp only
  rw [if_neg hpos]
  refine ⟨crIter_inv I hpart k t.s h.s hl, fun h => h, ?_, er, ?_, ?_⟩
  · show t.r + (-(crB I (crA I t.s)).alp0) • t.ap + (crB I (crA I t.s)).bet • t.p = aeval A (psSeq _ _ (k + 1)).p b
    rw [er, p_succ, map_add, LinearMap.add_apply, aeval_C_mul, h.p, hbet]; rfl
  · show A (t.r + (-(crB I (crA I t.s)).alp0) • t.ap) + (crB I (crA I t.s)).bet • t.ap =
      A (t.r + (-(crB I (crA I t.s)).alp0) • t.ap + (crB I (crA I t.s)).bet • t.p)
    rw [map_add A (t.r + _), map_smul, h.ap]
  · show A (t.x + (crB I (crA I t.s)).alp • t.p) = b - aeval A (psSeq _ _ (k + 1)).c b
    rw [map_add, map_smul, h.x, c_succ, map_sub, LinearMap.sub_apply, aeval_C_mul, aeval_X_mul, h.p, hbalp]
    show b - aeval A (crSeq I k).c b + _ = b - (aeval A (crSeq I k).c b - _)
    rw [sub_sub_eq_add_sub, add_sub_right_comm]; rfl

theorem vLoop_inv (I : CrIn) (hpart : Part I.nintv I.intv I.w) (A : V →ₗ[ℝ] V) (b : V) (k : ℕ) (hl : k + 3 ≤ I.ld) :
    VInv I A b k (loop k (fun _ t => vIter I A t) { s := crInit I, x := 0, r := b, p := b, ap := A b }) := by
  induction k with
  | zero =>
    refine ⟨crInit_inv I hl, fun h => h, ?_, ?_, rfl, ?_⟩
    · show b = aeval A (psSeq _ _ 0).p b; simp [psSeq]
    · show b = aeval A (psSeq _ _ 0).r b; simp [psSeq]
    · show A 0 = b - aeval A (psSeq _ _ 0).c b; simp [psSeq]
  | succ k ih => exact vIter_inv I hpart A b k _ (ih (by omega)) (by omega)

/-- Column `i` of the block iteration. -/
structure BRel {ι : Type*} (tb : VSt (ι → V)) (i : ι) (tv : VSt V) : Prop where
  s : tb.s = tv.s
  done : tb.done ↔ tv.done
  x : tb.x i = tv.x
  r : tb.r i = tv.r
  p : tb.p i = tv.p
  ap : tb.ap i = tv.ap

theorem bIter_rel {ι : Type*} (I : CrIn) (A : V →ₗ[ℝ] V) (tb : VSt (ι → V)) (i : ι) (tv : VSt V) (h : BRel tb i tv) :
    BRel (bIter I A tb) i (vIter I A tv) := by
  rw [bIter, vIter]
  by_cases hd : tv.done
  · rw [if_pos hd, if_pos (h.done.mpr hd)]; exact h
  · rw [if_neg hd, if_neg (fun h' => hd (h.done.mp h')), h.s]
    dsimp only
    by_cases hr : (crB I (crA I tv.s)).rho < 0
    · rw [if_pos hr, if_pos hr]
      exact ⟨rfl, Iff.rfl, by show tb.x i + _ • tb.p i = _; rw [h.x, h.p], h.r, h.p, h.ap⟩
    · rw [if_neg hr, if_neg hr]
      refine ⟨rfl, Iff.rfl, by show tb.x i + _ • tb.p i = _; rw [h.x, h.p], by show tb.r i + _ • tb.ap i = _; rw [h.r, h.ap], ?_, ?_⟩
      · show _ • tb.p i + (tb.r i + _ • tb.ap i) = _
        rw [h.p, h.r, h.ap, add_comm]
      · show _ • tb.ap i + A (tb.r i + _ • tb.ap i) = _
        rw [h.r, h.ap, add_comm]

theorem bProd_col {ι : Type*} (A : V →ₗ[ℝ] V) (B : ι → V) (bf : Arr) (nbase : ℕ) (intv : Arr) (nintv : ℕ) (w : Arr)
    (niter : ℕ) (i : ι) :
    (bProd A B bf nbase intv nintv w niter).x i = (vProd A (B i) bf nbase intv nintv w niter).x := by
  have : ∀ (I : CrIn) k, BRel (loop k (fun _ t => bIter I A t) { s := crInit I, x := 0, r := B, p := B, ap := fun i => A (B i) }) i
      (loop k (fun _ t => vIter I A t) { s := crInit I, x := 0, r := B i, p := B i, ap := A (B i) }) := by
    intro I k
    induction k with
    | zero => exact ⟨rfl, Iff.rfl, rfl, rfl, rfl, rfl⟩
    | succ k ih => exact bIter_rel I A _ i _ ih
  exact (this _ niter).x

end Verif.Filt
