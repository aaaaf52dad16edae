import Verif.Filt.VecLem
import Verif.Filt.Spec

/-! # Theorems C130, C131, C132 -/

set_option linter.all false

namespace Verif.Filt

open Polynomial Finset

/-! ## C130 -/

/-- Evaluation: the polynomial of the interval that contains the point. -/
theorem C130_eval (pp : Arr) (m : ℕ) (intv : Arr) (np : ℕ) (z0 : ℝ) (hnp : 2 ≤ np) (hm : 1 ≤ m) :
    ∃ k, k + 1 < np ∧ (k = 0 ∨ intv k ≤ z0) ∧ (k + 2 = np ∨ z0 < intv (k + 1)) ∧
      (intv k ≠ intv (k + 1) →
        pieceEval pp m intv np z0 = (piece pp (k * m) m (intv k) (intv (k + 1))).eval z0) := by
  obtain ⟨k, e, h1, h2, h3⟩ := findIdx_spec intv np z0 hnp
  refine ⟨k, h1, ?_, ?_, fun hne => ?_⟩
  · by_cases h : k = 0
    · exact Or.inl h
    · exact Or.inr (h2 h)
  · by_cases h : k + 2 < np
    · exact Or.inr (h3 h)
    · exact Or.inl (by omega)
  · rw [pieceEval]
    rw [e]
    dsimp only
    rw [show k + 1 - 1 = k by omega, polyEval_eq _ _ _ _ _ _ hm, piece_eval, mapped_eq _ _ _ hne,
      show k + 1 - 1 = k by omega]

/-- Multiplication: every piece is multiplied by `z`, the entries after the coefficients are not
touched. -/
theorem C130_mulX (pp : Arr) (deg1 ldp : ℕ) (intv : Arr) (nintv : ℕ) (qq : Arr) (ldq : ℕ)
    (hd : 1 ≤ deg1) (hq : deg1 + 1 ≤ ldq) (j : ℕ) (hj : j < nintv) :
    (intv j ≠ intv (j + 1) →
      piece (mulX pp deg1 ldp intv nintv qq ldq) (j * ldq) (deg1 + 1) (intv j) (intv (j + 1)) =
        X * piece pp (j * ldp) deg1 (intv j) (intv (j + 1))) ∧
    ∀ i, deg1 + 1 ≤ i → i < ldq → mulX pp deg1 ldp intv nintv qq ldq (j * ldq + i) = qq (j * ldq + i) := by
  obtain ⟨d, rfl⟩ : ∃ d, deg1 = d + 1 := ⟨deg1 - 1, by omega⟩
  refine ⟨fun hne => ?_, fun i a b => mulX_out _ _ _ _ _ _ _ hq _ _ a b⟩
  rw [piece, piece, mulX_ser _ _ _ _ _ _ _ hq j hj, mul_comp]
  congr 1
  have h2 : intv (j + 1) - intv j ≠ 0 := sub_ne_zero.mpr (Ne.symm hne)
  simp only [add_comp, C_comp, mul_comp, X_comp]
  rw [← mul_assoc, ← C_mul, show (intv (j + 1) - intv j) / 2 * (2 / (intv (j + 1) - intv j)) = 1 by field_simp]
  simp

/-- Inner product: weighted sum of the integrals of the products of the pieces, in the variable of
the interval, with the Chebyshev weight. -/
theorem C130_inner (pp : Arr) (pr pc ldp : ℕ) (qq : Arr) (qr qc ldq : ℕ) (w intv : Arr)
    (hne : ∀ j < min pc qc, intv j ≠ intv (j + 1)) :
    innerP pp pr pc ldp qq qr qc ldq w = ∑ j ∈ range (min pc qc), w j * ∫ t in (-1 : ℝ)..1,
      (piece pp (j * ldp) pr (intv j) (intv (j + 1))).eval ((intv j + intv (j + 1)) / 2 + (intv (j + 1) - intv j) / 2 * t) *
      (piece qq (j * ldq) qr (intv j) (intv (j + 1))).eval ((intv j + intv (j + 1)) / 2 + (intv (j + 1) - intv j) / 2 * t) *
      √(1 - t ^ 2)⁻¹ := by
  rw [innerP_eq]
  refine sum_congr rfl fun j hj => ?_
  have h2 : intv (j + 1) - intv j ≠ 0 := sub_ne_zero.mpr (Ne.symm (hne j (mem_range.mp hj)))
  rw [ci, Chebyshev.integral_measureT]
  congr 1
  refine intervalIntegral.integral_congr fun t _ => ?_
  rw [piece_eval, piece_eval, show 2 / (intv (j + 1) - intv j) *
    ((intv j + intv (j + 1)) / 2 + (intv (j + 1) - intv j) / 2 * t - (intv j + intv (j + 1)) / 2) = t by field_simp; ring,
    eval_mul]

/-! ## C131 -/

theorem dist2_eq (n : ℕ) (intv w bf : Arr) (nb : ℕ) (Q : ℝ[X]) :
    dist2 n intv w bf nb Q = (∑ j ∈ range n, w j * ci (ser bf (j * nb) nb * ser bf (j * nb) nb)) -
      2 * Ff n intv w bf nb Q + Lf n intv w (Q * Q) := by
  have e : ∀ j, (∫ t in (-1 : ℝ)..1,
    ((∑ i ∈ range nb, bf (j * nb + i) * (Chebyshev.T ℝ (i : ℤ)).eval t) -
      Q.eval ((intv j + intv (j + 1)) / 2 + (intv (j + 1) - intv j) / 2 * t)) ^ 2 * √(1 - t ^ 2)⁻¹) =
      ci (ser bf (j * nb) nb * ser bf (j * nb) nb) - 2 * ci (ser bf (j * nb) nb * Q.comp (mp intv j)) +
      ci ((Q * Q).comp (mp intv j)) := by
    intro j
    have e1 : ci (ser bf (j * nb) nb * ser bf (j * nb) nb) - 2 * ci (ser bf (j * nb) nb * Q.comp (mp intv j)) +
        ci ((Q * Q).comp (mp intv j)) =
        ci ((ser bf (j * nb) nb - Q.comp (mp intv j)) * (ser bf (j * nb) nb - Q.comp (mp intv j))) := by
      have : (ser bf (j * nb) nb - Q.comp (mp intv j)) * (ser bf (j * nb) nb - Q.comp (mp intv j)) =
          ser bf (j * nb) nb * ser bf (j * nb) nb + C (-2) * (ser bf (j * nb) nb * Q.comp (mp intv j)) + (Q * Q).comp (mp intv j) := by
        rw [show (C (-2) : ℝ[X]) = -2 by rw [C_neg]; rfl, mul_comp]; ring
      rw [this, ci_add, ci_add, ci_C_mul]; ring
    rw [e1, ci, Chebyshev.integral_measureT]
    refine intervalIntegral.integral_congr fun t _ => ?_
    have hs : (ser bf (j * nb) nb).eval t = ∑ i ∈ range nb, bf (j * nb + i) * (Chebyshev.T ℝ (i : ℤ)).eval t := by
      rw [ser, eval_finset_sum]
      exact sum_congr rfl fun i _ => by simp
    rw [eval_mul, eval_sub, hs, eval_comp, mp_eval]; ring
  rw [dist2]
  simp only [e]
  rw [show Ff n intv w bf nb Q = ∑ j ∈ range n, w j * ci (ser bf (j * nb) nb * Q.comp (mp intv j)) from rfl, Lf_apply,
    mul_sum, ← sum_sub_distrib, ← sum_add_distrib]
  exact sum_congr rfl fun j _ => by ring

theorem seq_best {n : ℕ} {intv w : Arr} (h : Part n intv w) (bf : Arr) (nb d : ℕ) :
    IsBest n intv w bf nb d (psSeq (Lf n intv w) (Ff n intv w bf nb) d).c where
  zero := seq_c0 d
  deg := (seq_deg (pos_of_part h) d).2.2
  best S h0 hd := by
    rw [dist2_eq, dist2_eq]
    have := best (Φ := Ff n intv w bf nb) (pos_of_part h) d S h0 hd
    have hn := Lf_sq_nonneg h (S - (psSeq (Lf n intv w) (Ff n intv w bf nb) d).c)
    linarith
  unique S h0 hd hle := by
    rw [dist2_eq, dist2_eq] at hle
    have hb := best (Φ := Ff n intv w bf nb) (pos_of_part h) d S h0 hd
    by_contra hne
    have hD : S - (psSeq (Lf n intv w) (Ff n intv w bf nb) d).c ≠ 0 := sub_ne_zero.mpr hne
    have := Lf_pos h _ (mul_ne_zero hD hD) (fun z _ => by rw [eval_mul]; exact mul_self_nonneg _)
    linarith

/-- **C131** The array returned holds, in every interval, the Chebyshev coefficients of one
polynomial, which is the best approximation of the base filter; no division by zero happens. -/
theorem C131 (bf : Arr) (nb : ℕ) (intv : Arr) (m : ℕ) (w : Arr) (niter : ℕ) (hn : 1 ≤ niter)
    (hpart : Part (m - 1) intv w) :
    ∃ Q : ℝ[X], IsBest (m - 1) intv w bf nb niter Q ∧ ¬ (crPoly bf nb intv m w niter).nan ∧
      ∀ j < m - 1, ∀ t, (∑ i ∈ range (niter + 2), (crPoly bf nb intv m w niter).c (j * (niter + 2) + i) *
        (Chebyshev.T ℝ (i : ℤ)).eval t) =
          Q.eval ((intv j + intv (j + 1)) / 2 + (intv (j + 1) - intv j) / 2 * t) := by
  obtain ⟨k, rfl⟩ : ∃ k, niter = k + 1 := ⟨niter - 1, by omega⟩
  obtain ⟨I, hI⟩ : ∃ I : CrIn, I = ⟨k + 1 + 2, m - 1, intv, w, bf, nb⟩ := ⟨_, rfl⟩
  have hp : Part I.nintv I.intv I.w := by subst hI; exact hpart
  have hld : I.ld = k + 3 := by subst hI; rfl
  have h := crLoop_inv I hp (by omega) k (by omega)
  obtain ⟨-, hc, -, -, hnan⟩ := crA_inv I hp k _ h (by omega)
  have e : crPoly bf nb intv m w (k + 1) = crA I (loop k (fun _ s => crIter I s) (crInit I)) := by
    rw [hI]; rfl
  refine ⟨(crSeq I (k + 1)).c, ?_, by rw [e]; exact hnan, fun j hj t => ?_⟩
  · rw [hI]; exact seq_best hpart bf nb (k + 1)
  · have h1 := (hc j (by rw [hI]; exact hj)).1
    rw [hld] at h1
    have h2 := congrArg (eval t) h1
    rw [eval_comp, ser, eval_finset_sum, mp_eval] at h2
    rw [e]
    have e3 : I.intv = intv := by rw [hI]
    rw [e3] at h2
    rw [← h2]
    exact sum_congr rfl fun i _ => by simp

/-! ## C132 -/

variable {V : Type*} [AddCommGroup V] [Module ℝ V]

/-- **C132** The operator applied to a vector is `1 - Q(T)` for the best approximation `Q`, the
same for all matrices and vectors; the block version applies it to every column. -/
theorem C132 (bf : Arr) (baseDeg : ℕ) (intv : Arr) (np : ℕ) (w : Arr) (deg : ℕ) (hpart : Part (np - 1) intv w)
    (Q : ℝ[X]) (hQ : IsBest (np - 1) intv w bf (2 * baseDeg + 2) deg Q) (T : V →ₗ[ℝ] V) :
    (∀ b, matMult T b bf baseDeg intv np w deg = b - aeval T Q b) ∧
    (∀ {ι : Type} (B : ι → V) (i : ι), matMatMult T B bf baseDeg intv np w deg i = B i - aeval T Q (B i)) := by
  have hq : Q = (psSeq (Lf (np - 1) intv w) (Ff (np - 1) intv w bf (2 * baseDeg + 2)) deg).c := by
    have hb := seq_best hpart bf (2 * baseDeg + 2) deg
    exact hb.unique Q hQ.zero hQ.deg (hQ.best _ hb.zero hb.deg)
  have h1 : ∀ b, matMult T b bf baseDeg intv np w deg = b - aeval T Q b := by
    intro b
    rw [hq]
    exact (vLoop_inv ⟨deg + 3, np - 1, intv, w, bf, 2 * baseDeg + 2⟩ hpart T b deg le_rfl).x
  refine ⟨h1, fun B i => ?_⟩
  rw [← h1 (B i), matMatMult, bProd_col]; rfl

/-- Eigenvectors of `T` are eigenvectors of the operator. -/
theorem C132_eigen (bf : Arr) (baseDeg : ℕ) (intv : Arr) (np : ℕ) (w : Arr) (deg : ℕ) (hpart : Part (np - 1) intv w)
    (Q : ℝ[X]) (hQ : IsBest (np - 1) intv w bf (2 * baseDeg + 2) deg Q) (T : V →ₗ[ℝ] V) (v : V) (μ : ℝ)
    (hv : T v = μ • v) : matMult T v bf baseDeg intv np w deg = (1 - Q.eval μ) • v := by
  rw [(C132 bf baseDeg intv np w deg hpart Q hQ T).1 v, sub_smul, one_smul]
  congr 1
  have : ∀ q : ℝ[X], aeval T q v = q.eval μ • v := by
    intro q
    induction q using Polynomial.induction_on' with
    | add p q hp hq => rw [map_add, LinearMap.add_apply, hp, hq, eval_add, add_smul]
    | monomial n a =>
      rw [aeval_monomial, eval_monomial]
      have : ∀ n : ℕ, (T ^ n) v = μ ^ n • v := by
        intro n
        induction n with
        | zero => simp
        | succ n ih => rw [pow_succ', Module.End.mul_apply, ih, map_smul, hv, smul_smul, pow_succ]
      rw [Module.End.mul_apply, this, map_smul]
      simp [Module.algebraMap_end_apply, smul_smul, mul_comm]
  exact this Q

/-- A partition with the weights of the code that meets the hypotheses of C131 and C132 (a break point is double). -/
theorem part_example : Part (6 - 1) (fun j => if j = 0 then 0 else if j ≤ 2 then 1 else (j : ℝ)) (fun j => if j = 0 ∨ j = 4 then 100 else if j = 2 then 1000 else 10) where
  pos j _ := by split_ifs <;> norm_num
  zero j _ := by split_ifs <;> positivity
  mono j h := by
    have : j = 0 ∨ j = 1 ∨ j = 2 ∨ j = 3 ∨ j = 4 := by omega
    rcases this with rfl | rfl | rfl | rfl | rfl <;> norm_num
  big := ⟨0, by norm_num, by norm_num⟩

/-- For every base function there is a best polynomial on it, so C132 applies. -/
example (bf : Arr) (nb deg : ℕ) : ∃ Q : ℝ[X], IsBest (6 - 1) (fun j => if j = 0 then 0 else if j ≤ 2 then 1 else (j : ℝ))
    (fun j => if j = 0 ∨ j = 4 then 100 else if j = 2 then 1000 else 10) bf nb deg Q :=
  ⟨_, seq_best part_example bf nb deg⟩

end Verif.Filt
