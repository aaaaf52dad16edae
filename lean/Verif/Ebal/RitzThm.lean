import Verif.Ebal.RitzSpec
/-!
Property C201: Ritz vectors used for the true residual and in arbitrary selection.
-/
set_option linter.all false
namespace Verif.Ebal.Ritz
noncomputable section
open Classical

theorem nrm_pos {n : ℕ} {x : Vr n} (h : x ≠ 0) : 0 < nrm x := by
  obtain ⟨i, hi⟩ := Function.ne_iff.mp h
  refine Real.sqrt_pos.mpr (lt_of_lt_of_le (by have : x i ≠ 0 := hi; positivity : 0 < x i ^ 2) ?_)
  exact Finset.single_le_sum (f := fun i => x i ^ 2) (fun j _ => sq_nonneg _) (Finset.mem_univ i)

theorem eig_smul {n : ℕ} {S : Matrix (Fin n) (Fin n) ℝ} {lam : ℝ} {x : Vr n} (h : Eig S.mulVec lam x) {a : ℝ} (ha : a ≠ 0) : Eig S.mulVec lam (a • x) :=
  ⟨smul_ne_zero ha h.1, by rw [Matrix.mulVec_smul, h.2, smul_comm]⟩

theorem pair_smul {n : ℕ} {S : Matrix (Fin n) (Fin n) ℝ} {re im : ℝ} {x y : Vr n} (h : EigPair S.mulVec re im x y) {a : ℝ} (ha : a ≠ 0) :
    EigPair S.mulVec re im (a • x) (a • y) := by
  refine ⟨h.1.imp (smul_ne_zero ha) (smul_ne_zero ha), ?_, ?_⟩
  · rw [Matrix.mulVec_smul, h.2.1, smul_sub, smul_comm a re, smul_comm a im]
  · rw [Matrix.mulVec_smul, h.2.2, smul_add, smul_comm a re, smul_comm a im]

theorem div_ne {n : ℕ} {x d : Vr n} (hd : ∀ i, d i ≠ 0) (hx : x ≠ 0) : (fun i => x i / d i) ≠ 0 := by
  obtain ⟨i, hi⟩ := Function.ne_iff.mp hx
  exact Function.ne_iff.mpr ⟨i, div_ne_zero hi (hd i)⟩

theorem smul_apply_eig {n : ℕ} (c : Cfg n) {lam : ℝ} {x : Vr n} (h : Eig (apply c) lam x) (a : ℝ) : apply c (a • x) = lam • (a • x) := by
  have h2 := h.2
  unfold apply at h2 ⊢
  cases hd : c.stD with
  | none => rw [hd] at h2; simp only at h2 ⊢; rw [Matrix.mulVec_smul, h2, smul_comm]
  | some d =>
    rw [hd] at h2
    simp only at h2 ⊢
    have e : (fun j => (a • x) j / d j) = a • fun j => x j / d j := by funext j; exact mul_div_assoc _ _ _
    rw [e, Matrix.mulVec_smul, smul_comm lam a, ← h2]
    funext i
    exact mul_assoc _ _ _

/-- C201: for a real eigenvalue the Ritz vector is an eigenvector of the user's operator, with or without purification (of a nonzero eigenvalue of the operator) and
balancing, for Hermitian and non-Hermitian problems. -/
theorem C201_partial {n : ℕ} (c : Cfg n) (hc : Consistent c) (lam : ℝ) (hlam : c.purify = true → lam ≠ 0) (x : Vr n) (h : Eig (apply c) lam x) :
    Eig c.S.mulVec lam (ritz c x) := by
  obtain ⟨h1, h2, h3⟩ := hc
  -- purification only scales the vector
  obtain ⟨u, hu⟩ : ∃ u, u = (if c.purify then (1 / (if c.herm then c.bnrm (apply c x) else nrm (apply c x))) • apply c x else x) := ⟨_, rfl⟩
  have hu' : Eig (apply c) lam u := by
    by_cases hp : c.purify = true
    · rw [if_pos hp, h.2] at hu
      have hne : lam • x ≠ 0 := smul_ne_zero (hlam hp) h.1
      obtain ⟨q, hq⟩ : ∃ q, q = (if c.herm then c.bnrm (lam • x) else nrm (lam • x)) := ⟨_, rfl⟩
      have hq0 : 0 < q := by
        rw [hq]
        by_cases hh : c.herm = true
        · rw [if_pos hh]; exact h3 _ hne
        · rw [if_neg hh]; exact nrm_pos hne
      rw [← hq, smul_smul] at hu
      rw [hu]
      exact ⟨smul_ne_zero (mul_ne_zero (one_div_pos.mpr hq0).ne' (hlam hp)) h.1, smul_apply_eig c h _⟩
    · rw [if_neg hp] at hu; rw [hu]; exact h
  have hr : Eig c.S.mulVec lam (realPart c x) := by
    unfold realPart
    rw [← hu]
    obtain ⟨hu0, hu1⟩ := hu'
    unfold apply at hu1
    unfold fix
    by_cases ha : c.herm = false ∧ c.balance = true
    · rw [if_pos ha] at h1
      cases hd : c.epsD with
      | none => rw [h1, hd] at hu1; exact ⟨hu0, hu1⟩
      | some d =>
        rw [h1, hd] at hu1
        have hdn := h2 d hd
        simp only [ha.1, ha.2, Bool.not_false, Bool.and_self, if_true]
        refine ⟨div_ne hdn hu0, ?_⟩
        funext i
        have := congrFun hu1 i
        simp only at this
        show c.S.mulVec (fun j => u j / d j) i = lam * (u i / d i)
        rw [← mul_div_assoc, eq_div_iff (hdn i)]
        exact this
    · rw [if_neg ha] at h1
      rw [h1] at hu1
      have hoff : (!c.herm && c.balance) = false := by
        cases hh : c.herm <;> cases hb : c.balance <;> simp_all
      cases hd : c.epsD with
      | none => exact ⟨hu0, hu1⟩
      | some d => simp only [hoff]; exact ⟨hu0, hu1⟩
  unfold ritz
  by_cases hb : c.balance = true ∧ c.epsD.isSome = true
  · rw [if_pos hb]; exact eig_smul hr (one_div_pos.mpr (nrm_pos hr.1)).ne'
  · rw [if_neg hb]; exact hr

/-- C201: for a complex pair of a non-Hermitian problem whose second matrix is not positive definite, the real and imaginary parts form an eigenvector of the
user's operator, with or without balancing. -/
theorem C201_pair_partial {n : ℕ} (c : Cfg n) (hc : Consistent c) (hh : c.herm = false) (hp : c.purify = false) (hpos : c.positive = false) (re im : ℝ)
    (x y : Vr n) (h : EigPair (apply c) re im x y) : EigPair c.S.mulVec re im (ritzPair c x y).1 (ritzPair c x y).2 := by
  obtain ⟨h1, h2, h3⟩ := hc
  have hr : EigPair c.S.mulVec re im (realPart c x) (imagPart c y) := by
    obtain ⟨g0, g1, g2⟩ := h
    unfold realPart imagPart fix
    unfold apply at g1 g2
    simp only [hh, hp, hpos, Bool.not_false, Bool.true_and]
    by_cases hb : c.balance = true
    · rw [if_pos ⟨hh, hb⟩] at h1
      cases hd : c.epsD with
      | none => rw [h1, hd] at g1 g2; exact ⟨g0, g1, g2⟩
      | some d =>
        rw [h1, hd] at g1 g2
        have hdn := h2 d hd
        simp only [hb, if_true]
        refine ⟨g0.imp (div_ne hdn) (div_ne hdn), ?_, ?_⟩
        · funext i
          have := congrFun g1 i
          simp only [Pi.sub_apply, Pi.smul_apply, smul_eq_mul] at this
          show c.S.mulVec (fun j => x j / d j) i = re * (x i / d i) - im * (y i / d i)
          rw [← mul_div_assoc, ← mul_div_assoc, ← sub_div, eq_div_iff (hdn i)]
          exact this
        · funext i
          have := congrFun g2 i
          simp only [Pi.add_apply, Pi.smul_apply, smul_eq_mul] at this
          show c.S.mulVec (fun j => y j / d j) i = im * (x i / d i) + re * (y i / d i)
          rw [← mul_div_assoc, ← mul_div_assoc, ← add_div, eq_div_iff (hdn i)]
          exact this
    · rw [if_neg (fun hx => hb hx.2)] at h1
      rw [h1] at g1 g2
      have hb' : c.balance = false := by simpa using hb
      cases hd : c.epsD with
      | none => exact ⟨g0, g1, g2⟩
      | some d => simp only [hb']; exact ⟨g0, g1, g2⟩
  unfold ritzPair
  by_cases hb : c.balance = true ∧ c.epsD.isSome = true
  · rw [if_pos hb]
    refine pair_smul hr (one_div_pos.mpr (Real.sqrt_pos.mpr ?_)).ne'
    rcases hr.1 with g | g
    · have := nrm_pos g; positivity
    · have := nrm_pos g; positivity
  · rw [if_neg hb]; exact hr

/-- Operator with eigenvalues `i` and `-i`. -/
def F2 : Matrix (Fin 2) (Fin 2) ℝ := !![0, -(1 / 2); 2, 0]

/-- Settings of the witness: non-Hermitian problem with positive definite second matrix, no balancing. -/
def cfg2 (purify positive : Bool) : Cfg 2 := ⟨purify, false, positive, false, none, nrm, none, F2⟩

theorem F2_pair (p q : Bool) : EigPair (apply (cfg2 p q)) 0 1 ![1, 0] ![0, -2] := by
  refine ⟨Or.inl (fun h => by have := congrFun h 0; simp at this), ?_, ?_⟩
  · funext i; fin_cases i <;> simp [apply, cfg2, F2, Matrix.mulVec, dotProduct, Fin.sum_univ_two]
  · funext i; fin_cases i <;> simp [apply, cfg2, F2, Matrix.mulVec, dotProduct, Fin.sum_univ_two]

/-- C201 is false for complex pairs in real arithmetic if the second matrix is positive definite, with purification (both parts are normalized on their own) and without
(only the imaginary part is purified): the vector is no eigenvector, for any eigenvalue. -/
theorem C201_pair_false (purify : Bool) : ∃ (c : Cfg 2) (x y : Vr 2), c.purify = purify ∧ c.positive = true ∧ c.herm = false ∧ Consistent c ∧
    EigPair (apply c) 0 1 x y ∧ ∀ re im, im ≠ 0 → ¬ (EigPair c.S.mulVec re im (ritzPair c x y).1 (ritzPair c x y).2) := by
  refine ⟨cfg2 purify true, ![1, 0], ![0, -2], rfl, rfl, rfl, ⟨by simp [cfg2], fun d hd => by simp [cfg2] at hd, fun x hx => nrm_pos hx⟩, F2_pair _ _, ?_⟩
  have ax : apply (cfg2 purify true) ![1, 0] = ![0, 2] := by
    funext i; fin_cases i <;> simp [apply, cfg2, F2, Matrix.mulVec, dotProduct, Fin.sum_univ_two]
  have ay : apply (cfg2 purify true) ![0, -2] = ![1, 0] := by
    funext i; fin_cases i <;> simp [apply, cfg2, F2, Matrix.mulVec, dotProduct, Fin.sum_univ_two]
  have nx : nrm (![0, 2] : Vr 2) = 2 := by
    unfold nrm; rw [Fin.sum_univ_two]
    show Real.sqrt ((0:ℝ) ^ 2 + 2 ^ 2) = 2
    rw [show (0:ℝ) ^ 2 + 2 ^ 2 = 2 ^ 2 by norm_num, Real.sqrt_sq (by norm_num)]
  have ny : nrm (![1, 0] : Vr 2) = 1 := by
    unfold nrm; rw [Fin.sum_univ_two]
    show Real.sqrt ((1:ℝ) ^ 2 + 0 ^ 2) = 1
    rw [show (1:ℝ) ^ 2 + 0 ^ 2 = 1 by norm_num, Real.sqrt_one]
  have ry : (ritzPair (cfg2 purify true) ![1, 0] ![0, -2]).2 = ![1, 0] := by
    have : imagPart (cfg2 purify true) ![0, -2] = ![1, 0] := by
      show (1 / nrm (apply (cfg2 purify true) ![0, -2])) • apply (cfg2 purify true) ![0, -2] = _
      rw [ay, ny]; simp
    rw [← this]; rfl
  have rx : (ritzPair (cfg2 purify true) ![1, 0] ![0, -2]).1 = if purify then ![0, 1] else ![1, 0] := by
    cases purify
    · rfl
    · show (1 / nrm (apply (cfg2 true true) ![1, 0])) • apply (cfg2 true true) ![1, 0] = _
      rw [ax, nx]
      funext i; fin_cases i <;> simp
  intro re im him h
  rw [rx, ry] at h
  obtain ⟨_, g1, g2⟩ := h
  have hS : (cfg2 purify true).S = F2 := rfl
  rw [hS] at g1 g2
  cases purify
  · have a0 := congrFun g1 0
    have a1 := congrFun g1 1
    simp [F2, Matrix.mulVec, dotProduct, Fin.sum_univ_two] at a0 a1
  · have a0 := congrFun g1 0
    have b1 := congrFun g2 1
    simp [F2, Matrix.mulVec, dotProduct, Fin.sum_univ_two] at a0 b1
    linarith

/-- A consistent balanced configuration with a complex pair of the balanced operator (hypotheses of C201_pair_partial): `F2` balanced with `diag(2,1)`. -/
example : ∃ c : Cfg 2, Consistent c ∧ c.herm = false ∧ c.purify = false ∧ c.positive = false ∧ c.balance = true ∧ c.stD = some ![2, 1] ∧
    EigPair (apply c) 0 1 ![2, 0] ![0, -2] := by
  refine ⟨⟨false, false, false, true, some ![2, 1], nrm, some ![2, 1], F2⟩, ⟨by simp, fun d hd i => ?_, fun x hx => nrm_pos hx⟩, rfl, rfl, rfl, rfl, rfl,
    Or.inl (fun h => by have := congrFun h 0; simp at this), ?_, ?_⟩
  · rw [← Option.some.inj hd]; fin_cases i <;> simp
  · funext i; fin_cases i <;> simp [apply, F2, Matrix.mulVec, dotProduct, Fin.sum_univ_two]
  · funext i; fin_cases i <;> simp [apply, F2, Matrix.mulVec, dotProduct, Fin.sum_univ_two]

/-- A purified and balanced configuration with a real eigenpair (hypotheses of C201_partial). -/
example : ∃ c : Cfg 2, Consistent c ∧ c.purify = true ∧ c.stD = some ![2, 1] ∧ Eig (apply c) 4 ![2, 2] := by
  refine ⟨⟨true, false, true, true, some ![2, 1], nrm, some ![2, 1], !![0, 2; 2, 3]⟩, ⟨by simp, fun d hd i => ?_, fun x hx => nrm_pos hx⟩, rfl, rfl,
    (fun h => by have := congrFun h 0; simp at this), ?_⟩
  · rw [← Option.some.inj hd]; fin_cases i <;> simp
  · funext i; fin_cases i <;> simp [apply, Matrix.mulVec, dotProduct, Fin.sum_univ_two] <;> norm_num

end
end Verif.Ebal.Ritz
