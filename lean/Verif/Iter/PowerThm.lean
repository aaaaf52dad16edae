import Mathlib.Analysis.InnerProductSpace.Symmetric
import Verif.Iter.PowerModel

/-!
# C149: power method with constant shift
-/

set_option linter.all false

namespace Verif.Iter

open Finset

variable {E : Type*} [NormedAddCommGroup E] [InnerProductSpace ℂ E]

theorem norm_signOf (sn : Bool) {eps10 : ℝ} (h : 0 ≤ eps10) (first : E → ℂ) (y : E) : ‖signOf sn eps10 first y‖ = 1 := by
  unfold signOf
  by_cases hc : sn = true ∧ eps10 < ‖first y‖
  · rw [if_pos hc, norm_div]
    have : ‖first y‖ ≠ 0 := by linarith [hc.2]
    simp [this]
  · rw [if_neg hc]; simp

variable {OP : E →ₗ[ℂ] E} {sgn : E → ℂ} {tol : ℝ} {nev : ℕ}

/-- the first `m` columns are orthonormal -/
def Orth (V : ℕ → E) (m : ℕ) : Prop := ∀ i < m, ∀ j < m, inner ℂ (V i) (V j) = if i = j then (1 : ℂ) else 0

/-- `M` is a bound of the operator -/
def Bound (OP : E →ₗ[ℂ] E) (M : ℝ) : Prop := 0 ≤ M ∧ ∀ x, ‖OP x‖ ≤ M * ‖x‖

theorem norm_of_inner_one {x : E} (h : inner ℂ x x = (1 : ℂ)) : ‖x‖ = 1 := by
  have := inner_self_eq_norm_sq (𝕜 := ℂ) x
  rw [h] at this
  have h2 : (‖x‖ : ℝ) ^ 2 = 1 := by rw [← this]; simp
  nlinarith [norm_nonneg x, sq_nonneg (‖x‖ - 1)]

theorem inner_one_of_norm {x : E} (h : ‖x‖ = 1) : inner ℂ x x = (1 : ℂ) := by
  rw [inner_self_eq_norm_sq_to_K, h]; simp

theorem inner_y {st : PSt E} (ho : Orth st.V st.k) {i : ℕ} (hi : i < st.k) : inner ℂ (st.V i) (st.y OP) = 0 := by
  unfold PSt.y
  rw [inner_sub_right, inner_sum, Finset.sum_eq_single i]
  · rw [inner_smul_right, ho i hi i hi, if_pos rfl, mul_one]; exact sub_self _
  · intro j hj hne
    rw [inner_smul_right, ho i hi j (mem_range.mp hj), if_neg (Ne.symm hne), mul_zero]
  · intro h; exact absurd (mem_range.mpr hi) h

theorem theta_le {st : PSt E} (hv : ‖st.V st.k‖ = 1) : ‖st.theta OP‖ ≤ ‖st.y OP‖ := by
  have := norm_inner_le_norm (𝕜 := ℂ) (st.V st.k) (st.y OP)
  rwa [hv, one_mul] at this

theorem norm_newV {st : PSt E} (hs : ∀ x, ‖sgn x‖ = 1) (hy : ‖st.y OP‖ ≠ 0) : ‖st.newV OP sgn‖ = 1 := by
  unfold PSt.newV
  rw [norm_smul, norm_div, norm_mul, hs, norm_one, one_mul, Complex.norm_real, norm_norm]
  field_simp

/-- the relation of the new column with the column of `T` of the old one -/
theorem new_relation {st : PSt E} (hs : ∀ x, ‖sgn x‖ = 1) (hy : ‖st.y OP‖ ≠ 0) :
    OP (st.newV OP sgn) - st.theta OP • st.newV OP sgn - (st.theta OP / (sgn (st.y OP) * (‖st.y OP‖ : ℂ))) • ∑ j ∈ range st.k, st.h OP j • st.V j =
      (1 / (sgn (st.y OP) * (‖st.y OP‖ : ℂ))) • OP (st.y OP - st.theta OP • st.V st.k) := by
  have e1 : OP (st.V st.k) = st.y OP + ∑ j ∈ range st.k, st.h OP j • st.V j := by unfold PSt.y; rw [sub_add_cancel]
  unfold PSt.newV
  rw [map_smul, map_sub, map_smul, e1]
  generalize st.y OP = y
  generalize ∑ j ∈ range st.k, st.h OP j • st.V j = S
  module

/-- what holds of every state of the loop -/
structure Inv (OP : E →ₗ[ℂ] E) (tol : ℝ) (nev : ℕ) (st : PSt E) : Prop where
  kle : st.k ≤ nev ∨ st.k = 0
  orthL : Orth st.V st.k
  cur : st.k < nev ∨ st.k = 0 → Orth st.V (st.k + 1)
  diag : ∀ j < st.k, st.T j j = st.eig j
  low : ∀ j < st.k, ∀ i, j < i → st.T i j = 0
  lowc : ∀ j, st.k ≤ j → ∀ i, j < i → st.T i j = 0
  ph : ∀ j < st.k, ‖st.ph j‖ ≤ 1
  rel : ∀ M, Bound OP M → ∀ j < st.k, ‖st.schur OP j‖ ≤ M * tol
  herm : OP.IsSymmetric → ∀ M, Bound OP M → ∀ j < st.k, ‖OP (st.V j) - st.eig j • st.V j‖ ≤ 2 ^ j * (M * tol)
  err : ∀ j < st.k, below (st.err j) tol

theorem Orth.snoc {V : ℕ → E} {m : ℕ} (h : Orth V m) {x : E} (hx : inner ℂ x x = (1 : ℂ)) (ho : ∀ j < m, inner ℂ (V j) x = 0) : Orth (Function.update V m x) (m + 1) := by
  intro i hi j hj
  have key : ∀ j < m, inner ℂ x (V j) = (0 : ℂ) := fun j hj => by rw [← inner_conj_symm, ho j hj, map_zero]
  by_cases h1 : i = m <;> by_cases h2 : j = m
  · subst h1; subst h2; simpa using hx
  · subst h1
    rw [Function.update_self, Function.update_of_ne h2, if_neg (Ne.symm h2)]
    exact key j (by omega)
  · subst h2
    rw [Function.update_self, Function.update_of_ne h1, if_neg h1]
    exact ho i (by omega)
  · rw [Function.update_of_ne h1, Function.update_of_ne h2]
    exact h i (by omega) j (by omega)

theorem Orth.congr {V W : ℕ → E} {m : ℕ} (h : Orth V m) (e : ∀ j < m, W j = V j) : Orth W m := by
  intro i hi j hj; rw [e i hi, e j hj]; exact h i hi j hj

theorem Orth.mono {V : ℕ → E} {m m' : ℕ} (h : Orth V m) (e : m' ≤ m) : Orth V m' := fun i hi j hj => h i (by omega) j (by omega)

/-- the state after the update of column `k`, before acceptance -/
theorem inv_reach (hs : ∀ x, ‖sgn x‖ = 1) {st : PSt E} (hr : Reach OP sgn tol nev st) : Inv OP tol nev st := by
  induction hr with
  | init st hk hv hT =>
    refine ⟨Or.inr hk, ?_, ?_, ?_, ?_, fun j _ i _ => hT i j, ?_, ?_, ?_, ?_⟩
    all_goals try (intros; omega)
    · intro i hi; omega
    · intro _ i hi j hj
      have : i = 0 := by omega
      have : j = 0 := by omega
      subst i; subst j
      rw [if_pos rfl]; exact inner_one_of_norm hv
  | step st st' start hr hk hst hit ih =>
    have hcur := ih.cur (Or.inl hk)
    have hvk : ‖st.V st.k‖ = 1 := norm_of_inner_one (by have := hcur st.k (by omega) st.k (by omega); rwa [if_pos rfl] at this)
    unfold iter at hit
    by_cases hy : ‖st.y OP‖ = 0
    · rw [if_pos hy] at hit; cases hit
    rw [if_neg hy] at hit
    have hit := Option.some.inj hit
    have hyi : ∀ j < st.k, inner ℂ (st.V j) (st.newV OP sgn) = 0 := by
      intro j hj
      unfold PSt.newV
      rw [inner_smul_right, inner_y ih.orthL hj, mul_zero]
    have hnv : inner ℂ (st.newV OP sgn) (st.newV OP sgn) = (1 : ℂ) := inner_one_of_norm (norm_newV hs hy)
    have horth1 : Orth (Function.update st.V st.k (st.newV OP sgn)) (st.k + 1) := ih.orthL.snoc hnv hyi
    have hlo : ∀ j, j < st.k → Function.update st.V st.k (st.newV OP sgn) j = st.V j := fun j hj => Function.update_of_ne (by omega) _ _
    by_cases hc : below (st.relerr OP) tol
    · rw [if_pos hc] at hit
      have hst := hst hc
      obtain ⟨r, hr1, hr2⟩ := hc
      have hθ : st.theta OP ≠ 0 := by
        intro h; unfold PSt.relerr at hr1; rw [if_pos h] at hr1; cases hr1
      unfold PSt.relerr at hr1
      rw [if_neg hθ] at hr1
      have hr1 := Option.some.inj hr1
      have hθn : 0 < ‖st.theta OP‖ := norm_pos_iff.mpr hθ
      have he : ‖st.y OP - st.theta OP • st.V st.k‖ < tol * ‖st.theta OP‖ := by
        rw [← hr1, div_lt_iff₀ hθn] at hr2; exact hr2
      have hle := theta_le (OP := OP) hvk
      have hV' : ∀ j < st.k + 1, st'.V j = Function.update st.V st.k (st.newV OP sgn) j := by
        intro j hj
        rw [← hit]
        by_cases h2 : st.k + 1 < nev
        · simp only [h2, if_true]; exact Function.update_of_ne (by omega) _ _
        · simp only [h2, if_false]
      have hk' : st'.k = st.k + 1 := by rw [← hit]
      have hVl : ∀ j < st.k, st'.V j = st.V j := fun j hj => by rw [hV' j (by omega), hlo j hj]
      have hVk : st'.V st.k = st.newV OP sgn := by rw [hV' _ (by omega), Function.update_self]
      have hel : ∀ j < st.k, st'.eig j = st.eig j := fun j hj => by rw [← hit]; exact Function.update_of_ne (by omega) _ _
      have hek : st'.eig st.k = st.theta OP := by rw [← hit]; exact Function.update_self ..
      have hpl : ∀ j < st.k, st'.ph j = st.ph j := fun j hj => by rw [← hit]; exact Function.update_of_ne (by omega) _ _
      have hpk : st'.ph st.k = st.theta OP / (sgn (st.y OP) * (‖st.y OP‖ : ℂ)) := by rw [← hit]; exact Function.update_self ..
      have hrl : ∀ j < st.k, st'.err j = st.err j := fun j hj => by rw [← hit]; exact Function.update_of_ne (by omega) _ _
      have hrk : st'.err st.k = st.relerr OP := by rw [← hit]; exact Function.update_self ..
      have hT : ∀ i j, st'.T i j = if j = st.k then (if i < st.k then st.h OP i else if i = st.k then st.theta OP else st.T i j) else st.T i j := by
        intro i j; rw [← hit]
      have hphk : ‖st'.ph st.k‖ ≤ 1 := by
        rw [hpk, norm_div, norm_mul, hs, one_mul, Complex.norm_real, norm_norm]
        exact (div_le_one (lt_of_lt_of_le hθn hle)).mpr hle
      have hrelk : ∀ M, Bound OP M → ‖st'.schur OP st.k‖ ≤ M * tol := by
        intro M hM
        have e1 : ∑ i ∈ range st.k, st'.T i st.k • st'.V i = ∑ j ∈ range st.k, st.h OP j • st.V j := by
          refine sum_congr rfl fun i hi => ?_
          have := mem_range.mp hi
          rw [hT, if_pos rfl, if_pos this, hVl i this]
        unfold PSt.schur
        rw [hVk, hek, hpk, e1, new_relation hs hy, norm_smul, norm_div, norm_mul, hs, norm_one, one_mul, Complex.norm_real, norm_norm]
        have hyp : 0 < ‖st.y OP‖ := lt_of_lt_of_le hθn hle
        have h1 := hM.2 (st.y OP - st.theta OP • st.V st.k)
        rw [one_div, inv_mul_le_iff₀ hyp]
        have htol : 0 ≤ tol := by
          by_contra hneg
          have : tol * ‖st.theta OP‖ < 0 := mul_neg_of_neg_of_pos (by linarith) hθn
          linarith [norm_nonneg (st.y OP - st.theta OP • st.V st.k)]
        calc ‖OP (st.y OP - st.theta OP • st.V st.k)‖ ≤ M * ‖st.y OP - st.theta OP • st.V st.k‖ := h1
          _ ≤ M * (tol * ‖st.y OP‖) := by
            refine mul_le_mul_of_nonneg_left ?_ hM.1
            exact he.le.trans (mul_le_mul_of_nonneg_left hle htol)
          _ = ‖st.y OP‖ * (M * tol) := by ring
      refine ⟨Or.inl (by omega), ?_, ?_, ?_, ?_, ?_, ?_, ?_, ?_, ?_⟩
      · rw [hk']; exact horth1.congr hV'
      · intro hlt
        rw [hk'] at hlt ⊢
        have h2 : st.k + 1 < nev := by omega
        obtain ⟨hsn, hs0, hs1⟩ := hst h2
        have hV2 : st'.V = Function.update (Function.update st.V st.k (st.newV OP sgn)) (st.k + 1) start := by
          rw [← hit]; simp only [h2, if_true]
        rw [hV2]
        refine horth1.snoc (inner_one_of_norm hsn) ?_
        intro j hj
        by_cases hj2 : j = st.k
        · subst hj2; rw [Function.update_self]; exact hs0
        · rw [hlo j (by omega)]; exact hs1 j (by omega)
      · intro j hj
        rw [hk'] at hj
        rw [hT]
        by_cases hj2 : j = st.k
        · subst hj2; rw [if_pos rfl, if_neg (lt_irrefl _), if_pos rfl, hek]
        · rw [if_neg hj2, hel j (by omega)]; exact ih.diag j (by omega)
      · intro j hj i hi
        rw [hk'] at hj
        rw [hT]
        by_cases hj2 : j = st.k
        · subst hj2; rw [if_pos rfl, if_neg (by omega), if_neg (by omega)]; exact ih.lowc _ le_rfl i hi
        · rw [if_neg hj2]; exact ih.low j (by omega) i hi
      · intro j hj i hi
        rw [hk'] at hj
        rw [hT, if_neg (by omega)]; exact ih.lowc j (by omega) i hi
      · intro j hj
        rw [hk'] at hj
        by_cases hj2 : j = st.k
        · subst hj2; exact hphk
        · rw [hpl j (by omega)]; exact ih.ph j (by omega)
      · intro M hM j hj
        rw [hk'] at hj
        by_cases hj2 : j = st.k
        · subst hj2; exact hrelk M hM
        · have hj3 : j < st.k := by omega
          have : st'.schur OP j = st.schur OP j := by
            unfold PSt.schur
            rw [hVl j hj3, hel j hj3, hpl j hj3]
            congr 2
            refine sum_congr rfl fun i hi => ?_
            have := mem_range.mp hi
            rw [hT, if_neg hj2, hVl i (by omega)]
          rw [this]; exact ih.rel M hM j hj3
      · intro hsym M hM j hj
        rw [hk'] at hj
        by_cases hj2 : j = st.k
        · subst hj2
          have hb := hrelk M hM
          have htol : 0 ≤ M * tol := (norm_nonneg _).trans hb
          have e1 : ∑ i ∈ range st.k, st'.T i st.k • st'.V i = ∑ j ∈ range st.k, st.h OP j • st.V j := by
            refine sum_congr rfl fun i hi => ?_
            have := mem_range.mp hi
            rw [hT, if_pos rfl, if_pos this, hVl i this]
          have e2 : OP (st'.V st.k) - st'.eig st.k • st'.V st.k = st'.schur OP st.k + st'.ph st.k • ∑ j ∈ range st.k, st.h OP j • st.V j := by
            unfold PSt.schur; rw [e1, sub_add_cancel]
          have e3 : ∀ i < st.k, ‖st.h OP i • st.V i‖ ≤ 2 ^ i * (M * tol) := by
            intro i hi
            have hvi : ‖st.V i‖ = 1 := norm_of_inner_one (by have := hcur i (by omega) i (by omega); rwa [if_pos rfl] at this)
            rw [norm_smul, hvi, mul_one]
            have : st.h OP i = inner ℂ (OP (st.V i) - st.eig i • st.V i) (st.V st.k) := by
              have h0 := hcur i (by omega) st.k (by omega)
              rw [if_neg (by omega)] at h0
              unfold PSt.h
              rw [inner_sub_left, inner_smul_left, h0, mul_zero, sub_zero]
              exact (hsym _ _).symm
            rw [this]
            have h1 := norm_inner_le_norm (𝕜 := ℂ) (OP (st.V i) - st.eig i • st.V i) (st.V st.k)
            rw [hvk, mul_one] at h1
            exact h1.trans (ih.herm hsym M hM i hi)
          have e4 : ‖∑ j ∈ range st.k, st.h OP j • st.V j‖ ≤ (2 ^ st.k - 1) * (M * tol) := by
            calc ‖∑ j ∈ range st.k, st.h OP j • st.V j‖ ≤ ∑ j ∈ range st.k, 2 ^ j * (M * tol) := norm_sum_le_of_le _ fun i hi => e3 i (mem_range.mp hi)
              _ = (∑ j ∈ range st.k, (2 : ℝ) ^ j) * (M * tol) := by rw [sum_mul]
              _ = (2 ^ st.k - 1) * (M * tol) := by
                rw [geom_sum_eq (by norm_num)]; ring
          rw [e2]
          calc ‖st'.schur OP st.k + st'.ph st.k • ∑ j ∈ range st.k, st.h OP j • st.V j‖
              ≤ ‖st'.schur OP st.k‖ + ‖st'.ph st.k • ∑ j ∈ range st.k, st.h OP j • st.V j‖ := norm_add_le _ _
            _ ≤ M * tol + 1 * ((2 ^ st.k - 1) * (M * tol)) := by
              rw [norm_smul]
              exact add_le_add hb (mul_le_mul hphk e4 (norm_nonneg _) zero_le_one)
            _ = 2 ^ st.k * (M * tol) := by ring
        · have hj3 : j < st.k := by omega
          rw [hVl j hj3, hel j hj3]; exact ih.herm hsym M hM j hj3
      · intro j hj
        rw [hk'] at hj
        by_cases hj2 : j = st.k
        · subst hj2; rw [hrk]; unfold PSt.relerr; rw [if_neg hθ, hr1]; exact ⟨r, rfl, hr2⟩
        · rw [hrl j (by omega)]; exact ih.err j (by omega)
    · rw [if_neg hc] at hit
      have hV : st'.V = Function.update st.V st.k (st.newV OP sgn) := by rw [← hit]
      have hk' : st'.k = st.k := by rw [← hit]
      have hVl : ∀ j < st.k, st'.V j = st.V j := fun j hj => by rw [hV, hlo j hj]
      have hel : ∀ j < st.k, st'.eig j = st.eig j := fun j hj => by rw [← hit]; exact Function.update_of_ne (by omega) _ _
      have hpl : ∀ j < st.k, st'.ph j = st.ph j := fun j hj => by rw [← hit]; exact Function.update_of_ne (by omega) _ _
      have hrl : ∀ j < st.k, st'.err j = st.err j := fun j hj => by rw [← hit]; exact Function.update_of_ne (by omega) _ _
      have hT : ∀ i j, st'.T i j = if j = st.k then (if i < st.k then st.h OP i else if i = st.k then st.theta OP else st.T i j) else st.T i j := by
        intro i j; rw [← hit]
      refine ⟨Or.inl (by omega), ?_, ?_, ?_, ?_, ?_, ?_, ?_, ?_, ?_⟩
      · rw [hk']; exact ih.orthL.congr hVl
      · intro _; rw [hk', hV]; exact horth1
      · intro j hj; rw [hk'] at hj; rw [hT, if_neg (by omega), hel j hj]; exact ih.diag j hj
      · intro j hj i hi; rw [hk'] at hj; rw [hT, if_neg (by omega)]; exact ih.low j hj i hi
      · intro j hj i hi
        rw [hk'] at hj
        rw [hT]
        by_cases hj2 : j = st.k
        · subst hj2; rw [if_pos rfl, if_neg (by omega), if_neg (by omega)]; exact ih.lowc _ le_rfl i hi
        · rw [if_neg hj2]; exact ih.lowc j (by omega) i hi
      · intro j hj; rw [hk'] at hj; rw [hpl j hj]; exact ih.ph j hj
      · intro M hM j hj
        rw [hk'] at hj
        have : st'.schur OP j = st.schur OP j := by
          unfold PSt.schur
          rw [hVl j hj, hel j hj, hpl j hj]
          congr 2
          refine sum_congr rfl fun i hi => ?_
          have := mem_range.mp hi
          rw [hT, if_neg (by omega), hVl i (by omega)]
        rw [this]; exact ih.rel M hM j hj
      · intro hsym M hM j hj; rw [hk'] at hj; rw [hVl j hj, hel j hj]; exact ih.herm hsym M hM j hj
      · intro j hj; rw [hk'] at hj; rw [hrl j hj]; exact ih.err j hj

/-- **C149** (orthonormality and Schur relation).  In every state of every execution the converged vectors are orthonormal, `T` is upper triangular with the eigenvalues on the diagonal, and each
    converged vector satisfies the Schur relation of the operator, with the column of `T` multiplied by a factor of modulus at most one, up to the tolerance times the norm of the operator. -/
theorem C149_schur (hs : ∀ x, ‖sgn x‖ = 1) {st : PSt E} (hr : Reach OP sgn tol nev st) {M : ℝ} (hM : Bound OP M) :
    Orth st.V st.k ∧ (∀ j < st.k, st.T j j = st.eig j ∧ (∀ i, j < i → st.T i j = 0) ∧ ‖st.ph j‖ ≤ 1 ∧ below (st.err j) tol ∧
      ‖OP (st.V j) - st.eig j • st.V j - st.ph j • ∑ i ∈ range j, st.T i j • st.V i‖ ≤ M * tol) := by
  have h := inv_reach hs hr
  exact ⟨h.orthL, fun j hj => ⟨h.diag j hj, h.low j hj, h.ph j hj, h.err j hj, h.rel M hM j hj⟩⟩

/-- **C149** (Hermitian problems).  The `j`-th pair returned has residual at most `2^j` times the tolerance times the norm of the operator; the first one at most the tolerance times the norm. -/
theorem C149_hermitian (hs : ∀ x, ‖sgn x‖ = 1) {st : PSt E} (hr : Reach OP sgn tol nev st) (hsym : OP.IsSymmetric) {M : ℝ} (hM : Bound OP M) {j : ℕ} (hj : j < st.k) :
    ‖OP (st.V j) - st.eig j • st.V j‖ ≤ 2 ^ j * (M * tol) ∧ ‖st.V j‖ = 1 := by
  have h := inv_reach hs hr
  refine ⟨h.herm hsym M hM j hj, norm_of_inner_one ?_⟩
  have := h.orthL j hj j hj
  rwa [if_pos rfl] at this

/-- **C149** (locked pairs).  An iteration changes none of the converged vectors, eigenvalues, estimates and columns of `T`, and accepts at most one pair. -/
theorem C149_locked {st st' : PSt E} {start : E} (hit : iter OP sgn tol nev start st = some st') :
    (∀ j < st.k, st'.V j = st.V j ∧ st'.eig j = st.eig j ∧ st'.err j = st.err j ∧ ∀ i, st'.T i j = st.T i j) ∧ (st'.k = st.k ∨ st'.k = st.k + 1 ∧ below (st'.err st.k) tol) := by
  unfold iter at hit
  by_cases hy : ‖st.y OP‖ = 0
  · rw [if_pos hy] at hit; cases hit
  rw [if_neg hy] at hit
  have hit := Option.some.inj hit
  by_cases hc : below (st.relerr OP) tol
  · rw [if_pos hc] at hit
    refine ⟨fun j hj => ⟨?_, ?_, ?_, ?_⟩, Or.inr ⟨by rw [← hit], ?_⟩⟩
    · rw [← hit]
      by_cases h2 : st.k + 1 < nev
      · simp only [h2, if_true]; rw [Function.update_of_ne (by omega), Function.update_of_ne (by omega)]
      · simp only [h2, if_false]; rw [Function.update_of_ne (by omega)]
    · rw [← hit]; exact Function.update_of_ne (by omega) _ _
    · rw [← hit]; exact Function.update_of_ne (by omega) _ _
    · intro i; rw [← hit]; exact if_neg (by omega)
    · rw [← hit]; show below (Function.update st.err st.k (st.relerr OP) st.k) tol; rw [Function.update_self]; exact hc
  · rw [if_neg hc] at hit
    refine ⟨fun j hj => ⟨?_, ?_, ?_, ?_⟩, Or.inl (by rw [← hit])⟩
    · rw [← hit]; exact Function.update_of_ne (by omega) _ _
    · rw [← hit]; exact Function.update_of_ne (by omega) _ _
    · rw [← hit]; exact Function.update_of_ne (by omega) _ _
    · intro i; rw [← hit]; exact if_neg (by omega)

/-- **C149** (eigenvectors of non-Hermitian problems; partial).  For an eigenvector `x` of `T` the vector `V x` has residual at most the sum over the converged columns of the tolerance times the
    norm of the operator plus the defect of the phase factor.  Partial: the phase factor need not be near one (`C149_vectors_false`). -/
theorem C149_vectors_partial (hs : ∀ x, ‖sgn x‖ = 1) {st : PSt E} (hr : Reach OP sgn tol nev st) {M : ℝ} (hM : Bound OP M) {x : ℕ → ℂ} {l : ℂ}
    (hx : ∀ i < st.k, ∑ j ∈ range st.k, st.T i j * x j = l * x i) :
    ‖OP (st.vec x) - l • st.vec x‖ ≤ ∑ j ∈ range st.k, ‖x j‖ * (M * tol + ‖st.ph j - 1‖ * ∑ i ∈ range j, ‖st.T i j‖) := by
  have h := inv_reach hs hr
  have e0 : l • st.vec x = ∑ j ∈ range st.k, x j • ∑ i ∈ range st.k, st.T i j • st.V i := by
    unfold PSt.vec
    rw [smul_sum]
    calc ∑ i ∈ range st.k, l • x i • st.V i = ∑ i ∈ range st.k, ∑ j ∈ range st.k, x j • st.T i j • st.V i := by
          refine sum_congr rfl fun i hi => ?_
          rw [smul_smul, ← hx i (mem_range.mp hi), sum_smul]
          refine sum_congr rfl fun j _ => ?_
          rw [smul_smul, mul_comm]
      _ = _ := by rw [sum_comm]; refine sum_congr rfl fun j _ => ?_; rw [smul_sum]
  have e1 : ∀ j < st.k, ∑ i ∈ range st.k, st.T i j • st.V i = st.eig j • st.V j + ∑ i ∈ range j, st.T i j • st.V i := by
    intro j hj
    have : ∑ i ∈ range (j + 1), st.T i j • st.V i = ∑ i ∈ range st.k, st.T i j • st.V i := by
      refine sum_subset (range_mono (by omega)) fun i _ hi => ?_
      have : ¬i < j + 1 := fun hh => hi (mem_range.mpr hh)
      rw [h.low j hj i (by omega), zero_smul]
    rw [← this, sum_range_succ, h.diag j hj, add_comm]
  have e2 : OP (st.vec x) - l • st.vec x = ∑ j ∈ range st.k, x j • (st.schur OP j + (st.ph j - 1) • ∑ i ∈ range j, st.T i j • st.V i) := by
    rw [e0]
    unfold PSt.vec
    rw [map_sum, ← sum_sub_distrib]
    refine sum_congr rfl fun j hj => ?_
    rw [map_smul, ← smul_sub, e1 j (mem_range.mp hj)]
    unfold PSt.schur
    congr 1
    module
  rw [e2]
  refine norm_sum_le_of_le _ fun j hj => ?_
  have hj := mem_range.mp hj
  rw [norm_smul]
  refine mul_le_mul_of_nonneg_left ?_ (norm_nonneg _)
  refine (norm_add_le _ _).trans (add_le_add (h.rel M hM j hj) ?_)
  rw [norm_smul]
  refine mul_le_mul_of_nonneg_left ?_ (norm_nonneg _)
  refine norm_sum_le_of_le _ fun i hi => ?_
  have hi := mem_range.mp hi
  have hvi : ‖st.V i‖ = 1 := norm_of_inner_one (by have := h.orthL i (by omega) i (by omega); rwa [if_pos rfl] at this)
  rw [norm_smul, hvi, mul_one]

/-- **C149** (phase).  With normalization of the sign, if the entry used is positive in the old vector, has not become negligible in the new one and the pair has converged exactly, then the phase factor is one. -/
theorem C149_phase {st : PSt E} (first : E →ₗ[ℂ] ℂ) {eps10 : ℝ} (h0 : 0 ≤ eps10) (hv : ‖st.V st.k‖ = 1) {a : ℝ} (ha : 0 < a) (hf : first (st.V st.k) = a)
    (he : st.y OP = st.theta OP • st.V st.k) (hbig : eps10 < ‖first (st.y OP)‖) :
    st.theta OP / (signOf true eps10 first (st.y OP) * (‖st.y OP‖ : ℂ)) = 1 ∧ st.newV OP (signOf true eps10 first) = st.V st.k := by
  have hny : ‖st.y OP‖ = ‖st.theta OP‖ := by
    conv_lhs => rw [he]
    rw [norm_smul, hv, mul_one]
  have hfy : first (st.y OP) = st.theta OP * a := by
    conv_lhs => rw [he]
    rw [map_smul, hf, smul_eq_mul]
  have hne : first (st.y OP) ≠ 0 := by intro h; rw [h, norm_zero] at hbig; linarith
  have hθ : st.theta OP ≠ 0 := by intro h; rw [h, zero_mul] at hfy; exact hne hfy
  have hθn : (‖st.theta OP‖ : ℂ) ≠ 0 := by exact_mod_cast (norm_ne_zero_iff.mpr hθ)
  have ha' : (a : ℂ) ≠ 0 := by exact_mod_cast ha.ne'
  have hsg : signOf true eps10 first (st.y OP) * (‖st.y OP‖ : ℂ) = st.theta OP := by
    unfold signOf
    rw [if_pos ⟨rfl, hbig⟩, hfy, hny, norm_mul, Complex.norm_real, Real.norm_of_nonneg ha.le]
    push_cast
    field_simp
  refine ⟨by rw [hsg, div_self hθ], ?_⟩
  unfold PSt.newV
  rw [hsg]
  conv_lhs => rw [he]
  rw [smul_smul, one_div_mul_cancel hθ, one_smul]

end Verif.Iter
