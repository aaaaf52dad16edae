import Verif.Iter.RsvdModel
import Verif.Iter.Two
import Mathlib.LinearAlgebra.Dimension.Finite
import Mathlib.LinearAlgebra.FiniteDimensional.Lemmas

/-!
# C154: randomized SVD
-/

set_option linter.all false

namespace Verif.Iter

open Finset

variable {E F : Type*} [NormedAddCommGroup E] [InnerProductSpace ℂ E] [NormedAddCommGroup F] [InnerProductSpace ℂ F]

theorem gsCol_inner {Y : ℕ → E} {j : ℕ} (h : OrthoN Y j) (x : E) {i : ℕ} (hi : i < j) : inner ℂ (Y i) (gsCol Y j x) = (0 : ℂ) := by
  unfold gsCol
  rw [inner_sub_right, inner_sum, sum_eq_single i]
  · rw [inner_smul_right, h i hi i hi, if_pos rfl, mul_one]; exact sub_self _
  · intro m hm hne
    rw [inner_smul_right, h i hi m (mem_range.mp hm), if_neg (Ne.symm hne), mul_zero]
  · intro h; exact absurd (mem_range.mpr hi) h

/-- contract of BVOrthogonalize, proved for the Gram-Schmidt process: leading columns unchanged, all columns orthonormal, and the original columns are combinations of the new ones of index at most theirs -/
theorem gs_spec {X : ℕ → E} {l : ℕ} (hX : OrthoN X l) : ∀ {n : ℕ} {Y : ℕ → E}, gs X l n = some Y →
    (∀ j, j < l ∨ l + n ≤ j → Y j = X j) ∧ OrthoN Y (l + n) ∧ (∀ j, l ≤ j → j < l + n → X j = ∑ i ∈ range (j + 1), inner ℂ (Y i) (X j) • Y i) ∧
      ∀ j, l ≤ j → j < l + n → inner ℂ (Y j) (X j) ≠ (0 : ℂ) := by
  intro n
  induction n with
  | zero =>
    intro Y h
    have h := Option.some.inj h
    subst h
    exact ⟨fun _ _ => rfl, hX, fun j h1 h2 => by omega, fun j h1 h2 => by omega⟩
  | succ n ih =>
    intro Y h
    unfold gs at h
    cases hg : gs X l n with
    | none => rw [hg] at h; cases h
    | some Z =>
      rw [hg] at h
      obtain ⟨i1, i2, i3, i4⟩ := ih hg
      by_cases h0 : gsCol Z (l + n) (X (l + n)) = 0
      · simp only [h0, if_true] at h; cases h
      simp only [h0, if_false] at h
      have h := Option.some.inj h
      set q := gsCol Z (l + n) (X (l + n)) with hq
      have hqn : (‖q‖ : ℂ) ≠ 0 := by exact_mod_cast norm_ne_zero_iff.mpr h0
      have hlast : Y (l + n) = (1 / (‖q‖ : ℂ)) • q := by rw [← h, Function.update_self]
      have hold : ∀ j, j ≠ l + n → Y j = Z j := fun j hj => by rw [← h, Function.update_of_ne hj]
      have hqz : ∀ i < l + n, inner ℂ (Z i) q = (0 : ℂ) := fun i hi => gsCol_inner i2 _ hi
      have hqX : inner ℂ q (X (l + n)) = (‖q‖ : ℂ) * ‖q‖ := by
        have e : X (l + n) = q + ∑ i ∈ range (l + n), inner ℂ (Z i) (X (l + n)) • Z i := by rw [hq]; unfold gsCol; rw [sub_add_cancel]
        conv_lhs => rw [e]
        rw [inner_add_right, inner_sum, sum_eq_zero, add_zero, inner_self_eq_norm_sq_to_K, sq]
        · rfl
        · intro i hi
          rw [inner_smul_right, ← inner_conj_symm q, hqz i (mem_range.mp hi), map_zero, mul_zero]
      have hYX : inner ℂ (Y (l + n)) (X (l + n)) = (‖q‖ : ℂ) := by
        rw [hlast, inner_smul_left, hqX, map_div₀, map_one, Complex.conj_ofReal]
        field_simp
      refine ⟨?_, ?_, ?_, ?_⟩
      · intro j hj
        rw [hold j (by omega)]
        exact i1 j (by omega)
      · intro i hi j hj
        by_cases e1 : i = l + n <;> by_cases e2 : j = l + n
        · subst e1; rw [e2, if_pos rfl, hlast, inner_smul_left, inner_smul_right, inner_self_eq_norm_sq_to_K, map_div₀, map_one, Complex.conj_ofReal]
          show 1 / (‖q‖ : ℂ) * (1 / (‖q‖ : ℂ) * (‖q‖ : ℂ) ^ 2) = 1
          field_simp
        · subst e1
          rw [hold j e2, hlast, if_neg (Ne.symm e2), inner_smul_left, ← inner_conj_symm, hqz j (by omega), map_zero, mul_zero]
        · subst e2
          rw [hold i e1, hlast, if_neg e1, inner_smul_right, hqz i (by omega), mul_zero]
        · rw [hold i e1, hold j e2]; exact i2 i (by omega) j (by omega)
      · intro j h1 h2
        by_cases e : j = l + n
        · subst e
          rw [sum_range_succ, hYX, hlast, smul_smul, mul_one_div_cancel hqn, one_smul]
          have e2 : ∑ i ∈ range (l + n), inner ℂ (Y i) (X (l + n)) • Y i = ∑ i ∈ range (l + n), inner ℂ (Z i) (X (l + n)) • Z i :=
            sum_congr rfl fun i hi => by rw [hold i (by have := mem_range.mp hi; omega)]
          rw [e2, hq]; unfold gsCol; abel
        · rw [i3 j h1 (by omega)]
          have e2 : ∀ i ∈ range (j + 1), Y i = Z i := fun i hi => hold i (by have := mem_range.mp hi; omega)
          rw [← i3 j h1 (by omega)]
          conv_lhs => rw [i3 j h1 (by omega)]
          exact sum_congr rfl fun i hi => by rw [e2 i hi]
      · intro j h1 h2
        by_cases e : j = l + n
        · subst e; rw [hYX]; exact hqn
        · rw [hold j e]; exact i4 j h1 (by omega)

/-- unitary combination of orthonormal columns -/
theorem mulIP_ortho {l m : ℕ} {X : ℕ → E} {Q : ℕ → ℕ → ℂ} (hV : OrthoN X m) (hQ : UnitQ l m Q) : OrthoN (mulIP l m Q X) m := by
  have hmix : ∀ i, i < l → ∀ j, l ≤ j → j < m → inner ℂ (mulIP l m Q X i) (mulIP l m Q X j) = (0 : ℂ) := by
    intro i hi j hj hj2
    have e1 : mulIP l m Q X i = X i := by unfold mulIP; rw [if_neg (by omega)]
    have e2 : mulIP l m Q X j = ∑ p ∈ Ico l m, Q p j • X p := by unfold mulIP; rw [if_pos ⟨hj, hj2⟩]
    rw [e1, e2, inner_sum]
    refine sum_eq_zero fun p hp => ?_
    have hp := mem_Ico.mp hp
    rw [inner_smul_right, hV i (by omega) p hp.2, if_neg (by omega), mul_zero]
  intro i hi j hj
  by_cases h1 : i < l <;> by_cases h2 : j < l
  · have e1 : mulIP l m Q X i = X i := by unfold mulIP; rw [if_neg (by omega)]
    have e2 : mulIP l m Q X j = X j := by unfold mulIP; rw [if_neg (by omega)]
    rw [e1, e2]; exact hV i hi j hj
  · rw [hmix i h1 j (by omega) hj, if_neg (by omega)]
  · rw [← inner_conj_symm, hmix j h2 i (by omega) hi, map_zero, if_neg (by omega)]
  · rw [← hQ i (by omega) hi j (by omega) hj]
    have e1 : mulIP l m Q X i = ∑ p ∈ Ico l m, Q p i • X p := by unfold mulIP; rw [if_pos ⟨by omega, hi⟩]
    have e2 : mulIP l m Q X j = ∑ p ∈ Ico l m, Q p j • X p := by unfold mulIP; rw [if_pos ⟨by omega, hj⟩]
    rw [e1, e2, sum_inner]
    refine sum_congr rfl fun p hp => ?_
    have hp' := mem_Ico.mp hp
    rw [inner_sum, sum_eq_single p]
    · rw [inner_smul_left, inner_smul_right, hV p hp'.2 p hp'.2, if_pos rfl, mul_one]; rfl
    · intro q hq hne
      have hq' := mem_Ico.mp hq
      rw [inner_smul_left, inner_smul_right, hV p hp'.2 q hq'.2, if_neg (Ne.symm hne), mul_zero, mul_zero]
    · intro h; exact absurd hp h

theorem countConv_le (tol : ℝ) (e : ℕ → Option ℝ) : ∀ n i, countConv tol e n i ≤ n := by
  intro n
  induction n with
  | zero => intro i; simp [countConv]
  | succ n ih => intro i; unfold countConv; split_ifs; exacts [Nat.succ_le_succ (ih _), Nat.zero_le _]

theorem countConv_mem (tol : ℝ) (e : ℕ → Option ℝ) : ∀ n i j, i ≤ j → j < i + countConv tol e n i → lowE (e j) tol := by
  intro n
  induction n with
  | zero => intro i j h1 h2; simp [countConv] at h2; omega
  | succ n ih =>
    intro i j h1 h2
    unfold countConv at h2
    by_cases h : lowE (e i) tol
    · rw [if_pos h] at h2
      by_cases hj : j = i
      · subst hj; exact h
      · exact ih (i + 1) j (by omega) (by omega)
    · rw [if_neg h] at h2; omega

theorem countConv_stop (tol : ℝ) (e : ℕ → Option ℝ) : ∀ n i, countConv tol e n i < n → ¬lowE (e (i + countConv tol e n i)) tol := by
  intro n
  induction n with
  | zero => intro i h; omega
  | succ n ih =>
    intro i h
    unfold countConv at h ⊢
    by_cases hh : lowE (e i) tol
    · rw [if_pos hh] at h ⊢
      have := ih (i + 1) (by omega)
      rwa [show i + (countConv tol e n (i + 1) + 1) = i + 1 + countConv tol e n (i + 1) by omega]
    · rw [if_neg hh] at h ⊢; exact hh

variable {A : E →ₗ[ℂ] F} {At : F →ₗ[ℂ] E} {conv : Conv} {tol : ℝ} {ncv : ℕ}

/-- parts of a step -/
theorem rv_parts {Ur Vr : ℕ → ℕ → ℂ} {w : ℕ → ℝ} {st st' : RvSt E F} (h : rvStep A At conv tol ncv Ur Vr w st = some st') :
    ∃ U1 V1, gs (blockMult A st.k ncv st.V st.U) st.k (ncv - st.k) = some U1 ∧ gs (blockMult At st.k ncv U1 st.V) st.k (ncv - st.k) = some V1 ∧
      (∀ i j, dsMat A At ncv st i j = coef V1 (blockMult At st.k ncv U1 st.V) i j) ∧ st'.U = mulIP st.k ncv Vr U1 ∧ st'.V = mulIP st.k ncv Ur V1 ∧
      (∃ c, c = countConv tol (fun j => conv (w j) (rvRes A At (st'.V j) (st'.U j) (w j))) (ncv - st.k) st.k ∧ st'.k = st.k + c ∧
        (∀ j, st.k ≤ j → j ≤ st.k + c → j < ncv → st'.sigma j = w j ∧ st'.errest j = conv (w j) (rvRes A At (st'.V j) (st'.U j) (w j))) ∧
        ∀ j < st.k, st'.sigma j = st.sigma j ∧ st'.errest j = st.errest j) := by
  unfold rvStep at h
  cases hU : gs (blockMult A st.k ncv st.V st.U) st.k (ncv - st.k) with
  | none => rw [hU] at h; cases h
  | some U1 =>
    rw [hU] at h
    simp only at h
    cases hV : gs (blockMult At st.k ncv U1 st.V) st.k (ncv - st.k) with
    | none => rw [hV] at h; cases h
    | some V1 =>
      rw [hV] at h
      have h := Option.some.inj h
      refine ⟨U1, V1, rfl, hV, ?_, by rw [← h], by rw [← h], _, rfl, by rw [← h], ?_, ?_⟩
      · intro i j; unfold dsMat; rw [hU]; simp only; rw [hV]
      · intro j h1 h2 h3
        rw [← h] at h2 ⊢
        exact ⟨if_pos ⟨h1, h2, h3⟩, if_pos ⟨h1, h2, h3⟩⟩
      · intro j hj
        rw [← h]
        exact ⟨if_neg (by omega), if_neg (by omega)⟩

theorem blockMult_low {E F : Type*} {f : E → F} {l m : ℕ} {X : ℕ → E} {Y : ℕ → F} {j : ℕ} (h : j < l) : blockMult f l m X Y j = Y j := by
  unfold blockMult; rw [if_neg (by omega)]

theorem blockMult_act {E F : Type*} {f : E → F} {l m : ℕ} {X : ℕ → E} {Y : ℕ → F} {j : ℕ} (h1 : l ≤ j) (h2 : j < m) : blockMult f l m X Y j = f (X j) := by
  unfold blockMult; rw [if_pos ⟨h1, h2⟩]

theorem OrthoN.congrN {X Y : ℕ → E} {m : ℕ} (h : OrthoN X m) (e : ∀ j < m, Y j = X j) : OrthoN Y m := by
  intro i hi j hj; rw [e i hi, e j hj]; exact h i hi j hj

/-- **C154** (one iteration).  An iteration leaves the accepted triplets unchanged, makes all left and right vectors orthonormal, and for each other column the equation `A* u = sigma v` holds exactly up to a
    combination of the accepted right vectors. -/
theorem C154_step {Ur Vr : ℕ → ℕ → ℂ} {w : ℕ → ℝ} {st st' : RvSt E F} (hk : st.k ≤ ncv) (hU : OrthoN st.U st.k) (hV : OrthoN st.V st.k) (hds : DsSvd st.k ncv (dsMat A At ncv st) Ur Vr w)
    (h : rvStep A At conv tol ncv Ur Vr w st = some st') :
    OrthoN st'.U ncv ∧ OrthoN st'.V ncv ∧ (∀ j < st.k, st'.U j = st.U j ∧ st'.V j = st.V j) ∧
      ∀ j, st.k ≤ j → j < ncv → At (st'.U j) = (w j : ℂ) • st'.V j + ∑ i ∈ range st.k, inner ℂ (st.V i) (At (st'.U j)) • st.V i := by
  obtain ⟨U1, V1, gU, gV, hR, eU, eV, _⟩ := rv_parts h
  obtain ⟨dU, dV, dE, _, _⟩ := hds
  have hsum : st.k + (ncv - st.k) = ncv := by omega
  have hX : OrthoN (blockMult A st.k ncv st.V st.U) st.k := hU.congrN fun j hj => blockMult_low hj
  obtain ⟨u1, u2, _, _⟩ := gs_spec hX gU
  rw [hsum] at u1 u2
  have hY : OrthoN (blockMult At st.k ncv U1 st.V) st.k := hV.congrN fun j hj => blockMult_low hj
  obtain ⟨v1, v2, v3, _⟩ := gs_spec hY gV
  rw [hsum] at v1 v2 v3
  have hV1 : ∀ i < st.k, V1 i = st.V i := fun i hi => by rw [v1 i (Or.inl hi), blockMult_low hi]
  have hU1 : ∀ i < st.k, U1 i = st.U i := fun i hi => by rw [u1 i (Or.inl hi), blockMult_low hi]
  have hlock : ∀ j < st.k, st'.U j = st.U j ∧ st'.V j = st.V j := by
    intro j hj
    rw [eU, eV]
    unfold mulIP
    rw [if_neg (by omega), if_neg (by omega)]
    exact ⟨hU1 j hj, hV1 j hj⟩
  have oV : OrthoN st'.V ncv := by rw [eV]; exact mulIP_ortho v2 dU
  refine ⟨by rw [eU]; exact mulIP_ortho u2 dV, oV, hlock, ?_⟩
  intro j h1 h2
  -- columns of At U1
  have hcol : ∀ p, st.k ≤ p → p < ncv → At (U1 p) = ∑ i ∈ range st.k, inner ℂ (V1 i) (At (U1 p)) • V1 i + ∑ i ∈ Ico st.k ncv, dsMat A At ncv st i p • V1 i := by
    intro p hp1 hp2
    have hb : blockMult At st.k ncv U1 st.V p = At (U1 p) := blockMult_act hp1 hp2
    have h3 := v3 p hp1 hp2
    rw [hb] at h3
    have e1 : ∑ i ∈ range (p + 1), inner ℂ (V1 i) (At (U1 p)) • V1 i = ∑ i ∈ range ncv, coef V1 (blockMult At st.k ncv U1 st.V) i p • V1 i := by
      symm
      rw [← sum_subset (s₁ := range (p + 1))]
      · refine sum_congr rfl fun i hi => ?_
        have := mem_range.mp hi
        unfold coef
        rw [if_pos (by omega), hb]
      · intro i hi; exact mem_range.mpr (by have := mem_range.mp hi; omega)
      · intro i hi hn
        have : ¬i ≤ p := by rw [mem_range] at hn; omega
        unfold coef
        rw [if_neg this, zero_smul]
    conv_lhs => rw [h3, e1]
    rw [range_eq_Ico, ← sum_Ico_consecutive _ (Nat.zero_le st.k) hk, ← range_eq_Ico]
    congr 1
    · refine sum_congr rfl fun i hi => ?_
      have := mem_range.mp hi
      unfold coef
      rw [if_pos (by omega), hb]
    · exact sum_congr rfl fun i _ => by rw [hR]
  have hu : st'.U j = ∑ p ∈ Ico st.k ncv, Vr p j • U1 p := by rw [eU]; unfold mulIP; rw [if_pos ⟨h1, h2⟩]
  have hv : st'.V j = ∑ p ∈ Ico st.k ncv, Ur p j • V1 p := by rw [eV]; unfold mulIP; rw [if_pos ⟨h1, h2⟩]
  have hAt : At (st'.U j) = ∑ i ∈ range st.k, (∑ p ∈ Ico st.k ncv, Vr p j * inner ℂ (V1 i) (At (U1 p))) • V1 i + (w j : ℂ) • st'.V j := by
    rw [hu, map_sum]
    calc ∑ p ∈ Ico st.k ncv, At (Vr p j • U1 p) = ∑ p ∈ Ico st.k ncv, (Vr p j • ∑ i ∈ range st.k, inner ℂ (V1 i) (At (U1 p)) • V1 i + Vr p j • ∑ i ∈ Ico st.k ncv, dsMat A At ncv st i p • V1 i) := by
          refine sum_congr rfl fun p hp => ?_
          have hp := mem_Ico.mp hp
          rw [map_smul, ← smul_add, ← hcol p hp.1 hp.2]
      _ = _ := by
          rw [sum_add_distrib]
          congr 1
          · simp only [smul_sum, smul_smul]
            rw [sum_comm]
            exact sum_congr rfl fun i _ => (sum_smul).symm
          · simp only [smul_sum, smul_smul]
            rw [sum_comm, hv, smul_sum]
            refine sum_congr rfl fun i hi => ?_
            have hi := mem_Ico.mp hi
            rw [← sum_smul, smul_smul]
            congr 1
            rw [mul_comm ((w j : ℂ)), ← dE i hi.1 hi.2 j h1 h2]
            exact sum_congr rfl fun p _ => mul_comm _ _
  have hin : ∀ i < st.k, inner ℂ (st.V i) (At (st'.U j)) = ∑ p ∈ Ico st.k ncv, Vr p j * inner ℂ (V1 i) (At (U1 p)) := by
    intro i hi
    rw [hu, map_sum, inner_sum]
    refine sum_congr rfl fun p _ => ?_
    rw [map_smul, inner_smul_right, hV1 i hi]
  conv_lhs => rw [hAt]
  rw [add_comm]
  congr 1
  refine sum_congr rfl fun i hi => ?_
  have hi := mem_range.mp hi
  rw [hin i hi, hV1 i hi]

/-- **C154** (result).  In every state of every execution, for every matrix and all start vectors, the accepted left vectors and right vectors are orthonormal, and the error estimate of each accepted triplet
    is below the tolerance and is the convergence test applied to the true residual norm of this triplet. -/
theorem C154_accepted {st : RvSt E F} (hr : ReachRv A At conv tol ncv st) :
    st.k ≤ ncv ∧ OrthoN st.U st.k ∧ OrthoN st.V st.k ∧ ∀ j < st.k, lowE (st.errest j) tol ∧ st.errest j = conv (st.sigma j) (rvRes A At (st.V j) (st.U j) (st.sigma j)) := by
  induction hr with
  | init st hk => exact ⟨by omega, fun i hi => by omega, fun i hi => by omega, fun j hj => by omega⟩
  | step st st' Ur Vr w hr hds h ih =>
    obtain ⟨i1, i2, i3, i4⟩ := ih
    obtain ⟨s1, s2, s3, _⟩ := C154_step i1 i2 i3 hds h
    obtain ⟨U1, V1, _, _, _, _, _, c, hc, hk, hnew, hold⟩ := rv_parts h
    have hcl : c ≤ ncv - st.k := by rw [hc]; exact countConv_le _ _ _ _
    have hk' : st'.k ≤ ncv := by omega
    refine ⟨hk', fun i hi j hj => s1 i (by omega) j (by omega), fun i hi j hj => s2 i (by omega) j (by omega), ?_⟩
    intro j hj
    by_cases h1 : j < st.k
    · rw [(hold j h1).1, (hold j h1).2, (s3 j h1).1, (s3 j h1).2]
      exact i4 j h1
    · obtain ⟨n1, n2⟩ := hnew j (by omega) (by omega) (by omega)
      rw [n1, n2]
      refine ⟨?_, rfl⟩
      exact countConv_mem tol (fun j => conv (w j) (rvRes A At (st'.V j) (st'.U j) (w j))) (ncv - st.k) st.k j (by omega) (by rw [← hc]; omega)

/-- **C154** (order of acceptance).  The first triplet not accepted in an iteration fails the test. -/
theorem C154_order {Ur Vr : ℕ → ℕ → ℂ} {w : ℕ → ℝ} {st st' : RvSt E F} (hk : st.k ≤ ncv) (h : rvStep A At conv tol ncv Ur Vr w st = some st') (hlt : st'.k < ncv) :
    st'.errest st'.k = conv (w st'.k) (rvRes A At (st'.V st'.k) (st'.U st'.k) (w st'.k)) ∧ ¬lowE (st'.errest st'.k) tol := by
  obtain ⟨U1, V1, _, _, _, _, _, c, hc, hk', hnew, _⟩ := rv_parts h
  obtain ⟨_, n2⟩ := hnew st'.k (by omega) (by omega) hlt
  refine ⟨n2, ?_⟩
  rw [n2, hk', hc]
  exact countConv_stop tol (fun j => conv (w j) (rvRes A At (st'.V j) (st'.U j) (w j))) (ncv - st.k) st.k (by rw [← hc]; omega)

/-- **C154** (coupling with the accepted triplets).  The component of `A* u` in an accepted right vector is at most the residual norm of this accepted triplet. -/
theorem C154_coupling (hadj : ∀ x y, inner ℂ (A x) y = (inner ℂ x (At y) : ℂ)) {V : ℕ → E} {U : ℕ → F} {m : ℕ} (hU : OrthoN U m) {i j : ℕ} (hi : i < m) (hj : j < m) (hne : i ≠ j) (s : ℝ) :
    ‖inner ℂ (V i) (At (U j))‖ ≤ rvRes A At (V i) (U i) s := by
  have e : (inner ℂ (V i) (At (U j)) : ℂ) = inner ℂ (A (V i) - (s : ℂ) • U i) (U j) := by
    rw [← hadj, inner_sub_left, inner_smul_left, hU i hi j hj, if_neg hne, mul_zero, sub_zero]
  have hn : ‖U j‖ = 1 := by
    have h := hU j hj j hj
    rw [if_pos rfl, inner_self_eq_norm_sq_to_K] at h
    have h2 : (‖U j‖ : ℂ) ^ 2 = 1 := h
    have h3 : ‖U j‖ ^ 2 = 1 := by exact_mod_cast h2
    have := norm_nonneg (U j)
    nlinarith [sq_nonneg (‖U j‖ - 1)]
  rw [e]
  calc _ ≤ ‖A (V i) - (s : ℂ) • U i‖ * ‖U j‖ := norm_inner_le_norm _ _
    _ = ‖A (V i) - (s : ℂ) • U i‖ := by rw [hn, mul_one]
    _ ≤ _ := by
        unfold rvRes
        apply Real.le_sqrt_of_sq_le
        have := sq_nonneg ‖At (U i) - (s : ℂ) • V i‖
        linarith

/-- orthonormal columns are linearly independent -/
theorem OrthoN.linInd {Y : ℕ → F} {n : ℕ} (h : OrthoN Y n) : LinearIndependent ℂ fun i : Fin n => Y i := by
  have : Orthonormal ℂ fun i : Fin n => Y i := by
    rw [orthonormal_iff_ite]
    intro i j
    rw [h i i.2 j j.2]
    simp [Fin.ext_iff]
  exact this.linearIndependent

/-- **C154** (negation for matrices of low rank).  If the rank of the matrix is smaller than the number of columns, the first iteration ends with an error for all start vectors. -/
theorem C154_rank_false [FiniteDimensional ℂ F] (hr : Module.finrank ℂ (LinearMap.range A) < ncv) (Ur Vr : ℕ → ℕ → ℂ) (w : ℕ → ℝ) {st : RvSt E F} (hk : st.k = 0) :
    rvStep A At conv tol ncv Ur Vr w st = none := by
  cases hs : rvStep A At conv tol ncv Ur Vr w st with
  | none => rfl
  | some st' =>
    exfalso
    obtain ⟨U1, V1, gU, _⟩ := rv_parts hs
    have hX : OrthoN (blockMult A st.k ncv st.V st.U) st.k := fun i hi => by omega
    obtain ⟨_, u2, u3, u4⟩ := gs_spec hX gU
    rw [hk] at u2 u3 u4
    simp only [Nat.sub_zero, zero_add] at u2 u3 u4
    have hmem : ∀ j, j < ncv → U1 j ∈ LinearMap.range A := by
      intro j
      induction j using Nat.strong_induction_on with
      | _ j ih =>
        intro hj
        have h3 := u3 j (Nat.zero_le j) hj
        have h4 := u4 j (Nat.zero_le j) hj
        have hb : blockMult A 0 ncv st.V st.U j = A (st.V j) := blockMult_act (Nat.zero_le j) hj
        rw [hb, sum_range_succ] at h3
        rw [hb] at h4
        have e : inner ℂ (U1 j) (A (st.V j)) • U1 j = A (st.V j) - ∑ i ∈ range j, inner ℂ (U1 i) (A (st.V j)) • U1 i := by
          rw [eq_sub_iff_add_eq, add_comm]; exact h3.symm
        have e2 : U1 j = (inner ℂ (U1 j) (A (st.V j)))⁻¹ • (A (st.V j) - ∑ i ∈ range j, inner ℂ (U1 i) (A (st.V j)) • U1 i) := by
          rw [← e, smul_smul, inv_mul_cancel₀ h4, one_smul]
        rw [e2]
        refine Submodule.smul_mem _ _ (Submodule.sub_mem _ ⟨_, rfl⟩ (Submodule.sum_mem _ fun i hi => ?_))
        have := mem_range.mp hi
        exact Submodule.smul_mem _ _ (ih i this (by omega))
    have hli := u2.linInd
    have hli2 : LinearIndependent ℂ fun i : Fin ncv => (⟨U1 i, hmem i i.2⟩ : LinearMap.range A) := by
      rw [← LinearMap.linearIndependent_iff (LinearMap.range A).subtype (Submodule.ker_subtype _)]
      exact hli
    have := hli2.fintype_card_le_finrank
    rw [Fintype.card_fin] at this
    omega

/-- a case of low rank: `diag(2,0)` with two columns -/
example (Ur Vr : ℕ → ℕ → ℂ) (w : ℕ → ℝ) (st : RvSt E2 E2) (hk : st.k = 0) (conv : Conv) : rvStep (op2 2 0 0 0) (op2 2 0 0 0) conv (1 / 10) 2 Ur Vr w st = none := by
  refine C154_rank_false ?_ Ur Vr w hk
  have hle : LinearMap.range (op2 2 0 0 0) ≤ Submodule.span ℂ {vec2 1 0} := by
    rintro _ ⟨x, rfl⟩
    have hx : x = vec2 (x 0) (x 1) := by ext i; fin_cases i <;> simp [vec2]
    rw [hx, op2_vec, Submodule.mem_span_singleton]
    exact ⟨2 * x 0, by rw [smul2]; norm_num⟩
  have h1 := Submodule.finrank_mono hle
  have h2 := finrank_span_le_card (R := ℂ) ({vec2 1 0} : Set E2)
  simp at h2
  omega

/-- a case of the theorems: the first column of `diag(2,1)` with one column from the exact vector -/
example : ∃ st : RvSt E2 E2, ReachRv (op2 2 0 0 1) (op2 2 0 0 1) (fun s r => some r) (1 / 10) 1 st ∧ st.k = 1 := by
  have n2 : ‖vec2 2 0‖ = 2 := norm2_of (by norm_num) (by norm_num)
  let st0 : RvSt E2 E2 := { V := fun _ => vec2 1 0, U := fun _ => vec2 0 0, sigma := fun _ => 0, errest := fun _ => none, k := 0, its := 0 }
  have hne : (vec2 2 0 : E2) ≠ 0 := by intro h; rw [h, norm_zero] at n2; norm_num at n2
  have key : ∀ Z : ℕ → E2, gs (blockMult (op2 2 0 0 1) 0 1 (fun _ => vec2 1 0) Z) 0 1 = some (Function.update (blockMult (op2 2 0 0 1) 0 1 (fun _ => vec2 1 0) Z) 0 (vec2 1 0)) := by
    intro Z
    have e : gsCol (blockMult (op2 2 0 0 1) 0 1 (fun _ => vec2 1 0) Z) 0 (blockMult (op2 2 0 0 1) 0 1 (fun _ => vec2 1 0) Z 0) = vec2 2 0 := by
      unfold gsCol
      rw [blockMult_act le_rfl one_pos, op2_vec]; simp
    unfold gs
    simp only [gs, zero_add, e, hne, if_false]
    rw [n2, smul2]; norm_num
  have key2 : ∀ Y Z : ℕ → E2, Y 0 = vec2 1 0 → blockMult (op2 2 0 0 1) 0 1 Y Z = blockMult (op2 2 0 0 1) 0 1 (fun _ => vec2 1 0) Z := by
    intro Y Z hY; funext j; unfold blockMult
    by_cases h : 0 ≤ j ∧ j < 1
    · have : j = 0 := by omega
      subst this; rw [if_pos h, if_pos h, hY]
    · rw [if_neg h, if_neg h]
  obtain ⟨Uc, hUc, g1⟩ : ∃ Uc : ℕ → E2, Uc 0 = vec2 1 0 ∧ gs (blockMult (op2 2 0 0 1) st0.k 1 st0.V st0.U) st0.k (1 - st0.k) = some Uc := ⟨_, Function.update_self _ _ _, key _⟩
  obtain ⟨Vc, hVc, g2⟩ : ∃ Vc : ℕ → E2, Vc 0 = vec2 1 0 ∧ gs (blockMult (op2 2 0 0 1) st0.k 1 Uc st0.V) st0.k (1 - st0.k) = some Vc := by
    have e := key (fun _ => vec2 1 0)
    rw [← key2 Uc _ hUc] at e
    exact ⟨_, Function.update_self _ _ _, e⟩
  have hs : ∃ st', rvStep (op2 2 0 0 1) (op2 2 0 0 1) (fun s r => some r) (1 / 10) 1 (fun i j => if i = j then 1 else 0) (fun i j => if i = j then 1 else 0) (fun _ => 2) st0 = some st' := by
    unfold rvStep
    rw [g1]
    simp only
    rw [g2]
    exact ⟨_, rfl⟩
  obtain ⟨st', hst⟩ := hs
  have hds : DsSvd st0.k 1 (dsMat (op2 2 0 0 1) (op2 2 0 0 1) 1 st0) (fun i j => if i = j then 1 else 0) (fun i j => if i = j then 1 else 0) (fun _ => 2) := by
    have hR : dsMat (op2 2 0 0 1) (op2 2 0 0 1) 1 st0 0 0 = 2 := by
      unfold dsMat
      rw [g1]
      simp only
      rw [g2]
      show coef Vc (blockMult (op2 2 0 0 1) 0 1 Uc (fun _ => vec2 1 0)) 0 0 = 2
      unfold coef
      rw [if_pos le_rfl, hVc, blockMult_act le_rfl one_pos, hUc, op2_vec, inner2]; simp
    have hz : ∀ i, st0.k ≤ i → i < 1 → i = 0 := fun i _ h => by omega
    have hI : Ico st0.k 1 = {0} := rfl
    refine ⟨?_, ?_, ?_, fun _ _ _ => by norm_num, fun _ _ _ _ _ => le_rfl⟩
    · intro i h1 h2 j h3 h4; rw [hz i h1 h2, hz j h3 h4, hI]; simp
    · intro i h1 h2 j h3 h4; rw [hz i h1 h2, hz j h3 h4, hI]; simp
    · intro i h1 h2 j h3 h4; rw [hz i h1 h2, hz j h3 h4, hI, sum_singleton, hR]; simp
  refine ⟨st', ReachRv.step st0 st' _ _ _ (ReachRv.init st0 rfl) hds hst, ?_⟩
  obtain ⟨U1, V1, gU, gV, _, eU, eV, c, hc, hk, _⟩ := rv_parts hst
  have gU' : gs (blockMult (op2 2 0 0 1) 0 1 (fun _ => vec2 1 0) (fun _ => vec2 0 0)) 0 1 = some U1 := gU
  rw [key] at gU'
  have hU1 := Option.some.inj gU'
  have hU0 : U1 0 = vec2 1 0 := by rw [← hU1, Function.update_self]
  have gV' : gs (blockMult (op2 2 0 0 1) 0 1 U1 (fun _ => vec2 1 0)) 0 1 = some V1 := gV
  rw [key2 _ _ hU0, key] at gV'
  have hV1 := Option.some.inj gV'
  have hV0 : V1 0 = vec2 1 0 := by rw [← hV1, Function.update_self]
  have eU0 : st'.U 0 = vec2 1 0 := by
    rw [eU]; show (if 0 ≤ 0 ∧ 0 < 1 then ∑ i ∈ Ico 0 1, (if i = 0 then (1 : ℂ) else 0) • U1 i else U1 0) = _
    rw [if_pos (by omega)]; simp [hU0]
  have eV0 : st'.V 0 = vec2 1 0 := by
    rw [eV]; show (if 0 ≤ 0 ∧ 0 < 1 then ∑ i ∈ Ico 0 1, (if i = 0 then (1 : ℂ) else 0) • V1 i else V1 0) = _
    rw [if_pos (by omega)]; simp [hV0]
  have hres : rvRes (op2 2 0 0 1) (op2 2 0 0 1) (st'.V 0) (st'.U 0) 2 = 0 := by
    unfold rvRes
    rw [eU0, eV0, op2_vec, smul2, sub2, norm2_sq]
    simp
  rw [hk, hc]
  show 0 + countConv (1 / 10) (fun j => some (rvRes (op2 2 0 0 1) (op2 2 0 0 1) (st'.V j) (st'.U j) 2)) 1 0 = 1
  unfold countConv
  rw [if_pos ⟨_, rfl, by rw [hres]; norm_num⟩]
  rfl

end Verif.Iter
