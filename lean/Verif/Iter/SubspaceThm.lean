import Verif.Iter.SubspaceModel
import Verif.Iter.Two

/-!
# C152: subspace iteration
-/

set_option linter.all false

namespace Verif.Iter

open Finset

variable {E : Type*} [NormedAddCommGroup E] [InnerProductSpace ℂ E] {OP : E →ₗ[ℂ] E} {mpd ncv : ℕ}

theorem mulQ_op (st : SSt E) (nv : ℕ) (Q : ℕ → ℕ → ℂ) {j : ℕ} (h1 : st.k ≤ j) (h2 : j < nv) : st.mulQ nv Q (st.AV1 OP nv) j = OP (st.mulQ nv Q st.V j) := by
  unfold SSt.mulQ
  rw [if_pos ⟨h1, h2⟩, if_pos ⟨h1, h2⟩, map_sum]
  refine sum_congr rfl fun l hl => ?_
  have hl := mem_Ico.mp hl
  unfold SSt.AV1
  rw [if_pos hl, map_smul]

/-- the matrix of the DS is the Rayleigh quotient matrix -/
theorem T2_eq (st : SSt E) (nv : ℕ) (Q : ℕ → ℕ → ℂ) {i j : ℕ} (h1 : st.k ≤ j) (h2 : j < nv) (hi : i < nv) :
    st.T2 OP nv Q i j = inner ℂ (st.mulQ nv Q st.V i) (OP (st.mulQ nv Q st.V j)) := by
  rw [← mulQ_op st nv Q h1 h2]
  unfold SSt.T2
  rw [if_pos ⟨h1, h2, hi⟩]
  have eA : st.mulQ nv Q (st.AV1 OP nv) j = ∑ m ∈ Ico st.k nv, Q m j • st.AV1 OP nv m := by unfold SSt.mulQ; rw [if_pos ⟨h1, h2⟩]
  rw [eA]
  by_cases hik : i < st.k
  · rw [if_pos hik]
    have : st.mulQ nv Q st.V i = st.V i := by unfold SSt.mulQ; rw [if_neg (by omega)]
    rw [this, inner_sum]
    refine sum_congr rfl fun m _ => ?_
    rw [inner_smul_right, mul_comm]; rfl
  · rw [if_neg hik]
    have : st.mulQ nv Q st.V i = ∑ l ∈ Ico st.k nv, Q l i • st.V l := by unfold SSt.mulQ; rw [if_pos ⟨by omega, hi⟩]
    rw [this, sum_inner]
    refine sum_congr rfl fun l _ => ?_
    rw [inner_sum]
    refine sum_congr rfl fun m _ => ?_
    rw [inner_smul_left, inner_smul_right]
    show star (Q l i) * inner ℂ (st.V l) (st.AV1 OP nv m) * Q m j = star (Q l i) * (Q m j * inner ℂ (st.V l) (st.AV1 OP nv m))
    ring

/-- the update of the basis keeps it orthonormal -/
theorem mulQ_ortho {st : SSt E} {nv : ℕ} {Q : ℕ → ℕ → ℂ} (hV : OrthoN st.V nv)
    (hQ : ∀ i, st.k ≤ i → i < nv → ∀ j, st.k ≤ j → j < nv → ∑ l ∈ Ico st.k nv, star (Q l i) * Q l j = if i = j then 1 else 0) : OrthoN (st.mulQ nv Q st.V) nv := by
  have hmix : ∀ i, i < st.k → ∀ j, st.k ≤ j → j < nv → inner ℂ (st.mulQ nv Q st.V i) (st.mulQ nv Q st.V j) = (0 : ℂ) := by
    intro i hi j hj hj2
    have e1 : st.mulQ nv Q st.V i = st.V i := by unfold SSt.mulQ; rw [if_neg (by omega)]
    have e2 : st.mulQ nv Q st.V j = ∑ l ∈ Ico st.k nv, Q l j • st.V l := by unfold SSt.mulQ; rw [if_pos ⟨hj, hj2⟩]
    rw [e1, e2, inner_sum]
    refine sum_eq_zero fun l hl => ?_
    have hl := mem_Ico.mp hl
    rw [inner_smul_right, hV i (by omega) l hl.2, if_neg (by omega), mul_zero]
  intro i hi j hj
  by_cases h1 : i < st.k <;> by_cases h2 : j < st.k
  · have e1 : st.mulQ nv Q st.V i = st.V i := by unfold SSt.mulQ; rw [if_neg (by omega)]
    have e2 : st.mulQ nv Q st.V j = st.V j := by unfold SSt.mulQ; rw [if_neg (by omega)]
    rw [e1, e2]; exact hV i hi j hj
  · rw [hmix i h1 j (by omega) hj, if_neg (by omega)]
  · rw [← inner_conj_symm, hmix j h2 i (by omega) hi, map_zero, if_neg (by omega)]
  · rw [← hQ i (by omega) hi j (by omega) hj]
    have e1 : st.mulQ nv Q st.V i = ∑ l ∈ Ico st.k nv, Q l i • st.V l := by unfold SSt.mulQ; rw [if_pos ⟨by omega, hi⟩]
    have e2 : st.mulQ nv Q st.V j = ∑ l ∈ Ico st.k nv, Q l j • st.V l := by unfold SSt.mulQ; rw [if_pos ⟨by omega, hj⟩]
    rw [e1, e2, sum_inner]
    refine sum_congr rfl fun l hl => ?_
    have hl' := mem_Ico.mp hl
    rw [inner_sum, sum_eq_single l]
    · rw [inner_smul_left, inner_smul_right, hV l hl'.2 l hl'.2, if_pos rfl, mul_one]; rfl
    · intro m hm hne
      have hm' := mem_Ico.mp hm
      rw [inner_smul_left, inner_smul_right, hV l hl'.2 m hm'.2, if_neg (Ne.symm hne), mul_zero, mul_zero]
    · intro h; exact absurd hl h

/-- the residual norm `r` of column `j` of the partial Schur decomposition `OP V = V T` -/
def IsRes (OP : E →ₗ[ℂ] E) (V : ℕ → E) (T : ℕ → ℕ → ℂ) (j : ℕ) (r : ℝ) : Prop := r = ‖OP (V j) - ∑ i ∈ range (j + 1), T i j • V i‖

theorem res_project {st : SSt E} {nv : ℕ} {Q : ℕ → ℕ → ℂ} (hQ : SchurQ st OP nv Q) (a : ℕ) {j : ℕ} (h1 : st.k ≤ j) (h2 : j < nv) :
    IsRes OP (project OP nv Q a st).V (project OP nv Q a st).T j ((project OP nv Q a st).rsd j) := by
  unfold IsRes
  show (if st.k ≤ j ∧ j < nv then _ else _) = _
  rw [if_pos ⟨h1, h2⟩, mulQ_op st nv Q h1 h2]
  congr 2
  show ∑ i ∈ range nv, st.T2 OP nv Q i j • st.mulQ nv Q st.V i = ∑ i ∈ range (j + 1), st.T2 OP nv Q i j • st.mulQ nv Q st.V i
  symm
  apply sum_subset
  · intro i hi; exact mem_range.mpr (by have := mem_range.mp hi; omega)
  · intro i hi hn
    have := mem_range.mp hi
    rw [hQ.2 j h1 i (by rw [mem_range] at hn; omega) this, zero_smul]

theorem k_le {p : Option ℕ} {st : SSt E} (hr : ReachS OP mpd ncv p st) : st.k ≤ ncv ∧ ∀ nv, p = some nv → st.k ≤ nv := by
  induction hr with
  | init st hk _ => exact ⟨by omega, fun _ h => by cases h⟩
  | project st Q a hr hQ ha ih =>
    refine ⟨?_, ?_⟩
    · show st.k + a ≤ ncv; unfold SSt.nv at ha; omega
    · intro nv h; cases h; exact ha
  | renew st nv N hr ho ih => exact ⟨ih.1, fun _ h => by cases h⟩

/-- **C152** (residuals).  In every execution, for each accepted column the stored residual norm is the norm of the residual of this column of the partial Schur decomposition formed by the accepted columns
    and the matrix of the projected problem.  Moreover after a projection this holds for all projected columns, with the matrix equal to the Rayleigh quotients. -/
theorem C152_residual {p : Option ℕ} {st : SSt E} (hr : ReachS OP mpd ncv p st) :
    (∀ j < st.k, IsRes OP st.V st.T j (st.rsd j)) ∧ ∀ nv, p = some nv → ∀ j < nv, IsRes OP st.V st.T j (st.rsd j) := by
  induction hr with
  | init st hk _ => exact ⟨fun j hj => by omega, fun _ h => by cases h⟩
  | project st Q a hr hQ ha ih =>
    have hall : ∀ j < st.nv mpd ncv, IsRes OP (project OP (st.nv mpd ncv) Q a st).V (project OP (st.nv mpd ncv) Q a st).T j ((project OP (st.nv mpd ncv) Q a st).rsd j) := by
      intro j hj
      by_cases h1 : st.k ≤ j
      · exact res_project hQ a h1 hj
      · have h := ih.1 j (by omega)
        unfold IsRes at h ⊢
        show (if st.k ≤ j ∧ j < _ then _ else st.rsd j) = _
        rw [if_neg (by omega), h]
        have e : ∀ i ≤ j, st.mulQ (st.nv mpd ncv) Q st.V i = st.V i := fun i hi => by unfold SSt.mulQ; rw [if_neg (by omega)]
        show _ = ‖OP (st.mulQ _ Q st.V j) - ∑ i ∈ range (j + 1), st.T2 OP _ Q i j • st.mulQ _ Q st.V i‖
        rw [e j le_rfl]
        congr 2
        refine sum_congr rfl fun i hi => ?_
        rw [e i (by have := mem_range.mp hi; omega)]
        unfold SSt.T2
        rw [if_neg (by omega)]
    refine ⟨fun j hj => hall j (lt_of_lt_of_le hj ha), fun nv h => by cases h; exact hall⟩
  | renew st nv N hr ho ih =>
    refine ⟨?_, fun _ h => by cases h⟩
    intro j hj
    have hj : j < st.k := hj
    have h := ih.1 j hj
    unfold IsRes at h ⊢
    show st.rsd j = ‖OP (if st.k ≤ j ∧ j < nv then N j else st.V j) - ∑ i ∈ range (j + 1), st.T i j • (if st.k ≤ i ∧ i < nv then N i else st.V i)‖
    rw [if_neg (by omega), h]
    congr 2
    refine sum_congr rfl fun i hi => ?_
    rw [if_neg (by have := mem_range.mp hi; omega)]

/-- **C152** (projection).  The matrix of the projected problem contains the Rayleigh quotients of the new basis. -/
theorem C152_projection (st : SSt E) (nv : ℕ) (Q : ℕ → ℕ → ℂ) (a : ℕ) {i j : ℕ} (h1 : st.k ≤ j) (h2 : j < nv) (hi : i < nv) :
    (project OP nv Q a st).T i j = inner ℂ ((project OP nv Q a st).V i) (OP ((project OP nv Q a st).V j)) := T2_eq st nv Q h1 h2 hi

/-- **C152** (locking).  Accepted columns, their residual norms and their part of the matrix are never changed. -/
theorem C152_locked (st : SSt E) (nv : ℕ) (Q : ℕ → ℕ → ℂ) (a : ℕ) (N : ℕ → E) {j : ℕ} (hj : j < st.k) :
    ((project OP nv Q a st).V j = st.V j ∧ (project OP nv Q a st).rsd j = st.rsd j ∧ ∀ i, (project OP nv Q a st).T i j = st.T i j) ∧
      (renew nv N st).V j = st.V j ∧ (renew nv N st).rsd j = st.rsd j ∧ ∀ i, (renew nv N st).T i j = st.T i j := by
  refine ⟨⟨?_, ?_, ?_⟩, ?_, rfl, fun i => rfl⟩
  · show st.mulQ nv Q st.V j = _; unfold SSt.mulQ; rw [if_neg (by omega)]
  · show (if _ then _ else _) = _; rw [if_neg (by omega)]
  · intro i; show st.T2 OP nv Q i j = _; unfold SSt.T2; rw [if_neg (by omega)]
  · show (if _ then _ else _) = _; rw [if_neg (by omega)]

/-- **C152** (orthonormality; partial).  If the projected dimension is not limited (`mpd ≥ ncv`), in every state of every execution all columns of the basis are orthonormal.  Partial: not if `mpd < ncv`
    (`C152_orthonormal_false`). -/
theorem C152_orthonormal_partial (hm : ncv ≤ mpd) {p : Option ℕ} {st : SSt E} (hr : ReachS OP mpd ncv p st) : OrthoN st.V ncv ∧ ∀ nv, p = some nv → nv = ncv := by
  induction hr with
  | init st hk ho => exact ⟨ho, fun _ h => by cases h⟩
  | project st Q a hr hQ ha ih =>
    have hnv : st.nv mpd ncv = ncv := by unfold SSt.nv; omega
    refine ⟨?_, fun nv h => by cases h; exact hnv⟩
    rw [hnv] at hQ
    show OrthoN (st.mulQ (st.nv mpd ncv) Q st.V) ncv
    rw [hnv]
    exact mulQ_ortho ih.1 hQ.1
  | renew st nv N hr ho ih =>
    refine ⟨?_, fun _ h => by cases h⟩
    rw [ih.2 nv rfl] at ho ⊢
    exact ho

/-- **C152** (result; partial).  With `mpd ≥ ncv`, the accepted columns are orthonormal and their stored residual norms are those of the partial Schur decomposition. -/
theorem C152_schur_partial (hm : ncv ≤ mpd) {p : Option ℕ} {st : SSt E} (hr : ReachS OP mpd ncv p st) : OrthoN st.V st.k ∧ ∀ j < st.k, IsRes OP st.V st.T j (st.rsd j) := by
  have hk := (k_le hr).1
  exact ⟨fun i hi j hj => (C152_orthonormal_partial hm hr).1 i (by omega) j (by omega), (C152_residual hr).1⟩

/-! ## mpd smaller than ncv -/

/-- identity matrix -/
def idQ : ℕ → ℕ → ℂ := fun i j => if i = j then 1 else 0

theorem idQ_schur {st : SSt E} (hk : st.k = 0) : SchurQ st OP 1 idQ := by
  refine ⟨?_, ?_⟩
  · intro i hi hi2 j hj hj2
    have e1 : i = 0 := by omega
    have e2 : j = 0 := by omega
    subst e1; subst e2
    rw [hk]; simp [idQ]
  · intro j hj i hi hi2; omega

theorem idQ_mul {st : SSt E} (hk : st.k = 0) (X : ℕ → E) : st.mulQ 1 idQ X = X := by
  funext j
  unfold SSt.mulQ
  by_cases h : st.k ≤ j ∧ j < 1
  · rw [if_pos h, hk]
    have : j = 0 := by omega
    subst this; simp [idQ]
  · rw [if_neg h]

/-- **C152** (negation if `mpd < ncv`).  With `ncv = 2` and `mpd = 1`, an execution for the operator `[[1,1],[0,0]]` from an orthonormal basis accepts the first vector with residual zero and then projects onto
    two columns which are equal. -/
theorem C152_orthonormal_false : ∃ st : SSt E2, ReachS (op2 1 1 0 0) 1 2 none st ∧ st.k = 1 ∧ st.rsd 0 = 0 ∧ st.nv 1 2 = 2 ∧ st.V 0 = st.V 1 ∧ ¬OrthoN st.V (st.nv 1 2) := by
  obtain ⟨st0, hk0, hV0, r0⟩ : ∃ st0 : SSt E2, st0.k = 0 ∧ st0.V = (fun j => if j = 0 then vec2 0 1 else vec2 1 0) ∧ ReachS (op2 1 1 0 0) 1 2 none st0 := by
    refine ⟨{ V := fun j => if j = 0 then vec2 0 1 else vec2 1 0, AV := fun _ => 0, T := fun _ _ => 0, rsd := fun _ => 0, k := 0 }, rfl, rfl, ReachS.init _ rfl ?_⟩
    intro i hi j hj
    show inner ℂ (if i = 0 then vec2 0 1 else vec2 1 0) (if j = 0 then vec2 0 1 else vec2 1 0) = _
    have ei : i = 0 ∨ i = 1 := by omega
    have ej : j = 0 ∨ j = 1 := by omega
    rcases ei with rfl | rfl <;> rcases ej with rfl | rfl
    · rw [if_pos rfl, inner2]; simp
    · rw [if_pos rfl, if_neg one_ne_zero, inner2]; simp
    · rw [if_pos rfl, if_neg one_ne_zero, inner2]; simp
    · rw [if_neg one_ne_zero, inner2]; simp
  obtain ⟨st2, hk2, hV2, r2⟩ : ∃ st2 : SSt E2, st2.k = 0 ∧ st2.V = (fun _ => vec2 1 0) ∧ ReachS (op2 1 1 0 0) 1 2 none st2 := by
    have hnv : st0.nv 1 2 = 1 := by unfold SSt.nv; omega
    have r1 := ReachS.project st0 idQ 0 r0 (by rw [hnv]; exact idQ_schur hk0) (by rw [hnv, hk0]; omega)
    rw [hnv] at r1
    have hV : (renew 1 (fun _ => vec2 1 0) (project (op2 1 1 0 0) 1 idQ 0 st0)).V = fun _ => vec2 1 0 := by
      funext j
      show (if st0.k + 0 ≤ j ∧ j < 1 then vec2 1 0 else st0.mulQ 1 idQ st0.V j) = _
      rw [idQ_mul hk0, hV0, hk0]
      by_cases h : j = 0
      · rw [if_pos (by omega)]
      · rw [if_neg (by omega)]; exact if_neg h
    refine ⟨_, ?_, hV, ReachS.renew _ _ (fun _ => vec2 1 0) r1 ?_⟩
    · show st0.k + 0 = 0; rw [hk0]
    · rw [hV]
      intro i hi j hj
      rw [if_pos (by omega), inner2]; simp
  have hnv : st2.nv 1 2 = 1 := by unfold SSt.nv; omega
  have r3 := ReachS.project st2 idQ 1 r2 (by rw [hnv]; exact idQ_schur hk2) (by rw [hnv, hk2])
  rw [hnv] at r3
  have hV4 : (renew 1 (fun _ => vec2 1 0) (project (op2 1 1 0 0) 1 idQ 1 st2)).V = fun _ => vec2 1 0 := by
    funext j
    show (if st2.k + 1 ≤ j ∧ j < 1 then vec2 1 0 else st2.mulQ 1 idQ st2.V j) = _
    rw [idQ_mul hk2, hV2, if_neg (by omega)]
  have hT : (renew 1 (fun _ => vec2 1 0) (project (op2 1 1 0 0) 1 idQ 1 st2)).T 0 0 = 1 := by
    show st2.T2 (op2 1 1 0 0) 1 idQ 0 0 = 1
    rw [T2_eq st2 1 idQ (by omega) (by omega) (by omega), idQ_mul hk2, hV2, op2_vec, inner2]
    simp
  have r4 : ReachS (op2 1 1 0 0) 1 2 none (renew 1 (fun _ => vec2 1 0) (project (op2 1 1 0 0) 1 idQ 1 st2)) := by
    refine ReachS.renew _ _ (fun _ => vec2 1 0) r3 ?_
    rw [hV4]
    intro i hi j hj
    rw [if_pos (by omega), inner2]; simp
  have hk4 : (renew 1 (fun _ => vec2 1 0) (project (op2 1 1 0 0) 1 idQ 1 st2)).k = 1 := by show st2.k + 1 = 1; rw [hk2]
  generalize renew 1 (fun _ => vec2 1 0) (project (op2 1 1 0 0) 1 idQ 1 st2) = st4 at *
  have hnv4 : st4.nv 1 2 = 2 := by unfold SSt.nv; omega
  refine ⟨st4, r4, hk4, ?_, hnv4, by rw [hV4], ?_⟩
  · have h := (C152_residual r4).1 0 (by omega)
    unfold IsRes at h
    rw [h, hV4, sum_range_one, hT, op2_vec, one_smul, sub2]
    rw [norm2_of (r := 0) le_rfl (by simp)]
  · rw [hnv4]
    intro h
    have := h 0 (by omega) 1 (by omega)
    rw [hV4, inner2] at this
    simp at this

/-- a case of the theorems with `mpd = ncv = 1`: the eigenvector `e1` of `diag(2,1)` is accepted -/
example : ∃ st : SSt E2, ReachS (op2 2 0 0 1) 1 1 (some 1) st ∧ st.k = 1 := by
  have r0 : ReachS (op2 2 0 0 1) 1 1 none { V := fun _ => vec2 1 0, AV := fun _ => 0, T := fun _ _ => 0, rsd := fun _ => 0, k := 0 } := by
    refine ReachS.init _ rfl ?_
    intro i hi j hj
    show inner ℂ (vec2 1 0) (vec2 1 0) = _
    rw [if_pos (by omega), inner2]; simp
  exact ⟨_, ReachS.project _ idQ 1 r0 (idQ_schur rfl) (by show 0 + 1 ≤ min (0 + 1) 1; omega), rfl⟩

end Verif.Iter
