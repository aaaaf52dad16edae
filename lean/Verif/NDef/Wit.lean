import Verif.NDef.DerivThm
import Verif.NDef.SolveThm

/-!
# Witnesses for C139 to C141, C144, C145
-/

set_option linter.all false

namespace Verif.NDef
open Matrix Polynomial

/-- the linear problem with a diagonal matrix, `T(l) = diag(d) - l` -/
noncomputable def diagProb {m : ℕ} (d : ℕ → ℂ) : Prob (Fin m) where
  nt := 2
  A := ![Matrix.diagonal fun i => d i, -1]
  f := ![polyFun 1, polyFun X]

/-- unit vector -/
def uvec {m : ℕ} (k : ℕ) : Fin m → ℂ := fun i => if (i : ℕ) = k then 1 else 0

variable {m q mm : ℕ} {tgt : ℂ} {d : ℕ → ℂ}

theorem diag_dom (l : ℂ) : InΩ (diagProb (m := m) d) l := by
  intro j
  fin_cases j <;> exact Set.mem_univ _

theorem diag_T (l : ℂ) : (diagProb (m := m) d).T l = Matrix.diagonal fun i : Fin m => d i - l := by
  refine (Fin.sum_univ_two (fun j : Fin 2 => ((diagProb (m := m) d).f j).at l • (diagProb (m := m) d).A j)).trans ?_
  ext i j
  by_cases h : i = j
  · subst h
    simp [diagProb, MatFun.at, polyFun, sub_eq_add_neg]
  · simp [diagProb, MatFun.at, polyFun, h]

theorem uvec_nrm {k : ℕ} (hk : k < m) : nrm2 (uvec (m := m) k) = 1 := by
  unfold nrm2
  have : ∑ i : Fin m, ‖uvec (m := m) k i‖ ^ 2 = 1 := by
    rw [Finset.sum_eq_single ⟨k, hk⟩]
    · simp [uvec]
    · intro i _ hi
      have : (i : ℕ) ≠ k := fun h => hi (Fin.ext h)
      simp [uvec, this]
    · intro h; exact absurd (Finset.mem_univ _) h
  rw [this, Real.sqrt_one]

/-- the eigenpairs of the diagonal problem can be accepted one after the other, on any number of processes and for any minimality index -/
theorem diagRun (sz : ℕ) : ∀ k, k ≤ m → k ≤ sz → ∃ e : Ext (Fin m), Run (diagProb d) q mm tgt false e ((List.range k).map d) ∧ e.n = k ∧ e.szd = sz - 1 ∧
    (∀ j, j < k → e.X j = uvec j) ∧ ∀ c r, e.H c r = if c < k ∧ r = c then d c else 0 := by
  intro k
  induction k with
  | zero =>
    intro _ _
    exact ⟨_, Run.init (fun _ _ => 0) sz, rfl, rfl, fun j hj => absurd hj (Nat.not_lt_zero _), fun c r => by simp [initExt]⟩
  | succ k ih =>
    intro h1 h2
    obtain ⟨e, hr, hn, hz, hX, hH⟩ := ih (by omega) (by omega)
    have hk : k < m := by omega
    set u : EVec (Fin m) q := { x := uvec k, t := fun _ _ => 0 } with hu
    have hu1 : nrm2 u.x = 1 := uvec_nrm hk
    obtain ⟨e', hl⟩ : ∃ e', lock mm tgt e u (d k) = some e' := by
      unfold lock extend
      rw [if_neg (by rw [hu1]; exact one_ne_zero)]
      dsimp only
      by_cases h1 : e.n + 1 ≤ e.szd
      · rw [if_pos h1]; exact ⟨_, rfl⟩
      · rw [if_neg h1]; exact ⟨_, rfl⟩
    obtain ⟨_, hn', hz', hX', hH'⟩ := lock_some hl
    have hrep : Rep e.n u (uvec k) (fun _ => 0) := ⟨rfl, fun p k => by simp [hu], fun p k _ => rfl⟩
    have hsol : Sol (diagProb d) e false (d k) (uvec k) (fun _ => 0) := by
      refine ⟨diag_dom _, by simp, ?_⟩
      unfold deflMat
      dsimp only
      rw [defl_mulVec]
      have hT : (shell (diagProb d) e false false (d k)).T = (diagProb d).T (d k) := by unfold shell; simp
      have a1 : (shell (diagProb d) e false false (d k)).T *ᵥ uvec k = 0 := by
        rw [hT, diag_T]
        funext i
        rw [mulVec_diagonal]
        by_cases h : (i : ℕ) = k
        · simp [h]
        · simp [uvec, h]
      have a2 : (e.Xm e.n)ᴴ *ᵥ uvec (m := m) k = 0 := by
        funext j
        have hj : (j : ℕ) < k := by have := j.2; omega
        simp only [mulVec, dotProduct, conjTranspose_apply, Ext.Xm, Matrix.of_apply, Pi.zero_apply]
        refine Finset.sum_eq_zero fun i _ => ?_
        rw [hX j hj]
        by_cases h : (i : ℕ) = k
        · simp [uvec, h, Nat.ne_of_gt hj]
        · simp [uvec, h]
      have z0 : (fun _ : Fin e.n => (0 : ℂ)) = 0 := rfl
      rw [a1, a2, z0, mulVec_zero, mulVec_zero, mulVec_zero, add_zero, add_zero]
      funext s; rcases s with s | s <;> rfl
    refine ⟨e', ?_, by omega, by omega, ?_, ?_⟩
    · rw [List.range_succ, List.map_append]
      exact Run.accept hr (by omega) hrep hsol hl
    · intro j hj
      rw [hX']
      by_cases hjk : j = e.n
      · rw [if_pos hjk, hu1]
        funext i
        simp [hu, hjk, hn]
      · rw [if_neg hjk, hX j (by omega)]
    · intro c r
      rw [hH']
      by_cases hcn : c = e.n
      · rw [if_pos hcn]
        by_cases hrn : r = e.n
        · rw [if_pos hrn, if_pos (by omega)]
          congr 1; omega
        · rw [if_neg hrn, if_neg (by omega : ¬(c < k + 1 ∧ r = c)), hH c r, if_neg (by omega : ¬(c < k ∧ r = c))]
          simp [hu]
      · rw [if_neg hcn, hH c r]
        by_cases h : c < k ∧ r = c
        · rw [if_pos h, if_pos (by omega)]
        · rw [if_neg h, if_neg (by omega)]

/-! ### Non-vacuity -/

/-- C139, C140, C145: three eigenvalues accepted, four requested, on two processes -/
example : ∃ e : Ext (Fin 5), Run (diagProb fun j => (j : ℂ)) 1 1 7 false e [0, 1, 2] ∧ e.n ≤ e.szd ∧ InΩ (diagProb (m := 5) fun j => (j : ℂ)) 3 ∧
    IsEig (diagProb (m := 5) fun j => (j : ℂ)) 3 (uvec 3) ∧ (3 : ℂ) ∉ ([0, 1, 2] : List ℂ) := by
  obtain ⟨e, hr, hn, hz, _⟩ := diagRun (m := 5) (q := 1) (mm := 1) (tgt := 7) (d := fun j => (j : ℂ)) 4 3 (by omega) (by omega)
  refine ⟨e, ?_, by omega, diag_dom _, ⟨?_, ?_⟩, ?_⟩
  · have h1 : (List.range 3).map (fun j : ℕ => (j : ℂ)) = [0, 1, 2] := by
      rw [show List.range 3 = [0, 1, 2] from rfl]; norm_num
    rw [← h1]; exact hr
  · intro h; have := congrFun h 3; simp [uvec] at this
  · rw [diag_T]
    funext i
    rw [mulVec_diagonal]
    by_cases h : (i : ℕ) = 3
    · simp [h]
    · simp [uvec, h]
  · norm_num

/-- C140_removed: the determinant of the diagonal problem has a simple zero at an accepted eigenvalue -/
example : ∃ g : ℂ → ℂ, ContinuousAt g 1 ∧ g 1 ≠ 0 ∧
    ∀ l, ((diagProb (m := 2) fun j => (j : ℂ)).T l).det = (l - 1) ^ ([0, 1] : List ℂ).count 1 * g l := by
  refine ⟨fun l => l, continuousAt_id, one_ne_zero, fun l => ?_⟩
  rw [diag_T, det_diagonal]
  have : ([0, 1] : List ℂ).count 1 = 1 := by simp
  rw [this, Fin.prod_univ_two]
  simp
  ring

/-- C141: the operator and the deflated operator are nonsingular away from the eigenvalues; two processes -/
example : ∃ e : Ext (Fin 3), Run (diagProb fun j => (j : ℂ)) 1 1 7 false e [0, 1] ∧ e.n ≤ e.szd ∧ ((diagProb (m := 3) fun j => (j : ℂ)).T 5).det ≠ 0 ∧
    (deflMat (diagProb fun j => (j : ℂ)) e false 5).det ≠ 0 := by
  obtain ⟨e, hr, hn, hz, _⟩ := diagRun (m := 3) (q := 1) (mm := 1) (tgt := 7) (d := fun j => (j : ℂ)) 3 2 (by omega) (by omega)
  have h1 : (List.range 2).map (fun j : ℕ => (j : ℂ)) = [0, 1] := by
    rw [show List.range 2 = [0, 1] from rfl]; norm_num
  rw [h1] at hr
  have hT : ((diagProb (m := 3) fun j => (j : ℂ)).T 5).det ≠ 0 := by
    rw [diag_T, det_diagonal, Fin.prod_univ_three]; norm_num
  refine ⟨e, hr, by omega, hT, ?_⟩
  obtain ⟨c, hc, hd⟩ := C140_partial (by omega) hr (by omega)
  have := hd 5 (diag_dom _) (by simp)
  intro h0
  rw [h0, zero_mul] at this
  exact mul_ne_zero hc hT this.symm

/-- C141_false: with minimality index two a state with a non-zero block is reached -/
example : ∃ e : Ext (Fin 3), Run (diagProb fun j => (j : ℂ)) 1 2 7 false e [0, 1] ∧
    ∃ t, (shell (diagProb fun j => (j : ℂ)) e false false 5).B *ᵥ t ≠ 0 := by
  obtain ⟨e, hr, hn, hz, hX, hH⟩ := diagRun (m := 3) (q := 1) (mm := 2) (tgt := 7) (d := fun j => (j : ℂ)) 3 2 (by omega) (by omega)
  have h1 : (List.range 2).map (fun j : ℕ => (j : ℂ)) = [0, 1] := by
    rw [show List.range 2 = [0, 1] from rfl]; norm_num
  have hI := inv_run hr
  have hG : e.Gm e.n = 1 := by
    rw [hI.gram (by omega)]
    ext i j
    have hi := i.2
    have hj := j.2
    rw [gram_apply, hX i (by omega), hX j (by omega)]
    by_cases hij : i = j
    · subst hij
      rw [one_apply_eq, Finset.sum_eq_single ⟨i, by omega⟩]
      · simp [uvec]
      · intro k _ hk
        have : (k : ℕ) ≠ i := fun h => hk (Fin.ext h)
        simp [uvec, this]
      · intro h; exact absurd (Finset.mem_univ _) h
    · rw [one_apply_ne hij]
      refine Finset.sum_eq_zero fun k _ => ?_
      have hne : (i : ℕ) ≠ j := fun h => hij (Fin.ext h)
      by_cases hk : (k : ℕ) = i
      · simp [uvec, hk, hne]
      · simp [uvec, hk]
  have hB : (shell (diagProb fun j => (j : ℂ)) e false false 5).B = (e.Hm e.n - e.bc 0 • (1 : Matrix (Fin e.n) (Fin e.n) ℂ))ᴴ := by
    have hm : e.midx = 2 := by rw [hI.midx (by omega), hn]; rfl
    have hIc : Finset.Ico 1 2 = {1} := rfl
    unfold shell Bmat
    simp only [Bool.false_eq_true, if_false]
    rw [hm, hIc, Finset.sum_singleton, hG]
    simp [pmat, qmat, bval]
  refine ⟨e, h1 ▸ hr, ?_⟩
  by_contra hcon
  push Not at hcon
  rw [hB] at hcon
  have e0 := congrFun (hcon (Pi.single ⟨0, by omega⟩ 1)) ⟨0, by omega⟩
  have e1 := congrFun (hcon (Pi.single ⟨1, by omega⟩ 1)) ⟨1, by omega⟩
  rw [mulVec_single_one] at e0 e1
  simp [Ext.Hm, hH] at e0 e1
  rw [e0] at e1
  norm_num at e1

/-- the problem with the scalar function `l^2 - 1` -/
noncomputable def sqProb : Prob (Fin 1) where
  nt := 1
  A := fun _ => 1
  f := fun _ => polyFun (X ^ 2 - 1)

theorem sq_T (l : ℂ) : sqProb.T l = (l ^ 2 - 1) • (1 : Matrix (Fin 1) (Fin 1) ℂ) := by
  refine (Fin.sum_univ_one (fun j : Fin 1 => (sqProb.f j).at l • sqProb.A j)).trans ?_
  have : (polyFun (X ^ 2 - 1)).at l = l ^ 2 - 1 := by
    simp [MatFun.at, polyFun, smul_pow]
  show (polyFun (X ^ 2 - 1)).at l • (1 : Matrix (Fin 1) (Fin 1) ℂ) = _
  rw [this]

theorem sq_dom (l : ℂ) : InΩ sqProb l := fun _ => Set.mem_univ _

/-- **C139** (negation of the unrestricted claim).  The scalar problem `l^2 - 1` has the eigenvalues `1` and `-1`.  After `1` has been accepted, `-1` is an eigenvalue of
    the original problem and there are non-zero solutions of the deflated problem, but none of them can be locked: the first part of each is zero and the code
    divides by its norm. -/
theorem C139_false : ∃ e : Ext (Fin 1), Run sqProb 0 1 0 false e [1] ∧ e.n ≤ e.szd ∧ IsEig sqProb (-1) (fun _ => 1) ∧
    (∃ x t, (x ≠ 0 ∨ t ≠ 0) ∧ Sol sqProb e false (-1) x t) ∧
    ∀ (u : EVec (Fin 1) 0) x t, Rep e.n u x t → Sol sqProb e false (-1) x t → lock 1 0 e u (-1) = none := by
  set e0 : Ext (Fin 1) := initExt (fun _ _ => 0) 2
  set u : EVec (Fin 1) 0 := { x := fun _ => 1, t := fun _ _ => 0 } with hu
  have hu1 : nrm2 u.x = 1 := by unfold nrm2; simp [hu]
  obtain ⟨e, hl⟩ : ∃ e, lock 1 0 e0 u 1 = some e := by
    unfold lock extend
    rw [if_neg (by rw [hu1]; exact one_ne_zero)]
    dsimp only
    rw [if_pos (by decide)]
    exact ⟨_, rfl⟩
  obtain ⟨_, hn, hz, hX, hH⟩ := lock_some hl
  have hn1 : e.n = 1 := hn
  have hz1 : e.szd = 1 := hz
  have hrun : Run sqProb 0 1 0 false e [1] := by
    refine Run.accept (ls := []) (x := fun _ => 1) (t := fun _ => 0) (Run.init _ 2) (by decide) (u := u) ⟨rfl, fun p k => by simp [hu], fun _ _ _ => rfl⟩ ?_ hl
    refine ⟨sq_dom _, by simp, ?_⟩
    unfold deflMat
    dsimp only
    rw [defl_mulVec]
    have hT : (shell sqProb e0 false false 1).T = sqProb.T 1 := by unfold shell; simp
    rw [hT, sq_T]
    funext s
    rcases s with s | s
    · simp [mulVec, dotProduct]
    · exact absurd s.2 (Nat.not_lt_zero _)
  have heig : IsEig sqProb (-1) (fun _ => 1) := by
    refine ⟨fun h => ?_, ?_⟩
    · have := congrFun h 0; simp at this
    · rw [sq_T]; norm_num
  refine ⟨e, hrun, by omega, heig, C140_kept (by omega) hrun (by omega) (sq_dom _) (by norm_num) heig, ?_⟩
  intro w x t hw hs
  have hI := inv_run hrun
  have ho := sol_orth (by rw [hI.midx (by omega)]; omega) hs
  have hx0 : x = 0 := by
    have h1 := congrFun ho ⟨0, by omega⟩
    simp only [mulVec, dotProduct, conjTranspose_apply, Ext.Xm, Matrix.of_apply, Pi.zero_apply, Fin.sum_univ_one] at h1
    have h2 : e.X 0 0 = 1 := by
      rw [hX]
      rw [if_pos (show 0 = e0.n from rfl), hu1]; simp [hu]
    rw [h2] at h1
    funext i
    rw [Fin.eq_zero i]
    simpa using h1
  unfold lock extend
  rw [if_pos (by rw [hw.1, hx0]; exact nrm2_eq_zero.2 rfl)]

end Verif.NDef
