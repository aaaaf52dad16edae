import Verif.NDef.Spec

/-!
# Lemmas on locking
-/

set_option linter.all false

namespace Verif.NDef
open Matrix

variable {ι : Type} [Fintype ι] [DecidableEq ι] {q : ℕ}

theorem rt_ne (q : ℕ) : rt q ≠ 0 := by
  unfold rt
  have : (0 : ℝ) < Real.sqrt ((q : ℝ) + 1) := Real.sqrt_pos.2 (by positivity)
  exact_mod_cast this.ne'

theorem nrm2_eq_zero {x : ι → ℂ} : nrm2 x = 0 ↔ x = 0 := by
  unfold nrm2
  rw [Real.sqrt_eq_zero (Finset.sum_nonneg fun i _ => by positivity), Finset.sum_eq_zero_iff_of_nonneg (fun i _ => by positivity)]
  constructor
  · intro h; funext i
    have := h i (Finset.mem_univ i)
    simpa using this
  · intro h i _; rw [h]; simp

theorem nrm2_nonneg (x : ι → ℂ) : 0 ≤ nrm2 x := Real.sqrt_nonneg _

theorem nrm2_sq (x : ι → ℂ) : ((nrm2 x : ℂ)) ^ 2 = ∑ i, star (x i) * x i := by
  have h : nrm2 x ^ 2 = ∑ i, ‖x i‖ ^ 2 := Real.sq_sqrt (Finset.sum_nonneg fun i _ => by positivity)
  rw [← Complex.ofReal_pow, h, Complex.ofReal_sum]
  refine Finset.sum_congr rfl fun i _ => ?_
  have := Complex.conj_mul' (x i)
  rw [Complex.star_def, this]; push_cast; rfl

theorem nrm2_scale {x : ι → ℂ} (h : nrm2 x ≠ 0) : nrm2 (fun i => x i * ((1 / nrm2 x : ℝ) : ℂ)) = 1 := by
  have h0 : 0 < nrm2 x := lt_of_le_of_ne (nrm2_nonneg x) (Ne.symm h)
  have hs : ∑ i, ‖x i * ((1 / nrm2 x : ℝ) : ℂ)‖ ^ 2 = 1 := by
    have : ∀ i, ‖x i * ((1 / nrm2 x : ℝ) : ℂ)‖ ^ 2 = ‖x i‖ ^ 2 * (1 / nrm2 x) ^ 2 := by
      intro i
      rw [norm_mul, mul_pow, Complex.norm_real, Real.norm_eq_abs, sq_abs]
    rw [Finset.sum_congr rfl fun i _ => this i, ← Finset.sum_mul]
    have h2 : nrm2 x ^ 2 = ∑ i, ‖x i‖ ^ 2 := Real.sq_sqrt (Finset.sum_nonneg fun i _ => by positivity)
    rw [← h2]; field_simp
  show Real.sqrt _ = 1
  rw [hs, Real.sqrt_one]

/-- the effect of locking -/
theorem lock_some {mm : ℕ} {tgt : ℂ} {e e' : Ext ι} {u : EVec ι q} {l : ℂ} (h : lock mm tgt e u l = some e') :
    nrm2 u.x ≠ 0 ∧ e'.n = e.n + 1 ∧ e'.szd = e.szd ∧
      (∀ j, e'.X j = if j = e.n then fun i => u.x i * ((1 / nrm2 u.x : ℝ) : ℂ) else e.X j) ∧
      (∀ c r, e'.H c r = if c = e.n then
        if r = e.n then l
        else if r < e.n then (if r < e.szd then u.t (Fin.last q) r else e.H c r) * (rt q / (nrm2 u.x : ℂ))
        else if r < e.szd then u.t (Fin.last q) r else e.H c r
      else e.H c r) := by
  unfold lock extend at h
  by_cases h0 : nrm2 u.x = 0
  · rw [if_pos h0] at h; cases h
  · rw [if_neg h0] at h
    dsimp only at h
    refine ⟨h0, ?_⟩
    by_cases h1 : e.n + 1 ≤ e.szd
    · rw [if_pos h1] at h
      cases h
      exact ⟨rfl, rfl, fun _ => rfl, fun _ _ => rfl⟩
    · rw [if_neg h1] at h
      cases h
      exact ⟨rfl, rfl, fun _ => rfl, fun _ _ => rfl⟩

/-- the products and the minimality index after locking -/
theorem lock_some2 {mm : ℕ} {tgt : ℂ} {e e' : Ext ι} {u : EVec ι q} {l : ℂ} (h : lock mm tgt e u l = some e') (h1 : e.n + 1 ≤ e.szd) :
    e'.midx = min mm (e.n + 1) ∧
      (∀ c r, e'.XpX c r = if c = e.n then (if r = e.n then 1 else if r < e.n then ∑ i, star (e'.X r i) * e'.X e.n i else e.XpX c r)
          else if r = e.n ∧ c < e.n then star (∑ i, star (e'.X c i) * e'.X e.n i) else e.XpX c r) := by
  unfold lock extend at h
  by_cases h0 : nrm2 u.x = 0
  · rw [if_pos h0] at h; cases h
  · rw [if_neg h0] at h
    dsimp only at h
    rw [if_pos h1] at h
    cases h
    exact ⟨rfl, fun _ _ => rfl⟩

theorem extract_some {e e1 : Ext ι} {u u1 : EVec ι q} {l : ℂ} {k : ℕ} {z : ℕ → ℂ} (h : extract e u l k z = some (e1, u1)) :
    nrm2 u.x ≠ 0 ∧ e1.n = e.n ∧ e1.szd = e.szd ∧ e1.midx = e.midx ∧ e1.bc = e.bc ∧ e1.XpX = e.XpX ∧
      (∀ j, j ≠ k → e1.X j = e.X j) ∧
      (∀ c r, e1.H c r = if c = k then
        if r = k then l
        else if r < k then (if r < e.szd then u.t (Fin.last q) r else e.H c r) * (rt q / (nrm2 u.x : ℂ))
        else if r < e.szd then u.t (Fin.last q) r else e.H c r
      else e.H c r) ∧
      (u1.x = fun i => (∑ j ∈ Finset.range k, e.X j i * z j) + z k * (u.x i * ((1 / nrm2 u.x : ℝ) : ℂ))) ∧ (∀ p r, u1.t p r = 0) := by
  unfold extract extend at h
  by_cases h0 : nrm2 u.x = 0
  · rw [if_pos h0] at h; cases h
  · rw [if_neg h0] at h
    dsimp only at h
    cases h
    refine ⟨h0, rfl, rfl, rfl, rfl, rfl, ?_, fun _ _ => rfl, ?_, fun _ _ => rfl⟩
    · intro j hj
      simp only [if_neg hj]
    · funext i
      simp only [if_true]
      congr 1
      refine Finset.sum_congr rfl fun j hj => ?_
      rw [if_neg (by have := Finset.mem_range.1 hj; omega)]

/-- the view of the basis with one more column -/
theorem Xm_succ (e e' : Ext ι) (n : ℕ) (x : Matrix ι (Fin 1) ℂ) (h1 : ∀ j, j < n → e'.X j = e.X j) (h2 : ∀ i, e'.X n i = x i 0) :
    e'.Xm (n + 1) = (fromCols (e.Xm n) x).submatrix id (finSumFinEquiv (m := n) (n := 1)).symm := by
  ext i j
  obtain ⟨s, rfl⟩ := (finSumFinEquiv (m := n) (n := 1)).surjective j
  rw [submatrix_apply, Equiv.symm_apply_apply]
  rcases s with s | s
  · simp [Ext.Xm, h1 s s.2]
  · have : s = 0 := Subsingleton.elim _ _
    subst this
    simp [Ext.Xm, h2 i]

/-- the view of the triangular matrix with one more column -/
theorem Hm_succ (e e' : Ext ι) (n : ℕ) (t : Matrix (Fin n) (Fin 1) ℂ) (l : ℂ) (h1 : ∀ c r, c < n → r < n → e'.H c r = e.H c r)
    (h2 : ∀ k : Fin n, e'.H n k = t k 0) (h3 : e'.H n n = l) (h4 : ∀ c, c < n → e'.H c n = 0) :
    e'.Hm (n + 1) = (fromBlocks (e.Hm n) t 0 (l • (1 : Matrix (Fin 1) (Fin 1) ℂ))).submatrix (finSumFinEquiv (m := n) (n := 1)).symm
      (finSumFinEquiv (m := n) (n := 1)).symm := by
  ext i j
  obtain ⟨s, rfl⟩ := (finSumFinEquiv (m := n) (n := 1)).surjective j
  obtain ⟨r, rfl⟩ := (finSumFinEquiv (m := n) (n := 1)).surjective i
  rw [submatrix_apply, Equiv.symm_apply_apply, Equiv.symm_apply_apply]
  rcases s with s | s <;> rcases r with r | r
  · simp [Ext.Hm, h1 s r s.2 r.2]
  · have : r = 0 := Subsingleton.elim _ _
    subst this
    simp [Ext.Hm, h4 s s.2]
  · have : s = 0 := Subsingleton.elim _ _
    subst this
    simp [Ext.Hm, h2 r]
  · have : s = 0 := Subsingleton.elim _ _
    subst this
    have : r = 0 := Subsingleton.elim _ _
    subst this
    simp [Ext.Hm, h3]

end Verif.NDef
