import Verif.NDef.Wit

/-!
# C145: the pair extracted for refinement
-/

set_option linter.all false

namespace Verif.NDef
open Matrix

variable {ι : Type} [Fintype ι] [DecidableEq ι] {q mm : ℕ} {tgt : ℂ} {simpU : Bool} {P : Prob ι} {e : Ext ι} {ls : List ℂ}

/-- **C145** (extraction, partial).  The vector extracted from an exact solution of the deflated problem is an eigenvector of the original problem with the same
    eigenvalue.  Partial: it is not normalized (`C145_norm`). -/
theorem C145_extracted_partial (hm : mm ≤ 1) (h : Run P q mm tgt simpU e ls) (hn : e.n ≤ e.szd) {e1 : Ext ι} {u u1 : EVec ι q} {l : ℂ} {x : ι → ℂ} {t : Fin e.n → ℂ} {z : ℕ → ℂ}
    (hu : Rep e.n u x t) (hs : Sol P e simpU l x t) (hx : extract e u l e.n z = some (e1, u1))
    (hz : e1.Hm (e.n + 1) *ᵥ (fun k => z k) = l • (fun k : Fin (e.n + 1) => z k)) (hzn : z e.n ≠ 0) : IsEig P l u1.x := by
  obtain ⟨h0, hn1, hsz, hm', hb, hG, hX, hH, hux, hut⟩ := extract_some hx
  obtain ⟨e2, hk2⟩ : ∃ e2, lock mm tgt e u l = some e2 := by
    unfold lock extend
    rw [if_neg h0]
    dsimp only
    by_cases h1 : e.n + 1 ≤ e.szd
    · rw [if_pos h1]; exact ⟨_, rfl⟩
    · rw [if_neg h1]; exact ⟨_, rfl⟩
  have hr2 := Run.accept h hn hu hs hk2
  have hI2 := inv_run hr2
  obtain ⟨_, hn2, hsz2, hX2, hH2⟩ := lock_some hk2
  have vH : e2.Hm (e.n + 1) = e1.Hm (e.n + 1) := by
    ext i j
    show e2.H j i = e1.H j i
    rw [hH2, hH]
  have hd2 := hI2.dom
  have hp2 := hI2.pair
  have hind := C139_independent hm hr2
  rw [hn2] at hd2 hp2 hind
  have hv : u1.x = e2.Xm (e.n + 1) *ᵥ fun k : Fin (e.n + 1) => z k := by
    funext i
    rw [hux]
    show (∑ j ∈ Finset.range e.n, e.X j i * z j) + z e.n * (u.x i * ((1 / nrm2 u.x : ℝ) : ℂ)) = ∑ k : Fin (e.n + 1), e2.X k i * z k
    rw [sum_fin (e.n + 1) (fun k => e2.X k i * z k), Finset.sum_range_succ]
    have hne : e2.X e.n = fun i => u.x i * ((1 / nrm2 u.x : ℝ) : ℂ) := by rw [hX2, if_pos rfl]
    rw [hne]
    congr 1
    · refine Finset.sum_congr rfl fun j hj => ?_
      rw [hX2, if_neg (by have := Finset.mem_range.1 hj; omega)]
    · exact mul_comm _ _
  constructor
  · intro hc
    rw [hv] at hc
    have := hind _ hc
    exact hzn (congrFun this ⟨e.n, by omega⟩)
  · rw [hv]
    exact pair_eig hd2 hp2 hs.1 (z := fun k => z k) (by rw [vH]; exact hz)

/-- **C145** (norm of the extracted vector).  For a solution of the deflated problem, the square of the norm of the extracted vector is the square of the
    norm of the combination of the old columns plus the square of the last coefficient: it is one for a unit vector `z` only if the combination of the old columns has
    the norm of its coefficients, as it does when these columns are orthonormal. -/
theorem C145_norm (hm : mm ≤ 1) (h : Run P q mm tgt simpU e ls) (hn : e.n ≤ e.szd) {e1 : Ext ι} {u u1 : EVec ι q} {l : ℂ} {x : ι → ℂ} {t : Fin e.n → ℂ} {z : ℕ → ℂ}
    (hu : Rep e.n u x t) (hs : Sol P e simpU l x t) (hx : extract e u l e.n z = some (e1, u1)) :
    nrm2 u1.x ^ 2 = nrm2 (e.Xm e.n *ᵥ fun k => z k) ^ 2 + ‖z e.n‖ ^ 2 := by
  obtain ⟨h0, hn1, hsz, hm', hb, hG, hX, hH, hux, hut⟩ := extract_some hx
  have ho := sol_orth (by rw [(inv_run h).midx hn]; omega) hs
  set w : ι → ℂ := e.Xm e.n *ᵥ fun k => z k with hw
  set y : ι → ℂ := fun i => u.x i * ((1 / nrm2 u.x : ℝ) : ℂ) with hy
  have hv : u1.x = w + z e.n • y := by
    rw [hux]
    funext i
    show _ = (e.Xm e.n *ᵥ fun k => z k) i + z e.n * y i
    congr 1
    exact (sum_fin e.n (fun k => e.X k i * z k)).symm
  have hny : nrm2 y = 1 := nrm2_scale h0
  have hwy : star y ⬝ᵥ w = 0 := by
    rw [hw, dotProduct_mulVec]
    have : star y ᵥ* e.Xm e.n = 0 := by
      have e1 : (e.Xm e.n)ᴴ *ᵥ y = 0 := by
        have e2 : y = ((1 / nrm2 u.x : ℝ) : ℂ) • x := by funext i; rw [hy, ← hu.1]; simp [mul_comm]
        rw [e2, mulVec_smul, ho, smul_zero]
      have := congrArg star e1
      rw [star_mulVec, conjTranspose_conjTranspose, star_zero] at this
      exact this
    rw [this, zero_dotProduct]
  have hyw : star w ⬝ᵥ y = 0 := by
    have := congrArg star hwy
    rw [← star_dotProduct, star_zero] at this
    exact this
  have key : ((nrm2 u1.x : ℂ)) ^ 2 = (nrm2 w : ℂ) ^ 2 + (‖z e.n‖ : ℂ) ^ 2 := by
    have n1 := nrm2_sq u1.x
    have n2 := nrm2_sq w
    have n3 := nrm2_sq y
    rw [hny] at n3
    have d : ∀ v : ι → ℂ, ∑ i, star (v i) * v i = star v ⬝ᵥ v := fun v => rfl
    rw [d] at n1 n2 n3
    rw [n1, n2, hv, star_add, add_dotProduct, dotProduct_add, dotProduct_add, dotProduct_smul, hyw, star_smul, smul_dotProduct, smul_dotProduct, hwy, dotProduct_smul, ← n3]
    have hz : (‖z e.n‖ : ℂ) ^ 2 = star (z e.n) * z e.n := by
      rw [← Complex.ofReal_pow, ← Complex.normSq_eq_norm_sq, Complex.normSq_eq_conj_mul_self]; rfl
    rw [hz]
    simp
  exact_mod_cast key

end Verif.NDef
