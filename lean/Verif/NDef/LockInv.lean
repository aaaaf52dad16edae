import Verif.NDef.LockLem

/-!
# The invariant of locking
-/

set_option linter.all false

namespace Verif.NDef
open Matrix

variable {ι : Type} [Fintype ι] [DecidableEq ι] {q : ℕ}

/-- the state holds an invariant pair with the given eigenvalues -/
structure Inv (P : Prob ι) (mm : ℕ) (e : Ext ι) (ls : List ℂ) : Prop where
  len : ls.length = e.n
  diag : ∀ i, i < e.n → ls[i]? = some (e.H i i)
  tri : ∀ c r, c < e.n → c < r → e.H c r = 0
  low : ∀ c r, c < r → e.szd ≤ r → e.H c r = 0
  unit : ∀ j, j < e.n → nrm2 (e.X j) = 1
  dom : DomP P (e.Hm e.n)
  pair : InvPair P (e.Xm e.n) (e.Hm e.n)
  gram : e.n ≤ e.szd → e.Gm e.n = (e.Xm e.n)ᴴ * e.Xm e.n
  midx : e.n ≤ e.szd → e.midx = min mm e.n

theorem inv_init (P : Prob ι) (mm : ℕ) (X : ℕ → ι → ℂ) (sz : ℕ) : Inv P mm (initExt X sz) [] where
  len := rfl
  diag := fun i hi => absurd hi (Nat.not_lt_zero _)
  tri := fun c r hc => absurd hc (Nat.not_lt_zero _)
  low := fun _ _ _ _ => rfl
  unit := fun i hi => absurd hi (Nat.not_lt_zero _)
  dom := by
    intro j z hz
    exfalso
    revert hz
    have he : IsEmpty (Fin (initExt X sz).n) := Fin.isEmpty
    rw [Matrix.det_isEmpty]; exact one_ne_zero
  pair := by
    unfold InvPair
    ext i j
    exact absurd j.2 (Nat.not_lt_zero _)
  gram := by
    intro _
    ext i j
    exact absurd j.2 (Nat.not_lt_zero _)
  midx := by intro _; simp [initExt]

/-- vectors as matrices with one column -/
def col1 {α : Type} (x : α → ℂ) : Matrix α (Fin 1) ℂ := Matrix.of fun i _ => x i

theorem mul_col1 {α β : Type} [Fintype β] (M : Matrix α β ℂ) (x : β → ℂ) : M * col1 x = col1 (M *ᵥ x) := by
  ext i j; simp [col1, mul_apply, mulVec, dotProduct]

theorem gram_apply (e : Ext ι) (n : ℕ) (i j : Fin n) : ((e.Xm n)ᴴ * e.Xm n) i j = ∑ k, star (e.X i k) * e.X j k := by
  simp [mul_apply, Ext.Xm, conjTranspose_apply]

/-- one step: a vector satisfying the first block row is locked -/
theorem inv_step {P : Prob ι} {mm : ℕ} {tgt : ℂ} {e e' : Ext ι} {ls : List ℂ} {u : EVec ι q} {l : ℂ} {x : ι → ℂ} {t : Fin e.n → ℂ}
    (hI : Inv P mm e ls) (hn : e.n ≤ e.szd) (hl : InΩ P l) (hu : Rep e.n u x t)
    (h1 : P.T l *ᵥ x + Uhat P (e.Xm e.n) (e.Hm e.n) false l *ᵥ t = 0) (hk : lock mm tgt e u l = some e') :
    Inv P mm e' (ls ++ [l]) := by
  obtain ⟨h0, hn', hsz, hX, hH⟩ := lock_some hk
  have hk2 := lock_some2 hk
  obtain ⟨hux, hut, huz⟩ := hu
  have hnu : (nrm2 u.x : ℂ) ≠ 0 := by exact_mod_cast h0
  -- entries of the new column
  have hXn : e'.X e.n = fun i => u.x i * ((1 / nrm2 u.x : ℝ) : ℂ) := by rw [hX, if_pos rfl]
  have hXj : ∀ j, j ≠ e.n → e'.X j = e.X j := fun j hj => by rw [hX, if_neg hj]
  have hHn : ∀ k : Fin e.n, e'.H e.n k = t k * ((1 / nrm2 u.x : ℝ) : ℂ) := by
    intro k
    rw [hH, if_pos rfl, if_neg (by have := k.2; omega), if_pos k.2, if_pos (by have := k.2; omega), hut]
    have := rt_ne q
    push_cast
    field_simp
  have hHnn : e'.H e.n e.n = l := by rw [hH, if_pos rfl, if_pos rfl]
  have hHc : ∀ c r, c ≠ e.n → e'.H c r = e.H c r := fun c r hc => by rw [hH, if_neg hc]
  have vX := Xm_succ e e' e.n (col1 (fun i => x i * ((1 / nrm2 u.x : ℝ) : ℂ))) (fun j hj => hXj j (by omega)) (fun i => by rw [hXn, hux]; rfl)
  have vH := Hm_succ e e' e.n (col1 (fun k => t k * ((1 / nrm2 u.x : ℝ) : ℂ))) l (fun c r hc _ => hHc c r (by omega)) (fun k => by rw [hHn]; rfl)
    hHnn (fun c hc => by rw [hHc c _ (by omega)]; exact hI.tri c e.n hc hc)
  have hdB : DomP P (fromBlocks (e.Hm e.n) (col1 (fun k => t k * ((1 / nrm2 u.x : ℝ) : ℂ))) 0 (l • (1 : Matrix (Fin 1) (Fin 1) ℂ))) :=
    fun j => dom_blocks (hI.dom j) (dom_smul_one (hl j))
  have hpB : InvPair P (fromCols (e.Xm e.n) (col1 (fun i => x i * ((1 / nrm2 u.x : ℝ) : ℂ))))
      (fromBlocks (e.Hm e.n) (col1 (fun k => t k * ((1 / nrm2 u.x : ℝ) : ℂ))) 0 (l • (1 : Matrix (Fin 1) (Fin 1) ℂ))) := by
    rw [invPair_ext P hI.dom hl]
    refine ⟨hI.pair, ?_⟩
    rw [mul_col1, mul_col1]
    have ex : (fun i => x i * ((1 / nrm2 u.x : ℝ) : ℂ)) = ((1 / nrm2 u.x : ℝ) : ℂ) • x := by funext i; simp [mul_comm]
    have et : (fun i => t i * ((1 / nrm2 u.x : ℝ) : ℂ)) = ((1 / nrm2 u.x : ℝ) : ℂ) • t := by funext i; simp [mul_comm]
    rw [ex, et, mulVec_smul, mulVec_smul]
    ext i j
    have := congrFun h1 i
    simp only [Matrix.add_apply, col1, Matrix.of_apply, Pi.smul_apply, smul_eq_mul, Pi.add_apply, Pi.zero_apply, Matrix.zero_apply] at this ⊢
    rw [← mul_add, this, mul_zero]
  have hG : e.n + 1 ≤ e.szd → e'.Gm (e.n + 1) = (e'.Xm (e.n + 1))ᴴ * e'.Xm (e.n + 1) := by
    intro hs
    obtain ⟨hm, hG⟩ := hk2 hs
    have hself : ∑ k, star (e'.X e.n k) * e'.X e.n k = 1 := by
      rw [hXn, ← nrm2_sq, nrm2_scale h0]; simp
    ext i j
    rw [gram_apply]
    show e'.XpX j i = _
    rw [hG]
    rcases Nat.lt_or_ge j e.n with hj | hj
    · rw [if_neg (by omega)]
      rcases Nat.lt_or_ge i e.n with hi | hi
      · rw [if_neg (by omega)]
        have := congrFun (congrFun (hI.gram hn) ⟨i, hi⟩) ⟨j, hj⟩
        rw [gram_apply] at this
        rw [hXj j (by omega), hXj i (by omega)]
        exact this
      · have hi' : (i : ℕ) = e.n := by have := i.2; omega
        rw [if_pos ⟨hi', hj⟩, hi', star_sum]
        refine Finset.sum_congr rfl fun k _ => ?_
        rw [star_mul', star_star, mul_comm]
    · have hj' : (j : ℕ) = e.n := by have := j.2; omega
      rw [if_pos hj', hj']
      rcases Nat.lt_or_ge i e.n with hi | hi
      · rw [if_neg (by omega), if_pos hi]
      · have hi' : (i : ℕ) = e.n := by have := i.2; omega
        rw [if_pos hi', hi', hself]
  have key : e'.n = e.n + 1 := hn'
  refine ⟨?_, ?_, ?_, ?_, ?_, ?_, ?_, ?_, ?_⟩
  · rw [List.length_append, hI.len, key]; rfl
  · intro i hi
    rw [key] at hi
    by_cases hie : i = e.n
    · subst hie
      rw [hHnn, List.getElem?_append_right (by rw [hI.len])]
      rw [hI.len]; simp
    · have : i < e.n := by omega
      rw [List.getElem?_append_left (by rw [hI.len]; exact this), hI.diag i this, hHc i i hie]
  · intro c r hc hr
    rw [key] at hc
    by_cases hce : c = e.n
    · subst hce
      rw [hH, if_pos rfl, if_neg (by omega), if_neg (by omega)]
      by_cases hrs : r < e.szd
      · rw [if_pos hrs]; exact huz _ r (by omega)
      · rw [if_neg hrs]; exact hI.low _ r hr (by omega)
    · rw [hHc c r hce]; exact hI.tri c r (by omega) hr
  · intro c r hr hs
    rw [hsz] at hs
    by_cases hce : c = e.n
    · subst hce
      rw [hH, if_pos rfl, if_neg (by omega), if_neg (by omega), if_neg (by omega)]
      exact hI.low _ r hr hs
    · rw [hHc c r hce]; exact hI.low c r hr hs
  · intro j hj
    rw [key] at hj
    by_cases hje : j = e.n
    · subst hje
      rw [hXn]; exact nrm2_scale h0
    · rw [hXj j hje]; exact hI.unit j (by omega)
  · rw [key, vH]
    exact fun j => dom_submatrix _ (hdB j)
  · rw [key, vH, vX]
    exact invPair_submatrix P hdB _ hpB
  · intro hs
    rw [key, hsz] at hs
    rw [key]
    exact hG hs
  · intro hs
    rw [key, hsz] at hs
    rw [key]
    exact (hk2 hs).1

/-- the first block row of an exact solution -/
theorem sol_row1 {P : Prob ι} {e : Ext ι} {simpU : Bool} {l : ℂ} {x : ι → ℂ} {t : Fin e.n → ℂ} (hd : DomP P (e.Hm e.n))
    (hp : InvPair P (e.Xm e.n) (e.Hm e.n)) (h : Sol P e simpU l x t) :
    P.T l *ᵥ x + Uhat P (e.Xm e.n) (e.Hm e.n) false l *ᵥ t = 0 := by
  obtain ⟨hl, hs, h⟩ := h
  unfold deflMat defl at h
  rw [fromBlocks_mulVec] at h
  have h1 : ∀ i, ((shell P e simpU false l).T *ᵥ x + (shell P e simpU false l).U *ᵥ t) i = 0 := by
    intro i
    have := congrFun h (Sum.inl i)
    simpa using this
  have hU : (shell P e simpU false l).U = Uhat P (e.Xm e.n) (e.Hm e.n) false l := by
    unfold shell
    cases simpU with
    | false => simp
    | true =>
      simp only [if_true]
      exact (Uhat_eq_Usimp P hd hl hp (hs rfl)).symm
  have hT : (shell P e simpU false l).T = P.T l := by unfold shell; simp
  rw [hU, hT] at h1
  exact funext h1

/-- the second block row of an exact solution -/
theorem sol_row2 {P : Prob ι} {e : Ext ι} {simpU : Bool} {l : ℂ} {x : ι → ℂ} {t : Fin e.n → ℂ} (h : Sol P e simpU l x t) :
    ((shell P e simpU false l).A * (e.Xm e.n)ᴴ) *ᵥ x + (shell P e simpU false l).B *ᵥ t = 0 := by
  obtain ⟨hl, hs, h⟩ := h
  unfold deflMat defl at h
  rw [fromBlocks_mulVec] at h
  funext i
  have := congrFun h (Sum.inr i)
  simpa using this

/-- with minimality index at most one the second block row says that the new vector is orthogonal to the basis -/
theorem sol_orth {P : Prob ι} {e : Ext ι} {simpU : Bool} {l : ℂ} {x : ι → ℂ} {t : Fin e.n → ℂ} (hm : e.midx ≤ 1) (h : Sol P e simpU l x t) :
    (e.Xm e.n)ᴴ *ᵥ x = 0 := by
  have h2 := sol_row2 h
  have hI : Finset.Ico 1 e.midx = ∅ := by
    rw [Finset.Ico_eq_empty_iff]; omega
  have hA : (shell P e simpU false l).A = 1 := by unfold shell Amat; simp [hI]
  have hB : (shell P e simpU false l).B = 0 := by unfold shell Bmat; simp [hI]
  rw [hA, hB, Matrix.one_mul, zero_mulVec, add_zero] at h2
  exact h2

/-- the state left by the extraction still satisfies the invariant -/
theorem inv_extract {P : Prob ι} {mm : ℕ} {e e1 : Ext ι} {ls : List ℂ} {u u1 : EVec ι q} {l : ℂ} {z : ℕ → ℂ}
    (hI : Inv P mm e ls) (h : extract e u l e.n z = some (e1, u1)) : Inv P mm e1 ls := by
  obtain ⟨_, hn, hsz, hm, hb, hG, hX, hH, _, _⟩ := extract_some h
  have hHc : ∀ c r, c < e.n → e1.H c r = e.H c r := fun c r hc => by rw [hH, if_neg (by omega)]
  obtain ⟨n1, szd1, X1, H1, G1, bc1, m1⟩ := e1
  obtain ⟨n, szd, X, H, G, bc, m⟩ := e
  simp only at *
  subst hn hsz hm hb hG
  have vX' : Ext.Xm ⟨n1, szd1, X1, H1, G1, bc1, m1⟩ n1 = Ext.Xm ⟨n1, szd1, X, H, G1, bc1, m1⟩ n1 := by
    ext i j
    simp only [Ext.Xm, Matrix.of_apply]
    rw [hX j (by have := j.2; omega)]
  have vH' : Ext.Hm ⟨n1, szd1, X1, H1, G1, bc1, m1⟩ n1 = Ext.Hm ⟨n1, szd1, X, H, G1, bc1, m1⟩ n1 := by
    ext i j
    simp only [Ext.Hm, Matrix.of_apply]
    rw [hHc j _ (by have := j.2; omega)]
  refine ⟨hI.len, ?_, ?_, ?_, ?_, ?_, ?_, ?_, hI.midx⟩
  · intro i hi
    show ls[i]? = some (H1 i i)
    rw [hHc i i hi]; exact hI.diag i hi
  · intro c r hc hr
    show H1 c r = 0
    rw [hHc c r hc]; exact hI.tri c r hc hr
  · intro c r hr hs
    show H1 c r = 0
    have hs' : szd1 ≤ r := hs
    rw [hH]
    by_cases hc : c = n1
    · rw [if_pos hc, if_neg (by omega), if_neg (by omega), if_neg (by omega)]
      exact hI.low c r hr hs
    · rw [if_neg hc]; exact hI.low c r hr hs
  · intro j hj
    have hj' : j < n1 := hj
    show nrm2 (X1 j) = 1
    rw [hX j (by omega)]; exact hI.unit j hj
  · show DomP P (Ext.Hm _ n1)
    rw [vH']; exact hI.dom
  · show InvPair P (Ext.Xm _ n1) (Ext.Hm _ n1)
    rw [vH', vX']; exact hI.pair
  · intro hs
    show _ = (Ext.Xm _ n1)ᴴ * Ext.Xm _ n1
    rw [vX']; exact hI.gram hs

end Verif.NDef
