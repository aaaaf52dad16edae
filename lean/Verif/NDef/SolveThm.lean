import Verif.NDef.DeflThm

/-!
# C141: the operations of the extended problem on any number of processes
-/

set_option linter.all false

namespace Verif.NDef
open Matrix

variable {ι : Type} [Fintype ι] [DecidableEq ι] {q mm : ℕ} {tgt : ℂ} {simpU : Bool} {P : Prob ι} {e : Ext ι} {ls : List ℂ}

theorem defl_mulVec {n : ℕ} (T : Matrix ι ι ℂ) (U X : Matrix ι (Fin n) ℂ) (A B : Matrix (Fin n) (Fin n) ℂ) (x : ι → ℂ) (t : Fin n → ℂ) :
    defl T U X A B *ᵥ Sum.elim x t = Sum.elim (T *ᵥ x + U *ᵥ t) (A *ᵥ (Xᴴ *ᵥ x) + B *ᵥ t) := by
  unfold defl
  rw [fromBlocks_mulVec]
  simp [mulVec_mulVec]

/-- **C141** (application).  A vector with consistent copies is mapped to a vector with consistent copies that represents the product with the deflated
    operator, on any number of processes and for any distribution, with the minimality index of the code; on one process for any minimality index. -/
theorem C141_apply {l : ℂ} (hm : e.midx ≤ 1 ∨ q = 0) (own : ι → Fin (q + 1)) {v y0 : EVec ι q} {x : ι → ℂ} {t : Fin e.n → ℂ} (hv : Rep e.n v x t)
    (hy : ∀ p k, e.n ≤ k → y0.t p k = 0) :
    Rep e.n (mulE (shell P e simpU false l) (e.Xm e.n) false own v y0)
      ((deflMat P e simpU l *ᵥ Sum.elim x t) ∘ Sum.inl) ((deflMat P e simpU l *ᵥ Sum.elim x t) ∘ Sum.inr) := by
  unfold deflMat
  dsimp only
  rw [defl_mulVec, Sum.elim_comp_inl, Sum.elim_comp_inr]
  obtain ⟨hx, ht, hz⟩ := hv
  have hr := rt_ne q
  by_cases hn : e.n = 0
  · unfold mulE
    rw [if_pos (by simp [hn])]
    have hE : IsEmpty (Fin e.n) := by rw [hn]; exact Fin.isEmpty
    refine ⟨?_, fun p k => hE.elim k, fun p k hk => by simpa using hy p k hk⟩
    dsimp only
    rw [hx]
    funext i
    simp [mulVec, dotProduct]
  · unfold mulE
    rw [if_neg (by simp [hn])]
    refine ⟨?_, ?_, ?_⟩
    · funext i
      dsimp only
      rw [hx]
      simp only [Pi.add_apply]
      congr 1
      refine Finset.sum_congr rfl fun k _ => ?_
      rw [ht, div_mul_cancel₀ _ hr]
    · intro p k
      dsimp only
      rw [dif_pos k.2, hx]
      congr 1
      simp only [Pi.add_apply]
      congr 1
      rcases hm with hm | hm
      · have hB : (shell P e simpU false l).B = 0 := by
          have hI : Finset.Ico 1 e.midx = ∅ := by rw [Finset.Ico_eq_empty_iff]; omega
          unfold shell Bmat; simp [hI]
        rw [hB]; simp
      · subst hm
        refine Finset.sum_congr rfl fun j _ => ?_
        rw [ht]
        congr 1
        unfold rt; simp
    · intro p k hk
      dsimp only
      rw [dif_neg (by omega)]
      exact hy p k hk

/-- the matrix of the dense system is nonsingular if the operator and the deflated operator are -/
theorem schur_ne {n : ℕ} {T : Matrix ι ι ℂ} {U X : Matrix ι (Fin n) ℂ} {A B : Matrix (Fin n) (Fin n) ℂ} (hT : T.det ≠ 0) (hD : (defl T U X A B).det ≠ 0) :
    (B - A * (Xᴴ * (T⁻¹ * U))).det ≠ 0 := by
  intro h0
  obtain ⟨c, hc, h1⟩ := exists_mulVec_eq_zero_iff.2 h0
  have hu : IsUnit T.det := isUnit_iff_ne_zero.2 hT
  refine hD (exists_mulVec_eq_zero_iff.1 ⟨Sum.elim (-((T⁻¹ * U) *ᵥ c)) c, ?_, ?_⟩)
  · intro h2; refine hc (funext fun k => ?_); exact congrFun h2 (Sum.inr k)
  · rw [defl_mulVec]
    have e1 : T *ᵥ (-((T⁻¹ * U) *ᵥ c)) + U *ᵥ c = 0 := by
      rw [mulVec_neg, mulVec_mulVec, ← Matrix.mul_assoc, mul_nonsing_inv _ hu, Matrix.one_mul, neg_add_cancel]
    have e2 : A *ᵥ (Xᴴ *ᵥ (-((T⁻¹ * U) *ᵥ c))) + B *ᵥ c = 0 := by
      rw [sub_mulVec] at h1
      rw [mulVec_neg, mulVec_neg, mulVec_mulVec, mulVec_mulVec, ← sub_eq_neg_add, Matrix.mul_assoc]
      exact h1
    rw [e1, e2]
    funext s; rcases s with s | s <;> rfl

/-- the matrix computed with the simple formula is the same one -/
theorem schurM_eq (hI : Inv P mm e ls) (hn : e.n ≤ e.szd) {l : ℂ} (hs : simpU = true → simpOk (e.Hm e.n) l) (hT : (P.T l).det ≠ 0) :
    schurM (shell P e simpU false l) (e.Xm e.n) (e.Hm e.n) (e.Gm e.n) simpU l
      = (shell P e simpU false l).B - (shell P e simpU false l).A * ((e.Xm e.n)ᴴ * ((shell P e simpU false l).T⁻¹ * (shell P e simpU false l).U)) ∧
    (simpU = true → (shell P e simpU false l).T⁻¹ * (shell P e simpU false l).U = -(e.Xm e.n * (e.Hm e.n - l • (1 : Matrix (Fin e.n) (Fin e.n) ℂ))⁻¹)) := by
  have hTs : (shell P e simpU false l).T = P.T l := by unfold shell; simp
  have hu : IsUnit (P.T l).det := isUnit_iff_ne_zero.2 hT
  have key : simpU = true → (shell P e simpU false l).T⁻¹ * (shell P e simpU false l).U
      = -(e.Xm e.n * (e.Hm e.n - l • (1 : Matrix (Fin e.n) (Fin e.n) ℂ))⁻¹) := by
    intro h
    have hs' := hs h
    rw [hTs]
    have hU : (shell P e simpU false l).U = Usimp P (e.Xm e.n) (e.Hm e.n) false l := by unfold shell; simp [h]
    rw [hU]
    unfold Usimp
    simp only [Bool.false_eq_true, if_false]
    rw [← Matrix.mul_assoc, ← Matrix.mul_assoc, nonsing_inv_mul _ hu, Matrix.one_mul]
    have hneg : e.Hm e.n - l • (1 : Matrix (Fin e.n) (Fin e.n) ℂ) = -(l • (1 : Matrix (Fin e.n) (Fin e.n) ℂ) - e.Hm e.n) := (neg_sub _ _).symm
    have hinv : (e.Hm e.n - l • (1 : Matrix (Fin e.n) (Fin e.n) ℂ))⁻¹ = -(l • (1 : Matrix (Fin e.n) (Fin e.n) ℂ) - e.Hm e.n)⁻¹ := by
      rw [hneg]
      refine Matrix.inv_eq_right_inv ?_
      rw [neg_mul_neg, mul_nonsing_inv _ (isUnit_iff_ne_zero.2 hs')]
    rw [hinv, Matrix.mul_neg, neg_neg]
  refine ⟨?_, key⟩
  unfold schurM
  cases hsim : simpU with
  | false => simp
  | true =>
    rw [hsim] at key
    simp only [if_true]
    rw [key rfl, hI.gram hn, Matrix.mul_neg (e.Xm e.n)ᴴ, Matrix.mul_assoc]

/-- **C141** (solve).  For every reachable state, if the operator and the deflated operator are nonsingular at the parameter, the matrix of the dense system
    is nonsingular and the result has consistent copies and represents the solution of the linear system with the deflated operator, on any number of processes,
    for any distribution and any minimality index. -/
theorem C141_solve (h : Run P q' mm tgt simpU' e ls) (hn : e.n ≤ e.szd) {l : ℂ} (hs : simpU = true → simpOk (e.Hm e.n) l)
    (hT : (P.T l).det ≠ 0) (hD : (deflMat P e simpU l).det ≠ 0) (own : ι → Fin (q + 1)) {b x0 : EVec ι q} {bx : ι → ℂ} {bt : Fin e.n → ℂ} (hb : Rep e.n b bx bt)
    (hx0 : ∀ p k, e.n ≤ k → x0.t p k = 0) :
    let S := shell P e simpU false l
    let M := schurM S (e.Xm e.n) (e.Hm e.n) (e.Gm e.n) simpU l
    M.det ≠ 0 ∧ ∃ x t, Rep e.n (solveE S (e.Xm e.n) (e.Hm e.n) M simpU false l own b x0) x t ∧
      deflMat P e simpU l *ᵥ Sum.elim x t = Sum.elim bx bt := by
  intro S M
  have hI := inv_run h
  obtain ⟨hM, hF⟩ := schurM_eq (simpU := simpU) hI hn hs hT
  have hM' : M = S.B - S.A * ((e.Xm e.n)ᴴ * (S.T⁻¹ * S.U)) := hM
  have hTs : S.T = P.T l := by show (shell P e simpU false l).T = _; unfold shell; simp
  have hTd : S.T.det ≠ 0 := by rw [hTs]; exact hT
  have hdet : M.det ≠ 0 := by
    rw [hM']
    exact schur_ne hTd hD
  refine ⟨hdet, ?_⟩
  have hu : IsUnit S.T.det := isUnit_iff_ne_zero.2 hTd
  have huM : IsUnit M.det := isUnit_iff_ne_zero.2 hdet
  have hr := rt_ne q
  set x1 : ι → ℂ := S.T⁻¹ *ᵥ bx with hx1
  set x2 : Fin e.n → ℂ := M⁻¹ *ᵥ (bt - S.A *ᵥ ((e.Xm e.n)ᴴ *ᵥ x1)) with hx2
  refine ⟨x1 - (S.T⁻¹ * S.U) *ᵥ x2, x2, ?_, ?_⟩
  · obtain ⟨hbx, hbt, hbz⟩ := hb
    by_cases hn0 : e.n = 0
    · have hE : IsEmpty (Fin e.n) := by rw [hn0]; exact Fin.isEmpty
      unfold solveE
      dsimp only
      rw [if_pos (by simp [hn0])]
      refine ⟨?_, fun p k => hE.elim k, fun p k hk => by simpa using hx0 p k hk⟩
      dsimp only
      rw [hbx]
      funext i
      simp [mulVec, dotProduct, hx1]
    · have hb2 : ∀ p, (fun k : Fin e.n => b.t p k * rt q) = bt := by
        intro p; funext k; rw [hbt, div_mul_cancel₀ _ hr]
      unfold solveE
      dsimp only
      rw [if_neg (by simp [hn0])]
      simp only [hb2, hbx]
      refine ⟨?_, ?_, ?_⟩
      · funext i
        dsimp only
        simp only [Pi.sub_apply]
        congr 1
        cases hsim : simpU with
        | false => simp only [Bool.false_eq_true, if_false]; rfl
        | true =>
          simp only [if_true]
          have hF' : S.T⁻¹ * S.U = _ := hF hsim
          rw [hF', neg_mulVec, ← mulVec_mulVec, mulVec_neg]
      · intro p k
        dsimp only
        rw [dif_pos k.2]
      · intro p k hk
        dsimp only
        rw [dif_neg (by omega)]
        exact hx0 p k hk
  · unfold deflMat
    dsimp only
    rw [defl_mulVec]
    congr 1
    · rw [mulVec_sub, hx1, mulVec_mulVec, mulVec_mulVec, mul_nonsing_inv _ hu, one_mulVec, ← Matrix.mul_assoc, mul_nonsing_inv _ hu, Matrix.one_mul,
        sub_add_cancel]
    · have h3 : M *ᵥ x2 = bt - S.A *ᵥ ((e.Xm e.n)ᴴ *ᵥ x1) := by
        rw [hx2, mulVec_mulVec, mul_nonsing_inv _ huM, one_mulVec]
      have h4 : M *ᵥ x2 = S.B *ᵥ x2 - S.A *ᵥ ((e.Xm e.n)ᴴ *ᵥ ((S.T⁻¹ * S.U) *ᵥ x2)) := by
        clear_value x2
        rw [hM', sub_mulVec, ← mulVec_mulVec, ← mulVec_mulVec]
      rw [mulVec_sub, mulVec_sub]
      have h5 : S.B *ᵥ x2 = bt - S.A *ᵥ ((e.Xm e.n)ᴴ *ᵥ x1) + S.A *ᵥ ((e.Xm e.n)ᴴ *ᵥ ((S.T⁻¹ * S.U) *ᵥ x2)) := by
        rw [← h3, h4, sub_add_cancel]
      show S.A *ᵥ ((e.Xm e.n)ᴴ *ᵥ x1) - S.A *ᵥ ((e.Xm e.n)ᴴ *ᵥ ((S.T⁻¹ * S.U) *ᵥ x2)) + S.B *ᵥ x2 = bt
      rw [h5]
      abel

/-- **C141** (round trip).  Applying the deflated operator to the result of the solve gives back the right-hand side, entry by entry. -/
theorem C141_roundtrip (h : Run P q' mm tgt simpU' e ls) (hn : e.n ≤ e.szd) {l : ℂ} (hm : mm ≤ 1 ∨ q = 0) (hs : simpU = true → simpOk (e.Hm e.n) l)
    (hT : (P.T l).det ≠ 0) (hD : (deflMat P e simpU l).det ≠ 0) (own : ι → Fin (q + 1)) {b x0 y0 : EVec ι q} {bx : ι → ℂ} {bt : Fin e.n → ℂ} (hb : Rep e.n b bx bt)
    (hx0 : ∀ p k, e.n ≤ k → x0.t p k = 0) (hy0 : ∀ p k, e.n ≤ k → y0.t p k = 0) :
    let S := shell P e simpU false l
    mulE S (e.Xm e.n) false own (solveE S (e.Xm e.n) (e.Hm e.n) (schurM S (e.Xm e.n) (e.Hm e.n) (e.Gm e.n) simpU l) simpU false l own b x0) y0 = b := by
  intro S
  obtain ⟨_, x, t, hr, he⟩ := C141_solve (simpU := simpU) h hn hs hT hD own hb hx0
  have hm' : e.midx ≤ 1 ∨ q = 0 := by
    rcases hm with hm | hm
    · left; rw [(inv_run h).midx hn]; omega
    · right; exact hm
  have h1 := C141_apply (P := P) (simpU := simpU) (l := l) hm' own hr hy0
  rw [he, Sum.elim_comp_inl, Sum.elim_comp_inr] at h1
  obtain ⟨a1, a2, a3⟩ := h1
  obtain ⟨b1, b2, b3⟩ := hb
  have ht : ∀ p k, (mulE S (e.Xm e.n) false own (solveE S (e.Xm e.n) (e.Hm e.n) (schurM S (e.Xm e.n) (e.Hm e.n) (e.Gm e.n) simpU l) simpU false l own b x0) y0).t p k
      = b.t p k := by
    intro p k
    by_cases hk : k < e.n
    · have c1 := a2 p ⟨k, hk⟩
      have c2 := b2 p ⟨k, hk⟩
      exact c1.trans c2.symm
    · exact (a3 p k (by omega)).trans (b3 p k (by omega)).symm
  have hx : (mulE S (e.Xm e.n) false own (solveE S (e.Xm e.n) (e.Hm e.n) (schurM S (e.Xm e.n) (e.Hm e.n) (e.Gm e.n) simpU l) simpU false l own b x0) y0).x = b.x := a1.trans b1.symm
  generalize mulE S (e.Xm e.n) false own (solveE S (e.Xm e.n) (e.Hm e.n) (schurM S (e.Xm e.n) (e.Hm e.n) (e.Gm e.n) simpU l) simpU false l own b x0) y0 = w at *
  cases w; cases b
  simp only at hx ht
  rw [hx]
  congr 1
  funext p k
  exact ht p k

/-- **C141** (refinement mode): the operations are those of the original operator and the additional entries are zero -/
theorem C141_refine {n : ℕ} (S : Shell ι n) (X : Matrix ι (Fin n) ℂ) (H M : Matrix (Fin n) (Fin n) ℂ) (l : ℂ) (own : ι → Fin (q + 1)) (b x0 y0 : EVec ι q)
    (hT : S.T.det ≠ 0) :
    (mulE S X true own (solveE S X H M simpU true l own b x0) y0).x = b.x ∧
      ∀ p k, (solveE S X H M simpU true l own b x0).t p k = 0 ∧ (mulE S X true own (solveE S X H M simpU true l own b x0) y0).t p k = 0 := by
  unfold mulE solveE
  simp only [Bool.true_or, if_true]
  refine ⟨?_, fun _ _ => by simp⟩
  rw [mulVec_mulVec, mul_nonsing_inv _ (isUnit_iff_ne_zero.2 hT), one_mulVec]

/-- **C141** (start vectors).  The random start vector has consistent copies. -/
theorem C141_random (n : ℕ) (r : EVec ι q) : Rep n (randE n r) r.x fun k => r.t 0 k := by
  unfold randE
  refine ⟨rfl, fun p k => ?_, fun p k hk => ?_⟩
  · dsimp only; rw [if_pos k.2]
  · dsimp only; rw [if_neg (by omega)]

/-- **C141** (norms).  The norm of a vector with consistent copies is the norm of the vector it represents, on any number of processes. -/
theorem C141_norm {n szd : ℕ} (hn : n ≤ szd) {v : EVec ι q} {x : ι → ℂ} {t : Fin n → ℂ} (hv : Rep n v x t) :
    nrmE szd v = Real.sqrt ((∑ i, ‖x i‖ ^ 2) + ∑ k, ‖t k‖ ^ 2) := by
  obtain ⟨hx, ht, hz⟩ := hv
  unfold nrmE
  rw [hx]
  congr 2
  have hrt : ‖rt q‖ ^ 2 = (q : ℝ) + 1 := by
    unfold rt
    rw [Complex.norm_real, Real.norm_eq_abs, sq_abs, Real.sq_sqrt (by positivity)]
  have h1 : ∀ p, ∑ k ∈ Finset.range szd, ‖v.t p k‖ ^ 2 = (∑ k, ‖t k‖ ^ 2) / ((q : ℝ) + 1) := by
    intro p
    have h2 : ∑ k ∈ Finset.range szd, ‖v.t p k‖ ^ 2 = ∑ k ∈ Finset.range n, ‖v.t p k‖ ^ 2 := by
      symm
      refine Finset.sum_subset (fun k hk => Finset.mem_range.2 (lt_of_lt_of_le (Finset.mem_range.1 hk) hn)) ?_
      intro k _ hk
      rw [hz p k (by simpa using hk)]; simp
    rw [h2, Finset.sum_range, Finset.sum_div]
    refine Finset.sum_congr rfl fun k _ => ?_
    rw [ht, norm_div, div_pow, hrt]
  rw [Finset.sum_congr rfl fun p _ => h1 p, Finset.sum_const, Finset.card_univ, Fintype.card_fin, nsmul_eq_mul]
  push_cast
  field_simp

/-- **C141** (negation beyond the minimality index of the code).  On more than one process the application is wrong for every vector with a non-zero contribution
    of the block `B`: the contribution is divided twice by the root of the number of processes (nepdefl.c:331 multiplies the unscaled entries). -/
theorem C141_false {l : ℂ} (hq : 0 < q) (own : ι → Fin (q + 1)) {v y0 : EVec ι q} {x : ι → ℂ} {t : Fin e.n → ℂ} (hv : Rep e.n v x t)
    (hB : (shell P e simpU false l).B *ᵥ t ≠ 0) :
    ¬Rep e.n (mulE (shell P e simpU false l) (e.Xm e.n) false own v y0)
      ((deflMat P e simpU l *ᵥ Sum.elim x t) ∘ Sum.inl) ((deflMat P e simpU l *ᵥ Sum.elim x t) ∘ Sum.inr) := by
  unfold deflMat
  dsimp only
  rw [defl_mulVec, Sum.elim_comp_inl, Sum.elim_comp_inr]
  rintro ⟨_, h2, _⟩
  obtain ⟨hx, ht, hz⟩ := hv
  have hr := rt_ne q
  apply hB
  funext k
  have hn : e.n ≠ 0 := by have := k.2; omega
  have h3 := h2 0 k
  unfold mulE at h3
  rw [if_neg (by simp [hn])] at h3
  dsimp only at h3
  rw [dif_pos k.2, hx] at h3
  have h4 := (div_left_inj' hr).1 h3
  simp only [Pi.add_apply] at h4
  have h5 := add_left_cancel h4
  have h6 : ∑ j : Fin e.n, (shell P e simpU false l).B ⟨k, k.2⟩ j * v.t 0 j = ((shell P e simpU false l).B *ᵥ t) k / rt q := by
    rw [mulVec, dotProduct, Finset.sum_div]
    refine Finset.sum_congr rfl fun j _ => ?_
    rw [ht, mul_div_assoc]
  rw [h6] at h5
  rw [div_eq_iff hr] at h5
  have h7 : ((shell P e simpU false l).B *ᵥ t) k * (rt q - 1) = 0 := by rw [mul_sub, mul_one, ← h5, sub_self]
  refine (mul_eq_zero.1 h7).resolve_right ?_
  unfold rt
  intro hc
  rw [sub_eq_zero] at hc
  have hc' : Real.sqrt ((q : ℝ) + 1) = 1 := by exact_mod_cast hc
  rw [Real.sqrt_eq_one] at hc'
  have : (q : ℝ) = 0 := by linarith
  have : q = 0 := by exact_mod_cast this
  omega

end Verif.NDef
