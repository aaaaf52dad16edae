import Verif.NDef.LockThm

/-!
# C140: the deflated problem has exactly the eigenvalues that have not been found
-/

set_option linter.all false

namespace Verif.NDef
open Matrix

variable {ι : Type} [Fintype ι] [DecidableEq ι] {q mm : ℕ} {tgt : ℂ} {simpU : Bool} {P : Prob ι} {e : Ext ι} {ls : List ℂ}

theorem shell_U {l : ℂ} (hd : DomP P (e.Hm e.n)) (hp : InvPair P (e.Xm e.n) (e.Hm e.n)) (hl : InΩ P l)
    (hs : simpU = true → simpOk (e.Hm e.n) l) :
    (shell P e simpU false l).U * (l • (1 : Matrix (Fin e.n) (Fin e.n) ℂ) - e.Hm e.n) = (shell P e simpU false l).T * e.Xm e.n := by
  have hU : (shell P e simpU false l).U = Uhat P (e.Xm e.n) (e.Hm e.n) false l := by
    unfold shell
    cases simpU with
    | false => simp
    | true =>
      simp only [if_true]
      exact (Uhat_eq_Usimp P hd hl hp (hs rfl)).symm
  have hT : (shell P e simpU false l).T = P.T l := by unfold shell; simp
  rw [hU, hT, Uhat_mul P hd hl hp]

theorem inv_factor (hI : Inv P mm e ls) (hn : e.n ≤ e.szd) {l : ℂ} (hl : InΩ P l) (hs : simpU = true → simpOk (e.Hm e.n) l) :
    deflMat P e simpU l * fromBlocks 1 (-e.Xm e.n) 0 (l • (1 : Matrix (Fin e.n) (Fin e.n) ℂ) - e.Hm e.n)
      = fromBlocks (P.T l) 0 ((shell P e simpU false l).A * (e.Xm e.n)ᴴ) (-Gram e.bc (e.Xm e.n) (e.Hm e.n) e.midx) := by
  have hT : (shell P e simpU false l).T = P.T l := by unfold shell; simp
  have hB : (shell P e simpU false l).B = Bmat e.bc (e.Hm e.n) ((e.Xm e.n)ᴴ * e.Xm e.n) e.midx (bval e.bc l) := by
    unfold shell; simp [hI.gram hn]
  have hA : (shell P e simpU false l).A = Amat e.bc (e.Hm e.n) e.midx false (bval e.bc l) := by
    unfold shell; simp
  unfold deflMat
  dsimp only
  rw [hB, hA, defl_factor (shell_U hI.dom hI.pair hl hs), hT]

/-- the determinant of the deflated operator, any minimality index -/
theorem inv_det (hI : Inv P mm e ls) (hn : e.n ≤ e.szd) {l : ℂ} (hl : InΩ P l) (hs : simpU = true → simpOk (e.Hm e.n) l) :
    (deflMat P e simpU l).det * (l • (1 : Matrix (Fin e.n) (Fin e.n) ℂ) - e.Hm e.n).det
      = (P.T l).det * (-Gram e.bc (e.Xm e.n) (e.Hm e.n) e.midx).det := by
  have h := congrArg Matrix.det (inv_factor hI hn hl hs)
  rw [det_mul, det_fromBlocks_zero₂₁, det_one, one_mul, det_fromBlocks_zero₁₂] at h
  exact h

theorem inv_prod (hI : Inv P mm e ls) (l : ℂ) :
    (l • (1 : Matrix (Fin e.n) (Fin e.n) ℂ) - e.Hm e.n).det = (ls.map fun m => l - m).prod := by
  rw [tri_det e hI.tri, sum_fin_prod]
  where
  sum_fin_prod : ∏ i : Fin e.n, (l - e.H i i) = (ls.map fun m => l - m).prod := by
    have h1 : ls.map (fun m => l - m) = List.ofFn fun i : Fin e.n => l - e.H i i := by
      refine List.ext_getElem? fun i => ?_
      rw [List.getElem?_map, List.getElem?_ofFn]
      by_cases hi : i < e.n
      · rw [hI.diag i hi, dif_pos hi]; rfl
      · rw [dif_neg hi, List.getElem?_eq_none (by rw [hI.len]; omega)]; rfl
    rw [h1, List.prod_ofFn]

theorem star_dot_self {α : Type} [Fintype α] [DecidableEq α] {x : α → ℂ} (h : star x ⬝ᵥ x = 0) : x = 0 := by
  rw [← nrm2_eq_zero]
  have h2 := nrm2_sq x
  have h3 : ∑ i, star (x i) * x i = 0 := h
  rw [h3] at h2
  have := pow_eq_zero_iff (two_ne_zero) |>.1 h2
  exact_mod_cast this

theorem gram_ne (bc : ℕ → ℂ) {κ : Type} [Fintype κ] [DecidableEq κ] {X : Matrix ι κ ℂ} {H : Matrix κ κ ℂ} {m : ℕ} (hm : m ≤ 1)
    (hX : ∀ c, X *ᵥ c = 0 → c = 0) : (-Gram bc X H m).det ≠ 0 := by
  have hI : Finset.Ico 1 m = ∅ := by rw [Finset.Ico_eq_empty_iff]; omega
  unfold Gram
  rw [hI, Finset.sum_empty, add_zero, det_neg]
  refine mul_ne_zero (pow_ne_zero _ (by norm_num)) ?_
  intro h0
  obtain ⟨c, hc, h1⟩ := exists_mulVec_eq_zero_iff.2 h0
  refine hc (hX c ?_)
  have h2 : star c ⬝ᵥ ((Xᴴ * X) *ᵥ c) = 0 := by rw [h1, dotProduct_zero]
  rw [← mulVec_mulVec, dotProduct_mulVec, vecMul_conjTranspose, star_star] at h2
  exact star_dot_self h2

/-- **C140** (partial).  There is a non-zero factor such that, for every parameter at which the functions (and, if used, the simple formula) are defined, the
    determinant of the deflated operator times the product of the differences to the accepted eigenvalues is the factor times the determinant of the original
    operator.  Partial: exact solutions accepted directly or after extraction, not after refinement (`C140_refine_false`). -/
theorem C140_partial (hm : mm ≤ 1) (h : Run P q mm tgt simpU e ls) (hn : e.n ≤ e.szd) :
    ∃ c : ℂ, c ≠ 0 ∧ ∀ l, InΩ P l → (simpU = true → l ∉ ls) →
      (deflMat P e simpU l).det * (ls.map fun m => l - m).prod = c * (P.T l).det := by
  have hI := inv_run h
  refine ⟨(-Gram e.bc (e.Xm e.n) (e.Hm e.n) e.midx).det, gram_ne _ (by rw [hI.midx hn]; omega) (C139_independent hm h), ?_⟩
  intro l hl hs
  rw [← inv_prod hI, inv_det hI hn hl, mul_comm]
  intro hsu
  unfold simpOk
  rw [inv_prod hI]
  intro h0
  rw [List.prod_eq_zero_iff] at h0
  obtain ⟨m, hm, hml⟩ := List.mem_map.1 h0
  rw [sub_eq_zero] at hml
  exact hs hsu (hml ▸ hm)

/-- **C140** (other eigenpairs are kept).  Every eigenpair of the original problem with an eigenvalue that has not been accepted gives a non-zero solution of
    the deflated problem with this eigenvalue. -/
theorem C140_kept (hm : mm ≤ 1) (h : Run P q mm tgt simpU e ls) (hn : e.n ≤ e.szd) {l : ℂ} (hl : InΩ P l) (hls : l ∉ ls) {y : ι → ℂ}
    (hy : IsEig P l y) : ∃ x t, (x ≠ 0 ∨ t ≠ 0) ∧ Sol P e simpU l x t := by
  obtain ⟨c, hc, hdet⟩ := C140_partial hm h hn
  have hT : (P.T l).det = 0 := exists_mulVec_eq_zero_iff.1 ⟨y, hy.1, hy.2⟩
  have h1 := hdet l hl (fun _ => hls)
  rw [hT, mul_zero] at h1
  have hp : (ls.map fun m => l - m).prod ≠ 0 := by
    intro h0
    rw [List.prod_eq_zero_iff] at h0
    obtain ⟨m, hm, hml⟩ := List.mem_map.1 h0
    rw [sub_eq_zero] at hml
    exact hls (hml ▸ hm)
  have h2 : (deflMat P e simpU l).det = 0 := (mul_eq_zero.1 h1).resolve_right hp
  obtain ⟨v, hv, hv0⟩ := exists_mulVec_eq_zero_iff.2 h2
  refine ⟨v ∘ Sum.inl, v ∘ Sum.inr, ?_, hl, ?_, ?_⟩
  · by_contra hcon
    push Not at hcon
    refine hv (funext fun s => ?_)
    rcases s with s | s
    · exact congrFun hcon.1 s
    · exact congrFun hcon.2 s
  · intro _
    unfold simpOk
    rw [inv_prod (inv_run h)]; exact hp
  · rw [Sum.elim_comp_inl_inr]; exact hv0

/-- **C140** (no new eigenvalues).  A non-zero solution of the deflated problem at a parameter that has not been accepted gives an eigenpair of the original
    problem. -/
theorem C140_no_new (h : Run P q mm tgt simpU e ls) {l : ℂ} (hls : l ∉ ls) {x : ι → ℂ} {t : Fin e.n → ℂ}
    (hx : x ≠ 0) (hs : Sol P e simpU l x t) (hmm : mm ≤ 1) (hn : e.n ≤ e.szd) :
    IsEig P l (x + e.Xm e.n *ᵥ ((l • (1 : Matrix (Fin e.n) (Fin e.n) ℂ) - e.Hm e.n)⁻¹ *ᵥ t)) := by
  have hI := inv_run h
  have hu : IsUnit (l • (1 : Matrix (Fin e.n) (Fin e.n) ℂ) - e.Hm e.n).det := by
    rw [isUnit_iff_ne_zero, inv_prod hI]
    intro h0
    rw [List.prod_eq_zero_iff] at h0
    obtain ⟨m, hm, hml⟩ := List.mem_map.1 h0
    rw [sub_eq_zero] at hml
    exact hls (hml ▸ hm)
  constructor
  · intro h0
    have ho := sol_orth (by rw [hI.midx hn]; omega) hs
    apply hx
    -- x is orthogonal to the basis and in its span
    have h1 : x = -(e.Xm e.n *ᵥ ((l • (1 : Matrix (Fin e.n) (Fin e.n) ℂ) - e.Hm e.n)⁻¹ *ᵥ t)) := eq_neg_of_add_eq_zero_left h0
    have h2 : star x ⬝ᵥ x = 0 := by
      conv_lhs => rw [h1]
      rw [dotProduct_neg, ← h1, dotProduct_mulVec]
      have : star x ᵥ* e.Xm e.n = 0 := by
        have := congrArg star ho
        rw [star_mulVec, conjTranspose_conjTranspose, star_zero] at this
        exact this
      rw [this, zero_dotProduct, neg_zero]
    exact star_dot_self h2
  · rw [mulVec_add, mulVec_mulVec, ← Uhat_mul P hI.dom hs.1 hI.pair, mulVec_mulVec, Matrix.mul_assoc, mul_nonsing_inv _ hu, Matrix.mul_one]
    exact sol_row1 hI.dom hI.pair hs

/-- **C140** (refinement, negation).  In refinement mode the code tests and solves with the original operator only (nepdefl.c:314-322,558,607-618).  A pair that is locked
    already passes the test exactly, it is locked a second time, and afterwards the deflated operator is singular for every parameter, so that no further
    eigenvalue can be told apart. -/
theorem C140_refine_false (h : Run P q mm tgt simpU e ls) (hm : mm ≤ 1) (hn : e.n + 1 ≤ e.szd) (h0 : 0 < e.n) (hl0 : InΩ P (e.H 0 0)) (own : ι → Fin (q + 1)) (y0 : EVec ι q) :
    ∃ u : EVec ι q, (mulE (shell P e simpU false (e.H 0 0)) (e.Xm e.n) true own u y0).x = 0 ∧
      ∃ e', lock mm tgt e u (e.H 0 0) = some e' ∧ e'.n = e.n + 1 ∧
        ∀ l, InΩ P l → l ∉ ls → (deflMat P e' false l).det = 0 := by
  have hI := inv_run h
  have hT0 : P.T (e.H 0 0) *ᵥ e.X 0 = 0 := by
    have hz : e.Hm e.n *ᵥ (Pi.single ⟨0, h0⟩ 1) = e.H 0 0 • (Pi.single ⟨0, h0⟩ (1 : ℂ) : Fin e.n → ℂ) := by
      funext i
      rw [mulVec_single_one]
      show e.H 0 i = _
      by_cases hi : i = ⟨0, h0⟩
      · subst hi; simp
      · have hi0 : 0 < (i : ℕ) := by
          rcases Nat.eq_zero_or_pos (i : ℕ) with h | h
          · exact absurd (Fin.ext h) hi
          · exact h
        rw [hI.tri 0 i h0 hi0]; simp [Pi.single_apply, hi]
    have := pair_eig hI.dom hI.pair hl0 hz
    rw [mulVec_single_one] at this
    exact this
  have hn1 : nrm2 (e.X 0) ≠ 0 := by rw [hI.unit 0 h0]; exact one_ne_zero
  refine ⟨{ x := e.X 0, t := fun _ _ => 0 }, ?_, ?_⟩
  · unfold mulE
    simp only [Bool.true_or, if_true]
    have hT : (shell P e simpU false (e.H 0 0)).T = P.T (e.H 0 0) := by unfold shell; simp
    rw [hT, hT0]
  · obtain ⟨e', hk⟩ : ∃ e', lock (q := q) mm tgt e { x := e.X 0, t := fun _ _ => 0 } (e.H 0 0) = some e' := by
      unfold lock extend
      dsimp only
      rw [if_neg hn1]
      dsimp only
      rw [if_pos hn]; exact ⟨_, rfl⟩
    obtain ⟨_, hn', hsz, hX, _⟩ := lock_some hk
    refine ⟨e', hk, hn', ?_⟩
    intro l hl hls
    have hI' : Inv P mm e' (ls ++ [e.H 0 0]) := inv_step (x := e.X 0) (t := fun _ => 0) hI (by omega) hl0
      ⟨rfl, fun p k => by simp, fun p k _ => rfl⟩ (by rw [hT0, zero_add]; funext i; simp [mulVec, dotProduct]) hk
    have hd := inv_det (simpU := false) hI' (by rw [hn', hsz]; exact hn) hl (by simp)
    have hm1 : e'.midx ≤ 1 := by rw [hI'.midx (by rw [hn', hsz]; exact hn)]; omega
    have hG : (-Gram e'.bc (e'.Xm e'.n) (e'.Hm e'.n) e'.midx).det = 0 := by
      have hIe : Finset.Ico 1 e'.midx = ∅ := by rw [Finset.Ico_eq_empty_iff]; omega
      unfold Gram
      rw [hIe, Finset.sum_empty, add_zero, ← exists_mulVec_eq_zero_iff]
      refine ⟨Pi.single ⟨0, by omega⟩ 1 - Pi.single ⟨e.n, by omega⟩ 1, ?_, ?_⟩
      · intro hc
        have := congrFun hc ⟨0, by omega⟩
        have hne : (⟨0, by omega⟩ : Fin e'.n) ≠ ⟨e.n, by omega⟩ := by
          intro hc; have := Fin.mk.inj hc; omega
        simp [Pi.single_apply, hne] at this
      · have : e'.Xm e'.n *ᵥ (Pi.single ⟨0, by omega⟩ 1 - Pi.single ⟨e.n, by omega⟩ 1) = 0 := by
          rw [mulVec_sub, mulVec_single_one, mulVec_single_one]
          funext i
          show e'.X 0 i - e'.X e.n i = 0
          rw [hX 0, hX e.n, if_pos rfl, if_neg (by omega), hI.unit 0 h0]
          simp
        rw [neg_mulVec, ← mulVec_mulVec, this, mulVec_zero, neg_zero]
    rw [hG, mul_zero] at hd
    refine (mul_eq_zero.1 hd).resolve_right ?_
    rw [inv_prod hI']
    intro h0'
    rw [List.prod_eq_zero_iff] at h0'
    obtain ⟨m, hm, hml⟩ := List.mem_map.1 h0'
    rw [sub_eq_zero] at hml
    rw [← hml] at hm
    rcases List.mem_append.1 hm with hm | hm
    · exact hls hm
    · rw [List.mem_singleton] at hm
      have := hI.diag 0 h0
      exact hls (hm ▸ List.mem_of_getElem? this)

end Verif.NDef
