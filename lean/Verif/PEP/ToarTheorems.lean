import Verif.PEP.OperatorTheorems

/-! # C71: the TOAR step represents the application of the linearized operator. -/
set_option linter.all false

namespace Verif.PEP

open Polynomial Finset

variable {F V : Type*} [Field F] [AddCommGroup V] [Module F V]

theorem comb_congr (nv : ℕ) (U U' : ℕ → V) (c c' : ℕ → F) (hU : ∀ j < nv, U j = U' j) (hc : ∀ j < nv, c j = c' j) :
    comb nv U c = comb nv U' c' :=
  Finset.sum_congr rfl fun j hj => by rw [hU j (Finset.mem_range.1 hj), hc j (Finset.mem_range.1 hj)]

theorem comb_add (nv : ℕ) (U : ℕ → V) (c c' : ℕ → F) : comb nv U (c + c') = comb nv U c + comb nv U c' := by
  unfold comb; rw [← Finset.sum_add_distrib]; exact Finset.sum_congr rfl fun j _ => by rw [Pi.add_apply, add_smul]

theorem comb_smul (nv : ℕ) (U : ℕ → V) (a : F) (c : ℕ → F) : comb nv U (a • c) = a • comb nv U c := by
  unfold comb; rw [Finset.smul_sum]; exact Finset.sum_congr rfl fun j _ => by rw [Pi.smul_apply, smul_smul]; rfl

/-- A last row equal to zero can be dropped. -/
theorem comb_succ_zero (nv : ℕ) (U : ℕ → V) (c : ℕ → F) (h : c nv = 0) : comb (nv+1) U c = comb nv U c := by
  unfold comb; rw [Finset.sum_range_succ, h, zero_smul, add_zero]

theorem zrec_comb (p : Pbc F) (sigma : F) (nv : ℕ) (U : ℕ → V) (S : ℕ → ℕ → F) (k : ℕ) :
    comb nv U (zrec p sigma S k) = zrec p sigma (fun i => comb nv U (S i)) k := by
  induction k using Nat.strong_induction_on with
  | _ k ih =>
    match k with
    | 0 => show comb nv U 0 = 0; unfold comb; simp
    | 1 => show comb nv U ((1 / p.ca 0) • S 0) = _; rw [comb_smul]; rfl
    | k+2 =>
      show comb nv U ((1 / p.ca (k+1)) • (S (k+1) + (sigma - p.cb (k+1)) • zrec p sigma S (k+1) + (-p.cg (k+1)) • zrec p sigma S k)) = _
      rw [comb_smul, comb_add, comb_add, comb_smul, comb_smul, ih (k+1) (by omega), ih k (by omega)]
      rfl

theorem zrec_row (p : Pbc F) (sigma : F) (S : ℕ → ℕ → F) (k j : ℕ) :
    zrec p sigma S (k+2) j = (S (k+1) j + (sigma - p.cb (k+1)) * zrec p sigma S (k+1) j - p.cg (k+1) * zrec p sigma S k j) / p.ca (k+1) := by
  show (1 / p.ca (k+1)) * (S (k+1) j + (sigma - p.cb (k+1)) * zrec p sigma S (k+1) j + (-p.cg (k+1)) * zrec p sigma S k j) = _
  rw [one_div_mul_eq_div]; congr 1; ring

/-- The coefficients computed before the solve. -/
theorem toarR_eq (p : Pbc F) (sigma : F) (d nv : ℕ) (hd : 2 ≤ d) (S r : ℕ → ℕ → F)
    (hst : d = 2 → ∀ j < nv, p.cg 1 * r 0 j = 0) :
    (∀ k, 1 ≤ k → k < d → ∀ j < nv, toarR p sigma d nv S r k j = zrec p sigma S k j) ∧
    (∀ j < nv, toarR p sigma d nv S r 0 j = zrec p sigma S d j) ∧
    (∀ k j, nv ≤ j → toarR p sigma d nv S r k j = r k j) := by
  have set_self : ∀ (r : ℕ → ℕ → F) k f j, j < nv → setRows nv r k f k j = f j := fun r k f j hj => if_pos ⟨rfl, hj⟩
  have set_ne : ∀ (r : ℕ → ℕ → F) k f i j, i ≠ k → setRows nv r k f i j = r i j := fun r k f i j hi => if_neg fun h => hi h.1
  have set_ge : ∀ (r : ℕ → ℕ → F) k f i j, nv ≤ j → setRows nv r k f i j = r i j := fun r k f i j hj => if_neg fun h => by omega
  let r1 := setRows nv r 1 (fun j => S 0 j / p.ca 0)
  let r2 := if d > 2 then setRows nv r1 2 (fun j => (S 1 j + (sigma - p.cb 1) * r1 1 j) / p.ca 1) else r1
  let r3 := forUp 2 (d - 1) (fun k r =>
    setRows nv r (k+1) (fun j => (S k j + (sigma - p.cb k) * r k j - p.cg k * r (k-1) j) / p.ca k)) r2
  have hval : toarR p sigma d nv S r =
      setRows nv r3 0 (fun j => (S (d-1) j + (sigma - p.cb (d-1)) * r3 (d-1) j - p.cg (d-1) * r3 (d-2) j) / p.ca (d-1)) := by
    unfold toarR
    simp only [if_pos (show d > 1 by omega)]
    rfl
  have h1 : ∀ j < nv, r1 1 j = zrec p sigma S 1 j := by
    intro j hj
    show setRows nv r 1 _ 1 j = (1 / p.ca 0) * S 0 j
    rw [set_self _ _ _ _ hj, one_div_mul_eq_div]
  have h2 : (∀ j < nv, r2 1 j = zrec p sigma S 1 j) ∧ (2 < d → ∀ j < nv, r2 2 j = zrec p sigma S 2 j) ∧
      (∀ k j, nv ≤ j → r2 k j = r k j) ∧ (∀ j, r2 0 j = r 0 j) := by
    simp only [r2]
    by_cases hc : d > 2
    · rw [if_pos hc]
      refine ⟨fun j hj => by rw [set_ne _ _ _ _ _ (by omega)]; exact h1 j hj, fun _ j hj => ?_, fun k j hj => ?_, fun j => ?_⟩
      · rw [set_self _ _ _ _ hj, zrec_row, h1 j hj, show zrec p sigma S 0 j = 0 from rfl, mul_zero, sub_zero]
      · rw [set_ge _ _ _ _ _ hj]; exact set_ge _ _ _ _ _ hj
      · rw [set_ne _ _ _ _ _ (by omega)]; exact set_ne _ _ _ _ _ (by omega)
    · rw [if_neg hc]
      exact ⟨h1, fun h => absurd h hc, fun k j hj => set_ge _ _ _ _ _ hj, fun j => set_ne _ _ _ _ _ (by omega)⟩
  have h3 : (∀ k, 1 ≤ k → k < d → ∀ j < nv, r3 k j = zrec p sigma S k j) ∧ (∀ k j, nv ≤ j → r3 k j = r k j) ∧
      (∀ j, r3 0 j = r 0 j) := by
    by_cases hc : 2 < d
    · have := forUp_inv (fun m (y : ℕ → ℕ → F) => (∀ k, 1 ≤ k → k ≤ m → ∀ j < nv, y k j = zrec p sigma S k j) ∧
          (∀ k j, nv ≤ j → y k j = r k j) ∧ (∀ j, y 0 j = r 0 j)) (show 2 ≤ d - 1 by omega)
        (fun k r => setRows nv r (k+1) (fun j => (S k j + (sigma - p.cb k) * r k j - p.cg k * r (k-1) j) / p.ca k)) r2 ?_ ?_
      · exact ⟨fun k hk hkd => this.1 k hk (by omega), this.2⟩
      · refine ⟨fun k hk hk2 => ?_, h2.2.2⟩
        have : k = 1 ∨ k = 2 := by omega
        rcases this with rfl | rfl
        · exact h2.1
        · exact h2.2.1 hc
      · intro k y hk hkd ⟨a, b, c⟩
        refine ⟨fun i hi hik j hj => ?_, fun i j hj => by rw [set_ge _ _ _ _ _ hj]; exact b i j hj,
          fun j => by rw [set_ne _ _ _ _ _ (by omega)]; exact c j⟩
        by_cases hh : i = k + 1
        · subst hh
          obtain ⟨m, rfl⟩ : ∃ m, k = m + 1 := ⟨k - 1, by omega⟩
          rw [set_self _ _ _ _ hj, zrec_row, a (m+1) (by omega) (by omega) j hj, show m + 1 - 1 = m by omega,
            a m (by omega) (by omega) j hj]
        · rw [set_ne _ _ _ _ _ hh]; exact a i hi (by omega) j hj
    · have e : r3 = r2 := forUp_le (by omega) _ _
      rw [e]
      refine ⟨fun k hk hkd => ?_, h2.2.2⟩
      have : k = 1 := by omega
      rw [this]; exact h2.1
  rw [hval]
  refine ⟨fun k hk hkd j hj => by rw [set_ne _ _ _ _ _ (by omega)]; exact h3.1 k hk hkd j hj, fun j hj => ?_,
    fun k j hj => by rw [set_ge _ _ _ _ _ hj]; exact h3.2.1 k j hj⟩
  rw [set_self _ _ _ _ hj]
  obtain ⟨e, rfl⟩ : ∃ e, d = e + 2 := ⟨d - 2, by omega⟩
  rw [zrec_row, show e + 2 - 1 = e + 1 by omega, show e + 2 - 2 = e by omega, h3.1 (e+1) (by omega) (by omega) j hj]
  congr 2
  by_cases he : e = 0
  · subst he
    rw [h3.2.2, hst rfl j hj, show zrec p sigma S 0 j = 0 from rfl, mul_zero]
  · rw [h3.1 e (by omega) (by omega) j hj]

/-- C71: one step of TOAR. `x` are the blocks of the last vector of the compact representation and `y` those of the vector whose
coefficients the step stores; `U'` is the basis after the step, in which the orthogonalization has expressed the new vector.
The operator is the companion operator minus `sigma` (`sinvert = false`), or its inverse. The conditions `hS`, `hr`, `hst` are on the
contents of the arrays before the step; `C71_stale_false` shows that the last one is needed. -/
theorem C71_toar_step_partial (p : Pbc F) (ha : ∀ k, p.ca k ≠ 0) (s : F) (hs : s ≠ 0) (A : ℕ → V →ₗ[F] V) (solve : V → V) (sinvert : Bool)
    (sigma : F) (d nv : ℕ) (hd : 2 ≤ d) (f : ℕ → F) (hf : Rec3 p f sigma)
    (hsolve : if sinvert then ∀ b, ∑ i ∈ range (d+1), (s ^ i * f i) • A i (solve b) = b else ∀ b, A d (solve b) = b)
    (U U' : ℕ → V) (hU : ∀ j < nv, U' j = U j) (orth : V → ℕ → F) (horth : ∀ t, comb (nv+1) U' (orth t) = t)
    (S r : ℕ → ℕ → F) (hS : ∀ i < d, S i nv = 0) (hr : ∀ i, 1 ≤ i → i < d → r i nv = 0)
    (hst : d = 2 → ∀ j < nv, p.cg 1 * r 0 j = 0) :
    let x : ℕ → V := fun i => comb (nv+1) U' (S i)
    let y : ℕ → V := fun i => comb (nv+1) U' (toarStep p s A solve sinvert sigma d nv U orth S r i)
    if sinvert then IsComp p s A d y (x + sigma • y) else IsComp p s A d x (y + sigma • x) := by
  intro x y
  have hx : ∀ i < d, comb nv U (S i) = x i := by
    intro i hi
    simp only [x]
    rw [comb_succ_zero nv U' _ (hS i hi)]
    exact comb_congr nv _ _ _ _ (fun j hj => (hU j hj).symm) fun j _ => rfl
  cases sinvert with
  | true =>
    simp only [if_true] at hsolve ⊢
    obtain ⟨hR1, hR2, hR3⟩ := toarR_eq p sigma d nv hd S r hst
    let z := zrec p sigma (fun i => comb nv U (S i))
    have hz : ∀ k, 1 ≤ k → k < d → comb nv U (toarR p sigma d nv S r k) = z k := by
      intro k h1 h2
      rw [comb_congr nv U U _ (zrec p sigma S k) (fun _ _ => rfl) (hR1 k h1 h2), zrec_comb]
    have hz0 : comb nv U (toarR p sigma d nv S r 0) = z d := by
      rw [comb_congr nv U U _ (zrec p sigma S d) (fun _ _ => rfl) hR2, zrec_comb]
    let q := ∑ i ∈ range (d+1), s ^ i • A i (z i)
    have hq : (toarExtend p s A solve true sigma d nv U S r) = ((-1 : F) • solve q, toarR p sigma d nv S r) := by
      unfold toarExtend
      simp only [if_true]
      have hl := forUp_inv (fun m (t : V × F) => t = (∑ i ∈ range m, s ^ i • A i (z i), s ^ (m-1))) (show 2 ≤ d from hd)
        (fun j (t : V × F) => let a := t.2 * s; (t.1 + a • A j (comb nv U (toarR p sigma d nv S r j)), a))
        (s • A 1 (comb nv U (toarR p sigma d nv S r 1)), s) ?_ ?_
      · rw [hl]
        dsimp only
        rw [hz0, ← pow_succ, show d - 1 + 1 = d by omega, ← Finset.sum_range_succ (fun i => s ^ i • A i (z i)) d]
      · rw [hz 1 le_rfl (by omega)]
        simp only [Finset.sum_range_succ, Finset.sum_range_zero, zero_add, pow_zero, pow_one, one_smul]
        rw [show z 0 = 0 from rfl, map_zero, zero_add, show 2 - 1 = 1 from rfl, pow_one]
      · intro k t hk hkd ht
        subst ht
        dsimp only
        rw [hz k (by omega) hkd, ← pow_succ, show k - 1 + 1 = k by omega, Finset.sum_range_succ,
          show k + 1 - 1 = k by omega]
    let t : V := (-1 : F) • solve q
    have hzx : ∀ i, i ≤ d → zrec p sigma x i = z i := by
      have hh : ∀ i, i ≤ d → zrec p sigma x i = z i := by
        intro i
        induction i using Nat.strong_induction_on with
        | _ i ih =>
          intro hi
          match i with
          | 0 => rfl
          | 1 => show (1 / p.ca 0) • x 0 = (1 / p.ca 0) • comb nv U (S 0); rw [hx 0 (by omega)]
          | k+2 =>
            show (1 / p.ca (k+1)) • (x (k+1) + (sigma - p.cb (k+1)) • zrec p sigma x (k+1) + (-p.cg (k+1)) • zrec p sigma x k) =
              (1 / p.ca (k+1)) • (comb nv U (S (k+1)) + (sigma - p.cb (k+1)) • z (k+1) + (-p.cg (k+1)) • z k)
            rw [ih (k+1) (by omega) (by omega), ih k (by omega) (by omega), hx (k+1) (by omega)]
      exact hh
    have hyi : ∀ i < d, toarStep p s A solve true sigma d nv U orth S r i =
        fun j => if j ≤ nv then (if i = 0 then orth t j else toarR p sigma d nv S r i j + f i * orth t j)
          else toarR p sigma d nv S r i j := by
      intro i hi
      unfold toarStep
      rw [hq]
      simp only [if_true]
      unfold toarCoefficients
      simp only [if_true]
      let r0 : ℕ → ℕ → F := fun i j => if i = 0 ∧ j ≤ nv then orth t j else toarR p sigma d nv S r i j
      have := forUp_inv (fun m (w : (ℕ → ℕ → F) × F × F) =>
          (∀ i j, w.1 i j = if 1 ≤ i ∧ i < m ∧ j ≤ nv then r0 i j + f i * orth t j else r0 i j) ∧
          w.2.1 = f (m-1) ∧ (2 ≤ m → w.2.2 = f (m-2)) ∧ (m = 1 → w.2.2 = 0)) (show 1 ≤ d by omega)
        (fun k (w : (ℕ → ℕ → F) × F × F) =>
          let u := ((sigma - p.cb (k-1)) * w.2.1 - p.cg (k-1) * w.2.2) / p.ca (k-1)
          ((fun i j => if i = k ∧ j ≤ nv then w.1 i j + u * orth t j else w.1 i j), u, w.2.1)) (r0, 1, 0) ?_ ?_
      · funext j
        refine (this.1 i j).trans ?_
        by_cases hj : j ≤ nv
        · rw [if_pos hj]
          by_cases h0 : i = 0
          · rw [if_neg (by omega), if_pos h0]
            simp only [r0]; rw [if_pos ⟨h0, hj⟩]
          · rw [if_pos ⟨by omega, hi, hj⟩, if_neg h0]
            simp only [r0]; rw [if_neg (by omega)]
        · rw [if_neg (by omega), if_neg hj]
          simp only [r0]; rw [if_neg (by omega)]
      · exact ⟨fun i j => by rw [if_neg (by omega)], hf.zero.symm, fun h => by omega, fun _ => rfl⟩
      · intro k w hk hkd ⟨h0, h3, h4, h5⟩
        have ht : ((sigma - p.cb (k-1)) * w.2.1 - p.cg (k-1) * w.2.2) / p.ca (k-1) = f k := by
          by_cases hk1 : k = 1
          · subst hk1
            rw [h3, h5 rfl, hf.zero, hf.one]; simp
          · obtain ⟨j, rfl⟩ : ∃ j, k = j + 2 := ⟨k - 2, by omega⟩
            rw [h3, h4 (by omega), hf.step]; simp
        dsimp only
        rw [ht]
        refine ⟨fun i j => ?_, by simp, fun _ => by rw [h3, show k + 1 - 2 = k - 1 by omega], fun h => by omega⟩
        by_cases hc : i = k ∧ j ≤ nv
        · rw [if_pos hc, h0, if_neg (by omega), if_pos (by omega), hc.1]
        · rw [if_neg hc, h0]
          by_cases hc2 : 1 ≤ i ∧ i < k ∧ j ≤ nv
          · rw [if_pos hc2, if_pos (by omega)]
          · rw [if_neg hc2, if_neg (by omega)]
    have hyv : ∀ i < d, y i = zrec p sigma x i + f i • t := by
      intro i hi
      simp only [y]
      rw [hyi i hi, hzx i (by omega)]
      by_cases h0 : i = 0
      · subst h0
        rw [comb_congr (nv+1) U' U' _ (orth t) (fun _ _ => rfl) (fun j hj => by rw [if_pos (by omega), if_pos rfl]), horth,
          hf.zero, one_smul, show z 0 = 0 from rfl, zero_add]
      · rw [comb_congr (nv+1) U' U' _ (toarR p sigma d nv S r i + f i • orth t) (fun _ _ => rfl)
          (fun j hj => by rw [if_pos (by omega), if_neg h0]; rfl), comb_add, comb_smul, horth,
          comb_succ_zero nv U' _ (by rw [hR3 i nv le_rfl, hr i (by omega) hi]),
          comb_congr nv U' U _ (toarR p sigma d nv S r i) hU (fun _ _ => rfl), hz i (by omega) hi]
    refine inverse_of_blocks p ha s A sigma d hd f hf x y t ?_ hyv
    have e1 : ∑ i ∈ range (d+1), s ^ i • A i (zrec p sigma x i) = q :=
      Finset.sum_congr rfl fun i hi => by rw [hzx i (by have := Finset.mem_range.1 hi; omega)]
    rw [e1]
    have e2 : ∑ i ∈ range (d+1), (s ^ i * f i) • A i t = -∑ i ∈ range (d+1), (s ^ i * f i) • A i (solve q) := by
      rw [← Finset.sum_neg_distrib]
      exact Finset.sum_congr rfl fun i _ => by simp only [t]; rw [neg_one_smul, map_neg, smul_neg]
    rw [e2, hsolve]
  | false =>
    simp only [Bool.false_eq_true, if_false] at hsolve ⊢
    obtain ⟨e, rfl⟩ : ∃ e, d = e + 2 := ⟨d - 2, by omega⟩
    let q := ∑ i ∈ range (e+2), s ^ i • A i (x i)
    let w : V := (-(1 / s ^ (e+2))) • solve q
    have hq : (toarExtend p s A solve false sigma (e+2) nv U S r) =
        (p.ca (e+1) • w + p.cg (e+1) • x e + p.cb (e+1) • x (e+1), r) := by
      unfold toarExtend
      simp only [Bool.false_eq_true, if_false, show e + 2 - 1 = e + 1 by omega, show e + 2 - 2 = e by omega]
      have hl := forUp_inv (fun m (t : V × F) => t = (∑ i ∈ range m, s ^ i • A i (x i), s ^ (m-1))) (show 1 ≤ e + 1 by omega)
        (fun j (t : V × F) => let a := t.2 * s; (t.1 + a • A j (comb nv U (S j)), a))
        ((1:F) • A 0 (comb nv U (S 0)), 1) ?_ ?_
      · rw [hl]
        dsimp only
        rw [hx (e+1) (by omega), hx e (by omega), show e + 1 - 1 = e by omega, ← pow_succ, ← pow_succ,
          ← Finset.sum_range_succ (fun i => s ^ i • A i (x i)) (e+1)]
        congr 3
        show _ = p.ca (e+1) • (-(1 / s ^ (e+2))) • solve q
        rw [smul_smul]
        congr 1
        rw [show e + 1 + 1 = e + 2 by omega]; ring
      · rw [hx 0 (by omega)]; simp
      · intro k t hk hkd ht
        subst ht
        dsimp only
        rw [hx k (by omega), ← pow_succ, show k - 1 + 1 = k by omega, Finset.sum_range_succ, show k + 1 - 1 = k by omega]
    let t : V := p.ca (e+1) • w + p.cg (e+1) • x e + p.cb (e+1) • x (e+1)
    have hyi : ∀ i < e + 2, ∀ j ≤ nv, toarStep p s A solve false sigma (e+2) nv U orth S r i j =
        if i = e + 1 then orth t j - sigma * S (e+1) j
        else if i = 0 then (p.cb 0 - sigma) * S 0 j + p.ca 0 * S 1 j
        else (p.cb i - sigma) * S i j + p.ca i * S (i+1) j + p.cg i * S (i-1) j := by
      intro i hi j hj
      unfold toarStep
      rw [hq]
      simp only [Bool.false_eq_true, if_false]
      unfold toarCoefficients
      simp only [Bool.false_eq_true, if_false, show e + 2 - 1 = e + 1 by omega]
      let r0 : ℕ → ℕ → F := fun i j => if i = 0 ∧ j ≤ nv then (p.cb 0 - sigma) * S 0 j + p.ca 0 * S 1 j
        else (if i = e + 1 ∧ j ≤ nv then orth t j else r i j)
      have := forUp_inv (fun m (w : ℕ → ℕ → F) =>
          (∀ i j, w i j = if 1 ≤ i ∧ i < m ∧ j ≤ nv then (p.cb i - sigma) * S i j + p.ca i * S (i+1) j + p.cg i * S (i-1) j else r0 i j))
          (show 1 ≤ e + 1 by omega)
        (fun k (w : ℕ → ℕ → F) =>
          fun i j => if i = k ∧ j ≤ nv then (p.cb k - sigma) * S k j + p.ca k * S (k+1) j + p.cg k * S (k-1) j else w i j) r0 ?_ ?_
      · by_cases hc : i = e + 1
        · rw [if_pos ⟨hc, hj⟩, if_pos hc]
          refine congrArg (fun v => v - sigma * S (e+1) j) ((this i j).trans ?_)
          rw [if_neg (by omega)]; simp only [r0]; rw [if_neg (by omega), if_pos ⟨hc, hj⟩]
        · rw [if_neg (by omega), if_neg hc]
          refine (this i j).trans ?_
          by_cases h0 : i = 0
          · rw [if_neg (by omega), if_pos h0]; simp only [r0]; rw [if_pos ⟨h0, hj⟩]
          · rw [if_pos (by omega), if_neg h0]
      · intro i j; rw [if_neg (by omega)]
      · intro k w hk hkd h0 i j
        by_cases hc : i = k ∧ j ≤ nv
        · rw [if_pos hc, if_pos (by omega), hc.1]
        · rw [if_neg hc, h0]
          by_cases hc2 : 1 ≤ i ∧ i < k ∧ j ≤ nv
          · rw [if_pos hc2, if_pos (by omega)]
          · rw [if_neg hc2, if_neg (by omega)]
    have hlin : ∀ (c : ℕ → F) (a b g : F) (i j k : ℕ), (∀ l ≤ nv, c l = a * S i l + b * S j l + g * S k l) →
        comb (nv+1) U' c = a • x i + b • x j + g • x k := by
      intro c a b g i j k h
      rw [comb_congr (nv+1) U' U' c (a • S i + b • S j + g • S k) (fun _ _ => rfl) (fun l hl => h l (by omega)), comb_add, comb_add,
        comb_smul, comb_smul, comb_smul]
    refine ⟨fun i => if i = e + 2 then w else x i, fun i hi => by beta_reduce; rw [if_neg (by omega)], ?_, ?_, ?_⟩
    · beta_reduce
      rw [Finset.sum_range_succ, if_pos rfl]
      have : ∑ i ∈ range (e+2), s ^ i • A i (if i = e + 2 then w else x i) = q :=
        Finset.sum_congr rfl fun i hi => by rw [if_neg (by have := Finset.mem_range.1 hi; omega)]
      rw [this]
      simp only [w]
      rw [map_smul, hsolve, smul_smul, mul_neg, mul_one_div_cancel (pow_ne_zero _ hs), neg_one_smul, add_neg_cancel]
    · beta_reduce
      rw [Pi.add_apply, Pi.smul_apply, if_neg (by omega), if_neg (by omega)]
      have : y 0 = (p.cb 0 - sigma) • x 0 + p.ca 0 • x 1 + (0:F) • x 0 := by
        refine hlin _ _ _ _ 0 1 0 fun l hl => ?_
        rw [hyi 0 (by omega) l hl, if_neg (by omega), if_pos rfl, zero_mul, add_zero]
      rw [this]; module
    · intro i h1 hi
      beta_reduce
      rw [Pi.add_apply, Pi.smul_apply, if_neg (by omega : ¬ i = e + 2), if_neg (by omega : ¬ i - 1 = e + 2)]
      by_cases hh : i = e + 1
      · subst hh
        rw [if_pos (by omega), show e + 1 - 1 = e by omega]
        have : y (e+1) = t - sigma • x (e+1) := by
          simp only [y]
          rw [comb_congr (nv+1) U' U' _ (orth t + (-sigma) • S (e+1)) (fun _ _ => rfl) (fun l hl => by
            rw [hyi (e+1) (by omega) l (by omega), if_pos rfl, Pi.add_apply, Pi.smul_apply, smul_eq_mul]; ring),
            comb_add, horth, comb_smul]
          module
        rw [this]
        simp only [t]
        module
      · rw [if_neg (by omega)]
        have : y i = (p.cb i - sigma) • x i + p.ca i • x (i+1) + p.cg i • x (i-1) := by
          refine hlin _ _ _ _ i (i+1) (i-1) fun l hl => ?_
          rw [hyi i hi l hl, if_neg hh, if_neg (by omega)]
        rw [this]; module

/-- The condition on the previous content of the new column is needed: degree two, Chebyshev basis, `2 T_0 + T_2`, target `0`,
`x = [1 0]` in the basis with the vector `1`; a nonzero entry left in block `0` of the new column changes the result. -/
theorem C71_stale_false :
    let p : Pbc ℚ := basisCoefficients .chebyshev1
    let A : ℕ → ℚ →ₗ[ℚ] ℚ := fun i => if i = 0 then (2:ℚ) • LinearMap.id else if i = 1 then 0 else LinearMap.id
    let U : ℕ → ℚ := fun j => if j = 0 then 1 else 0
    let orth : ℚ → ℕ → ℚ := fun t j => if j = 0 then t else 0
    let S : ℕ → ℕ → ℚ := fun i j => if i = 0 ∧ j = 0 then 1 else 0
    let step := fun r : ℕ → ℕ → ℚ => fun i => comb 2 U (toarStep p 1 A id true 0 2 1 U orth S r i)
    let x : ℕ → ℚ := fun i => comb 2 U (S i)
    (∀ b, ∑ i ∈ range 3, (classical ℚ .chebyshev1 i).eval 0 • A i (id b) = b) ∧
    IsComp p 1 A 2 (step (fun _ _ => 0)) (x + (0:ℚ) • step (fun _ _ => 0)) ∧
    ¬ IsComp p 1 A 2 (step (fun i j => if i = 0 ∧ j = 0 then 1 else 0))
        (x + (0:ℚ) • step (fun i j => if i = 0 ∧ j = 0 then 1 else 0)) := by
  intro p A U orth S step x
  have e0 : classical ℚ .chebyshev1 0 = 1 := by simp [classical]
  have e1 : classical ℚ .chebyshev1 1 = X := by simp [classical]
  have e2 : classical ℚ .chebyshev1 2 = 2 * X ^ 2 - 1 := by simp [classical, Polynomial.Chebyshev.T_two]
  have x0 : x 0 = 1 := by simp [x, comb, Finset.sum_range_succ, U, S]
  have x1 : x 1 = 0 := by simp [x, comb, Finset.sum_range_succ, U, S]
  have a0 : step (fun _ _ => 0) 0 = 0 := by
    simp [step, comb, Finset.sum_range_succ, U, S, toarStep, toarExtend, toarR, toarCoefficients, setRows, forUp, List.range', orth, p,
      basisCoefficients, tbl, A]
  have a1 : step (fun _ _ => 0) 1 = 1 := by
    simp [step, comb, Finset.sum_range_succ, U, S, toarStep, toarExtend, toarR, toarCoefficients, setRows, forUp, List.range', orth, p,
      basisCoefficients, tbl, A]
  have b0 : step (fun i j => if i = 0 ∧ j = 0 then 1 else 0) 0 = 1 := by
    simp [step, comb, Finset.sum_range_succ, U, S, toarStep, toarExtend, toarR, toarCoefficients, setRows, forUp, List.range', orth, p,
      basisCoefficients, tbl, A]
  have b1 : step (fun i j => if i = 0 ∧ j = 0 then 1 else 0) 1 = 1 := by
    simp [step, comb, Finset.sum_range_succ, U, S, toarStep, toarExtend, toarR, toarCoefficients, setRows, forUp, List.range', orth, p,
      basisCoefficients, tbl, A]
  refine ⟨fun b => ?_, ?_, ?_⟩
  · simp only [Finset.sum_range_succ, Finset.sum_range_zero, e0, e1, e2]
    simp [A]; ring
  · refine ⟨fun i => if i = 1 then 1 else 0, fun i hi => ?_, ?_, ?_, fun i h1 hi => ?_⟩
    · have : i = 0 ∨ i = 1 := by omega
      rcases this with rfl | rfl
      · rw [a0]; rfl
      · rw [a1]; rfl
    · simp [Finset.sum_range_succ, A]
    · simp [x0, p, basisCoefficients, tbl]
    · have : i = 1 := by omega
      subst this
      simp [x1, p, basisCoefficients, tbl]
  · rintro ⟨X, hX, h2, h3, h4⟩
    have h0 := hX 0 (by omega)
    have h1 := hX 1 (by omega)
    have h5 := h4 1 le_rfl (by omega)
    rw [b0] at h0
    rw [b1] at h1
    simp [x1, p, basisCoefficients, tbl, h0, h1] at h5
    simp [Finset.sum_range_succ, A, h0, h1] at h2
    linarith

end Verif.PEP
