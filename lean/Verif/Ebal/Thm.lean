import Verif.Ebal.Lemmas
/-!
Properties C197 to C200: balancing of non-Hermitian eigenproblems.
-/
set_option linter.all false
namespace Verif.Ebal
noncomputable section
open Classical

/-- C197: after every orderly sequence of calls without user balancing, right and left eigenvectors of the operator applied by the solver are returned as
eigenvectors of the user's operator. -/
theorem C197_partial {n : ℕ} (S : Matrix (Fin n) (Fin n) ℂ) (herm : Bool) (cs : List (Call n)) (ho : Orderly (create S herm) cs)
    (s : EPS n) (hs : s = run (create S herm) cs) (hsol : s.stage = .solved) (lam : ℂ) :
    (∀ y, RightEig (applyOp s.S s.stD) lam y → RightEig s.S.mulVec lam (retVec s y)) ∧
    (∀ w, LeftEig (applyOp s.S s.stD) lam w → LeftEig s.S.mulVec lam (retLeft s w)) := by
  have hi : Inv s := hs ▸ Inv.run cs _ (inv_create S herm) ho
  have hne : s.stage ≠ .initial := by rw [hsol]; decide
  by_cases ha : Active s
  · obtain ⟨h1, h2⟩ := hi.act hne ha
    obtain ⟨d, hd⟩ := Option.isSome_iff_exists.mp h1
    have hp := hi.pos d hd
    have hb : s.bal ≠ .none := by rcases ha.2 with h | h <;> rw [h] <;> decide
    have r1 : ∀ y, retVec s y = pdiv y d := by
      intro y; unfold retVec; rw [ha.1, if_neg (by decide), if_pos hb, hd]
    have r2 : ∀ y, retLeft s y = pmul y d := by
      intro y; unfold retLeft; rw [ha.1, if_neg (by decide), if_pos hb, hd]
    rw [h2, hd]
    refine ⟨fun y hy => ?_, fun w hw => ?_⟩
    · rw [r1]; exact right_fix _ d (fun i => (hp i).ne) _ _ hy
    · rw [r2]; exact left_fix _ d (fun i => (hp i).ne) (fun i => (hp i).star) _ _ hw
  · rw [hi.off hne ha]
    have hx : s.herm = true ∨ s.bal = .none := by
      by_contra hc
      push Not at hc
      apply ha
      refine ⟨by simpa using hc.1, ?_⟩
      have := hi.user
      cases hb : s.bal <;> simp_all
    have r1 : ∀ y, retVec s y = y := by
      intro y; unfold retVec
      rcases hx with h | h
      · rw [if_pos h]
      · by_cases hh : s.herm = true
        · rw [if_pos hh]
        · rw [if_neg hh, if_neg (by rw [h]; decide)]
    have r2 : ∀ y, retLeft s y = y := by
      intro y; unfold retLeft
      rcases hx with h | h
      · rw [if_pos h]
      · by_cases hh : s.herm = true
        · rw [if_pos hh]
        · rw [if_neg hh, if_neg (by rw [h]; decide)]
    exact ⟨fun y hy => by rw [r1]; exact hy, fun w hw => by rw [r2]; exact hw⟩

/-- C197: user balancing selected after a balanced solve, without giving a matrix, reuses the computed matrix and the vectors are right, also for a new operator. -/
theorem C197_reuse {n : ℕ} (S S' : Matrix (Fin n) (Fin n) ℂ) (cs : List (Call n)) (ho : Orderly (create S false) cs)
    (hact : Active (run (create S false) cs)) (hsol : (run (create S false) cs).stage = .solved) (its : Par ℤ) (cutoff : Par ℝ) (z : ℕ → Vc n)
    (s : EPS n) (hs : s = run (run (create S false) cs) [.setBalance .user its cutoff, .other S', .solve z]) (lam : ℂ) :
    s.stD.isSome = true ∧
    (∀ y, RightEig (applyOp s.S s.stD) lam y → RightEig S'.mulVec lam (retVec s y)) ∧
    (∀ w, LeftEig (applyOp s.S s.stD) lam w → LeftEig S'.mulVec lam (retLeft s w)) := by
  obtain ⟨t, ht⟩ : ∃ t, t = run (create S false) cs := ⟨_, rfl⟩
  rw [← ht] at hact hsol hs
  have hi : Inv t := ht ▸ Inv.run cs _ (inv_create S false) ho
  obtain ⟨h1, h2⟩ := hi.act (by rw [hsol]; decide) hact
  obtain ⟨d, hd⟩ := Option.isSome_iff_exists.mp h1
  have hp := hi.pos d hd
  obtain ⟨e1, e2, e3, e4, e5, e6, e7⟩ := setBalance_fields t .user its cutoff
  have hS : s = { { (setBalance t .user its cutoff).1 with S := S', stage := .solved } with stage := .solved } := by
    rw [hs]
    show solve { (setBalance t .user its cutoff).1 with S := S', stage := .initial } z = _
    unfold solve setUp
    rw [if_neg (by simp), if_neg (by simp), if_neg (by simp [e1])]
  have b1 : s.bal = .user := by rw [hS]; exact e1
  have b2 : s.herm = false := by rw [hS]; exact e2.trans hact.1
  have b3 : s.epsD = some d := by rw [hS]; exact e3.trans hd
  have b4 : s.stD = some d := by rw [hS]; exact e4.trans (h2.trans hd)
  have b5 : s.S = S' := by rw [hS]
  have hb : s.bal ≠ .none := by rw [b1]; decide
  have r1 : ∀ y, retVec s y = pdiv y d := by
    intro y; unfold retVec; rw [b2, if_neg (by decide), if_pos hb, b3]
  have r2 : ∀ y, retLeft s y = pmul y d := by
    intro y; unfold retLeft; rw [b2, if_neg (by decide), if_pos hb, b3]
  rw [b4, b5]
  refine ⟨rfl, fun y hy => ?_, fun w hw => ?_⟩
  · rw [r1]; exact right_fix _ d (fun i => (hp i).ne) _ _ hy
  · rw [r2]; exact left_fix _ d (fun i => (hp i).ne) (fun i => (hp i).star) _ _ hw

/-- C198: after every orderly sequence of calls without user balancing and without changes of the problem type, the vectors returned by
`EPSGetInvariantSubspace` are a basis of an invariant subspace of the user's operator. -/
theorem C198_partial {n k : ℕ} (orth : (Fin k → Vc n) → Fin k → Vc n) (horth : OrthSpec orth) (S : Matrix (Fin n) (Fin n) ℂ) (herm : Bool)
    (cs : List (Call n)) (ho : Orderly (create S herm) cs) (hty : ∀ h, Call.setProblem h ∉ cs)
    (s : EPS n) (hs : s = run (create S herm) cs) (hsol : s.stage = .solved) (V : Fin k → Vc n) (hV : InvBasis (applyOp s.S s.stD) V) :
    InvBasis s.S.mulVec (retSpace orth s V) := by
  have hi : Inv s := hs ▸ Inv.run cs _ (inv_create S herm) ho
  have hh := herm_run cs (create S herm) hty (fun _ => rfl)
  rw [← hs] at hh
  have hne : s.stage ≠ .initial := by rw [hsol]; decide
  by_cases ha : Active s
  · obtain ⟨h1, h2⟩ := hi.act hne ha
    obtain ⟨d, hd⟩ := Option.isSome_iff_exists.mp h1
    have hp := hi.pos d hd
    have hb : s.bal ≠ .none := by rcases ha.2 with h | h <;> rw [h] <;> decide
    have r1 : retSpace orth s V = orth (fun i => pdiv (V i) d) := by unfold retSpace; rw [if_pos hb, hd]
    rw [h2, hd] at hV
    obtain ⟨q1, q2⟩ := span_fix _ d (fun i => (hp i).ne) V hV
    obtain ⟨o1, o2⟩ := horth _ q1
    rw [r1]
    exact ⟨o1, span_mulVec _ _ _ o2 q2⟩
  · rw [hi.off hne ha] at hV
    have r1 : retSpace orth s V = V := by
      unfold retSpace
      by_cases hb : s.bal ≠ .none
      · rw [if_pos hb]
        have he : s.epsD = none := by
          refine hh.2 ?_
          rw [← hh.1]
          by_contra hc
          apply ha
          refine ⟨by simpa using hc, ?_⟩
          have := hi.user
          cases hb' : s.bal <;> simp_all
        rw [he]
      · rw [if_neg hb]
    rw [r1]; exact hV

theorem rowProd_eq {n : ℕ} (S : Matrix (Fin n) (Fin n) ℂ) (D z : Vc n) (i : Fin n) : rowProd S D z i = rowQty S D z i := by
  show (∑ k, S i k * (z k / D k)) * D i = ∑ k, (D i * S i k / D k) * z k
  rw [Finset.sum_mul]
  exact Finset.sum_congr rfl fun k _ => by rw [div_eq_mul_inv, div_eq_mul_inv]; ring

theorem colProd_eq {n : ℕ} (S : Matrix (Fin n) (Fin n) ℂ) (D z : Vc n) (i : Fin n) : colProd S D z i = colQty S D z i := by
  show (∑ k, star (S k i) * (z k * D k)) / D i = ∑ k, (D k * star (S k i) / D i) * z k
  rw [Finset.sum_div]
  exact Finset.sum_congr rfl fun k _ => by rw [div_eq_mul_inv, div_eq_mul_inv]; ring

theorem loop_norma {n : ℕ} (bal : Bal) (cutoff : ℝ) (S : Matrix (Fin n) (Fin n) ℂ) (z : ℕ → Vc n) (j : ℕ) :
    (loop bal cutoff S z (j + 1)).2 = maxAbs (rowProd S (fun _ => 1) (z 0)) := by
  induction j with
  | zero => rfl
  | succ j ih =>
    rw [← ih]
    show (if j + 1 = 0 then maxAbs (rowProd S (loop bal cutoff S z (j + 1)).1 (z (j + 1))) else (loop bal cutoff S z (j + 1)).2) = _
    rw [if_neg (by omega)]

theorem build_succ {n : ℕ} (bal : Bal) (its : ℕ) (cutoff : ℝ) (S : Matrix (Fin n) (Fin n) ℂ) (z : ℕ → Vc n) :
    build bal (its + 1) cutoff S z = adjust bal cutoff (maxAbs (rowProd S (fun _ => 1) (z 0))) (rowProd S (build bal its cutoff S z) (z its))
      (colProd S (build bal its cutoff S z) (z its)) (build bal its cutoff S z) := by
  rw [← loop_norma bal cutoff S z its]
  rfl

theorem maxAbs_ge {n : ℕ} (p : Vc n) (k : Fin n) : ‖p k‖ ≤ maxAbs p := by
  have h : ‖p k‖₊ ≤ Finset.univ.sup fun i => ‖p i‖₊ := Finset.le_sup (f := fun i => ‖p i‖₊) (Finset.mem_univ k)
  exact_mod_cast h

theorem maxAbs_attained {n : ℕ} (p : Vc n) (i : Fin n) : ∃ k, maxAbs p = ‖p k‖ := by
  obtain ⟨k, _, hk⟩ := Finset.exists_mem_eq_sup Finset.univ ⟨i, Finset.mem_univ i⟩ (fun i => ‖p i‖₊)
  exact ⟨k, by unfold maxAbs; rw [hk]; rfl⟩

/-- C199: the computed diagonal is positive, and the balanced operator has the same eigenvalues as the original one. -/
theorem C199_partial {n : ℕ} (bal : Bal) (its : ℕ) (cutoff : ℝ) (hc : 0 < cutoff) (S : Matrix (Fin n) (Fin n) ℂ) (z : ℕ → Vc n) :
    (∀ i, Pos (build bal its cutoff S z i)) ∧
    ∀ lam, (∃ y, RightEig (applyOp S (some (build bal its cutoff S z))) lam y) ↔ ∃ x, RightEig S.mulVec lam x := by
  have hp : ∀ i, Pos (build bal its cutoff S z i) := (loop_pos bal cutoff S z hc.le its).1
  refine ⟨hp, fun lam => ⟨fun ⟨y, hy⟩ => ⟨_, right_fix S _ (fun i => (hp i).ne) lam y hy⟩, fun ⟨x, hx⟩ => ?_⟩⟩
  obtain ⟨d, hd⟩ : ∃ d, d = build bal its cutoff S z := ⟨_, rfl⟩
  rw [← hd] at hp ⊢
  have hn : ∀ i, d i ≠ 0 := fun i => (hp i).ne
  refine ⟨pmul x d, pmul_ne x d hn hx.1, ?_⟩
  show pmul (S.mulVec (pdiv (pmul x d) d)) d = _
  rw [pmul_pdiv x d hn, hx.2]
  funext i
  exact mul_assoc _ _ _

/-- C199: in a one-sided iteration a row with zero product is left unscaled, and the product of any other row is divided by its modulus. -/
theorem C199_oneside {n : ℕ} (its : ℕ) (cutoff : ℝ) (hc : 0 < cutoff) (S : Matrix (Fin n) (Fin n) ℂ) (z : ℕ → Vc n) (D D' : Vc n)
    (hD : D = build .oneside its cutoff S z) (hD' : D' = build .oneside (its + 1) cutoff S z) (i : Fin n) :
    (rowQty S D (z its) i = 0 → D' i = D i) ∧ (rowQty S D (z its) i ≠ 0 → ‖D' i / D i * rowQty S D (z its) i‖ = 1) := by
  have hp : Pos (D i) := hD ▸ (loop_pos .oneside cutoff S z hc.le its).1 i
  rw [build_succ, ← hD] at hD'
  have e : D' i = if rowProd S D (z its) i ≠ 0 then D i / ((‖rowProd S D (z its) i‖ : ℝ) : ℂ) else D i := by
    rw [hD']; unfold adjust; rw [if_neg (by decide)]
  rw [rowProd_eq] at e
  refine ⟨fun h => by rw [e, if_neg (by simpa using h)], fun h => ?_⟩
  rw [e, if_pos h, norm_mul, norm_div, norm_div, Complex.norm_real, norm_norm]
  have h1 : ‖D i‖ ≠ 0 := norm_ne_zero_iff.mpr hp.ne
  have h2 : ‖rowQty S D (z its) i‖ ≠ 0 := norm_ne_zero_iff.mpr h
  field_simp

/-- C199: in a two-sided iteration an entry whose row product does not exceed the cutoff relative to the estimate of the norm, or with zero column product,
is left unchanged; any other scaling makes the moduli of the row and column products equal. -/
theorem C199_twoside {n : ℕ} (its : ℕ) (cutoff : ℝ) (hc : 0 < cutoff) (S : Matrix (Fin n) (Fin n) ℂ) (z : ℕ → Vc n) (D D' : Vc n)
    (hD : D = build .twoside its cutoff S z) (hD' : D' = build .twoside (its + 1) cutoff S z) (i : Fin n) :
    ((∃ k, ‖rowQty S D (z its) i‖ ≤ cutoff * ‖rowQty S (fun _ => 1) (z 0) k‖) ∨ colQty S D (z its) i = 0 → D' i = D i) ∧
    ((∀ k, cutoff * ‖rowQty S (fun _ => 1) (z 0) k‖ < ‖rowQty S D (z its) i‖) → colQty S D (z its) i ≠ 0 →
      ‖D' i / D i‖ * ‖rowQty S D (z its) i‖ = ‖colQty S D (z its) i‖ / ‖D' i / D i‖) := by
  have hp : Pos (D i) := hD ▸ (loop_pos .twoside cutoff S z hc.le its).1 i
  rw [build_succ, ← hD] at hD'
  obtain ⟨M, hM⟩ : ∃ M, M = maxAbs (rowProd S (fun _ => 1) (z 0)) := ⟨_, rfl⟩
  have hge : ∀ k, ‖rowQty S (fun _ => 1) (z 0) k‖ ≤ M := fun k => by rw [← rowProd_eq, hM]; exact maxAbs_ge _ k
  obtain ⟨k0, hk0⟩ := maxAbs_attained (rowProd S (fun _ => 1) (z 0)) i
  rw [← hM, rowProd_eq] at hk0
  have e : D' i = if cutoff * M < ‖rowQty S D (z its) i‖ ∧ colQty S D (z its) i ≠ 0
      then D i * ((Real.sqrt ‖colQty S D (z its) i / rowQty S D (z its) i‖ : ℝ) : ℂ) else D i := by
    rw [hD', ← hM]; unfold adjust; rw [if_pos rfl, rowProd_eq, colProd_eq]
  constructor
  · intro h
    rw [e, if_neg]
    rintro ⟨h1, h2⟩
    rcases h with ⟨k, hk⟩ | h
    · have := mul_le_mul_of_nonneg_left (hge k) hc.le
      linarith
    · exact h2 h
  · intro h1 h2
    have h3 : cutoff * M < ‖rowQty S D (z its) i‖ := by rw [hk0]; exact h1 k0
    have hM0 : 0 ≤ M := by rw [hM]; exact maxAbs_nonneg _
    have hrow : 0 < ‖rowQty S D (z its) i‖ := lt_of_le_of_lt (mul_nonneg hc.le hM0) h3
    have hcol : 0 < ‖colQty S D (z its) i‖ := norm_pos_iff.mpr h2
    rw [e, if_pos ⟨h3, h2⟩, mul_div_cancel_left₀ _ hp.ne, Complex.norm_real, Real.norm_of_nonneg (Real.sqrt_nonneg _), norm_div]
    obtain ⟨a, ha⟩ : ∃ a, a = ‖rowQty S D (z its) i‖ := ⟨_, rfl⟩
    obtain ⟨b, hb⟩ : ∃ b, b = ‖colQty S D (z its) i‖ := ⟨_, rfl⟩
    rw [← ha] at hrow ⊢
    rw [← hb] at hcol ⊢
    have hs : 0 < Real.sqrt (b / a) := Real.sqrt_pos.mpr (div_pos hcol hrow)
    rw [eq_div_iff hs.ne', mul_right_comm, Real.mul_self_sqrt (div_pos hcol hrow).le, div_mul_cancel₀ _ hrow.ne']

/-- C200: a successful call that changes the method, or is made before the set-up, takes effect in the next solve: the operator is balanced with the diagonal
computed with the given arguments. -/
theorem C200_partial {n : ℕ} (s : EPS n) (b : Bal) (its : Par ℤ) (cutoff : Par ℝ) (hb : b ≠ .user) (hok : (setBalance s b its cutoff).2 = true)
    (h : s.stage = .initial ∨ s.bal ≠ b) (z : ℕ → Vc n) :
    (solve (setBalance s b its cutoff).1 z).stD = wantedD s.herm b (argVal its 5 s.its).toNat (argVal cutoff (1 / 10 ^ 8) s.cutoff) s.S z := by
  obtain ⟨e1, e2, e3, e4, e5, e6, e7⟩ := setBalance_fields s b its cutoff
  have hst : (setBalance s b its cutoff).1.stage = .initial := by
    rw [e6]
    by_cases hx : s.bal ≠ b
    · rw [if_pos hx]
    · rw [if_neg hx]; exact h.resolve_right hx
  have hits : (setBalance s b its cutoff).1.its = (argVal its 5 (s.its : ℤ)).toNat ∧ (setBalance s b its cutoff).1.cutoff = argVal cutoff (1 / 10 ^ 8) s.cutoff := by
    revert hok
    unfold setBalance argVal
    by_cases hx : s.bal ≠ b
    · cases its <;> cases cutoff <;> simp only [if_pos hx] <;> (try split_ifs) <;> simp_all
    · cases its <;> cases cutoff <;> simp only [if_neg hx] <;> (try split_ifs) <;> simp_all
  obtain ⟨t, ht⟩ : ∃ t, t = (setBalance s b its cutoff).1 := ⟨_, rfl⟩
  rw [← ht] at e1 e2 e5 hst hits ⊢
  rw [← hits.1, ← hits.2, ← e1, ← e2, ← e5]
  unfold solve setUp wantedD
  rw [if_neg (by rw [hst]; decide), if_neg (by rw [hst]; simp), if_pos (by rw [e1]; exact hb)]
  by_cases ha : t.herm = false ∧ (t.bal = .oneside ∨ t.bal = .twoside)
  · rw [if_pos ha, if_pos ha]
  · rw [if_neg ha, if_neg ha]

/-- C200: a call that keeps the method and fails because of the number of iterations leaves the object as it was. -/
theorem C200_fail_partial {n : ℕ} (s : EPS n) (k : ℤ) (hk : k ≤ 0) (cutoff : Par ℝ) : setBalance s s.bal (.val k) cutoff = (s, false) := by
  unfold setBalance
  simp only [ne_eq, not_true_eq_false, if_false]
  have h : ¬ 0 < k := by omega
  simp [h]

end
end Verif.Ebal
