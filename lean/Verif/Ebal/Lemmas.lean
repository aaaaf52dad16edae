import Verif.Ebal.Spec
/-!
Lemmas for balancing.
-/
set_option linter.all false
namespace Verif.Ebal
noncomputable section
open Classical

theorem Pos.ne {c : ℂ} (h : Pos c) : c ≠ 0 := by
  obtain ⟨a, ha, rfl⟩ := h
  exact Complex.ofReal_ne_zero.mpr ha.ne'

theorem Pos.star {c : ℂ} (h : Pos c) : star c = c := by
  obtain ⟨a, ha, rfl⟩ := h
  exact Complex.conj_ofReal a

theorem maxAbs_nonneg {n : ℕ} (p : Vc n) : 0 ≤ maxAbs p := NNReal.coe_nonneg _

theorem adjust_pos {n : ℕ} (bal : Bal) (cutoff norma : ℝ) (p r D : Vc n) (hc : 0 ≤ cutoff) (hn : 0 ≤ norma) (hD : ∀ i, Pos (D i)) (i : Fin n) :
    Pos (adjust bal cutoff norma p r D i) := by
  obtain ⟨a, ha, hDa⟩ := hD i
  unfold adjust
  by_cases hb : bal = .twoside
  · rw [if_pos hb]
    by_cases h : cutoff * norma < ‖p i‖ ∧ r i ≠ 0
    · rw [if_pos h]
      have hp : p i ≠ 0 := by
        intro h0
        have := h.1
        rw [h0, norm_zero] at this
        have := mul_nonneg hc hn
        linarith
      refine ⟨a * Real.sqrt ‖r i / p i‖, mul_pos ha (Real.sqrt_pos.mpr (norm_pos_iff.mpr (div_ne_zero h.2 hp))), ?_⟩
      rw [hDa]; push_cast; rfl
    · rw [if_neg h]; exact hD i
  · rw [if_neg hb]
    by_cases h : p i ≠ 0
    · rw [if_pos h]
      refine ⟨a / ‖p i‖, div_pos ha (norm_pos_iff.mpr h), ?_⟩
      rw [hDa]; push_cast; rfl
    · rw [if_neg h]; exact hD i

theorem loop_pos {n : ℕ} (bal : Bal) (cutoff : ℝ) (S : Matrix (Fin n) (Fin n) ℂ) (z : ℕ → Vc n) (hc : 0 ≤ cutoff) (j : ℕ) :
    (∀ i, Pos ((loop bal cutoff S z j).1 i)) ∧ 0 ≤ (loop bal cutoff S z j).2 := by
  induction j with
  | zero => exact ⟨fun i => ⟨1, one_pos, by simp [loop]⟩, le_refl _⟩
  | succ j ih =>
    have hn : 0 ≤ (if j = 0 then maxAbs (rowProd S (loop bal cutoff S z j).1 (z j)) else (loop bal cutoff S z j).2) := by
      by_cases h : j = 0
      · rw [if_pos h]; exact maxAbs_nonneg _
      · rw [if_neg h]; exact ih.2
    exact ⟨fun i => adjust_pos _ _ _ _ _ _ hc hn ih.1 i, hn⟩

theorem pdiv_pmul {n : ℕ} (x d : Vc n) (h : ∀ i, d i ≠ 0) : pmul (pdiv x d) d = x := by
  funext i; exact div_mul_cancel₀ _ (h i)

theorem pmul_pdiv {n : ℕ} (x d : Vc n) (h : ∀ i, d i ≠ 0) : pdiv (pmul x d) d = x := by
  funext i; exact mul_div_cancel_right₀ _ (h i)

theorem pdiv_ne {n : ℕ} (x d : Vc n) (h : ∀ i, d i ≠ 0) (hx : x ≠ 0) : pdiv x d ≠ 0 := by
  intro h0
  apply hx
  rw [← pdiv_pmul x d h, h0]
  funext i; exact zero_mul _

theorem pmul_ne {n : ℕ} (x d : Vc n) (h : ∀ i, d i ≠ 0) (hx : x ≠ 0) : pmul x d ≠ 0 := by
  intro h0
  apply hx
  rw [← pmul_pdiv x d h, h0]
  funext i; exact zero_div _

theorem pdiv_smul {n : ℕ} (c : ℂ) (x d : Vc n) : pdiv (c • x) d = c • pdiv x d := by
  funext i; exact mul_div_assoc _ _ _

theorem right_fix {n : ℕ} (S : Matrix (Fin n) (Fin n) ℂ) (d : Vc n) (h : ∀ i, d i ≠ 0) (lam : ℂ) (y : Vc n)
    (hy : RightEig (applyOp S (some d)) lam y) : RightEig S.mulVec lam (pdiv y d) := by
  refine ⟨pdiv_ne y d h hy.1, ?_⟩
  have h1 : pmul (S.mulVec (pdiv y d)) d = lam • y := hy.2
  rw [← pmul_pdiv (S.mulVec (pdiv y d)) d h, h1, pdiv_smul]

theorem left_fix {n : ℕ} (S : Matrix (Fin n) (Fin n) ℂ) (d : Vc n) (h : ∀ i, d i ≠ 0) (hs : ∀ i, star (d i) = d i) (lam : ℂ) (w : Vc n)
    (hw : LeftEig (applyOp S (some d)) lam w) : LeftEig S.mulVec lam (pmul w d) := by
  refine ⟨pmul_ne w d h hw.1, fun x => ?_⟩
  have h1 := hw.2 (pmul x d)
  have h2 : applyOp S (some d) (pmul x d) = pmul (S.mulVec x) d := by
    show pmul (S.mulVec (pdiv (pmul x d) d)) d = _
    rw [pmul_pdiv x d h]
  rw [h2] at h1
  have e : ∀ u : Vc n, ∑ i, star (pmul w d i) * u i = ∑ i, star (w i) * pmul u d i := by
    intro u
    refine Finset.sum_congr rfl fun i _ => ?_
    show star (w i * d i) * u i = star (w i) * (u i * d i)
    rw [star_mul', hs i]; ring
  rw [e, e]; exact h1

/-- Division by the diagonal as a linear equivalence. -/
def divEquiv {n : ℕ} (d : Vc n) (h : ∀ i, d i ≠ 0) : Vc n ≃ₗ[ℂ] Vc n where
  toFun x := pdiv x d
  invFun x := pmul x d
  map_add' x y := by funext i; exact add_div _ _ _
  map_smul' c x := pdiv_smul c x d
  left_inv x := pdiv_pmul x d h
  right_inv x := pmul_pdiv x d h

theorem span_fix {n k : ℕ} (S : Matrix (Fin n) (Fin n) ℂ) (d : Vc n) (h : ∀ i, d i ≠ 0) (V : Fin k → Vc n)
    (hV : InvBasis (applyOp S (some d)) V) : InvBasis S.mulVec (fun i => pdiv (V i) d) := by
  refine ⟨hV.1.map' (divEquiv d h).toLinearMap (LinearEquiv.ker _), fun i => ?_⟩
  have h1 : divEquiv d h (applyOp S (some d) (V i)) ∈ (Submodule.span ℂ (Set.range V)).map (divEquiv d h).toLinearMap :=
    Submodule.mem_map_of_mem (f := (divEquiv d h).toLinearMap) (hV.2 i)
  rw [Submodule.map_span, ← Set.range_comp] at h1
  have h2 : divEquiv d h (applyOp S (some d) (V i)) = S.mulVec (pdiv (V i) d) := pmul_pdiv _ d h
  rw [h2] at h1
  exact h1

theorem span_mulVec {n k : ℕ} (S : Matrix (Fin n) (Fin n) ℂ) (U V : Fin k → Vc n) (hs : Submodule.span ℂ (Set.range U) = Submodule.span ℂ (Set.range V))
    (hV : ∀ i, S.mulVec (V i) ∈ Submodule.span ℂ (Set.range V)) (i : Fin k) : S.mulVec (U i) ∈ Submodule.span ℂ (Set.range U) := by
  rw [hs]
  have hU : U i ∈ Submodule.span ℂ (Set.range V) := by rw [← hs]; exact Submodule.subset_span ⟨i, rfl⟩
  have h1 : (Submodule.span ℂ (Set.range V)) ≤ (Submodule.span ℂ (Set.range V)).comap S.mulVecLin := by
    rw [Submodule.span_le]
    rintro _ ⟨j, rfl⟩
    exact hV j
  exact h1 hU

/-- A diagonal is computed with these settings. -/
def Active {n : ℕ} (s : EPS n) : Prop := s.herm = false ∧ (s.bal = .oneside ∨ s.bal = .twoside)

/-- Invariant of the object: the ST applies the diagonal which is used in the correction. -/
structure Inv {n : ℕ} (s : EPS n) : Prop where
  cut : 0 ≤ s.cutoff
  user : s.bal ≠ .user
  pos : ∀ d, s.epsD = some d → ∀ i, Pos (d i)
  act : s.stage ≠ .initial → Active s → s.epsD.isSome = true ∧ s.stD = s.epsD
  off : s.stage ≠ .initial → ¬ Active s → s.stD = none

theorem setBalance_fields {n : ℕ} (s : EPS n) (b : Bal) (i : Par ℤ) (c : Par ℝ) :
    (setBalance s b i c).1.bal = b ∧ (setBalance s b i c).1.herm = s.herm ∧ (setBalance s b i c).1.epsD = s.epsD ∧ (setBalance s b i c).1.stD = s.stD ∧
    (setBalance s b i c).1.S = s.S ∧ (setBalance s b i c).1.stage = (if s.bal ≠ b then .initial else s.stage) ∧
    (0 ≤ s.cutoff → 0 ≤ (setBalance s b i c).1.cutoff) := by
  unfold setBalance
  by_cases hb : s.bal ≠ b
  · cases i <;> cases c <;> simp only [if_pos hb] <;> (try split_ifs) <;> simp_all <;> (try intros) <;> linarith
  · have hb' : s.bal = b := not_not.mp hb
    cases i <;> cases c <;> simp only [if_neg hb] <;> (try split_ifs) <;> simp_all <;> (try intros) <;> linarith

theorem Inv.setUp {n : ℕ} {s : EPS n} (h : Inv s) (z : ℕ → Vc n) : Inv (setUp s z) ∧ (Ebal.setUp s z).stage ≠ .initial := by
  unfold Ebal.setUp
  by_cases hs : s.stage ≠ .initial
  · rw [if_pos hs]; exact ⟨h, hs⟩
  rw [if_neg hs, if_pos h.user]
  by_cases ha : s.herm = false ∧ (s.bal = .oneside ∨ s.bal = .twoside)
  · rw [if_pos ha]
    refine ⟨⟨h.cut, h.user, ?_, fun _ _ => ⟨rfl, rfl⟩, fun _ hn => absurd ha hn⟩, by simp⟩
    intro d hd i
    rw [← Option.some.inj hd]
    exact (loop_pos _ _ _ _ h.cut _).1 i
  · rw [if_neg ha]
    exact ⟨⟨h.cut, h.user, h.pos, fun _ hn => absurd hn ha, fun _ _ => rfl⟩, by simp⟩

theorem Inv.solve {n : ℕ} {s : EPS n} (h : Inv s) (z : ℕ → Vc n) : Inv (solve s z) := by
  unfold Ebal.solve
  by_cases hs : s.stage = .solved
  · rw [if_pos hs]; exact h
  rw [if_neg hs]
  obtain ⟨h1, h2⟩ := h.setUp z
  exact ⟨h1.cut, h1.user, h1.pos, fun _ ha => h1.act h2 ha, fun _ ha => h1.off h2 ha⟩

theorem Inv.step {n : ℕ} {s : EPS n} (h : Inv s) (c : Call n) (h1 : ∀ D, c = .setUserD D → s.stage = .initial) (h2 : ∀ i t, c ≠ .setBalance .user i t) :
    Inv (step s c) := by
  cases c with
  | setBalance b i t =>
    obtain ⟨e1, e2, e3, e4, e5, e6, e7⟩ := setBalance_fields s b i t
    have hact : (setBalance s b i t).1.stage ≠ .initial → s.stage ≠ .initial ∧ s.bal = b := by
      intro hne
      rw [e6] at hne
      by_cases hb : s.bal ≠ b
      · rw [if_pos hb] at hne; exact absurd rfl hne
      · rw [if_neg hb] at hne; exact ⟨hne, not_not.mp hb⟩
    have hA : s.bal = b → (Active (setBalance s b i t).1 ↔ Active s) := by
      intro hb; unfold Active; rw [e1, e2, hb]
    refine ⟨e7 h.cut, ?_, ?_, ?_, ?_⟩
    · show (setBalance s b i t).1.bal ≠ .user
      rw [e1]; intro hb; exact h2 i t (by rw [hb])
    · show ∀ d, (setBalance s b i t).1.epsD = some d → _
      rw [e3]; exact h.pos
    · show (setBalance s b i t).1.stage ≠ .initial → Active (setBalance s b i t).1 → (setBalance s b i t).1.epsD.isSome = true ∧ (setBalance s b i t).1.stD = (setBalance s b i t).1.epsD
      intro hne ha
      obtain ⟨hs, hb⟩ := hact hne
      rw [e3, e4]
      exact h.act hs ((hA hb).mp ha)
    · show (setBalance s b i t).1.stage ≠ .initial → ¬ Active (setBalance s b i t).1 → (setBalance s b i t).1.stD = none
      intro hne ha
      obtain ⟨hs, hb⟩ := hact hne
      rw [e4]
      exact h.off hs (fun h' => ha ((hA hb).mpr h'))
  | setProblem t =>
    show Inv (setProblem s t)
    unfold setProblem
    by_cases ht : t = s.herm
    · rw [if_pos ht]; exact h
    · rw [if_neg ht]; exact ⟨h.cut, h.user, h.pos, fun hn => absurd rfl hn, fun hn => absurd rfl hn⟩
  | setUserD D =>
    have hs := h1 D rfl
    exact ⟨h.cut, h.user, h.pos, fun hn => absurd hs hn, fun hn => absurd hs hn⟩
  | other S => exact ⟨h.cut, h.user, h.pos, fun hn => absurd rfl hn, fun hn => absurd rfl hn⟩
  | reset => exact ⟨h.cut, h.user, fun d hd => (by cases hd), fun hn => absurd rfl hn, fun hn => absurd rfl hn⟩
  | setUp z => exact (h.setUp z).1
  | solve z => exact h.solve z

theorem Inv.run {n : ℕ} (cs : List (Call n)) : ∀ s : EPS n, Inv s → Orderly s cs → Inv (run s cs) := by
  induction cs with
  | nil => intro s h _; exact h
  | cons c cs ih => intro s h ho; exact ih _ (h.step c ho.1 ho.2.1) ho.2.2

theorem inv_create {n : ℕ} (S : Matrix (Fin n) (Fin n) ℂ) (herm : Bool) : Inv (create S herm) :=
  ⟨by show (0:ℝ) ≤ 1 / 10 ^ 8; positivity, by show Bal.none ≠ Bal.user; decide, fun d hd => (by cases hd), fun hn => absurd rfl hn, fun hn => absurd rfl hn⟩

/-- The problem type stays the same in the absence of calls changing it; with a Hermitian problem no diagonal is ever created. -/
theorem herm_run {n : ℕ} (cs : List (Call n)) : ∀ s : EPS n, (∀ h, Call.setProblem h ∉ cs) → (s.herm = true → s.epsD = none) →
    (run s cs).herm = s.herm ∧ (s.herm = true → (run s cs).epsD = none) := by
  induction cs with
  | nil => intro s _ h; exact ⟨rfl, h⟩
  | cons c cs ih =>
    intro s hc h
    have hst : (step s c).herm = s.herm ∧ (s.herm = true → (step s c).epsD = none) := by
      cases c with
      | setBalance b i t =>
        obtain ⟨e1, e2, e3, _⟩ := setBalance_fields s b i t
        exact ⟨e2, fun hh => e3.trans (h hh)⟩
      | setProblem t => exact absurd (List.mem_cons_self) (hc t)
      | setUserD D => exact ⟨rfl, h⟩
      | other S => exact ⟨rfl, h⟩
      | reset => exact ⟨rfl, fun _ => rfl⟩
      | setUp z =>
        show (setUp s z).herm = s.herm ∧ (s.herm = true → (setUp s z).epsD = none)
        unfold setUp
        split_ifs with h1 h2 h3
        · exact ⟨rfl, h⟩
        · exact ⟨rfl, fun hh => by rw [hh] at h3; exact absurd h3.1 (by decide)⟩
        · exact ⟨rfl, h⟩
        · exact ⟨rfl, h⟩
      | solve z =>
        show (solve s z).herm = s.herm ∧ (s.herm = true → (solve s z).epsD = none)
        unfold solve setUp
        split_ifs with h1 h2 h3 h4
        · exact ⟨rfl, h⟩
        · exact ⟨rfl, h⟩
        · exact ⟨rfl, fun hh => by rw [hh] at h4; exact absurd h4.1 (by decide)⟩
        · exact ⟨rfl, h⟩
        · exact ⟨rfl, h⟩
    have := ih (step s c) (fun t ht => hc t (List.mem_cons_of_mem _ ht)) (fun hh => hst.2 (hst.1 ▸ hh))
    exact ⟨this.1.trans hst.1, fun hh => this.2 (hst.1.trans hh)⟩

end
end Verif.Ebal
