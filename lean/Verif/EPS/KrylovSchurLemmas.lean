import Verif.EPS.KrylovSchurModel
import Verif.BV.KrylovTheorems
import Verif.EPS.ConvTheorems
import Verif.DS.DimsTheorems
/-!
Lemmas on the pieces of the Krylov-Schur cycle.
-/
set_option linter.all false
namespace Verif.EPS.KS
noncomputable section
open Classical Verif.BV Verif.EPS
variable {𝕜 : Type} [RCLike 𝕜] {E : Type} [NormedAddCommGroup E] [InnerProductSpace 𝕜 E]

theorem slots_holds (cs : List E) (V : Nat → E) (n : Nat) : Holds (slots (𝕜 := 𝕜) cs V n) (cs ++ cols V n) := by
  refine ⟨?_, ?_, ?_⟩
  · unfold slots
    rw [List.map_map]
    conv_rhs => rw [← List.map_id (cs ++ cols V n)]
    rfl
  · intro s hs
    obtain ⟨v, _, rfl⟩ := List.mem_map.1 hs
    rfl
  · intro s hs
    obtain ⟨v, _, rfl⟩ := List.mem_map.1 hs
    rfl

/-- An orthonormal family after an orthonormal list, in terms of indices. -/
theorem onl_iff (cs : List E) (W : Nat → E) (n : Nat) :
    ONList 𝕜 (cs ++ cols W n) ↔ ONList 𝕜 cs ∧ (∀ c ∈ cs, ∀ i, i < n → inner 𝕜 c (W i) = 0) ∧
      ∀ i j, i < n → j < n → inner 𝕜 (W i) (W j) = if i = j then (1 : 𝕜) else 0 := by
  constructor
  · intro h
    have ho := List.pairwise_append.1 h.orth
    refine ⟨⟨fun v hv => h.unit v (List.mem_append_left _ hv), ho.1⟩, ?_, ?_⟩
    · intro c hc i hi
      exact ho.2.2 c hc _ (List.mem_map.2 ⟨i, List.mem_range.2 hi, rfl⟩)
    · intro i j hi hj
      have hp := List.pairwise_iff_getElem.1 ho.2.1
      by_cases hij : i = j
      · subst hij
        rw [if_pos rfl, inner_self_eq_norm_sq_to_K,
          h.unit (W i) (List.mem_append_right _ (List.mem_map.2 ⟨i, List.mem_range.2 hi, rfl⟩))]
        simp
      · rw [if_neg hij]
        rcases lt_or_gt_of_ne hij with hlt | hgt
        · simpa [cols] using hp i j (by simpa [cols] using hi) (by simpa [cols] using hj) hlt
        · have := hp j i (by simpa [cols] using hj) (by simpa [cols] using hi) hgt
          simp only [cols, List.getElem_map, List.getElem_range] at this
          exact inner_eq_zero_symm.1 this
  · rintro ⟨h1, h2, h3⟩
    refine ⟨?_, ?_⟩
    · intro v hv
      rcases List.mem_append.1 hv with hv | hv
      · exact h1.unit v hv
      · obtain ⟨i, hi, rfl⟩ := List.mem_map.1 hv
        have := h3 i i (List.mem_range.1 hi) (List.mem_range.1 hi)
        rw [if_pos rfl, inner_self_eq_norm_sq_to_K] at this
        have h5 : ‖W i‖ ^ 2 = 1 := by exact_mod_cast this
        nlinarith [norm_nonneg (W i)]
    · rw [List.pairwise_append]
      refine ⟨h1.orth, ?_, ?_⟩
      · rw [List.pairwise_iff_getElem]
        intro i j hi hj hij
        have hi' : i < n := by simpa [cols] using hi
        have hj' : j < n := by simpa [cols] using hj
        simpa [cols, hij.ne] using h3 i j hi' hj'
      · intro c hc v hv
        obtain ⟨i, hi, rfl⟩ := List.mem_map.1 hv
        exact h2 c hc i (List.mem_range.1 hi)

/-- `BVMatArnoldi` from column `k` of a matrix whose columns before `k` hold anything. -/
theorem arn_restart [FiniteDimensional 𝕜 E] (o : OrthOpts) (he : o.eta ≤ 1) (A : E →ₗ[𝕜] E) (cs : List E)
    (k m ldh : Nat) (hkm : k < m) (ss : List (Slot 𝕜 E)) (V0 : Nat → E) (hh : Holds ss (cs ++ cols V0 (k + 1)))
    (ho : ONList 𝕜 (cs ++ cols V0 (k + 1))) (buf h0 : Nat → Nat → 𝕜) (hz : ∀ i j, k ≤ j → j + 1 < i → h0 i j = 0) :
    let r := matArnoldi (ipForm 𝕜 E) o A (Module.finrank 𝕜 E) cs.length k m ldh ss buf h0
    ∃ V : Nat → E, (∀ i, i ≤ k → V i = V0 i) ∧ r.ss.map Slot.v = cs ++ cols V (r.m + 1) ∧ k < r.m ∧ r.m ≤ m ∧
      ONList 𝕜 (cs ++ cols V r.m) ∧
      (∀ j, k ≤ j → j < r.m → ∃ c ∈ Submodule.span 𝕜 {v | v ∈ cs},
        A (V j) = c + ∑ i ∈ Finset.range r.m, r.H i j • V i + (if j + 1 = r.m then (r.beta : 𝕜) • V r.m else 0)) ∧
      (∀ i j, k ≤ j → j + 1 < i → r.H i j = 0) ∧ (∀ i j, j < k → r.H i j = h0 i j) ∧
      (r.breakdown = false → r.m = m ∧ 0 < r.beta ∧ ONList 𝕜 (cs ++ cols V (m + 1)) ∧
        (m < ldh → r.H m (m - 1) = (r.beta : 𝕜))) ∧
      (r.breakdown = true → r.beta = 0 ∧ V r.m = 0) := by
  intro r
  have key := C80_arnoldi o he A cs k m ldh hkm ss V0 hh ho buf (fun i j => if k ≤ j then h0 i j else 0)
    (by
      intro i j hij
      by_cases hk : k ≤ j
      · simp only [hk, if_true]; exact hz i j hk hij
      · simp only [hk, if_false])
  obtain ⟨V, v1, v2, v3, v4, v5, v6, v7, v8, v9⟩ := key
  have hH : ∀ i j, k ≤ j → (matArnoldi (ipForm 𝕜 E) o A (Module.finrank 𝕜 E) cs.length k m ldh ss buf
      (fun i j => if k ≤ j then h0 i j else 0)).H i j = r.H i j := by
    intro i j hj
    rw [show r = matArnoldi (ipForm 𝕜 E) o A (Module.finrank 𝕜 E) cs.length k m ldh ss buf h0 from rfl]
    unfold matArnoldi
    dsimp only
    unfold arnH
    simp only [hj, if_true]
  refine ⟨V, v1, v2, v3, v4, v5, ?_, ?_, ?_, ?_, v9⟩
  · intro j hj hj2
    obtain ⟨c, hc, e⟩ := v6 j hj hj2
    refine ⟨c, hc, e.trans ?_⟩
    congr 1
    congr 1
    exact Finset.sum_congr rfl fun i _ => by rw [hH i j hj]
  · intro i j hj hij
    rw [← hH i j hj]
    exact v7 i j hij
  · intro i j hj
    have h3 : k < r.m := v3
    show arnH _ _ _ _ _ i j = _
    unfold arnH
    have e1 : ¬ (k ≤ j ∧ j < r.m - 1 ∧ i < j + 2) := by omega
    have e2 : ¬ (j = r.m - 1 ∧ i < r.m) := by omega
    have e3 : ¬ (ldh > r.m ∧ i = r.m ∧ j = r.m - 1) := by omega
    exact (if_neg e1).trans ((if_neg e2).trans (if_neg e3))
  · intro hb
    obtain ⟨b1, b2, b3, b4⟩ := v8 hb
    refine ⟨b1, b2, b3, fun h => ?_⟩
    rw [← hH m (m - 1) (by omega)]
    exact b4 h

/-- Without pairs every index is visited. -/
theorem begin_all {k0 j : Nat} (pair : Nat → Bool) (hp : ∀ i, pair i = false) (h : k0 ≤ j) : Begin pair k0 j := by
  obtain ⟨i, rfl⟩ := Nat.exists_eq_add_of_le h
  induction i with
  | zero => exact Begin.first
  | succ i ih =>
    have := Begin.next (k0 + i) (ih (by omega))
    rw [hp, if_neg (by simp)] at this
    exact this

/-- The number of converged values of a cycle without pairs. -/
theorem conv_k (P : Params) (e : Nat → ℂ) (d : DenseOut 𝕜) (beta : ℝ) (hp : ∀ i, d.pair i = false) (nconv nv : Nat) (hn : nconv ≤ nv)
    (err : Nat → Option ℝ) :
    let c := krylovConvergence (convData P e d beta) false nconv (nv - nconv) err
    nconv ≤ c.1 ∧ c.1 ≤ nv ∧ (∀ j, j < nconv → c.2 j = err j) ∧
      (∀ j, nconv ≤ j → j < c.1 → P.inside (e j) = true ∧ c.2 j = some (P.conv (e j) (d.last j * beta)) ∧ P.conv (e j) (d.last j * beta) < P.tol) ∧
      (c.1 = nv ∨ P.inside (e c.1) = false ∨ P.tol ≤ P.conv (e c.1) (d.last c.1 * beta)) := by
  intro c
  have hN : Numbers (convData P e d beta) := fun k => ⟨by simp [convData], by simp [convData]⟩
  have hp' : ∀ i, (convData P e d beta).pair i = false := hp
  obtain ⟨h1, h2, h3, h4⟩ := C65_partial (convData P e d beta) hN false nconv (nv - nconv) err c.1 rfl
  have hle : c.1 ≤ nv := by
    by_contra hc
    have hf := firstBad_spec (convData P e d beta) (nconv + (nv - nconv)) (nv - nconv) nconv (le_refl _)
    have e1 : c.1 = firstBad (convData P e d beta) (nconv + (nv - nconv)) (nv - nconv) nconv := loop_none _ hN _ _ _ _ _
    rw [← e1] at hf
    have := (hf.2.1 nv (begin_all _ hp' hn) (by omega)).1
    omega
  refine ⟨begin_ge h1, hle, ?_, ?_, ?_⟩
  · intro j hj
    exact loop_below _ _ _ _ _ _ _ _ hj
  · intro j hj1 hj2
    have ha := h2 j (begin_all _ hp' hj1) hj2
    obtain ⟨a1, a2, a3⟩ := ha
    have hb := C65_errest (convData P e d beta) hN false nconv (nv - nconv) err j (begin_all _ hp' hj1) (by omega) (Or.inr hj2.le)
      _ 0 rfl rfl
    refine ⟨a1, hb.1, ?_⟩
    obtain ⟨y, hy, hlt⟩ := a2
    have : P.conv (e j) (d.last j * beta) = y := Option.some.inj hy
    rw [this]; exact hlt
  · rcases h3 with h3 | h3
    · left; omega
    · right
      by_contra hc
      push_neg at hc
      refine h3 ⟨?_, ⟨_, rfl, hc.2⟩, fun h => absurd h (by simp [convData])⟩
      have := hc.1
      cases hq : P.inside (e c.1) with
      | true => exact hq
      | false => exact absurd hq this

/-- The effect of truncation. -/
theorem truncated_row (l n n1 : Nat) (h : n1 < n) (A : Nat → Nat → 𝕜) (j : Nat) (h1 : l ≤ j) (h2 : j < n1) :
    truncated l n n1 A n1 j = A n j := by
  unfold truncated DS.truncMat
  rw [if_pos ⟨rfl, rfl⟩]
  dsimp only
  rw [if_neg (by omega), if_pos (by omega)]
  rfl

theorem truncated_zero (l n n1 : Nat) (A : Nat → Nat → 𝕜) (j : Nat) (h1 : l ≤ j) (h2 : j < n) :
    truncated l n n1 A n j = 0 := by
  unfold truncated DS.truncMat
  rw [if_pos ⟨rfl, rfl⟩]
  dsimp only
  rw [if_pos (by omega)]

theorem truncated_other (l n n1 : Nat) (A : Nat → Nat → 𝕜) (i j : Nat) (h1 : ¬ (i = n ∧ l ≤ j ∧ j < n)) (h2 : ¬ (i = n1 ∧ l ≤ j ∧ j < n1)) :
    truncated l n n1 A i j = A i j := by
  unfold truncated DS.truncMat
  rw [if_pos ⟨rfl, rfl⟩]
  dsimp only
  rw [if_neg (by omega), if_neg (by omega)]
  rfl

end
end Verif.EPS.KS
