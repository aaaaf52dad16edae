import Verif.EPS.KrylovSchurLemmas
import Verif.EPS.KrylovSchurSpec
/-!
One Krylov-Schur cycle preserves the decomposition.
-/
set_option linter.all false
namespace Verif.EPS.KS
noncomputable section
open Classical Verif.BV Verif.EPS
variable {𝕜 : Type} [RCLike 𝕜] {E : Type} [NormedAddCommGroup E] [InnerProductSpace 𝕜 E]

/-- The rotated basis. -/
def rotV (c nv : Nat) (Q : Nat → Nat → 𝕜) (V : Nat → E) : Nat → E := rotate nv c nv Q V

/-- As a full combination. -/
theorem rotV_eq (c nv : Nat) (hc : c < nv) (Q : Nat → Nat → 𝕜) (V : Nat → E)
    (hQ : ∀ i j, i < nv → j < nv → (i < c ∨ j < c) → Q i j = if i = j then 1 else 0) (j : Nat) (hj : j < nv) :
    rotV c nv Q V j = ∑ i ∈ Finset.range nv, Q i j • V i := by
  unfold rotV rotate
  by_cases h : c ≤ j
  · rw [if_pos ⟨h, hj⟩, Finset.range_eq_Ico, ← Finset.sum_Ico_consecutive _ (Nat.zero_le c) hc.le]
    rw [Finset.sum_eq_zero (s := Finset.Ico 0 c), zero_add]
    intro i hi
    have hi' := Finset.mem_Ico.1 hi
    rw [hQ i j (by omega) hj (Or.inl hi'.2), if_neg (by omega), zero_smul]
  · rw [if_neg (fun hh => h hh.1), Finset.sum_eq_single j]
    · rw [hQ j j hj hj (Or.inl (by omega)), if_pos rfl, one_smul]
    · intro i hi hne
      rw [hQ i j (Finset.mem_range.1 hi) hj (Or.inr (by omega)), if_neg hne, zero_smul]
    · intro hh; exact absurd (Finset.mem_range.2 hj) hh

/-- Rotation by a unitary matrix keeps the basis orthonormal. -/
theorem rotV_on (cs : List E) (c nv : Nat) (hc : c < nv) (Q : Nat → Nat → 𝕜) (V : Nat → E)
    (hQ : ∀ i j, i < nv → j < nv → (i < c ∨ j < c) → Q i j = if i = j then 1 else 0)
    (hU : ∀ i j, i < nv → j < nv → ∑ a ∈ Finset.range nv, star (Q a i) * Q a j = if i = j then 1 else 0)
    (h : ONList 𝕜 (cs ++ cols V nv)) : ONList 𝕜 (cs ++ cols (rotV c nv Q V) nv) := by
  obtain ⟨h1, h2, h3⟩ := (onl_iff cs V nv).1 h
  refine (onl_iff cs _ nv).2 ⟨h1, ?_, ?_⟩
  · intro x hx i hi
    rw [rotV_eq c nv hc Q V hQ i hi, inner_sum]
    refine Finset.sum_eq_zero fun a ha => ?_
    rw [inner_smul_right, h2 x hx a (Finset.mem_range.1 ha), mul_zero]
  · intro i j hi hj
    rw [rotV_eq c nv hc Q V hQ i hi, rotV_eq c nv hc Q V hQ j hj, sum_inner, ← hU i j hi hj]
    refine Finset.sum_congr rfl fun a ha => ?_
    have ha' := Finset.mem_range.1 ha
    rw [inner_smul_left, inner_sum, Finset.sum_eq_single a]
    · rw [inner_smul_right, h3 a a ha' ha', if_pos rfl, mul_one]; rfl
    · intro b hb hne
      rw [inner_smul_right, h3 a b ha' (Finset.mem_range.1 hb), if_neg (Ne.symm hne), mul_zero]
    · intro hh; exact absurd ha hh

/-- A vector orthogonal to the basis is orthogonal to the rotated basis. -/
theorem rotV_snoc (cs : List E) (c nv : Nat) (hc : c < nv) (Q : Nat → Nat → 𝕜) (V W : Nat → E) (x : E)
    (hQ : ∀ i j, i < nv → j < nv → (i < c ∨ j < c) → Q i j = if i = j then 1 else 0)
    (hU : ∀ i j, i < nv → j < nv → ∑ a ∈ Finset.range nv, star (Q a i) * Q a j = if i = j then 1 else 0)
    (h : ONList 𝕜 (cs ++ cols V nv ++ [x])) (k : Nat) (hk : k ≤ nv) (hW : ∀ i, i < k → W i = rotV c nv Q V i) (hWk : W k = x) :
    ONList 𝕜 (cs ++ cols W (k + 1)) := by
  have hp := List.pairwise_append.1 h.orth
  have hr := rotV_on cs c nv hc Q V hQ hU (h.sublist (List.sublist_append_left _ _))
  obtain ⟨r1, r2, r3⟩ := (onl_iff cs _ nv).1 hr
  have hx : ‖x‖ = 1 := h.unit x (by simp)
  have hxc : ∀ a ∈ cs, inner 𝕜 a x = 0 := fun a ha => hp.2.2 a (List.mem_append_left _ ha) x (by simp)
  have hxV : ∀ i, i < nv → inner 𝕜 (V i) x = 0 := fun i hi =>
    hp.2.2 _ (List.mem_append_right _ (List.mem_map.2 ⟨i, List.mem_range.2 hi, rfl⟩)) x (by simp)
  have hxW : ∀ i, i < nv → inner 𝕜 (rotV c nv Q V i) x = 0 := by
    intro i hi
    rw [rotV_eq c nv hc Q V hQ i hi, sum_inner]
    refine Finset.sum_eq_zero fun a ha => ?_
    rw [inner_smul_left, hxV a (Finset.mem_range.1 ha), mul_zero]
  refine (onl_iff cs W (k + 1)).2 ⟨r1, ?_, ?_⟩
  · intro a ha i hi
    rcases Nat.lt_succ_iff_lt_or_eq.1 hi with hi | rfl
    · rw [hW i hi]; exact r2 a ha i (by omega)
    · rw [hWk]; exact hxc a ha
  · intro i j hi hj
    rcases Nat.lt_succ_iff_lt_or_eq.1 hi with hi | rfl
    · rcases Nat.lt_succ_iff_lt_or_eq.1 hj with hj | rfl
      · rw [hW i hi, hW j hj]; exact r3 i j (by omega) (by omega)
      · rw [hW i hi, hWk, if_neg (by omega)]; exact hxW i (by omega)
    · rcases Nat.lt_succ_iff_lt_or_eq.1 hj with hj | rfl
      · rw [hW j hj, hWk, if_neg (by omega)]; exact inner_eq_zero_symm.1 (hxW j (by omega))
      · rw [hWk, if_pos rfl, inner_self_eq_norm_sq_to_K, hx]; simp

/-- A family of elements of a submodule, combined. -/
theorem collect {S : Submodule 𝕜 E} (s : Finset Nat) (q : Nat → 𝕜) (f g : Nat → E) (h : ∀ i ∈ s, ∃ c ∈ S, f i = c + g i) :
    ∃ c ∈ S, ∑ i ∈ s, q i • f i = c + ∑ i ∈ s, q i • g i := by
  choose! c hc e using h
  refine ⟨∑ i ∈ s, q i • c i, Submodule.sum_mem _ fun i hi => Submodule.smul_mem _ _ (hc i hi), ?_⟩
  rw [← Finset.sum_add_distrib]
  exact Finset.sum_congr rfl fun i hi => by rw [e i hi, smul_add]

/-- The Krylov relation in the rotated basis. -/
theorem rotV_rel (Op : E →ₗ[𝕜] E) (S : Submodule 𝕜 E) (c nv : Nat) (hc : c < nv) (Q H T : Nat → Nat → 𝕜) (V : Nat → E) (beta : 𝕜)
    (hQ : ∀ i j, i < nv → j < nv → (i < c ∨ j < c) → Q i j = if i = j then 1 else 0)
    (hs : ∀ i j, i < nv → c ≤ j → j < nv → ∑ a ∈ Finset.range nv, H i a * Q a j = ∑ a ∈ Finset.range nv, Q i a * T a j)
    (ht : ∀ i j, c ≤ j → j < i → i < nv → T i j = 0)
    (hrel : ∀ j, c ≤ j → j < nv → ∃ x ∈ S, Op (V j) = x + (∑ i ∈ Finset.range nv, H i j • V i + (if j + 1 = nv then beta • V nv else 0)))
    (j : Nat) (h1 : c ≤ j) (h2 : j < nv) :
    ∃ x ∈ S, Op (rotV c nv Q V j) = x + ∑ i ∈ Finset.range (j + 1), T i j • rotV c nv Q V i + (beta * Q (nv - 1) j) • V nv := by
  have e0 : rotV c nv Q V j = ∑ i ∈ Finset.Ico c nv, Q i j • V i := by
    unfold rotV rotate; rw [if_pos ⟨h1, h2⟩]
  obtain ⟨x, hx, e⟩ := collect (S := S) (Finset.Ico c nv) (fun i => Q i j) (fun i => Op (V i)) _
    (fun i hi => hrel i (Finset.mem_Ico.1 hi).1 (Finset.mem_Ico.1 hi).2)
  refine ⟨x, hx, ?_⟩
  rw [e0, map_sum]
  simp only [map_smul]
  rw [e, add_assoc]
  congr 1
  simp only [smul_add, Finset.sum_add_distrib]
  congr 1
  · -- the square part
    have full : ∀ (g : Nat → E), ∑ i ∈ Finset.Ico c nv, Q i j • g i = ∑ i ∈ Finset.range nv, Q i j • g i := by
      intro g
      rw [Finset.range_eq_Ico, ← Finset.sum_Ico_consecutive _ (Nat.zero_le c) hc.le, Finset.sum_eq_zero (s := Finset.Ico 0 c), zero_add]
      intro i hi
      have hi' := Finset.mem_Ico.1 hi
      rw [hQ i j (by omega) h2 (Or.inl hi'.2), if_neg (by omega), zero_smul]
    rw [full]
    have hT : ∑ i ∈ Finset.range (j + 1), T i j • rotV c nv Q V i = ∑ i ∈ Finset.range nv, T i j • rotV c nv Q V i := by
      refine Finset.sum_subset (Finset.range_subset_range.2 (by omega)) fun i hi hi2 => ?_
      rw [ht i j h1 (by simpa using hi2) (Finset.mem_range.1 hi), zero_smul]
    rw [hT]
    have l : ∑ i ∈ Finset.range nv, Q i j • ∑ a ∈ Finset.range nv, H a i • V a =
        ∑ a ∈ Finset.range nv, (∑ i ∈ Finset.range nv, H a i * Q i j) • V a := by
      simp only [Finset.smul_sum, Finset.sum_smul]
      rw [Finset.sum_comm]
      refine Finset.sum_congr rfl fun a _ => Finset.sum_congr rfl fun i _ => ?_
      rw [smul_smul, mul_comm]
    have r : ∑ i ∈ Finset.range nv, T i j • rotV c nv Q V i = ∑ a ∈ Finset.range nv, (∑ i ∈ Finset.range nv, Q a i * T i j) • V a := by
      simp only [Finset.sum_smul]
      rw [Finset.sum_comm]
      refine Finset.sum_congr rfl fun i hi => ?_
      rw [rotV_eq c nv hc Q V hQ i (Finset.mem_range.1 hi), Finset.smul_sum]
      refine Finset.sum_congr rfl fun a _ => ?_
      rw [smul_smul, mul_comm]
    rw [l, r]
    exact Finset.sum_congr rfl fun a ha => by rw [hs a j (Finset.mem_range.1 ha) h1 h2]
  · rw [Finset.sum_eq_single (nv - 1)]
    · rw [if_pos (by omega), smul_smul, mul_comm]
    · intro i hi hne
      have hi' := Finset.mem_Ico.1 hi
      rw [if_neg (by omega), smul_zero]
    · intro hh; exact absurd (Finset.mem_Ico.2 ⟨by omega, by omega⟩) hh

/-- The situation after the solution of the projected problem, for a state with the decomposition. -/
structure Solved (Op : E →ₗ[𝕜] E) (cs : List E) (s : State 𝕜 E) (nv0 nv : Nat) (d : DenseOut 𝕜) (beta : ℝ) (bd : Bool) (V : Nat → E) : Prop where
  lt : s.nconv + s.l < nv
  le : nv ≤ nv0
  unit : ∀ i j, i < nv → j < nv → ∑ c ∈ Finset.range nv, star (d.Q c i) * d.Q c j = if i = j then 1 else 0
  block : ∀ i j, i < nv → j < nv → (i < s.nconv ∨ j < s.nconv) → d.Q i j = if i = j then 1 else 0
  keep : ∀ i, i ≤ s.nconv + s.l → V i = s.V i
  on : ONList 𝕜 (cs ++ cols V nv)
  rel : ∀ j, s.nconv ≤ j → j < nv → ∃ x ∈ Submodule.span 𝕜 {v | v ∈ cs},
    Op (rotV s.nconv nv d.Q V j) = x + ∑ i ∈ Finset.range (j + 1), d.T i j • rotV s.nconv nv d.Q V i + ((beta : 𝕜) * d.Q (nv - 1) j) • V nv
  same : ∀ i j, i ≤ j → j < s.nconv → d.T i j = s.A i j
  tri : ∀ i j, s.nconv ≤ j → j < i → i < nv → d.T i j = 0
  row : bd = false → ∀ j, s.nconv ≤ j → j < nv → withRow nv d nv j = (beta : 𝕜) * d.Q (nv - 1) j
  row0 : ∀ j, j < s.nconv → withRow nv d nv j = s.A nv j
  low : ∀ i j, j < s.nconv → s.nconv < i → i < nv → j + 1 < i → d.T i j = 0
  out : ∀ i j, j + 1 < i → nv < i ∨ nv ≤ j → d.T i j = 0
  good : bd = false → nv = nv0 ∧ 0 < beta ∧ ONList 𝕜 (cs ++ cols V nv ++ [V nv])
  bad : bd = true → beta = 0 ∧ V nv = 0

theorem Solved.unorm {Op : E →ₗ[𝕜] E} {cs : List E} {s : State 𝕜 E} {nv0 nv : Nat} {d : DenseOut 𝕜} {beta : ℝ} {bd : Bool} {V : Nat → E}
    (h : Solved Op cs s nv0 nv d beta bd V) : ‖V nv‖ ≤ 1 := by
  cases hb : bd with
  | true => rw [(h.bad hb).2]; simp
  | false => exact ((h.good hb).2.2.unit _ (by simp)).le

theorem Good.solved [FiniteDimensional 𝕜 E] (o : OrthOpts) (he : o.eta ≤ 1) (Op : E →ₗ[𝕜] E) (cs : List E) (P : Params) (dense : Dense 𝕜)
    (hd : DenseOK dense) (s : State 𝕜 E) (hs : Good Op cs s) (nv0 : Nat) (hn : s.nconv + s.l < nv0) (hld : nv0 ≤ P.ncv) (d : DenseOut 𝕜) :
    let r := matArnoldi (ipForm 𝕜 E) o Op (Module.finrank 𝕜 E) cs.length (s.nconv + s.l) nv0 (P.ncv + 1)
      (slots cs s.V (s.nconv + s.l + 1)) s.buf s.A
    dense (decide (s.l ≠ 0)) s.nconv r.m r.H = some d →
    ∃ V : Nat → E, (∀ i, i ≤ r.m → (r.ss.map Slot.v).getD (cs.length + i) 0 = V i) ∧ Solved Op cs s nv0 r.m d r.beta r.breakdown V := by
  intro r hde
  obtain ⟨V, v1, v2, v3, v4, v5, v6, v7, v7', v8, v9⟩ := arn_restart o he Op cs (s.nconv + s.l) nv0 (P.ncv + 1) hn
    (slots cs s.V (s.nconv + s.l + 1)) s.V (slots_holds _ _ _) hs.on s.buf s.A (fun i j hj hij => hs.zero i j hij (Or.inr hj))
  rw [show matArnoldi (ipForm 𝕜 E) o Op (Module.finrank 𝕜 E) cs.length (s.nconv + s.l) nv0 (P.ncv + 1)
      (slots cs s.V (s.nconv + s.l + 1)) s.buf s.A = r from rfl] at *
  have hc : s.nconv < r.m := by omega
  have hunit := hd.unit _ _ _ _ _ hde hc
  have hblock := hd.block _ _ _ _ _ hde hc
  have hsim := hd.sim _ _ _ _ _ hde hc
  have htri := hd.tri _ _ _ _ _ hde hc
  have hlocked := hd.locked _ _ _ _ _ hde hc
  have hlow := hd.low _ _ _ _ _ hde hc
  have hout := hd.outside _ _ _ _ _ hde hc
  have hrow : ∀ j, j + 1 < r.m → r.H r.m j = 0 := by
    intro j hj
    by_cases hp : j < s.nconv + s.l
    · rw [v7' r.m j hp]; exact hs.zero _ _ hj (Or.inl v3)
    · exact v7 _ _ (by omega) hj
  refine ⟨V, ?_, v3, v4, hunit, hblock, v1, v5, ?_, ?_, htri, ?_, ?_, ?_, ?_, ?_, v9⟩
  · intro i hi
    rw [v2, List.getD, List.getElem?_append_right (by omega), Nat.add_sub_cancel_left]
    simp [cols, List.getElem?_map, List.getElem?_range (show i < r.m + 1 by omega)]
  · refine rotV_rel Op _ s.nconv r.m hc d.Q r.H d.T V (r.beta : 𝕜) hblock hsim htri ?_
    intro j hj1 hj2
    by_cases hp : j < s.nconv + s.l
    · obtain ⟨x, hx, e⟩ := hs.active j hj1 hp
      refine ⟨x, hx, ?_⟩
      rw [v1 j hp.le, e, if_neg (by omega), add_zero]
      congr 1
      have hsub : Finset.range (s.nconv + s.l + 1) ⊆ Finset.range r.m := Finset.range_subset_range.2 (by omega)
      rw [← Finset.sum_subset hsub (f := fun i => r.H i j • V i)]
      · refine Finset.sum_congr rfl fun i hi => ?_
        rw [v7' i j hp, v1 i (by have := Finset.mem_range.1 hi; omega)]
      · intro i _ hi2
        have hi' : ¬ i < s.nconv + s.l + 1 := fun hh => hi2 (Finset.mem_range.2 hh)
        rw [v7' i j hp, hs.zero i j (by omega) (Or.inl (by omega)), zero_smul]
    · obtain ⟨x, hx, e⟩ := v6 j (by omega) hj2
      exact ⟨x, hx, by rw [e, add_assoc]⟩
  · intro i j hij hj
    rw [hlocked i j hij hj, v7' i j (by omega)]
  · intro hb j hj1 hj2
    obtain ⟨b1, b2, b3, b4⟩ := v8 hb
    unfold withRow
    rw [if_pos ⟨rfl, hj2⟩, DS.C57_update, Finset.sum_eq_single (r.m - 1)]
    · rw [hout r.m (r.m - 1) (Or.inl le_rfl)]
      have := b4 (by omega)
      rw [← b1] at this
      rw [this]
    · intro i hi hne
      have hi' := Finset.mem_range.1 hi
      rw [hout r.m i (Or.inl le_rfl), hrow i (by omega), zero_mul]
    · intro hh; exact absurd (Finset.mem_range.2 (by omega)) hh
  · intro j hj
    unfold withRow
    rw [if_pos ⟨rfl, by omega⟩, DS.C57_update, Finset.sum_eq_single j]
    · rw [hblock j j (by omega) (by omega) (Or.inl hj), if_pos rfl, mul_one, hout _ _ (Or.inl le_rfl), v7' _ _ (by omega)]
    · intro i hi hne
      rw [hblock i j (Finset.mem_range.1 hi) (by omega) (Or.inr hj), if_neg hne, mul_zero]
    · intro hh; exact absurd (Finset.mem_range.2 (by omega)) hh
  · intro i j hj hi1 hi2 hij
    rw [hlow i j hj hij hi2]
    by_cases hl : s.l = 0
    · rw [if_neg (by simp [hl]), v7' i j (by omega)]
      exact hs.zero i j hij (Or.inl (by omega))
    · rw [if_pos (by simp [hl])]
  · intro i j hij h
    rw [hout i j (by omega)]
    by_cases hp : j < s.nconv + s.l
    · rw [v7' i j hp]; exact hs.zero i j hij (Or.inl (by omega))
    · exact v7 i j (by omega) hij
  · intro hb
    obtain ⟨b1, b2, b3, b4⟩ := v8 hb
    refine ⟨b1, b2, ?_⟩
    rw [← b1, cols_succ, ← List.append_assoc] at b3
    exact b3

end
end Verif.EPS.KS
