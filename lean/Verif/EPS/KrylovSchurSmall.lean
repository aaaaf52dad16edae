import Verif.EPS.KrylovSchurTheorems
import Verif.LME.WitnessLemmas
/-!
Small factorizations and a small dense solver, for examples and counterexamples of the Krylov-Schur solver.
-/
set_option linter.all false
namespace Verif.EPS.KS
noncomputable section
open Classical Verif.BV Verif.EPS
variable {𝕜 : Type} [RCLike 𝕜] {E : Type} [NormedAddCommGroup E] [InnerProductSpace 𝕜 E]

theorem slots_one (V : Nat → E) : slots (𝕜 := 𝕜) [] V 1 = [mkSlot (V 0) 1] := by
  simp [slots, cols]

/-- Flags and last column of a factorization from a unit vector. -/
theorem arn_flag [FiniteDimensional 𝕜 E] (o : OrthOpts) (he : o.eta ≤ 1) (A : E →ₗ[𝕜] E) (m ldh : Nat) (hm : 0 < m) (hld : m < ldh)
    (v : E) (hv : ‖v‖ = 1) (buf h0 : Nat → Nat → 𝕜) (hz : ∀ i j, j + 1 < i → h0 i j = 0) :
    let r := matArnoldi (ipForm 𝕜 E) o A (Module.finrank 𝕜 E) 0 0 m ldh [mkSlot v 1] buf h0
    (0 < r.beta → r.breakdown = false ∧ r.m = m ∧ r.H m (m - 1) = (r.beta : 𝕜)) ∧
      (r.beta = 0 → r.breakdown = true ∧ (r.ss.map Slot.v).getD r.m 0 = 0) := by
  have ho : ONList 𝕜 ([] ++ cols (fun _ => v) (0 + 1)) := by
    refine ⟨?_, ?_⟩ <;> simp [cols, hv]
  have hh : Holds [mkSlot (𝕜 := 𝕜) v 1] ([] ++ cols (fun _ => v) (0 + 1)) := by
    refine ⟨?_, ?_, ?_⟩ <;> simp [cols, mkSlot]
  obtain ⟨V, v1, v2, v3, v4, v5, v6, v7, v7', v8, v9⟩ := arn_restart o he A [] 0 m ldh hm [mkSlot v 1] (fun _ => v) hh ho buf h0
    (fun i j _ h => hz i j h)
  intro r
  rw [show matArnoldi (ipForm 𝕜 E) o A (Module.finrank 𝕜 E) ([] : List E).length 0 m ldh [mkSlot v 1] buf h0 = r from rfl] at *
  constructor
  · intro hb
    have hbd : r.breakdown = false := by
      by_contra hc
      rw [(v9 (by simpa using hc)).1] at hb
      exact absurd hb (lt_irrefl _)
    obtain ⟨b1, b2, b3, b4⟩ := v8 hbd
    exact ⟨hbd, b1, b4 hld⟩
  · intro hb
    have hbd : r.breakdown = true := by
      by_contra hc
      have := (v8 (by simpa using hc)).2.1
      rw [hb] at this
      exact absurd this (lt_irrefl _)
    refine ⟨hbd, ?_⟩
    rw [v2, List.nil_append, ← (v9 hbd).2]
    simp [cols, List.getD, List.getElem?_map]

/-- The last step in a space that is exhausted. -/
theorem last_step [FiniteDimensional 𝕜 E] (o : OrthOpts) (he : o.eta ≤ 1) (A : E →ₗ[𝕜] E) (k ldh : Nat) (hN : Module.finrank 𝕜 E = k + 1)
    (V0 : Nat → E) (ho : ONList 𝕜 (cols V0 (k + 1))) (buf h0 : Nat → Nat → 𝕜) (hz : ∀ i j, k ≤ j → j + 1 < i → h0 i j = 0) :
    let r := matArnoldi (ipForm 𝕜 E) o A (Module.finrank 𝕜 E) 0 k (k + 1) ldh (slots [] V0 (k + 1)) buf h0
    r.m = k + 1 ∧ r.breakdown = true ∧ r.beta = 0 ∧ (∀ i, i ≤ k → (r.ss.map Slot.v).getD i 0 = V0 i) ∧
      (∀ i, i ≤ k → r.H i k = inner 𝕜 (V0 i) (A (V0 k))) ∧ (∀ i j, j < k → r.H i j = h0 i j) := by
  obtain ⟨V, v1, v2, v3, v4, v5, v6, v7, v7', v8, v9⟩ := arn_restart o he A [] k (k + 1) ldh (by omega) (slots [] V0 (k + 1)) V0
    (slots_holds _ _ _) ho buf h0 hz
  intro r
  rw [show matArnoldi (ipForm 𝕜 E) o A (Module.finrank 𝕜 E) ([] : List E).length k (k + 1) ldh (slots [] V0 (k + 1)) buf h0 = r from rfl] at *
  have hm : r.m = k + 1 := by omega
  have hbd : r.breakdown = true := by
    by_contra hc
    obtain ⟨b1, b2, b3, b4⟩ := v8 (by simpa using hc)
    have := b3.length_le
    simp [cols, hN] at this
  obtain ⟨b1, b2⟩ := v9 hbd
  rw [hm] at v2 v5 v6 b2
  refine ⟨hm, hbd, b1, ?_, ?_, v7'⟩
  · intro i hi
    rw [v2, List.nil_append, ← v1 i hi]
    simp [cols, List.getD, List.getElem?_map, List.getElem?_range (show i < k + 1 + 1 by omega)]
  · intro i hi
    obtain ⟨c, hc, e⟩ := v6 k le_rfl (by omega)
    have hc0 : c = 0 := by simpa using hc
    rw [hc0, zero_add, b1] at e
    simp only [RCLike.ofReal_zero, zero_smul, ite_self, add_zero] at e
    rw [← v1 k le_rfl, e, inner_sum, ← v1 i hi]
    have hin := ((onl_iff [] V (k + 1)).1 v5).2.2
    rw [Finset.sum_eq_single i]
    · rw [inner_smul_right, hin i i (by omega) (by omega), if_pos rfl, mul_one]
    · intro b hb hne
      rw [inner_smul_right, hin i b (by omega) (Finset.mem_range.1 hb), if_neg (Ne.symm hne), mul_zero]
    · intro hh; exact absurd (Finset.mem_range.2 (by omega)) hh

/-- A random vector that is already a unit vector orthogonal to the basis. -/
theorem start_unit (o : OrthOpts) (he : o.eta ≤ 1) (V : Nat → E) (i : Nat) (x : E) (h : ONList 𝕜 (cols V i)) (hx : ‖x‖ = 1)
    (hxo : ∀ j, j < i → inner 𝕜 (V j) x = 0) : startVector (ipForm 𝕜 E) o [] V i x = (x, false) := by
  obtain ⟨h1, h2, h3, h4, h5⟩ := C31_column o.mgs o.eta he o.ref (slots [] V i) _ (slots_holds [] V i) h x
  unfold startVector
  simp only [orthonormalize]
  generalize hg : gs (ipForm 𝕜 E) false o.mgs o.eta o.ref (slots [] V i) x = r at *
  have hx0 : ∀ y ∈ Submodule.span 𝕜 {v | v ∈ ([] : List E) ++ cols V i}, inner 𝕜 y x = 0 ∧ inner 𝕜 y r.w = 0 := by
    intro y hy
    refine Submodule.span_induction (p := fun y _ => inner 𝕜 y x = 0 ∧ inner 𝕜 y r.w = 0) ?_ ?_ ?_ ?_ hy
    · intro v hv
      refine ⟨?_, h2 v hv⟩
      obtain ⟨j, hj, rfl⟩ := List.mem_map.1 hv
      exact hxo j (List.mem_range.1 hj)
    · simp
    · intro a b _ _ ha hb; rw [inner_add_left, inner_add_left, ha.1, hb.1, ha.2, hb.2]; simp
    · intro a b _ hb; rw [inner_smul_left, inner_smul_left, hb.1, hb.2]; simp
  have hl : lincomb (r.ss.map Slot.h) ([] ++ cols V i) ∈ Submodule.span 𝕜 {v | v ∈ ([] : List E) ++ cols V i} := lincomb_mem _ _
  have hl0 : lincomb (r.ss.map Slot.h) ([] ++ cols V i) = 0 := by
    have e : lincomb (r.ss.map Slot.h) ([] ++ cols V i) = x - r.w := eq_sub_of_add_eq h3.symm
    have : inner 𝕜 (lincomb (r.ss.map Slot.h) ([] ++ cols V i)) (lincomb (r.ss.map Slot.h) ([] ++ cols V i)) = 0 := by
      conv_lhs => arg 3; rw [e]
      rw [inner_sub_right, (hx0 _ hl).1, (hx0 _ hl).2, sub_zero]
    exact inner_self_eq_zero.1 this
  have hw : r.w = x := by rw [hl0, zero_add] at h3; exact h3.symm
  have hn : r.nrm = 1 := by rw [h4, hw, hx]
  have hld : r.lindep = false := by
    by_contra hc
    have hmem := h5.1 (by simpa using hc)
    have := (hx0 x hmem).1
    rw [inner_self_eq_norm_sq_to_K, hx] at this
    simp at this
  rw [if_neg (fun hh => hh.1 hn), hw, hld]

/-- Solution of problems with one active column, when the leading block is triangular of size at most two. -/
def denseSmall : Dense 𝕜 := fun _ l n A =>
  if l = 0 ∧ n = 1 then
    some ⟨fun i j => if i = j then 1 else 0, A, fun j => toC (A j j), fun _ => false, fun _ => 1⟩
  else if l = 1 ∧ n = 2 ∧ A 1 1 ≠ A 0 0 then
    some ⟨fun i j => if i = j then 1 else 0, A, fun j => toC (A j j), fun _ => false,
      fun _ => ‖A 1 1 - A 0 0‖ / Real.sqrt (‖A 0 1‖ ^ 2 + ‖A 1 1 - A 0 0‖ ^ 2)⟩
  else none

theorem denseSmall_cases {raw l n A} {d : DenseOut 𝕜} (h : denseSmall (𝕜 := 𝕜) raw l n A = some d) :
    d.Q = (fun i j => if i = j then 1 else 0) ∧ d.T = A ∧ d.eig = (fun j => toC (A j j)) ∧ d.pair = (fun _ => false) ∧
      ((l = 0 ∧ n = 1 ∧ d.last = fun _ => 1) ∨ (l = 1 ∧ n = 2 ∧ A 1 1 ≠ A 0 0 ∧
        d.last = fun _ => ‖A 1 1 - A 0 0‖ / Real.sqrt (‖A 0 1‖ ^ 2 + ‖A 1 1 - A 0 0‖ ^ 2))) := by
  unfold denseSmall at h
  by_cases h1 : l = 0 ∧ n = 1
  · rw [if_pos h1] at h
    obtain rfl := Option.some.inj h
    exact ⟨rfl, rfl, rfl, rfl, Or.inl ⟨h1.1, h1.2, rfl⟩⟩
  · rw [if_neg h1] at h
    by_cases h2 : l = 1 ∧ n = 2 ∧ A 1 1 ≠ A 0 0
    · rw [if_pos h2] at h
      obtain rfl := Option.some.inj h
      exact ⟨rfl, rfl, rfl, rfl, Or.inr ⟨h2.1, h2.2.1, h2.2.2, rfl⟩⟩
    · rw [if_neg h2] at h; cases h

theorem denseSmall_ok : DenseOK (denseSmall (𝕜 := 𝕜)) where
  unit := by
    intro raw l n A d h hl i j hi hj
    obtain ⟨q, _⟩ := denseSmall_cases h
    rw [q]
    rw [Finset.sum_eq_single i]
    · simp
    · intro b _ hb; simp [hb]
    · intro hh; exact absurd (Finset.mem_range.2 hi) hh
  block := by
    intro raw l n A d h hl i j hi hj _
    obtain ⟨q, _⟩ := denseSmall_cases h
    rw [q]
  sim := by
    intro raw l n A d h hl i j hi hlj hj
    obtain ⟨q, t, _⟩ := denseSmall_cases h
    rw [q, t]
    rw [Finset.sum_eq_single j, Finset.sum_eq_single i]
    · simp
    · intro b _ hb; simp [Ne.symm hb]
    · intro hh; exact absurd (Finset.mem_range.2 hi) hh
    · intro b _ hb; simp [hb]
    · intro hh; exact absurd (Finset.mem_range.2 hj) hh
  tri := by
    intro raw l n A d h hl i j h1 h2 h3
    obtain ⟨q, t, _, _, hc⟩ := denseSmall_cases h
    exfalso
    rcases hc with ⟨rfl, rfl, _⟩ | ⟨rfl, rfl, _⟩ <;> omega
  locked := by
    intro raw l n A d h hl i j _ _
    rw [(denseSmall_cases h).2.1]
  low := by
    intro raw l n A d h hl i j h1 h2 h3
    obtain ⟨q, t, _, _, hc⟩ := denseSmall_cases h
    exfalso
    rcases hc with ⟨rfl, rfl, _⟩ | ⟨rfl, rfl, _⟩ <;> omega
  outside := by
    intro raw l n A d h hl i j _
    rw [(denseSmall_cases h).2.1]
  nopair := by
    intro raw l n A d h j
    rw [(denseSmall_cases h).2.2.2.1]
  eig := by
    intro raw l n A d h hl j _ _
    obtain ⟨_, t, e, _⟩ := denseSmall_cases h
    rw [e, t]
  vec := by
    intro raw l n A d h hl j h1 h2
    obtain ⟨q, t, _, _, hc⟩ := denseSmall_cases h
    rcases hc with ⟨rfl, rfl, e⟩ | ⟨rfl, rfl, hne, e⟩
    · obtain rfl : j = 0 := by omega
      refine ⟨fun i => if i = 0 then 1 else 0, fun i hi => if_neg (by omega), by simp, ?_, by simp [e, q]⟩
      intro i hi
      obtain rfl : i = 0 := by omega
      simp
    · obtain rfl : j = 1 := by omega
      have hpos : 0 < ‖A 0 1‖ ^ 2 + ‖A 1 1 - A 0 0‖ ^ 2 := by
        have : 0 < ‖A 1 1 - A 0 0‖ := norm_pos_iff.2 (sub_ne_zero.2 hne)
        positivity
      generalize hr : Real.sqrt (‖A 0 1‖ ^ 2 + ‖A 1 1 - A 0 0‖ ^ 2) = r at *
      have hrp : 0 < r := by rw [← hr]; exact Real.sqrt_pos.2 hpos
      have hr2 : r ^ 2 = ‖A 0 1‖ ^ 2 + ‖A 1 1 - A 0 0‖ ^ 2 := by rw [← hr]; exact Real.sq_sqrt hpos.le
      refine ⟨fun i => if i = 0 then A 0 1 / (r : 𝕜) else if i = 1 then (A 1 1 - A 0 0) / (r : 𝕜) else 0, ?_, ?_, ?_, ?_⟩
      · intro i hi
        dsimp only
        rw [if_neg (by omega), if_neg (by omega)]
      · rw [Finset.sum_range_succ, Finset.sum_range_one]
        simp only [if_true, one_ne_zero, if_false, norm_div, RCLike.norm_ofReal, abs_of_pos hrp, div_pow]
        rw [← add_div, ← hr2]
        exact div_self (by positivity)
      · intro i hi
        rw [t]
        rcases (by omega : i = 0 ∨ i = 1) with rfl | rfl
        · rw [← Finset.range_eq_Ico, Finset.sum_range_succ, Finset.sum_range_one]
          simp only [if_true, one_ne_zero, if_false]
          ring
        · rw [show Finset.Ico 1 2 = {1} from rfl, Finset.sum_singleton]
      · rw [q, e, Finset.sum_range_succ, Finset.sum_range_one]
        simp [norm_div, abs_of_pos hrp]

end
end Verif.EPS.KS
