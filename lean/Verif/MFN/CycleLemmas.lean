import Verif.MFN.KrylovLemmas
/-!
Lemmas on one restart cycle of the Krylov solver for matrix functions.
-/
set_option linter.all false
namespace Verif.MFN
noncomputable section
open Verif.BV Polynomial
variable {𝕜 : Type} [RCLike 𝕜] {E : Type} [NormedAddCommGroup E] [InnerProductSpace 𝕜 E]

theorem gs_zero (o : OrthOpts) (ref : Refine) :
    let r := gs (ipForm 𝕜 E) false o.mgs o.eta ref [mkSlot (0 : E) 1] 0
    r.w = 0 ∧ r.nrm = 0 ∧ r.lindep = true ∧ r.ss.map Slot.h = [0] ∧ r.ss.map Slot.v = [0] := by
  rcases o with ⟨mgs, eta, ref0⟩
  cases mgs <;> cases ref <;>
    simp [gs, gs1, mgs1, cgs1, refineLoop, mgsLoop, cleanCoeffs, addCoeffs, cgsDots, subComb, cgsNorm, nrmOf, squareSum, mkSlot]

theorem arn_zero (o : OrthOpts) (A : E →ₗ[𝕜] E) (N m ldh : Nat) (hm : 0 < m) (buf h0 : Nat → Nat → 𝕜)
    (hz : ∀ i j, j + 1 < i → h0 i j = 0) :
    let r := matArnoldi (ipForm 𝕜 E) o A N 0 0 m ldh [mkSlot (0 : E) 1] buf h0
    r.m = 1 ∧ r.beta = 0 ∧ r.breakdown = true ∧ r.ss.map Slot.v = [0, 0] ∧ r.H 0 0 = 0 ∧
      ∀ i j, j + 1 < i → r.H i j = 0 := by
  obtain ⟨m, rfl⟩ : ∃ k, m = k + 1 := ⟨m - 1, by omega⟩
  have hl : lastCol [mkSlot (𝕜 := 𝕜) (0 : E) 1] = 0 := rfl
  have hHess : ∀ b : Nat → Nat → 𝕜, ∀ i j, j + 1 < i → arnH 0 1 ldh b h0 i j = 0 := by
    intro b i j hij
    unfold arnH
    rw [if_neg (by omega), if_neg (by omega), if_neg (by omega), hz i j hij]
  have hH0 : ∀ b : Nat → Nat → 𝕜, arnH 0 1 ldh b h0 0 0 = b 0 1 := by
    intro b
    unfold arnH
    rw [if_neg (by omega), if_pos ⟨rfl, by omega⟩]
  simp only [matArnoldi, Nat.sub_zero]
  unfold arnLoop
  dsimp only
  rw [hl, map_zero]
  by_cases hN : 0 + 1 = N
  · rw [if_pos hN]
    obtain ⟨g1, g2, g3, g4, g5⟩ := gs_zero (𝕜 := 𝕜) (E := E) o .never
    generalize gs (ipForm 𝕜 E) false o.mgs o.eta .never [mkSlot (0 : E) 1] 0 = r at *
    refine ⟨rfl, rfl, rfl, ?_, ?_, hHess _⟩
    · simp only [List.map_append, g5, g1, List.map_cons, List.map_nil, mkSlot]; rfl
    · show arnH 0 1 ldh _ h0 0 0 = 0
      rw [hH0]
      show writeCol buf 1 (List.map Slot.h (List.drop 0 r.ss)) 0 1 = 0
      rw [writeCol_same _ _ _ _ (by simp only [List.drop_zero]; rw [g4]; simp)]
      simp only [List.drop_zero, g4]; rfl
  · rw [if_neg hN]
    obtain ⟨g1, g2, g3, g4, g5⟩ := gs_zero (𝕜 := 𝕜) (E := E) o o.ref
    have hq2 : (orthonormalize (ipForm 𝕜 E) false o.mgs o.eta o.ref [mkSlot (0 : E) 1] 0).2 =
        gs (ipForm 𝕜 E) false o.mgs o.eta o.ref [mkSlot (0 : E) 1] 0 := rfl
    have hq1 : (orthonormalize (ipForm 𝕜 E) false o.mgs o.eta o.ref [mkSlot (0 : E) 1] 0).1 = 0 := by
      simp only [orthonormalize]
      rw [g1, g2]; simp
    rw [hq2, hq1]
    generalize gs (ipForm 𝕜 E) false o.mgs o.eta o.ref [mkSlot (0 : E) 1] 0 = r at *
    rw [if_pos g3]
    refine ⟨rfl, g2, rfl, ?_, ?_, hHess _⟩
    · simp only [List.map_append, g5, List.map_cons, List.map_nil, mkSlot]; rfl
    · show arnH 0 1 ldh _ h0 0 0 = 0
      rw [hH0]
      show writeCol buf 1 (bufferColumn 0 r) 0 1 = 0
      rw [writeCol_same _ _ _ _ (by unfold bufferColumn; simp)]
      unfold bufferColumn
      simp only [List.drop_zero, g4]; rfl

theorem cols_getD (V : Nat → E) (n i : Nat) (h : i < n) : (cols V n).getD i 0 = V i := by
  simp [cols, List.getD, h]

/-- What the Arnoldi factorization of a cycle provides, starting from a unit vector or from zero. -/
theorem arn_cycle [FiniteDimensional 𝕜 E] (o : OrthOpts) (he : o.eta ≤ 1) (A : E →ₗ[𝕜] E) (m ldh : Nat) (hm : 0 < m)
    (v0 : E) (hv : ‖v0‖ = 1 ∨ v0 = 0) (buf h0 : Nat → Nat → 𝕜) (hz : ∀ i j, j + 1 < i → h0 i j = 0) :
    let r := matArnoldi (ipForm 𝕜 E) o A (Module.finrank 𝕜 E) 0 0 m ldh [mkSlot v0 1] buf h0
    ∃ V : Nat → E, V 0 = v0 ∧ r.ss.map Slot.v = cols V (r.m + 1) ∧ 0 < r.m ∧ r.m ≤ m ∧
      KRel A V r.m r.H ((r.beta : 𝕜) • V r.m) ∧ (∀ i j, j + 1 < i → r.H i j = 0) ∧
      (r.breakdown = true → r.beta = 0 ∧ V r.m = 0) ∧ (r.breakdown = false → ‖V r.m‖ = 1 ∧ r.m = m ∧ 0 < r.beta) ∧
      (v0 = 0 → r.m = 1 ∧ r.breakdown = true ∧ r.H 0 0 = 0) := by
  rcases hv with hv | hv
  · have ho : ONList 𝕜 ([] ++ cols (fun _ => v0) (0 + 1)) := by
      refine ⟨?_, ?_⟩ <;> simp [cols, hv]
    have hh : Holds [mkSlot (𝕜 := 𝕜) v0 1] ([] ++ cols (fun _ => v0) (0 + 1)) := by
      refine ⟨?_, ?_, ?_⟩ <;> simp [cols, mkSlot]
    obtain ⟨V, v1, v2, v3, v4, v5, v6, v7, v8, v9⟩ := C80_arnoldi o he A [] 0 m ldh hm _ (fun _ => v0) hh ho buf h0 hz
    simp only [List.length_nil, List.nil_append] at v2 v3 v4 v5 v6 v7 v8 v9
    intro r
    rw [show matArnoldi (ipForm 𝕜 E) o A (Module.finrank 𝕜 E) 0 0 m ldh [mkSlot v0 1] buf h0 = r from rfl] at v2 v3 v4 v5 v6 v7 v8 v9
    refine ⟨V, v1 0 le_rfl, v2, v3, v4, ?_, v7, v9, ?_, ?_⟩
    · intro j hj
      obtain ⟨c, hc, e⟩ := v6 j (by omega) hj
      have hc0 : c = 0 := by simpa using hc
      rw [e, hc0, zero_add]
    · intro hb
      obtain ⟨b1, b2, b3, b4⟩ := v8 hb
      refine ⟨?_, b1, b2⟩
      rw [b1]
      exact b3.unit _ (List.mem_map.2 ⟨m, List.mem_range.2 (by omega), rfl⟩)
    · intro h0; rw [h0, norm_zero] at hv; exact absurd hv zero_ne_one
  · subst hv
    obtain ⟨a1, a2, a3, a4, a5, a6⟩ := arn_zero o A (Module.finrank 𝕜 E) m ldh hm buf h0 hz
    intro r
    rw [show matArnoldi (ipForm 𝕜 E) o A (Module.finrank 𝕜 E) 0 0 m ldh [mkSlot 0 1] buf h0 = r from rfl] at a1 a2 a3 a4 a5 a6
    refine ⟨fun _ => 0, rfl, ?_, by omega, by omega, ?_, a6, fun _ => ⟨a2, rfl⟩, ?_, fun _ => ⟨a1, a3, a5⟩⟩
    · rw [a4, a1]; rfl
    · intro j hj
      simp
    · intro hb; rw [a3] at hb; cases hb

/-- Gluing two factorizations. -/
theorem KRel.glue {A : E →ₗ[𝕜] E} {W V : Nat → E} {n m : Nat} {G M : Nat → Nat → 𝕜} {betaold : ℝ} {u : E} (first : Bool)
    (hm : 0 < m) (hn : first = true ↔ n = 0) (hW : first = false → KRel A W n G ((betaold : 𝕜) • V 0)) (hV : KRel A V m M u) :
    KRel A (fun i => if i < n then W i else V (i - n)) (n + m) (Verif.MFN.glue n m M G first betaold) u := by
  intro j hj
  have hsplit : ∀ g : Nat → 𝕜, ∑ i ∈ Finset.range (n + m), g i • (if i < n then W i else V (i - n)) =
      ∑ i ∈ Finset.range n, g i • W i + ∑ l ∈ Finset.range m, g (n + l) • V l := by
    intro g
    rw [Finset.sum_range_add]
    congr 1
    · exact Finset.sum_congr rfl fun i hi => by rw [if_pos (Finset.mem_range.1 hi)]
    · refine Finset.sum_congr rfl fun l _ => ?_
      rw [if_neg (by omega), Nat.add_sub_cancel_left]
  rw [hsplit (fun i => Verif.MFN.glue n m M G first betaold i j)]
  by_cases hjn : j < n
  · have hf : first = false := by
      rw [← Bool.not_eq_true]; intro h; rw [hn] at h; omega
    dsimp only
    rw [if_pos hjn, hW hf j hjn, if_neg (show ¬ j + 1 = n + m by omega), add_zero]
    congr 1
    · refine Finset.sum_congr rfl fun i hi => ?_
      have hi' := Finset.mem_range.1 hi
      unfold Verif.MFN.glue
      rw [if_neg (by omega), if_pos ⟨hf, hi', hjn⟩]
    · rw [Finset.sum_eq_single 0]
      · have e : Verif.MFN.glue n m M G first betaold (n + 0) j = if j + 1 = n then (betaold : 𝕜) else 0 := by
          unfold Verif.MFN.glue
          rw [if_neg (show ¬ (n ≤ n + 0 ∧ n + 0 < n + m ∧ n ≤ j ∧ j < n + m) by omega),
            if_neg (show ¬ (first = false ∧ n + 0 < n ∧ j < n) by omega)]
          by_cases hj1 : j + 1 = n
          · rw [if_pos hj1, if_pos ⟨hf, by omega, by omega⟩]
          · rw [if_neg hj1, if_neg (by omega)]
        rw [e]
        by_cases hj1 : j + 1 = n
        · rw [if_pos hj1, if_pos hj1]
        · rw [if_neg hj1, if_neg hj1, zero_smul]
      · intro l _ hl
        unfold Verif.MFN.glue
        rw [if_neg (by omega), if_neg (by omega), if_neg (by omega), zero_smul]
      · intro hc; exact absurd (Finset.mem_range.2 hm) hc
  · dsimp only
    rw [if_neg hjn, hV (j - n) (by omega)]
    rw [Finset.sum_eq_zero (s := Finset.range n), zero_add]
    · congr 1
      · refine Finset.sum_congr rfl fun l hl => ?_
        have hl' := Finset.mem_range.1 hl
        unfold Verif.MFN.glue
        rw [if_pos ⟨by omega, by omega, by omega, hj⟩, Nat.add_sub_cancel_left]
      · by_cases hjm : j + 1 = n + m
        · rw [if_pos hjm, if_pos (by omega)]
        · rw [if_neg hjm, if_neg (by omega)]
    · intro i hi
      have hi' := Finset.mem_range.1 hi
      unfold Verif.MFN.glue
      rw [if_neg (by omega), if_neg (by omega), if_neg (by omega), zero_smul]

theorem glue_hess (n m : Nat) (M G : Nat → Nat → 𝕜) (first : Bool) (betaold : ℝ) (hM : ∀ i j, j + 1 < i → M i j = 0)
    (hG : first = false → ∀ i j, j + 1 < i → G i j = 0) : ∀ i j, j + 1 < i → Verif.MFN.glue n m M G first betaold i j = 0 := by
  intro i j hij
  unfold Verif.MFN.glue
  by_cases h1 : n ≤ i ∧ i < n + m ∧ n ≤ j ∧ j < n + m
  · rw [if_pos h1]; exact hM _ _ (by omega)
  · rw [if_neg h1]
    by_cases h2 : first = false ∧ i < n ∧ j < n
    · rw [if_pos h2]; exact hG h2.1 _ _ hij
    · rw [if_neg h2, if_neg (by omega)]

end
end Verif.MFN
