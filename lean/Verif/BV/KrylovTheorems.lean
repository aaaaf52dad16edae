import Verif.BV.KrylovLemmas
import Mathlib.Analysis.InnerProductSpace.Symmetric
import Mathlib.Analysis.Matrix.Hermitian
/-!
C80, C81: Arnoldi and Lanczos factorizations.

The columns of the BV are given as a sequence `V`, of which the first few are meaningful: `cols V n` is the list
`V 0, ..., V (n-1)`.  `cs` are the constraints of the BV (usually none).
-/
set_option linter.all false
namespace Verif.BV
noncomputable section
variable {𝕜 : Type} [RCLike 𝕜] {E : Type} [NormedAddCommGroup E] [InnerProductSpace 𝕜 E]

/-- **C80.** The Krylov relation of `BVMatArnoldi`: starting from orthonormal columns `0..k` (and
constraints), with any content of the buffer and a matrix `H` without entries below the subdiagonal,
* the columns `0..k` are not modified and all columns of the basis are orthonormal;
* `A V = V H + beta v e_m^*` holds in every column from `k` on (up to the span of the constraints, if there are any),
  with `H` upper Hessenberg;
* without breakdown, `m` steps are done, `beta > 0` (also stored below `H` if there is room) and the next column
  extends the orthonormal basis;
* with breakdown, `beta` and the next column are zero. -/
theorem C80_arnoldi [FiniteDimensional 𝕜 E] (o : OrthOpts) (he : o.eta ≤ 1) (A : E →ₗ[𝕜] E) (cs : List E)
    (k m ldh : Nat) (hkm : k < m) (ss : List (Slot 𝕜 E)) (V0 : Nat → E) (hh : Holds ss (cs ++ cols V0 (k + 1)))
    (ho : ONList 𝕜 (cs ++ cols V0 (k + 1))) (buf h0 : Nat → Nat → 𝕜) (hz : ∀ i j, j + 1 < i → h0 i j = 0) :
    let r := matArnoldi (ipForm 𝕜 E) o A (Module.finrank 𝕜 E) cs.length k m ldh ss buf h0
    ∃ V : Nat → E, (∀ i, i ≤ k → V i = V0 i) ∧ r.ss.map Slot.v = cs ++ cols V (r.m + 1) ∧ k < r.m ∧ r.m ≤ m ∧
      ONList 𝕜 (cs ++ cols V r.m) ∧
      (∀ j, k ≤ j → j < r.m → ∃ c ∈ Submodule.span 𝕜 {v | v ∈ cs},
        A (V j) = c + ∑ i ∈ Finset.range r.m, r.H i j • V i + (if j + 1 = r.m then (r.beta : 𝕜) • V r.m else 0)) ∧
      (∀ i j, j + 1 < i → r.H i j = 0) ∧
      (r.breakdown = false → r.m = m ∧ 0 < r.beta ∧ ONList 𝕜 (cs ++ cols V (m + 1)) ∧
        (m < ldh → r.H m (m - 1) = (r.beta : 𝕜))) ∧
      (r.breakdown = true → r.beta = 0 ∧ V r.m = 0) := by
  exact arn_of_loop A cs k m ldh hkm V0 buf h0 hz _ (arnLoop_ok o he A cs (m - k) k ss buf 0 V0 hh ho)

/-- **C80, unreduced.** The subdiagonal entries computed by `BVMatArnoldi` within the basis are real and positive. -/
theorem C80_unreduced [FiniteDimensional 𝕜 E] (o : OrthOpts) (he : o.eta ≤ 1) (A : E →ₗ[𝕜] E) (cs : List E)
    (k m ldh : Nat) (ss : List (Slot 𝕜 E)) (V0 : Nat → E) (hh : Holds ss (cs ++ cols V0 (k + 1)))
    (ho : ONList 𝕜 (cs ++ cols V0 (k + 1))) (buf h0 : Nat → Nat → 𝕜) :
    let r := matArnoldi (ipForm 𝕜 E) o A (Module.finrank 𝕜 E) cs.length k m ldh ss buf h0
    ∀ j, k ≤ j → j + 1 < r.m → ∃ x : ℝ, 0 < x ∧ r.H (j + 1) j = (x : 𝕜) := by
  intro r j hj hm
  have hL := (arnLoop_ok o he A cs (m - k) k ss buf 0 V0 hh ho).real j hj (by exact Nat.lt_of_succ_lt hm)
    (fun hc => absurd hc.1 (by have : j + 1 < r.m := hm; exact ne_of_lt this))
  obtain ⟨x, hx, e⟩ := hL
  refine ⟨x, hx, ?_⟩
  rw [← e]
  show arnH k r.m ldh _ h0 (j + 1) j = _
  unfold arnH
  rw [if_pos ⟨hj, by omega, by omega⟩]

/-- **C80, breakdown.** Without constraints and locked columns, a breakdown means that the columns computed span an
invariant subspace. -/
theorem C80_invariant [FiniteDimensional 𝕜 E] (o : OrthOpts) (he : o.eta ≤ 1) (A : E →ₗ[𝕜] E) (m ldh : Nat)
    (hm : 0 < m) (ss : List (Slot 𝕜 E)) (v : E) (hh : Holds ss [v]) (hv : ‖v‖ = 1) (buf h0 : Nat → Nat → 𝕜)
    (hz : ∀ i j, j + 1 < i → h0 i j = 0) :
    let r := matArnoldi (ipForm 𝕜 E) o A (Module.finrank 𝕜 E) 0 0 m ldh ss buf h0
    r.breakdown = true → ∀ x ∈ Submodule.span 𝕜 {u | u ∈ (r.ss.map Slot.v).take r.m},
      A x ∈ Submodule.span 𝕜 {u | u ∈ (r.ss.map Slot.v).take r.m} := by
  have ho : ONList 𝕜 ([] ++ cols (fun _ => v) (0 + 1)) := by
    refine ⟨?_, ?_⟩ <;> simp [cols, hv]
  obtain ⟨V, v1, v2, v3, v4, v5, v6, v7, v8, v9⟩ :=
    C80_arnoldi o he A [] 0 m ldh hm ss (fun _ => v) (by simpa [cols] using hh) ho buf h0 hz
  simp only [List.length_nil] at v2 v3 v4 v5 v6 v7 v8 v9
  intro r hb x hx
  rw [show matArnoldi (ipForm 𝕜 E) o A (Module.finrank 𝕜 E) 0 0 m ldh ss buf h0 = r from rfl] at v2 v3 v4 v5 v6 v7 v8 v9
  have htake : (r.ss.map Slot.v).take r.m = cols V r.m := by
    rw [v2, List.nil_append, cols_succ, List.take_append_of_le_length (by simp [cols]), List.take_of_length_le (by simp [cols])]
  rw [htake] at hx ⊢
  refine Submodule.span_induction (p := fun x _ => A x ∈ Submodule.span 𝕜 {u | u ∈ cols V r.m}) ?_ ?_ ?_ ?_ hx
  · intro u hu
    obtain ⟨j, hj, rfl⟩ := List.mem_map.1 hu
    have hj' := List.mem_range.1 hj
    obtain ⟨c, hc, e⟩ := v6 j (by omega) hj'
    have hc0 : c = 0 := by simpa using hc
    rw [e, hc0, zero_add, (v9 hb).2, smul_zero, ite_self, add_zero]
    refine Submodule.sum_mem _ fun i hi => Submodule.smul_mem _ _ (Submodule.subset_span ?_)
    exact List.mem_map.2 ⟨i, List.mem_range.2 (Finset.mem_range.1 hi), rfl⟩
  · simp
  · intro a b _ _ ha hb; rw [map_add]; exact Submodule.add_mem _ ha hb
  · intro a b _ hb; rw [map_smul]; exact Submodule.smul_mem _ _ hb

/-- The start meets the hypotheses: a unit vector of the plane, with no constraints. -/
example : Holds [mkSlot (𝕜 := ℝ) (EuclideanSpace.single (0 : Fin 2) (1 : ℝ)) 1]
      ([] ++ cols (fun _ => EuclideanSpace.single (0 : Fin 2) (1 : ℝ)) (0 + 1)) ∧
    ONList ℝ ([] ++ cols (fun _ => EuclideanSpace.single (0 : Fin 2) (1 : ℝ)) (0 + 1)) := by
  refine ⟨⟨?_, ?_, ?_⟩, ⟨?_, ?_⟩⟩ <;> simp [cols, mkSlot]

/-- **C81.** The Lanczos relation: for a Hermitian operator and locked columns that span an invariant subspace (none if
`k=0`), the real numbers that `BVMatLanczos` stores satisfy
`A v_j = beta_{j-1} v_{j-1} + alpha_j v_j + beta_j v_{j+1}` (up to the span of the constraints), the
last `beta` being the one returned separately. -/
theorem C81_lanczos [FiniteDimensional 𝕜 E] (o : OrthOpts) (he : o.eta ≤ 1) (A : E →ₗ[𝕜] E) (hA : A.IsSymmetric)
    (cs : List E) (k m : Nat) (hkm : k < m) (ss : List (Slot 𝕜 E)) (V0 : Nat → E)
    (hh : Holds ss (cs ++ cols V0 (k + 1))) (ho : ONList 𝕜 (cs ++ cols V0 (k + 1)))
    (hlock : ∀ i, i < k → A (V0 i) ∈ Submodule.span 𝕜 {v | v ∈ cs ++ cols V0 k}) (buf : Nat → Nat → 𝕜)
    (alpha0 betat0 : Nat → ℝ) :
    let r := matLanczos (ipForm 𝕜 E) o A (Module.finrank 𝕜 E) cs.length k m ss buf alpha0 betat0
    ∃ V : Nat → E, (∀ i, i ≤ k → V i = V0 i) ∧ r.ss.map Slot.v = cs ++ cols V (r.m + 1) ∧ k < r.m ∧ r.m ≤ m ∧
      ONList 𝕜 (cs ++ cols V r.m) ∧
      (∀ j, k ≤ j → j < r.m → ∃ c ∈ Submodule.span 𝕜 {v | v ∈ cs},
        A (V j) = c + (if k < j then (r.betat (j - 1) : 𝕜) • V (j - 1) else 0) + (r.alpha j : 𝕜) • V j +
          ((if j + 1 = r.m then r.beta else r.betat j : ℝ) : 𝕜) • V (j + 1)) ∧
      (∀ j, k ≤ j → j + 1 < r.m → 0 < r.betat j) ∧
      (r.breakdown = false → r.m = m ∧ 0 < r.beta ∧ ONList 𝕜 (cs ++ cols V (m + 1)) ∧ r.betat (m - 1) = r.beta) ∧
      (r.breakdown = true → r.beta = 0 ∧ V r.m = 0) := by
  exact lan_of_loop A hA cs k m hkm V0 hlock buf alpha0 betat0 _ (arnLoop_ok o he A cs (m - k) k ss buf 0 V0 hh ho)

/-- A Hermitian operator that is not a multiple of the identity: the exchange of the coordinates of the plane. -/
example : (Matrix.toEuclideanLin (!![0, 1; 1, 0] : Matrix (Fin 2) (Fin 2) ℝ)).IsSymmetric := by
  refine Matrix.isSymmetric_toEuclideanLin_iff.2 ?_
  ext i j
  fin_cases i <;> fin_cases j <;> simp

end
end Verif.BV
