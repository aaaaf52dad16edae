import Verif.NEP.NleigsLemmas

/-! C101: the rational interpolant of NLEIGS. -/
set_option linter.all false

namespace Verif.NEP

variable {F E : Type*} [NormedField F] [AddCommGroup E] [Module F E]

/-- Split form. The rational function with the coefficients computed takes at each of the nodes used the value of
`T(z) = sum_j f_j(z) A_j`, whichever scheme is used for each function and whatever the truncation does.
Partial: exact arithmetic; the matrix function is assumed to be one (contract `IsMatFun`); the nodes are assumed to be distinct (see C102);
without truncation the function is also reproduced (`C101_exact_partial`), with it that is false (`C101_false`). -/
theorem C101_split_partial {N : Nodes F} {nmax nt : ℕ} (g : GoodNodes N.s N.beta N.rxi nmax) {f : ℕ → F → F}
    {fmat : ℕ → Matrix (Fin nmax) (Fin nmax) F → Option (Matrix (Fin nmax) (Fin nmax) F)}
    (hf : ∀ j < nt, ∀ Y, fmat j (pM N nmax) = some Y → IsMatFun N.s (f j) (pM N nmax) Y)
    (hasmnorm : Bool) (matnorm : ℕ → ℝ) (ddtol : ℝ) (A : ℕ → E) :
    let nmat := nmatSplit N nmax nt f fmat hasmnorm matnorm ddtol
    ∀ i < nmat, ratValue N.s N.beta N.rxi nmat (fun k => ∑ j ∈ Finset.range nt, coeffD N nmax nt f fmat k j • A j) (N.s i) =
      ∑ j ∈ Finset.range nt, f j (N.s i) • A j := by
  intro nmat i hi
  have hle : nmat ≤ nmax := numTerms_le _ _ _ _
  have key : ∀ j < nt, ratValue N.s N.beta N.rxi nmat (ddiff N (N.beta 0) (f j)) (N.s i) = f j (N.s i) := fun j hj =>
    ddiff_interp g _ (by rw [one_div, inv_mul_cancel₀ (g.scale 0 (by omega))]) (f j) nmat hle i hi
  rw [Finset.sum_congr rfl (fun j hj => by rw [← key j (Finset.mem_range.1 hj)])]
  unfold ratValue
  simp only [Finset.smul_sum, Finset.sum_smul, smul_smul, smul_eq_mul]
  rw [Finset.sum_comm]
  refine Finset.sum_congr rfl fun j hj => Finset.sum_congr rfl fun k hk => ?_
  rw [coeffD_eq g hf k (by have := Finset.mem_range.1 hk; omega) j (Finset.mem_range.1 hj)]

/-- Callback form: the same, with the first scaling factor equal to one as set by the selection of nodes. -/
theorem C101_callback_partial {N : Nodes F} {nmax : ℕ} (g : GoodNodes N.s N.beta N.rxi nmax) (h0 : N.beta 0 = 1) (T : F → E) (nrm : E → ℝ)
    (ddtol : ℝ) :
    let nmat := nmatCallback N nmax T nrm ddtol
    ∀ i < nmat, ratValue N.s N.beta N.rxi nmat (ddiff N (1 / N.beta 0) T) (N.s i) = T (N.s i) := by
  intro nmat i hi
  exact ddiff_interp g _ (by rw [h0]; simp) T nmat (numTerms_le _ _ _ _) i hi

/-- If `T` is a combination of the first `m` basis functions, and at least `m` terms are used, the function built equals `T` at every point
that is not a pole. -/
theorem C101_exact_partial {N : Nodes F} {nmax : ℕ} (g : GoodNodes N.s N.beta N.rxi nmax) (h0 : N.beta 0 = 1) (T : F → E) (nrm : E → ℝ)
    (ddtol : ℝ) (m : ℕ) (C : ℕ → E) (hT : ∀ z, NoPole N.rxi nmax z → T z = ratValue N.s N.beta N.rxi m C z)
    (hm : m ≤ nmatCallback N nmax T nrm ddtol) :
    let nmat := nmatCallback N nmax T nrm ddtol
    ∀ z, NoPole N.rxi nmax z → ratValue N.s N.beta N.rxi nmat (ddiff N (1 / N.beta 0) T) z = T z := by
  intro nmat z hz
  have hle : nmat ≤ nmax := numTerms_le _ _ _ _
  have ext := fun z => ratValue_pad (s := N.s) (beta := N.beta) (rxi := N.rxi) C (show m ≤ nmat from hm) z
  have hD := ratValue_unique (g.mono hle) (ddiff N (1 / N.beta 0) T) (fun k => if k < m then C k else 0) (fun i hi => by
    rw [ddiff_interp g _ (by rw [h0]; simp) T nmat hle i hi, hT _ (fun j hj => g.nopole i (by omega) j hj), ext])
  rw [hT z hz, ext]
  unfold ratValue
  exact Finset.sum_congr rfl fun k hk => by rw [hD k (Finset.mem_range.1 hk)]

/-- The same in split form, for each of the functions. -/
theorem C101_exact_split_partial {N : Nodes F} {nmax nt : ℕ} (g : GoodNodes N.s N.beta N.rxi nmax) {f : ℕ → F → F}
    {fmat : ℕ → Matrix (Fin nmax) (Fin nmax) F → Option (Matrix (Fin nmax) (Fin nmax) F)}
    (hf : ∀ j < nt, ∀ Y, fmat j (pM N nmax) = some Y → IsMatFun N.s (f j) (pM N nmax) Y)
    (hasmnorm : Bool) (matnorm : ℕ → ℝ) (ddtol : ℝ) (A : ℕ → E) (m : ℕ) (C : ℕ → ℕ → F)
    (hT : ∀ j < nt, ∀ z, NoPole N.rxi nmax z → f j z = ratValue N.s N.beta N.rxi m (C j) z)
    (hm : m ≤ nmatSplit N nmax nt f fmat hasmnorm matnorm ddtol) :
    let nmat := nmatSplit N nmax nt f fmat hasmnorm matnorm ddtol
    ∀ z, NoPole N.rxi nmax z → ratValue N.s N.beta N.rxi nmat (fun k => ∑ j ∈ Finset.range nt, coeffD N nmax nt f fmat k j • A j) z =
      ∑ j ∈ Finset.range nt, f j z • A j := by
  intro nmat z hz
  have hle : nmat ≤ nmax := numTerms_le _ _ _ _
  have ext := fun (C : ℕ → F) z => ratValue_pad (s := N.s) (beta := N.beta) (rxi := N.rxi) C (show m ≤ nmat from hm) z
  have key : ∀ j < nt, ratValue N.s N.beta N.rxi nmat (fun k => coeffD N nmax nt f fmat k j) z = f j z := by
    intro j hj
    have hD := ratValue_unique (g.mono hle) (fun k => coeffD N nmax nt f fmat k j) (fun k => if k < m then C j k else 0) (fun i hi => by
      rw [show ratValue N.s N.beta N.rxi nmat (fun k => coeffD N nmax nt f fmat k j) (N.s i) =
          ratValue N.s N.beta N.rxi nmat (ddiff N (N.beta 0) (f j)) (N.s i) from
          Finset.sum_congr rfl fun k hk => by dsimp only; rw [coeffD_eq g hf k (by have := Finset.mem_range.1 hk; omega) j hj],
        ddiff_interp g _ (by rw [one_div, inv_mul_cancel₀ (g.scale 0 (by omega))]) (f j) nmat hle i hi,
        hT j hj _ (fun l hl => g.nopole i (by omega) l hl), ext])
    rw [hT j hj z hz, ext]
    unfold ratValue
    exact Finset.sum_congr rfl fun k hk => by dsimp only; rw [hD k (Finset.mem_range.1 hk)]
  rw [Finset.sum_congr rfl (fun j hj => by rw [← key j (Finset.mem_range.1 hj)])]
  unfold ratValue
  simp only [Finset.smul_sum, Finset.sum_smul, smul_smul, smul_eq_mul]
  rw [Finset.sum_comm]

/-- Without the condition on the number of terms the claim is false, for every choice of at least four nodes and every positive
tolerance: a single term that vanishes stops the loop. The problem is a combination of the first four basis functions and of the
one-dimensional space, and the function built differs from it at a point that is not a pole. -/
theorem C101_false {N : Nodes F} {nmax : ℕ} (g : GoodNodes N.s N.beta N.rxi nmax) (h0 : N.beta 0 = 1) (h4 : 4 ≤ nmax) (ddtol : ℝ)
    (ht : 0 < ddtol) :
    ∃ (T : F → F) (C : ℕ → F), (∀ z, T z = ratValue N.s N.beta N.rxi 4 C z) ∧
      let nmat := nmatCallback N nmax T (fun x => ‖x‖) ddtol
      ∃ z, NoPole N.rxi nmax z ∧ ratValue N.s N.beta N.rxi nmat (ddiff N (1 / N.beta 0) T) z ≠ T z := by
  let C : ℕ → F := fun k => if k = 0 then 1 else if k = 3 then 1 else 0
  let T : F → F := fun z => ratValue N.s N.beta N.rxi 4 C z
  have hD : ∀ k < 4, ddiff N (1 / N.beta 0) T k = C k := ratValue_unique (g.mono h4) _ _ (fun i hi => by
    rw [ddiff_interp g _ (by rw [h0]; simp) T 4 h4 i hi])
  refine ⟨T, C, fun z => rfl, ?_⟩
  have hn : nmatCallback N nmax T (fun x => ‖x‖) ddtol = 3 := by
    unfold nmatCallback
    rw [numTerms, if_pos (by omega), if_neg (by omega), numTerms, if_pos (by omega), if_pos]
    refine ⟨by omega, ?_⟩
    rw [hD 2 (by omega)]
    simpa [C] using ht
  intro nmat
  refine ⟨N.s 3, fun j hj => g.nopole 3 (by omega) j hj, ?_⟩
  have e1 : nmat = 3 := hn
  rw [e1]
  have e2 : T (N.s 3) = ratValue N.s N.beta N.rxi 3 C (N.s 3) + ratBasis N.s N.beta N.rxi 3 (N.s 3) := by
    change ratValue N.s N.beta N.rxi 4 C (N.s 3) = _
    unfold ratValue
    rw [Finset.sum_range_succ]
    simp [C]
  have e3 : ratValue N.s N.beta N.rxi 3 (ddiff N (1 / N.beta 0) T) (N.s 3) = ratValue N.s N.beta N.rxi 3 C (N.s 3) :=
    Finset.sum_congr rfl fun k hk => by rw [hD k (by have := Finset.mem_range.1 hk; omega)]
  rw [e2, e3]
  have := ratBasis_ne g (show 3 < nmax by omega)
  intro e
  exact this (by simpa using e)

/-- The matrix given to the inner solver for a shift is the value of the rational function at the shift, in both forms. -/
theorem C101_ksp_partial (N : Nodes F) (nmat nt : ℕ) (c : ℕ → ℕ → F) (A : ℕ → E) (D : ℕ → E) (h : 0 < nmat) (σ : F) :
    kspSplit N nmat nt c A σ = ratValue N.s N.beta N.rxi nmat (fun k => ∑ j ∈ Finset.range nt, c k j • A j) σ ∧
    kspCallback N nmat D σ = ratValue N.s N.beta N.rxi nmat D σ :=
  ⟨kspSplit_eq N nmat nt c A σ, kspCallback_eq N nmat h D σ⟩

/-- Nodes 0, 1, 2, ... with poles at -1, -2, ... (all real). -/
noncomputable def exNodes : Nodes ℝ := ⟨fun i => i, fun i => i + 1, fun i => -1 / (i + 1)⟩

theorem exNodes_good (n : ℕ) : GoodNodes exNodes.s exNodes.beta exNodes.rxi n := by
  refine ⟨fun i _ j _ h => ?_, fun i _ => ?_, fun i _ j _ h => ?_⟩
  · have : (i : ℝ) = j := h
    exact_mod_cast this
  · change ((i : ℝ) + 1) ≠ 0
    positivity
  · have h' : (i : ℝ) * (-1 / (j + 1)) = 1 := h
    have hj : (0 : ℝ) < j + 1 := by positivity
    have : (i : ℝ) * (-1 / (j + 1)) ≤ 0 := by
      have : (0 : ℝ) ≤ i * (1 / (j + 1)) := by positivity
      calc (i : ℝ) * (-1 / (j + 1)) = -(i * (1 / (j + 1))) := by ring
        _ ≤ 0 := by linarith
    linarith

/-- The hypotheses hold for nodes with finite poles. -/
example : GoodNodes exNodes.s exNodes.beta exNodes.rxi 10 ∧ exNodes.beta 0 = 1 :=
  ⟨exNodes_good 10, by simp [exNodes]⟩

/-- A matrix function in the sense of the contract: a polynomial. -/
example (n : ℕ) (p : Polynomial ℝ) (M : Matrix (Fin n) (Fin n) ℝ) : IsMatFun exNodes.s (fun z => p.eval z) M (Polynomial.aeval M p) :=
  ⟨p, rfl, fun _ _ => rfl⟩

/-- The condition on the number of terms holds, e.g., if the tolerance is zero. -/
example (T : ℝ → ℝ) : nmatCallback exNodes 5 T (fun x => ‖x‖) 0 = 5 := by
  unfold nmatCallback
  have h : ∀ k, ¬ (1 < k ∧ ‖ddiff exNodes (1 / exNodes.beta 0) T k‖ / ‖ddiff exNodes (1 / exNodes.beta 0) T 0‖ < 0) := by
    intro k hk
    have : (0:ℝ) ≤ ‖ddiff exNodes (1 / exNodes.beta 0) T k‖ / ‖ddiff exNodes (1 / exNodes.beta 0) T 0‖ := by positivity
    linarith [hk.2]
  rw [numTerms, if_pos (by omega), if_neg (h _), numTerms, if_pos (by omega), if_neg (h _), numTerms, if_pos (by omega), if_neg (h _),
    numTerms, if_pos (by omega), if_neg (h _), numTerms, if_neg (by omega)]

end Verif.NEP
