import Verif.MFN.SolveLemmas
/-!
C82, C83: the restarted Krylov solver for matrix functions.

`polyVec q M` is the first column of `q(M)`.  The hypothesis on the function says that at the matrices where the solver
evaluated it, it has the same first column as the polynomial `q`: it holds if the function is `q` itself, and also if `q`
interpolates the function on the eigenvalues of those matrices.
-/
set_option linter.all false
namespace Verif.MFN
noncomputable section
open Verif.BV Polynomial
variable {𝕜 : Type} [RCLike 𝕜] {E : Type} [NormedAddCommGroup E] [InnerProductSpace 𝕜 E]

theorem solve_after [FiniteDimensional 𝕜 E] (o : OrthOpts) (he : o.eta ≤ 1) (A : E →ₗ[𝕜] E) (L : Limits) (hn : 0 < L.ncv)
    (hm : 0 < L.maxit) (fn : FnVec 𝕜) (q : 𝕜[X]) (b : E) (buf : Nat → Nat → 𝕜) (s : KS 𝕜 E)
    (h : solveKrylov (ipForm 𝕜 E) o A (Module.finrank 𝕜 E) L fn b buf = some s) :
    b ≠ 0 ∧ (∃ W, After A L ‖b‖ fn q (((1 / ‖b‖ : ℝ) : 𝕜) • b) W s) ∧ s.reason ≠ .iterating := by
  unfold solveKrylov at h
  dsimp only at h
  rw [nrm_eq] at h
  by_cases hb : ‖b‖ = 0
  · rw [if_pos hb] at h; cases h
  rw [if_neg hb] at h
  have hb' : b ≠ 0 := norm_ne_zero_iff.1 hb
  obtain ⟨k, hk⟩ : ∃ k, L.maxit = k + 1 := ⟨L.maxit - 1, by omega⟩
  rw [hk] at h
  obtain ⟨h1, h2, h3⟩ := loop_after o he A L ‖b‖ fn q _ k _ s _ (start_before A L hn ‖b‖ fn q b hb' rfl buf) rfl
    (by rw [hk]; simp [start]) h
  exact ⟨hb', h1, h2⟩

/-- **C82.** `MFNSolve` with MFNKRYLOV, if there is no error, terminates, and the result is exact for the functions
that coincide, where evaluated, with a polynomial of degree less than the total number of steps, and with any polynomial if
the last factorization found an invariant subspace (`beta = 0`); unless it did, that number of steps is `ncv` per
restart. -/
theorem C82_exact [FiniteDimensional 𝕜 E] (o : OrthOpts) (he : o.eta ≤ 1) (A : E →ₗ[𝕜] E) (L : Limits) (hn : 0 < L.ncv)
    (hm : 0 < L.maxit) (fn : FnVec 𝕜) (b : E) (buf : Nat → Nat → 𝕜) (s : KS 𝕜 E)
    (h : solveKrylov (ipForm 𝕜 E) o A (Module.finrank 𝕜 E) L fn b buf = some s) :
    s.reason ≠ .iterating ∧ 0 < s.its ∧ (s.beta ≠ 0 → s.dim = s.its * L.ncv) ∧
      ∀ q : 𝕜[X], (∀ e ∈ s.evals, fn e.1 e.2 = some (polyVec q e.2)) → (q.natDegree < s.dim ∨ s.beta = 0) →
        s.x = (aeval A q) b := by
  obtain ⟨hb, ⟨W0, h0⟩, hr⟩ := solve_after o he A L hn hm fn 0 b buf s h
  refine ⟨hr, h0.its, fun hb => (h0.cnt hb).1, ?_⟩
  intro q hag hq
  obtain ⟨_, ⟨W, hA⟩, _⟩ := solve_after o he A L hn hm fn q b buf s h
  rw [hA.x hag, ← hA.rel.poly hA.dim hA.hess q (hq.imp id fun hb0 => by rw [hb0]; simp), hA.w0, map_smul, smul_smul]
  have : ((‖b‖ : ℝ) : 𝕜) * ((1 / ‖b‖ : ℝ) : 𝕜) = 1 := by
    rw [← RCLike.ofReal_mul, mul_one_div_cancel (norm_ne_zero_iff.2 hb), RCLike.ofReal_one]
  rw [this, one_smul]

/-- A polynomial as a function of dense matrices. -/
def polyFn (q : 𝕜[X]) : FnVec 𝕜 := fun _ M => some (polyVec q M)

/-- With a polynomial as function there are no errors. -/
theorem loop_poly (f : E →ₗ⋆[𝕜] E →ₗ[𝕜] 𝕜) (o : OrthOpts) (A : E →ₗ[𝕜] E) (N : Nat) (L : Limits) (bn : ℝ) (q : 𝕜[X]) (k : Nat) (s : KS 𝕜 E) :
    ∃ s', loop f o A N L bn (polyFn q) k s = some s' := by
  induction k generalizing s with
  | zero => exact ⟨s, rfl⟩
  | succ k ih =>
    unfold loop
    by_cases hr : s.reason = .iterating
    · rw [if_pos hr]
      have : ∃ t, cycle f o A N L bn (polyFn q) s = some t := by
        unfold cycle polyFn
        dsimp only
        split_ifs <;> exact ⟨_, rfl⟩
      obtain ⟨t, ht⟩ := this
      rw [ht]
      exact ih t
    · rw [if_neg hr]; exact ⟨s, rfl⟩

/-- **C82, polynomials.** For a polynomial function and a nonzero vector the solver always returns, and its result is
`q(A) b` if it has not stopped too early for the degree. -/
theorem C82_polynomial [FiniteDimensional 𝕜 E] (o : OrthOpts) (he : o.eta ≤ 1) (A : E →ₗ[𝕜] E) (L : Limits) (hn : 0 < L.ncv)
    (hm : 0 < L.maxit) (q : 𝕜[X]) (b : E) (hb : b ≠ 0) (buf : Nat → Nat → 𝕜) :
    ∃ s, solveKrylov (ipForm 𝕜 E) o A (Module.finrank 𝕜 E) L (polyFn q) b buf = some s ∧
      (q.natDegree < s.its * L.ncv ∨ s.beta = 0 → s.x = (aeval A q) b) := by
  have hb' : nrmOf (ipForm 𝕜 E) false b ≠ 0 := by rw [nrm_eq]; exact norm_ne_zero_iff.2 hb
  obtain ⟨s, hs⟩ := loop_poly (ipForm 𝕜 E) o A (Module.finrank 𝕜 E) L (nrmOf (ipForm 𝕜 E) false b) q L.maxit
    (start L (nrmOf (ipForm 𝕜 E) false b) b buf)
  have h : solveKrylov (ipForm 𝕜 E) o A (Module.finrank 𝕜 E) L (polyFn q) b buf = some s := by
    unfold solveKrylov
    dsimp only
    rw [if_neg hb', hs]
  refine ⟨s, h, fun hq => ?_⟩
  obtain ⟨_, _, h3, h4⟩ := C82_exact o he A L hn hm (polyFn q) b buf s h
  refine h4 q (fun e _ => rfl) ?_
  by_cases hb0 : s.beta = 0
  · exact Or.inr hb0
  · rw [h3 hb0]; exact hq

/-- The hypotheses are met: two steps per restart in the plane. -/
example : ∃ s : KS ℝ (EuclideanSpace ℝ (Fin 2)), solveKrylov (ipForm ℝ (EuclideanSpace ℝ (Fin 2))) ⟨true, 1, .never⟩ LinearMap.id
    (Module.finrank ℝ (EuclideanSpace ℝ (Fin 2))) ⟨2, 3, 1⟩ (polyFn (X ^ 2)) (EuclideanSpace.single 0 1) (fun _ _ => 0) = some s := by
  obtain ⟨s, h, _⟩ := C82_polynomial (𝕜 := ℝ) (E := EuclideanSpace ℝ (Fin 2)) ⟨true, 1, .never⟩ le_rfl LinearMap.id ⟨2, 3, 1⟩ (by norm_num)
    (by norm_num) (X ^ 2) (EuclideanSpace.single 0 1) (by simp) (fun _ _ => 0)
  exact ⟨s, h⟩

/-- **C83, partial.** If at least two restarts are allowed, `MFNSolve` with MFNKRYLOV (when it returns without error)
reports convergence exactly if the last factorization found an invariant subspace, in which case the
result is exact for every polynomial that the function agrees with, or the relative update of the last restart is
below the tolerance; otherwise it reports that the limit of iterations was reached, at that limit.
Missing: with a single restart it never reports convergence (`C83_single_false`), and the function is evaluated at
matrices with eigenvalues that do not belong to the operator (`C83_singular_false`). -/
theorem C83_reason_partial [FiniteDimensional 𝕜 E] (o : OrthOpts) (he : o.eta ≤ 1) (A : E →ₗ[𝕜] E) (L : Limits) (hn : 0 < L.ncv)
    (hm : 2 ≤ L.maxit) (fn : FnVec 𝕜) (b : E) (buf : Nat → Nat → 𝕜) (s : KS 𝕜 E)
    (h : solveKrylov (ipForm 𝕜 E) o A (Module.finrank 𝕜 E) L fn b buf = some s) :
    (s.reason = .tol ↔ s.beta = 0 ∨ s.nrm < L.tol) ∧ (s.reason = .its → L.maxit ≤ s.its) ∧
      (s.beta = 0 → ∀ q : 𝕜[X], (∀ e ∈ s.evals, fn e.1 e.2 = some (polyVec q e.2)) → s.x = (aeval A q) b) := by
  obtain ⟨hb, ⟨W, hA⟩, hr⟩ := solve_after o he A L hn (by omega) fn 0 b buf s h
  have hw := hA.why
  have hits := hA.its
  have h1 : 1 < s.its := by
    by_contra hc
    have : s.its = 1 := by omega
    apply hr
    rw [hw, this]
    unfold decideReason
    dsimp only
    rw [if_neg (show ¬ 1 > 1 by omega), if_neg (by omega)]
  unfold decideReason at hw
  dsimp only at hw
  rw [if_pos h1] at hw
  have hcond : (s.m < L.ncv ∨ s.breakdown = true ∨ s.beta = 0 ∨ s.nrm < L.tol) ↔ (s.beta = 0 ∨ s.nrm < L.tol) := by
    constructor
    · rintro (hh | hh | hh)
      · left; by_contra hc; have := (hA.cnt hc).2; omega
      · exact Or.inl (hA.bd hh)
      · exact hh
    · intro hh; exact Or.inr (Or.inr hh)
  refine ⟨?_, ?_, ?_⟩
  · refine Iff.trans ?_ hcond
    rw [hw]
    by_cases hc : s.m < L.ncv ∨ s.breakdown = true ∨ s.beta = 0 ∨ s.nrm < L.tol
    · rw [if_pos hc]; exact ⟨fun _ => hc, fun _ => rfl⟩
    · rw [if_neg hc]
      refine ⟨fun hh => ?_, fun hh => absurd hh hc⟩
      by_cases h2 : s.its ≥ L.maxit
      · rw [if_pos h2] at hh; cases hh
      · rw [if_neg h2] at hh; cases hh
  · intro hh
    by_contra hlt
    rw [hw, if_neg (show ¬ s.its ≥ L.maxit by omega)] at hh
    by_cases hc : s.m < L.ncv ∨ s.breakdown = true ∨ s.beta = 0 ∨ s.nrm < L.tol
    · rw [if_pos hc] at hh; cases hh
    · rw [if_neg hc] at hh; cases hh
  · intro hb0 q hag
    exact (C82_exact o he A L hn (by omega) fn b buf s h).2.2.2 q hag (Or.inr hb0)

/-- **C83, update.** The number compared with the tolerance is the norm of the update of that restart relative to the
norm of `b`, when the basis of the restart is orthonormal (it starts from a unit vector). -/
theorem C83_update [FiniteDimensional 𝕜 E] (o : OrthOpts) (he : o.eta ≤ 1) (A : E →ₗ[𝕜] E) (L : Limits) (bnorm : ℝ) (hb : 0 ≤ bnorm)
    (fn : FnVec 𝕜) (s s' : KS 𝕜 E) (hv : ‖s.v0‖ = 1) (hm : 0 < s.m) (hM : ∀ i j, j + 1 < i → s.M i j = 0)
    (h : cycle (ipForm 𝕜 E) o A (Module.finrank 𝕜 E) L bnorm fn s = some s') :
    ‖s'.x - s.x‖ = bnorm * s'.nrm := by
  have ho : ONList 𝕜 ([] ++ cols (fun _ => s.v0) (0 + 1)) := by
    refine ⟨?_, ?_⟩ <;> simp [cols, hv]
  have hh : Holds [mkSlot (𝕜 := 𝕜) s.v0 1] ([] ++ cols (fun _ => s.v0) (0 + 1)) := by
    refine ⟨?_, ?_, ?_⟩ <;> simp [cols, mkSlot]
  obtain ⟨V, v1, v2, v3, v4, v5, _⟩ := C80_arnoldi o he A [] 0 s.m (L.ncv + 1) hm _ (fun _ => s.v0) hh ho s.buf s.M hM
  simp only [List.length_nil, List.nil_append] at v2 v3 v4 v5
  unfold cycle at h
  dsimp only at h
  generalize matArnoldi (ipForm 𝕜 E) o A (Module.finrank 𝕜 E) 0 0 s.m (L.ncv + 1) [mkSlot s.v0 1] s.buf s.M = r at *
  generalize Verif.MFN.glue s.n r.m r.H s.H (decide (s.its + 1 = 1)) s.betaold = HH at *
  cases hfn : fn (s.n + r.m) (mat (s.n + r.m) HH) with
  | none => rw [hfn] at h; cases h
  | some F =>
    rw [hfn] at h
    dsimp only at h
    have key : ‖∑ j ∈ Finset.range r.m, ((bnorm : 𝕜) * ext F (s.n + j)) • (r.ss.map Slot.v).getD j 0‖ =
        bnorm * Real.sqrt (∑ j ∈ Finset.range r.m, ‖ext F (s.n + j)‖ ^ 2) := by
      have e1 : ∑ j ∈ Finset.range r.m, ((bnorm : 𝕜) * ext F (s.n + j)) • (r.ss.map Slot.v).getD j 0 =
          (bnorm : 𝕜) • ∑ j ∈ Finset.range r.m, ext F (s.n + j) • V j := by
        rw [Finset.smul_sum]
        refine Finset.sum_congr rfl fun j hj => ?_
        have := Finset.mem_range.1 hj
        rw [v2, cols_getD V _ _ (by omega), smul_smul]
      rw [e1, norm_smul, RCLike.norm_ofReal, abs_of_nonneg hb]
      congr 1
      have hON : Orthonormal 𝕜 (fun j : Fin r.m => V j) := by
        refine ⟨fun j => v5.unit _ (List.mem_map.2 ⟨j, List.mem_range.2 j.2, rfl⟩), ?_⟩
        intro i j hij
        have hp := v5.orth
        have hp' : (List.map V (List.range r.m)).Pairwise (fun a c => inner 𝕜 a c = 0) := hp
        rw [List.pairwise_iff_getElem] at hp'
        rcases lt_or_gt_of_ne (fun hh => hij (Fin.ext hh) : (i : Nat) ≠ j) with hlt | hlt
        · have := hp' i j (by simp) (by simp) hlt
          simpa using this
        · have := hp' j i (by simp) (by simp) hlt
          have h2 : inner 𝕜 (V j) (V i) = 0 := by simpa using this
          exact inner_eq_zero_symm.1 h2
      have e2 : ∑ j ∈ Finset.range r.m, ext F (s.n + j) • V j = ∑ j : Fin r.m, ext F (s.n + j) • V j :=
        (Fin.sum_univ_eq_sum_range (fun j => ext F (s.n + j) • V j) r.m).symm
      have e3 : ∑ j ∈ Finset.range r.m, ‖ext F (s.n + j)‖ ^ 2 = ∑ j : Fin r.m, ‖ext F (s.n + j)‖ ^ 2 :=
        (Fin.sum_univ_eq_sum_range (fun j => ‖ext F (s.n + j)‖ ^ 2) r.m).symm
      rw [e2, e3]
      symm
      rw [Real.sqrt_eq_iff_mul_self_eq (Finset.sum_nonneg fun _ _ => by positivity) (norm_nonneg _), ← pow_two,
        ← RCLike.ofReal_inj (K := 𝕜), RCLike.ofReal_pow, ← inner_self_eq_norm_sq_to_K (𝕜 := 𝕜),
        hON.inner_sum (fun j : Fin r.m => ext F (s.n + j)) (fun j => ext F (s.n + j)) Finset.univ]
      push_cast
      exact Finset.sum_congr rfl fun j _ => by rw [RCLike.conj_mul]
    by_cases hr : decideReason L (s.its + 1) r.m r.breakdown r.beta (Real.sqrt (∑ j ∈ Finset.range r.m, ‖ext F (s.n + j)‖ ^ 2)) = .iterating
    · rw [if_pos hr] at h
      obtain rfl := Option.some.inj h
      show ‖s.x + _ - s.x‖ = _
      rw [add_sub_cancel_left]; exact key
    · rw [if_neg hr] at h
      obtain rfl := Option.some.inj h
      show ‖s.x + _ - s.x‖ = _
      rw [add_sub_cancel_left]; exact key

/-- In a space of dimension at most `ncv` the first factorization finds an invariant subspace. -/
theorem first_breakdown [FiniteDimensional 𝕜 E] (o : OrthOpts) (he : o.eta ≤ 1) (A : E →ₗ[𝕜] E) (L : Limits) (hn : 0 < L.ncv)
    (hN : Module.finrank 𝕜 E ≤ L.ncv) (fn : FnVec 𝕜) (b : E) (hb : b ≠ 0) (buf : Nat → Nat → 𝕜) (t : KS 𝕜 E)
    (hc : cycle (ipForm 𝕜 E) o A (Module.finrank 𝕜 E) L ‖b‖ fn (start L ‖b‖ b buf) = some t) : t.breakdown = true := by
  have hB := start_before A L hn ‖b‖ fn (0 : 𝕜[X]) b hb rfl buf
  obtain ⟨V, v1, v2, v3, v4, v5, v6, v7, v8, v9⟩ := C80_arnoldi o he A [] 0 L.ncv (L.ncv + 1) hn [mkSlot (𝕜 := 𝕜) (start L ‖b‖ b buf).v0 1]
    (fun _ => (start (𝕜 := 𝕜) L ‖b‖ b buf).v0)
    (by refine ⟨?_, ?_, ?_⟩ <;> simp [cols, mkSlot])
    (by
      have hv : ‖(start (𝕜 := 𝕜) L ‖b‖ b buf).v0‖ = 1 := by
        rcases hB.vn with h | h
        · exact h
        · have : (start (𝕜 := 𝕜) L ‖b‖ b buf).v0 ≠ 0 := by
            show ((1 / ‖b‖ : ℝ) : 𝕜) • b ≠ 0
            refine smul_ne_zero ?_ hb
            rw [Ne, RCLike.ofReal_eq_zero]
            exact one_div_ne_zero (norm_ne_zero_iff.2 hb)
          exact absurd h this
      refine ⟨?_, ?_⟩ <;> simp [cols, hv]) (start L ‖b‖ b buf).buf (start (𝕜 := 𝕜) L ‖b‖ b buf).M hB.hM
  have htb : t.breakdown = (matArnoldi (ipForm 𝕜 E) o A (Module.finrank 𝕜 E) 0 0 L.ncv (L.ncv + 1) [mkSlot (start L ‖b‖ b buf).v0 1]
      (start L ‖b‖ b buf).buf (start L ‖b‖ b buf).M).breakdown := by
    unfold cycle at hc
    dsimp only at hc
    revert hc
    generalize fn _ _ = u
    intro hc
    cases u with
    | none => cases hc
    | some F =>
      dsimp only at hc
      split_ifs at hc <;> · obtain rfl := Option.some.inj hc; rfl
  rw [htb]
  by_contra hcon
  rw [Bool.not_eq_true] at hcon
  obtain ⟨_, _, b3, _⟩ := v8 hcon
  have hlen := ONList.length_le b3
  simp [cols] at hlen
  omega

/-- **C83 is false of the code (reports non-convergence).** With `max_it = 1` the solver never reports convergence, also
when the result is exact: whatever the operator, if the basis may have as many columns as the dimension of the space then
`beta = 0`, the result is exact, and the reason is that the maximum number of iterations was reached. -/
theorem C83_single_false [FiniteDimensional 𝕜 E] (o : OrthOpts) (he : o.eta ≤ 1) (A : E →ₗ[𝕜] E) (L : Limits) (hn : 0 < L.ncv)
    (hm : L.maxit = 1) (hN : Module.finrank 𝕜 E ≤ L.ncv) (q : 𝕜[X]) (b : E) (hb : b ≠ 0) (buf : Nat → Nat → 𝕜) :
    ∃ s, solveKrylov (ipForm 𝕜 E) o A (Module.finrank 𝕜 E) L (polyFn q) b buf = some s ∧ s.reason = .its ∧ s.breakdown = true ∧
      s.x = (aeval A q) b := by
  obtain ⟨s, hs, hx⟩ := C82_polynomial o he A L hn (by omega) q b hb buf
  obtain ⟨_, ⟨W, hA⟩, hr⟩ := solve_after o he A L hn (by omega) (polyFn q) q b buf s hs
  have hits := hA.its
  have h1 : s.its = 1 ∧ s.breakdown = true := by
    unfold solveKrylov at hs
    dsimp only at hs
    by_cases hb0 : nrmOf (ipForm 𝕜 E) false b = 0
    · rw [if_pos hb0] at hs; cases hs
    rw [if_neg hb0, hm] at hs
    unfold loop at hs
    rw [if_pos (show (start L (nrmOf (ipForm 𝕜 E) false b) b buf).reason = .iterating from rfl)] at hs
    cases hc : cycle (ipForm 𝕜 E) o A (Module.finrank 𝕜 E) L (nrmOf (ipForm 𝕜 E) false b) (polyFn q)
      (start L (nrmOf (ipForm 𝕜 E) false b) b buf) with
    | none => rw [hc] at hs; cases hs
    | some t =>
      rw [hc] at hs
      dsimp only [loop] at hs
      obtain rfl := Option.some.inj hs
      rw [nrm_eq] at hc
      exact ⟨(cycle_after o he A L ‖b‖ (polyFn q) q _ _ _ _ (start_before A L hn ‖b‖ (polyFn q) q b hb rfl buf) hc).2.1,
        first_breakdown o he A L hn hN (polyFn q) b hb buf _ hc⟩
  refine ⟨s, hs, ?_, h1.2, hx (Or.inr (hA.bd h1.2))⟩
  rw [hA.why, h1.1]
  unfold decideReason
  dsimp only
  rw [if_neg (show ¬ 1 > 1 by omega), if_pos (by omega)]

theorem det_zero_row (n : Nat) (H : Nat → Nat → 𝕜) (hz : ∀ j, j ≤ n → H n j = 0) : (mat (n + 1) H).det = 0 := by
  refine Matrix.det_eq_zero_of_row_eq_zero (Fin.last n) fun j => ?_
  show H n j = 0
  exact hz j (by omega)

/-- **C83 is false of the code (singular matrices).** If the first factorization finds an invariant subspace -
always when the basis has as many columns as the dimension of the space, the default for problems of dimension up to 30 -
and a second restart is allowed, then the solver evaluates the function at a singular matrix, whatever the operator. A
function that is not defined there (inverse, logarithm) makes `MFNSolve` fail, for every operator and vector. -/
theorem C83_singular_false [FiniteDimensional 𝕜 E] (o : OrthOpts) (he : o.eta ≤ 1) (A : E →ₗ[𝕜] E) (L : Limits) (hn : 0 < L.ncv)
    (hN : Module.finrank 𝕜 E ≤ L.ncv) (hm : 2 ≤ L.maxit) (fn : FnVec 𝕜) (hf : ∀ n (M : Matrix (Fin n) (Fin n) 𝕜), M.det = 0 → fn n M = none)
    (b : E) (buf : Nat → Nat → 𝕜) :
    solveKrylov (ipForm 𝕜 E) o A (Module.finrank 𝕜 E) L fn b buf = none := by
  by_contra hne
  obtain ⟨s, hs⟩ := Option.ne_none_iff_exists'.1 hne
  obtain ⟨hb, _, _⟩ := solve_after o he A L hn (by omega) fn 0 b buf s hs
  unfold solveKrylov at hs
  dsimp only at hs
  rw [nrm_eq, if_neg (norm_ne_zero_iff.2 hb)] at hs
  obtain ⟨k, hk⟩ : ∃ k, L.maxit = k + 1 + 1 := ⟨L.maxit - 2, by omega⟩
  rw [hk, loop] at hs
  rw [if_pos (show (start L ‖b‖ b buf).reason = .iterating from rfl)] at hs
  have hB := start_before A L hn ‖b‖ fn (0 : 𝕜[X]) b hb rfl buf
  cases hc : cycle (ipForm 𝕜 E) o A (Module.finrank 𝕜 E) L ‖b‖ fn (start L ‖b‖ b buf) with
  | none => rw [hc] at hs; cases hs
  | some t =>
    rw [hc] at hs
    dsimp only at hs
    obtain ⟨⟨W, hA⟩, hits, _⟩ := cycle_after o he A L ‖b‖ fn 0 _ _ _ _ hB hc
    have hits1 : t.its = 1 := hits
    have htr : t.reason = .iterating := by
      rw [hA.why, hits1]
      unfold decideReason
      dsimp only
      rw [if_neg (show ¬ 1 > 1 by omega), if_neg (by omega)]
    have hbd : t.breakdown = true := first_breakdown o he A L hn hN fn b hb buf t hc
    have hbeta := hA.bd hbd
    obtain ⟨e1, e2, e3, e4⟩ := hA.it htr
    have hv0 : t.v0 = 0 := by
      by_contra hv
      exact hA.itb htr hv hbeta
    -- the second one starts from zero
    unfold loop at hs
    rw [if_pos htr] at hs
    obtain ⟨V, V0, V1, V2, V3, V4, V5, V6, V7, V8⟩ :=
      arn_cycle o he A t.m (L.ncv + 1) hA.m0 t.v0 (Or.inr hv0) t.buf t.M hA.hM
    obtain ⟨z1, z2, z3⟩ := V8 hv0
    have hcn : cycle (ipForm 𝕜 E) o A (Module.finrank 𝕜 E) L ‖b‖ fn t = none := by
      unfold cycle
      dsimp only
      generalize matArnoldi (ipForm 𝕜 E) o A (Module.finrank 𝕜 E) 0 0 t.m (L.ncv + 1) [mkSlot t.v0 1] t.buf t.M = r at *
      rw [hf]
      rw [z1]
      refine det_zero_row t.n _ fun j hj => ?_
      unfold Verif.MFN.glue
      by_cases hjn : j = t.n
      · rw [if_pos (by omega), hjn, Nat.sub_self]; exact z3
      · rw [if_neg (by omega), if_neg (by omega), e2, hbeta]
        simp
    rw [hcn] at hs
    cases hs

/-- A function that fails at singular matrices: the first column of the inverse. -/
def invFn : FnVec ℝ := fun n M => if M.det = 0 then none else some (M⁻¹.mulVec (e0 n))

/-- The hypotheses of `C83_singular_false` are met by the inverse and the identity operator in the plane. -/
example : (∀ n (M : Matrix (Fin n) (Fin n) ℝ), M.det = 0 → invFn n M = none) ∧
    solveKrylov (ipForm ℝ (EuclideanSpace ℝ (Fin 2))) ⟨true, 1, .never⟩ LinearMap.id
      (Module.finrank ℝ (EuclideanSpace ℝ (Fin 2))) ⟨2, 100, 1⟩ invFn (EuclideanSpace.single 0 1) (fun _ _ => 0) = none := by
  have h : ∀ n (M : Matrix (Fin n) (Fin n) ℝ), M.det = 0 → invFn n M = none := by
    intro n M hM; unfold invFn; rw [if_pos hM]
  exact ⟨h, C83_singular_false _ le_rfl _ _ (by norm_num) (by simp) (by norm_num) _ h _ _⟩

end
end Verif.MFN
