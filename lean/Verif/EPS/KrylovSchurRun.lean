import Verif.EPS.KrylovSchurCycle
/-!
The Krylov-Schur decomposition after a restart, and along the whole run.
-/
set_option linter.all false
namespace Verif.EPS.KS
noncomputable section
open Classical Verif.BV Verif.EPS
variable {𝕜 : Type} [RCLike 𝕜] {E : Type} [NormedAddCommGroup E] [InnerProductSpace 𝕜 E]

theorem start_on (o : OrthOpts) (he : o.eta ≤ 1) (cs : List E) (V : Nat → E) (i : Nat) (x : E) (h : ONList 𝕜 (cs ++ cols V i))
    (hl : (startVector (ipForm 𝕜 E) o cs V i x).2 = false) :
    ONList 𝕜 (cs ++ cols V i ++ [(startVector (ipForm 𝕜 E) o cs V i x).1]) := by
  by_cases hx : x ∈ Submodule.span 𝕜 {v | v ∈ cs ++ cols V i}
  · have := (orthonormalize_dep o he (slots cs V i) _ (slots_holds cs V i) h x hx).2.2
    unfold startVector at hl
    dsimp only at hl
    rw [this] at hl
    cases hl
  · exact (C31_orthonormalize o.mgs o.eta he o.ref (slots cs V i) _ (slots_holds cs V i) h x hx).1

theorem restart_good (o : OrthOpts) (he : o.eta ≤ 1) (Op : E →ₗ[𝕜] E) (cs : List E) (P : Params) (hlock : P.lock = true) (hcplx : P.cplx = true)
    (s : State 𝕜 E) (hs : Good Op cs s) (nv0 nv k : Nat) (d : DenseOut 𝕜) (beta : ℝ) (bd : Bool) (V : Nat → E) (buf : Nat → Nat → 𝕜)
    (eig : Nat → ℂ) (err : Nat → Option ℝ) (x : E) (hS : Solved Op cs s nv0 nv d beta bd V) (hk : k ≤ nv) (hc : s.nconv ≤ k)
    (hb : bd = true → k = nv) (hnev : k < P.nev) :
    let s' := restart (ipForm 𝕜 E) o cs P s d beta V (withRow nv d) buf eig err nv bd k .iterating x
    s'.status = .iterating → (s'.l = 0 ∨ s'.nconv + s'.l < nv0) → Good Op cs s' := by
  intro s' hst hroom
  have ho : Out s s' nv k d beta V eig err := restart_out (ipForm 𝕜 E) o cs P hlock s d beta V buf eig err nv bd k .iterating x hk hc (fun _ => hb)
  obtain ⟨hF, hold⟩ := out_final Op cs s s' nv0 nv k d beta bd V eig err hs hS hk hc ho
  have hlt := hS.lt
  have hcn : s.nconv < nv := by omega
  by_cases h : bd = true ∨ k = nv
  · have hkn : k = nv := h.elim hb id
    have hd : ((startVector (ipForm 𝕜 E) o cs V k x).2 = true → s'.status = .breakdown) ∧
        ((startVector (ipForm 𝕜 E) o cs V k x).2 = false → s'.l = 0 ∧ s'.A = withRow nv d ∧ s'.V k = (startVector (ipForm 𝕜 E) o cs V k x).1) := by
      have key : s' = restart (ipForm 𝕜 E) o cs P s d beta V (withRow nv d) buf eig err nv bd k .iterating x := rfl
      rw [key]
      unfold restart
      dsimp only
      rw [lock_l P hlock, lock_k P hlock, if_pos h, if_pos hnev, newL_zero P _ _ _ _ _ _ (by tauto)]
      constructor
      · intro hq
        rw [if_pos hq]
      · intro hq
        rw [if_neg (by rw [hq]; simp)]
        refine ⟨rfl, rfl, ?_⟩
        show (if k = k + 0 then _ else _) = _
        rw [if_pos (Nat.add_zero k).symm, rotate_beyond _ _ _ _ _ _ (by omega)]
        exact if_pos hkn.symm
    by_cases hq : (startVector (ipForm 𝕜 E) o cs V k x).2 = true
    · have := hd.1 hq
      rw [this] at hst
      cases hst
    · obtain ⟨hl0, hAA, hVk⟩ := hd.2 (by simpa using hq)
      have hq' : (startVector (ipForm 𝕜 E) o cs V k x).2 = false := by simpa using hq
      refine ⟨?_, ?_, hF.locked, ?_⟩
      · rw [hl0, ho.nconv, Nat.add_zero]
        refine rotV_snoc cs s.nconv nv hcn d.Q V s'.V _ hS.block hS.unit ?_ k hk ho.V hVk
        have := start_on o he cs V k x (by rw [hkn]; exact hS.on) hq'
        rw [← hkn]
        exact this
      · intro j h1 h2
        rw [hl0] at h2
        omega
      · intro i j hij hh
        rw [hl0, ho.nconv] at hh
        rw [hAA]
        rw [withRow_of_lt _ _ _ _ (by omega)]
        exact hS.out i j hij (by omega)
  · have hbd : bd = false := by
      cases hbb : bd with
      | false => rfl
      | true => exact absurd (Or.inl hbb) h
    have hkn : k < nv := by
      have : k ≠ nv := fun hh => h (Or.inr hh)
      omega
    obtain ⟨g1, g2, g3⟩ := hS.good hbd
    have hd : ∃ l, 0 < l ∧ s'.l = l ∧ s'.A = truncated s.nconv nv (k + l) (withRow nv d) ∧
        s'.V = fun j => if j = k + l then rotate nv s.nconv (k + l) d.Q V nv else rotate nv s.nconv (k + l) d.Q V j := by
      refine ⟨newL P (decide (Reason.iterating = .iterating)) bd s.nconv nv k (withRow nv d), ?_, ?_⟩
      · rw [newL_pos P _ _ _ _ _ _ (by simp only [decide_true]; rintro (hh | hh | hh); cases hh; exact h (Or.inl hh); exact h (Or.inr hh)) hcplx]
        omega
      · have key : s' = restart (ipForm 𝕜 E) o cs P s d beta V (withRow nv d) buf eig err nv bd k .iterating x := rfl
        rw [key]
        unfold restart
        dsimp only
        rw [lock_l P hlock, lock_k P hlock, if_neg h]
        exact ⟨rfl, rfl, rfl⟩
    obtain ⟨l, hl, el, eA, eV⟩ := hd
    rw [el, ho.nconv] at hroom
    have hp : k + l < nv := by omega
    have hVj : ∀ j, j < k + l → s'.V j = rotV s.nconv nv d.Q V j := by
      intro j hj
      rw [eV]
      dsimp only
      rw [if_neg (by omega)]
      exact rotate_eq _ _ _ _ _ _ (fun _ _ => rfl) j (by omega) hj
    have hVp : s'.V (k + l) = V nv := by
      rw [eV]
      dsimp only
      rw [if_pos rfl]
      exact rotate_beyond _ _ _ _ _ _ (by omega)
    refine ⟨?_, ?_, hF.locked, ?_⟩
    · rw [el, ho.nconv]
      exact rotV_snoc cs s.nconv nv hcn d.Q V s'.V _ hS.block hS.unit g3 (k + l) hp.le hVj hVp
    · intro j h1 h2
      rw [el, ho.nconv] at h2
      rw [ho.nconv] at h1
      obtain ⟨y, hy, e⟩ := hS.rel j (by omega) (by omega)
      refine ⟨y, hy, ?_⟩
      rw [el, ho.nconv, hVj j h2, e, Finset.sum_range_succ _ (k + l), hVp, eA, truncated_row _ _ _ hp _ j (by omega) h2, hS.row hbd j (by omega) (by omega),
        add_assoc]
      congr 2
      rw [← Finset.sum_subset (Finset.range_subset_range.2 (show j + 1 ≤ k + l by omega))
        (f := fun i => truncated s.nconv nv (k + l) (withRow nv d) i j • s'.V i)]
      · refine Finset.sum_congr rfl fun i hi => ?_
        have hi' := Finset.mem_range.1 hi
        rw [truncated_other _ _ _ _ _ _ (by omega) (by omega), withRow_of_lt _ _ _ _ (by omega), hVj i (by omega)]
      · intro i hi hi2
        have h3 := Finset.mem_range.1 hi
        have h4 : ¬ i < j + 1 := fun hh => hi2 (Finset.mem_range.2 hh)
        rw [truncated_other _ _ _ _ _ _ (by omega) (by omega), withRow_of_lt _ _ _ _ (by omega), hS.tri i j (by omega) (by omega) (by omega), zero_smul]
    · intro i j hij hh
      rw [el, ho.nconv] at hh
      rw [eA]
      by_cases hin : i = nv
      · by_cases hj1 : s.nconv ≤ j
        · by_cases hj2 : j < nv
          · rw [hin]; exact truncated_zero _ _ _ _ j hj1 hj2
          · omega
        · rw [truncated_other _ _ _ _ _ _ (by omega) (by omega), hin, hS.row0 j (by omega)]
          exact hs.zero nv j (by omega) (Or.inl hlt)
      · rw [truncated_other _ _ _ _ _ _ (by omega) (by omega), withRow_of_lt _ _ _ _ hin]
        by_cases hi : nv < i
        · exact hS.out i j hij (Or.inl hi)
        · by_cases hj1 : s.nconv ≤ j
          · exact hS.tri i j hj1 (by omega) (by omega)
          · exact hS.low i j (by omega) (by omega) (by omega) hij

/-- One cycle. -/
theorem cycle_step [FiniteDimensional 𝕜 E] (o : OrthOpts) (he : o.eta ≤ 1) (Op : E →ₗ[𝕜] E) (cs : List E) (P : Params) (hlock : P.lock = true)
    (hcplx : P.cplx = true) (dense : Dense 𝕜) (hd : DenseOK dense) (hconv : ∀ z, P.inside z = true ∧ P.conv z 0 < P.tol) (rnd : Nat → E)
    (s : State 𝕜 E) (hs : Good Op cs s) (hacc : ∀ j, j < s.nconv → Accept Op cs P s j) :
    let s' := cycle (ipForm 𝕜 E) o Op (Module.finrank 𝕜 E) cs P dense rnd s
    s'.status ≠ .error → Room P s s' →
    (s'.status = .iterating → Good Op cs s') ∧ Final Op cs s' ∧ (∀ j, j < s'.nconv → Accept Op cs P s' j) ∧ s.nconv ≤ s'.nconv ∧
      ∀ j, j < s.nconv → s'.V j = s.V j ∧ s'.eig j = toC (s.A j j) ∧ s'.err j = s.err j := by
  intro s' hne hroom
  have key : s' = cycle (ipForm 𝕜 E) o Op (Module.finrank 𝕜 E) cs P dense rnd s := rfl
  generalize hs' : s' = t at *
  unfold cycle at key
  dsimp only at key
  by_cases h0 : min (s.nconv + P.mpd) P.ncv ≤ s.nconv + s.l
  · rw [if_pos h0] at key
    rw [key] at hne
    exact absurd rfl hne
  · rw [if_neg h0] at key
    have hsol := Good.solved o he Op cs P dense hd s hs (min (s.nconv + P.mpd) P.ncv) (by omega) (by omega)
    generalize hr : matArnoldi (ipForm 𝕜 E) o Op (Module.finrank 𝕜 E) cs.length (s.nconv + s.l) (min (s.nconv + P.mpd) P.ncv) (P.ncv + 1)
      (slots cs s.V (s.nconv + s.l + 1)) s.buf s.A = r at *
    cases hde : dense (decide (s.l ≠ 0)) s.nconv r.m r.H with
    | none =>
      rw [hde] at key
      rw [key] at hne
      exact absurd rfl hne
    | some d =>
      rw [hde] at key
      dsimp only at key
      obtain ⟨V, hV, hS0⟩ := hsol d hde
      have hS := hS0.congr (V' := fun i => (r.ss.map Slot.v).getD (cs.length + i) 0) hV
      generalize hW : (fun i => (r.ss.map Slot.v).getD (cs.length + i) 0) = W at *
      have hlt := hS.lt
      have hcn : s.nconv < r.m := by omega
      have hev : values P.cplx s.nconv r.m d = fun j => if j < s.nconv then toC (d.T j j) else d.eig j := by
        unfold values
        rw [if_pos hcplx]
      have hA := out_accept Op cs P hcplx dense hd _ _ s t (min (s.nconv + P.mpd) P.ncv) r.m d hde r.beta r.breakdown W hs hacc hS
        (by cases hb : r.breakdown with
          | true => rw [(hS.bad hb).1]
          | false => exact (hS.good hb).2.1.le)
      obtain ⟨k1, k2, k3, k4, k5⟩ := conv_k P (values P.cplx s.nconv r.m d) d r.beta (hd.nopair _ _ _ _ _ hde) s.nconv r.m hcn.le s.err
      dsimp only at hA
      generalize hcc : krylovConvergence (convData P (values P.cplx s.nconv r.m d) d r.beta) false s.nconv (r.m - s.nconv) s.err = c at *
      have hbk : r.breakdown = true → c.1 = r.m := by
        intro hb
        rcases k5 with k5 | k5 | k5
        · exact k5
        · rw [(hconv _).1] at k5; cases k5
        · rw [(hS.bad hb).1, mul_zero] at k5
          exact absurd k5 (not_le.2 (hconv _).2)
      have ho : Out s t r.m c.1 d r.beta W (values P.cplx s.nconv r.m d) c.2 := by
        rw [key]
        exact restart_out _ _ _ _ hlock _ _ _ _ _ _ _ _ _ _ _ _ k2 k1 (fun _ => hbk)
      obtain ⟨hF, hold⟩ := out_final Op cs s t _ r.m c.1 d r.beta r.breakdown W _ _ hs hS k2 k1 ho
      refine ⟨?_, hF, hA ho, by rw [ho.nconv]; exact k1, ?_⟩
      · intro hst
        have hreason : stoppingBasic (s.its + 1) P.maxIt c.1 P.nev = .iterating := by
          cases hrr : stoppingBasic (s.its + 1) P.maxIt c.1 P.nev with
          | iterating => rfl
          | tol => rw [key, hrr] at hst; exact absurd hst (by intro hh; cases hh)
          | divergedIts => rw [key, hrr] at hst; exact absurd hst (by intro hh; cases hh)
          | maxit => rw [key, hrr] at hst; exact absurd hst (by intro hh; cases hh)
        have hnev : c.1 < P.nev := by
          unfold stoppingBasic at hreason
          by_contra hcon
          rw [if_pos (by omega)] at hreason
          cases hreason
        rw [hreason] at key
        rw [key]
        refine restart_good o he Op cs P hlock hcplx s hs (min (s.nconv + P.mpd) P.ncv) r.m c.1 d r.beta r.breakdown W _ _ _ _ hS k2 k1 hbk hnev ?_ ?_
        · rw [← key]; exact hst
        · rw [← key]; exact hroom hst
      · intro j hj
        refine ⟨hold j hj, ?_, ?_⟩
        · rw [ho.eig, hev]
          dsimp only
          rw [if_pos hj, hS.same j j le_rfl hj]
        · rw [ho.err, k3 j hj]

end
end Verif.EPS.KS
