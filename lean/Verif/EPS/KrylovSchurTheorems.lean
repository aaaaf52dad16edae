import Verif.EPS.KrylovSchurRun
/-!
C92 (decomposition), C93 (error estimates), C94 (room for new vectors), C95 (locked pairs).
-/
set_option linter.all false
namespace Verif.EPS.KS
noncomputable section
open Classical Verif.BV Verif.EPS
variable {𝕜 : Type} [RCLike 𝕜] {E : Type} [NormedAddCommGroup E] [InnerProductSpace 𝕜 E]

theorem run_succ (f : E →ₗ⋆[𝕜] E →ₗ[𝕜] 𝕜) (o : OrthOpts) (Op : E →ₗ[𝕜] E) (N : Nat) (cs : List E) (P : Params) (dense : Dense 𝕜)
    (rnd : Nat → E) (n : Nat) : ∀ s, run f o Op N cs P dense rnd (n + 1) s =
      if (run f o Op N cs P dense rnd n s).status = .iterating then cycle f o Op N cs P dense rnd (run f o Op N cs P dense rnd n s)
      else run f o Op N cs P dense rnd n s := by
  induction n with
  | zero => intro s; rfl
  | succ n ih =>
    intro s
    by_cases h : s.status = .iterating
    · have e : ∀ m, run f o Op N cs P dense rnd (m + 1) s = run f o Op N cs P dense rnd m (cycle f o Op N cs P dense rnd s) := by
        intro m
        show (if s.status = .iterating then _ else _) = _
        rw [if_pos h]
      rw [e (n + 1), e n]
      exact ih _
    · have e : ∀ m, run f o Op N cs P dense rnd (m + 1) s = s := by
        intro m
        show (if s.status = .iterating then _ else _) = _
        rw [if_neg h]
      rw [e (n + 1), e n, if_neg h]

/-- The invariant along the run. -/
theorem run_inv [FiniteDimensional 𝕜 E] (o : OrthOpts) (he : o.eta ≤ 1) (Op : E →ₗ[𝕜] E) (cs : List E) (P : Params) (hlock : P.lock = true)
    (hcplx : P.cplx = true) (dense : Dense 𝕜) (hd : DenseOK dense) (hconv : ∀ z, P.inside z = true ∧ P.conv z 0 < P.tol) (rnd : Nat → E)
    (s : State 𝕜 E) (hs : Good Op cs s) (hacc : ∀ j, j < s.nconv → Accept Op cs P s j)
    (n : Nat) (hroom : ∀ m, m < n → Room P (run (ipForm 𝕜 E) o Op (Module.finrank 𝕜 E) cs P dense rnd m s)
      (run (ipForm 𝕜 E) o Op (Module.finrank 𝕜 E) cs P dense rnd (m + 1) s)) :
    let t := run (ipForm 𝕜 E) o Op (Module.finrank 𝕜 E) cs P dense rnd n s
    t.status ≠ .error →
    (t.status = .iterating → Good Op cs t) ∧ Final Op cs t ∧ (∀ j, j < t.nconv → Accept Op cs P t j) ∧ s.nconv ≤ t.nconv ∧
      ∀ j, j < s.nconv → t.V j = s.V j ∧ t.eig j = s.eig j ∧ t.err j = s.err j := by
  induction n with
  | zero =>
    intro t _
    refine ⟨fun _ => hs, ⟨?_, hs.locked⟩, hacc, le_rfl, fun j _ => ⟨rfl, rfl, rfl⟩⟩
    refine hs.on.sublist (List.Sublist.append (List.Sublist.refl _) ?_)
    unfold cols
    exact (List.range_sublist.2 (by show s.nconv ≤ _; omega)).map _
  | succ n ih =>
    intro t hne
    have ih := ih (fun m hm => hroom m (by omega))
    have e : t = _ := run_succ (ipForm 𝕜 E) o Op (Module.finrank 𝕜 E) cs P dense rnd n s
    have hr := hroom n (by omega)
    rw [show run (ipForm 𝕜 E) o Op (Module.finrank 𝕜 E) cs P dense rnd (n + 1) s = t from rfl] at hr
    generalize run (ipForm 𝕜 E) o Op (Module.finrank 𝕜 E) cs P dense rnd n s = q at *
    dsimp only at ih
    by_cases hq : q.status = .iterating
    · rw [if_pos hq] at e
      obtain ⟨i1, i2, i3, i4, i5⟩ := ih (by rw [hq]; simp)
      have hst := cycle_step o he Op cs P hlock hcplx dense hd hconv rnd q (i1 hq) i3
      dsimp only at hst
      rw [← e] at hst
      obtain ⟨c1, c2, c3, c4, c5⟩ := hst hne hr
      refine ⟨c1, c2, c3, i4.trans c4, fun j hj => ?_⟩
      obtain ⟨d1, d2, d3⟩ := c5 j (by omega)
      obtain ⟨f1, f2, f3⟩ := i5 j hj
      obtain ⟨_, _, a1, _⟩ := i3 j (by omega)
      exact ⟨d1.trans f1, by rw [d2, ← a1, f2], d3.trans f3⟩
    · rw [if_neg hq] at e
      rw [e]
      exact ih (by rw [← e]; exact hne)

/-- The initial state. -/
theorem init_good (Op : E →ₗ[𝕜] E) (cs : List E) (v : E) (h : ONList 𝕜 (cs ++ [v])) (buf : Nat → Nat → 𝕜) :
    Good Op cs (init v buf) := by
  refine ⟨?_, ?_, ?_, fun _ _ _ _ => rfl⟩
  · have : cols (init v buf).V ((init v buf).nconv + (init v buf).l + 1) = [v] := by
      simp [init, cols]
    rw [this]; exact h
  · intro j h1 h2
    exact absurd h2 (by show ¬ j < 0 + 0; omega)
  · intro j h1
    exact absurd h1 (by show ¬ j < 0; omega)

/-- **C92.** Complex scalars, locking variant, no region, a convergence test that accepts a zero residual, and restarts that keep fewer
vectors than the size of the factorization: at the top of every iteration the basis is orthonormal (also with respect to the deflation
space) and satisfies the Krylov-Schur relation with the stored matrix, and so do the locked columns at the end. Partial: real scalars, and the
hypothesis on restarts fails when all values but one converge (`C92_false_spike`); with other
convergence tests see `C92_false_breakdown`. -/
theorem C92_decomposition_partial [FiniteDimensional 𝕜 E] (o : OrthOpts) (he : o.eta ≤ 1) (Op : E →ₗ[𝕜] E) (cs : List E) (P : Params)
    (hlock : P.lock = true) (hcplx : P.cplx = true) (dense : Dense 𝕜) (hd : DenseOK dense)
    (hconv : ∀ z, P.inside z = true ∧ P.conv z 0 < P.tol) (rnd : Nat → E) (v : E) (hv : ONList 𝕜 (cs ++ [v])) (buf : Nat → Nat → 𝕜)
    (n : Nat) (hroom : ∀ m, m < n → Room P (run (ipForm 𝕜 E) o Op (Module.finrank 𝕜 E) cs P dense rnd m (init v buf))
      (run (ipForm 𝕜 E) o Op (Module.finrank 𝕜 E) cs P dense rnd (m + 1) (init v buf))) :
    let t := run (ipForm 𝕜 E) o Op (Module.finrank 𝕜 E) cs P dense rnd n (init v buf)
    t.status ≠ .error → (t.status = .iterating → Good Op cs t) ∧ Final Op cs t := by
  intro t hne
  obtain ⟨h1, h2, _⟩ := run_inv o he Op cs P hlock hcplx dense hd hconv rnd (init v buf) (init_good Op cs v hv buf)
    (fun j hj => absurd hj (by show ¬ j < 0; omega)) n hroom hne
  exact ⟨h1, h2⟩

/-- **C93.** Under the same hypotheses every pair counted as converged, at any point of the run, has been accepted with an estimate that
bounds the norm of its residual, up to the residuals dropped with the columns locked before. -/
theorem C93_residual_partial [FiniteDimensional 𝕜 E] (o : OrthOpts) (he : o.eta ≤ 1) (Op : E →ₗ[𝕜] E) (cs : List E) (P : Params)
    (hlock : P.lock = true) (hcplx : P.cplx = true) (dense : Dense 𝕜) (hd : DenseOK dense)
    (hconv : ∀ z, P.inside z = true ∧ P.conv z 0 < P.tol) (rnd : Nat → E) (v : E) (hv : ONList 𝕜 (cs ++ [v])) (buf : Nat → Nat → 𝕜)
    (n : Nat) (hroom : ∀ m, m < n → Room P (run (ipForm 𝕜 E) o Op (Module.finrank 𝕜 E) cs P dense rnd m (init v buf))
      (run (ipForm 𝕜 E) o Op (Module.finrank 𝕜 E) cs P dense rnd (m + 1) (init v buf))) :
    let t := run (ipForm 𝕜 E) o Op (Module.finrank 𝕜 E) cs P dense rnd n (init v buf)
    t.status ≠ .error → ∀ j, j < t.nconv → Accept Op cs P t j := by
  intro t hne
  exact (run_inv o he Op cs P hlock hcplx dense hd hconv rnd (init v buf) (init_good Op cs v hv buf)
    (fun j hj => absurd hj (by show ¬ j < 0; omega)) n hroom hne).2.2.1

/-- The residuals of the pairs accepted by a cycle without locked columns. -/
theorem cycle_exact [FiniteDimensional 𝕜 E] (o : OrthOpts) (he : o.eta ≤ 1) (Op : E →ₗ[𝕜] E) (P : Params) (hlock : P.lock = true)
    (hcplx : P.cplx = true) (dense : Dense 𝕜) (hd : DenseOK dense) (hconv : ∀ z, P.inside z = true ∧ P.conv z 0 < P.tol) (rnd : Nat → E)
    (s : State 𝕜 E) (hs : Good Op [] s) (h00 : s.nconv = 0) (t : State 𝕜 E)
    (key : t = cycle (ipForm 𝕜 E) o Op (Module.finrank 𝕜 E) [] P dense rnd s) (hne : t.status ≠ .error) (j : Nat) (hj : j < t.nconv) :
    ∃ w : Nat → 𝕜, ∑ i ∈ Finset.range (j + 1), ‖w i‖ ^ 2 = 1 ∧ t.eig j = toC (t.A j j) ∧
      t.err j = some (P.conv (t.eig j) ‖Op (∑ i ∈ Finset.range (j + 1), w i • t.V i) - (t.A j j) • (∑ i ∈ Finset.range (j + 1), w i • t.V i)‖) := by
  unfold cycle at key
  dsimp only at key
  by_cases h0 : min (s.nconv + P.mpd) P.ncv ≤ s.nconv + s.l
  · rw [if_pos h0] at key
    rw [key] at hne
    exact absurd rfl hne
  · rw [if_neg h0] at key
    have hsol := Good.solved o he Op [] P dense hd s hs (min (s.nconv + P.mpd) P.ncv) (by omega) (by omega)
    generalize hr : matArnoldi (ipForm 𝕜 E) o Op (Module.finrank 𝕜 E) ([] : List E).length (s.nconv + s.l) (min (s.nconv + P.mpd) P.ncv) (P.ncv + 1)
      (slots [] s.V (s.nconv + s.l + 1)) s.buf s.A = r at *
    cases hde : dense (decide (s.l ≠ 0)) s.nconv r.m r.H with
    | none =>
      rw [hde] at key
      rw [key] at hne
      exact absurd rfl hne
    | some d =>
      rw [hde] at key
      dsimp only at key
      obtain ⟨V, hV, hS0⟩ := hsol d hde
      have hS := hS0.congr (V' := fun i => (r.ss.map Slot.v).getD (([] : List E).length + i) 0) hV
      generalize hW : (fun i => (r.ss.map Slot.v).getD (([] : List E).length + i) 0) = W at *
      have hlt := hS.lt
      have hcn : s.nconv < r.m := by omega
      have hev : values P.cplx s.nconv r.m d = fun j => if j < s.nconv then toC (d.T j j) else d.eig j := by
        unfold values
        rw [if_pos hcplx]
      obtain ⟨k1, k2, k3, k4, k5⟩ := conv_k P (values P.cplx s.nconv r.m d) d r.beta (hd.nopair _ _ _ _ _ hde) s.nconv r.m hcn.le s.err
      generalize hcc : krylovConvergence (convData P (values P.cplx s.nconv r.m d) d r.beta) false s.nconv (r.m - s.nconv) s.err = c at *
      have hbk : r.breakdown = true → c.1 = r.m := by
        intro hb
        rcases k5 with k5 | k5 | k5
        · exact k5
        · rw [(hconv _).1] at k5; cases k5
        · rw [(hS.bad hb).1, mul_zero] at k5
          exact absurd k5 (not_le.2 (hconv _).2)
      have ho : Out s t r.m c.1 d r.beta W (values P.cplx s.nconv r.m d) c.2 := by
        rw [key]
        exact restart_out _ _ _ _ hlock _ _ _ _ _ _ _ _ _ _ _ _ k2 k1 (fun _ => hbk)
      rw [ho.nconv] at hj
      obtain ⟨q1, q2, q3⟩ := k4 j (by omega) hj
      obtain ⟨w, w1, w2, w3, w4⟩ := hd.vec _ _ _ _ _ hde hcn j (by omega) (by omega)
      have eE : t.eig j = toC (t.A j j) := by
        rw [ho.eig, hev, ho.A j j le_rfl hj]
        dsimp only
        rw [if_neg (by omega), hd.eig _ _ _ _ _ hde hcn j (by omega) (by omega)]
      refine ⟨w, ?_, eE, ?_⟩
      · rw [← w2]
        refine Finset.sum_subset (Finset.range_subset_range.2 (by omega)) fun i _ hi => ?_
        rw [w1 i (by simpa using hi)]; simp
      · have hcol : ∀ i, i ≤ j → Op (t.V i) = 0 + ∑ a ∈ Finset.range (i + 1), t.A a i • t.V a + ((r.beta : 𝕜) * d.Q (r.m - 1) i) • W r.m := by
          intro i hi
          obtain ⟨y, hy, eu⟩ := hS.rel i (by omega) (by omega)
          have hy0 : y = 0 := by simpa using hy
          rw [ho.V i (by omega), eu, hy0]
          congr 2
          refine Finset.sum_congr rfl fun a ha => ?_
          have ha' := Finset.mem_range.1 ha
          rw [ho.V a (by omega), ho.A a i (by omega) (by omega)]
        have hc := comb Op t.A t.V (fun _ => 0) (fun i => ((r.beta : 𝕜) * d.Q (r.m - 1) i) • W r.m) j w hcol (by
          intro i hi
          rw [ho.A j j le_rfl hj, ← w3 i (by omega)]
          rw [← Finset.sum_subset (Finset.Ico_subset_Ico_right (show j + 1 ≤ r.m by omega)) (f := fun b => d.T i b * w b)]
          · refine Finset.sum_congr rfl fun b hb => ?_
            have := Finset.mem_Ico.1 hb
            rw [ho.A i b (by omega) (by omega)]
          · intro b hb hb2
            have h1 := Finset.mem_Ico.1 hb
            have h2 : ¬ (i ≤ b ∧ b < j + 1) := fun hh => hb2 (Finset.mem_Ico.2 hh)
            rw [w1 b (by omega), mul_zero])
        simp only [smul_zero, Finset.sum_const_zero, sub_zero] at hc
        have hsum : ∑ i ∈ Finset.range (j + 1), w i • ((r.beta : 𝕜) * d.Q (r.m - 1) i) • W r.m =
            ((r.beta : 𝕜) * ∑ i ∈ Finset.range r.m, d.Q (r.m - 1) i * w i) • W r.m := by
          rw [← Finset.sum_subset (Finset.range_subset_range.2 (show j + 1 ≤ r.m by omega)) (f := fun i => d.Q (r.m - 1) i * w i),
            Finset.mul_sum, Finset.sum_smul]
          · refine Finset.sum_congr rfl fun i _ => ?_
            rw [smul_smul]; congr 1; ring
          · intro i _ hi
            rw [w1 i (by simpa using hi), mul_zero]
        rw [hc, hsum, ho.err, q2, ← ho.eig]
        congr 2
        rw [norm_smul, norm_mul, ← w4, RCLike.norm_ofReal]
        cases hb : r.breakdown with
        | true => rw [(hS.bad hb).1]; simp
        | false =>
          obtain ⟨g1, g2, g3⟩ := hS.good hb
          rw [g3.unit (W r.m) (by simp), abs_of_pos g2, mul_one, mul_comm]

/-- **C93, exact.** As long as nothing has been locked, the estimate of each pair accepted in the next iteration is the convergence test applied to the
exact norm of its residual (no deflation space). -/
theorem C93_exact_partial [FiniteDimensional 𝕜 E] (o : OrthOpts) (he : o.eta ≤ 1) (Op : E →ₗ[𝕜] E) (P : Params)
    (hlock : P.lock = true) (hcplx : P.cplx = true) (dense : Dense 𝕜) (hd : DenseOK dense)
    (hconv : ∀ z, P.inside z = true ∧ P.conv z 0 < P.tol) (rnd : Nat → E) (v : E) (hv : ‖v‖ = 1) (buf : Nat → Nat → 𝕜)
    (n : Nat) (hroom : ∀ m, m < n → Room P (run (ipForm 𝕜 E) o Op (Module.finrank 𝕜 E) [] P dense rnd m (init v buf))
      (run (ipForm 𝕜 E) o Op (Module.finrank 𝕜 E) [] P dense rnd (m + 1) (init v buf))) :
    let s := run (ipForm 𝕜 E) o Op (Module.finrank 𝕜 E) [] P dense rnd n (init v buf)
    let t := run (ipForm 𝕜 E) o Op (Module.finrank 𝕜 E) [] P dense rnd (n + 1) (init v buf)
    s.status = .iterating → s.nconv = 0 → t.status ≠ .error → ∀ j, j < t.nconv → ∃ w : Nat → 𝕜,
      ∑ i ∈ Finset.range (j + 1), ‖w i‖ ^ 2 = 1 ∧ t.eig j = toC (t.A j j) ∧
      t.err j = some (P.conv (t.eig j) ‖Op (∑ i ∈ Finset.range (j + 1), w i • t.V i) - (t.A j j) • (∑ i ∈ Finset.range (j + 1), w i • t.V i)‖) := by
  intro s t hst h0 hne j hj
  have hv' : ONList 𝕜 ([] ++ [v]) := ⟨by simp [hv], by simp⟩
  have inv := run_inv o he Op [] P hlock hcplx dense hd hconv rnd (init v buf) (init_good Op [] v hv' buf)
    (fun j hj => absurd hj (by show ¬ j < 0; omega)) n hroom
  have e : t = _ := run_succ (ipForm 𝕜 E) o Op (Module.finrank 𝕜 E) [] P dense rnd n (init v buf)
  dsimp only at inv
  rw [show run (ipForm 𝕜 E) o Op (Module.finrank 𝕜 E) [] P dense rnd n (init v buf) = s from rfl] at inv e
  rw [if_pos hst] at e
  have hs := (inv (by rw [hst]; simp)).1 hst
  exact cycle_exact o he Op P hlock hcplx dense hd hconv rnd s hs h0 t e hne j hj

/-- **C95.** Under the same hypotheses, what is locked after `m` iterations is the same after `n` more iterations: Schur vectors, eigenvalues
and error estimates. Partial: complex scalars (for real ones see `C95_false`). -/
theorem C95_locked_partial [FiniteDimensional 𝕜 E] (o : OrthOpts) (he : o.eta ≤ 1) (Op : E →ₗ[𝕜] E) (cs : List E) (P : Params)
    (hlock : P.lock = true) (hcplx : P.cplx = true) (dense : Dense 𝕜) (hd : DenseOK dense)
    (hconv : ∀ z, P.inside z = true ∧ P.conv z 0 < P.tol) (rnd : Nat → E) (v : E) (hv : ONList 𝕜 (cs ++ [v])) (buf : Nat → Nat → 𝕜)
    (m n : Nat) (hroom : ∀ i, i < m + n → Room P (run (ipForm 𝕜 E) o Op (Module.finrank 𝕜 E) cs P dense rnd i (init v buf))
      (run (ipForm 𝕜 E) o Op (Module.finrank 𝕜 E) cs P dense rnd (i + 1) (init v buf))) :
    let s := run (ipForm 𝕜 E) o Op (Module.finrank 𝕜 E) cs P dense rnd m (init v buf)
    let t := run (ipForm 𝕜 E) o Op (Module.finrank 𝕜 E) cs P dense rnd (m + n) (init v buf)
    t.status ≠ .error → s.nconv ≤ t.nconv ∧ ∀ j, j < s.nconv → t.V j = s.V j ∧ t.eig j = s.eig j ∧ t.err j = s.err j := by
  intro s t hne
  induction n with
  | zero => exact ⟨le_rfl, fun j _ => ⟨rfl, rfl, rfl⟩⟩
  | succ n ih =>
    have e : t = _ := run_succ (ipForm 𝕜 E) o Op (Module.finrank 𝕜 E) cs P dense rnd (m + n) (init v buf)
    have inv := run_inv o he Op cs P hlock hcplx dense hd hconv rnd (init v buf) (init_good Op cs v hv buf)
      (fun j hj => absurd hj (by show ¬ j < 0; omega)) (m + n) (fun i hi => hroom i (by omega))
    have hr := hroom (m + n) (by omega)
    have ih := ih (fun i hi => hroom i (by omega))
    rw [show run (ipForm 𝕜 E) o Op (Module.finrank 𝕜 E) cs P dense rnd (m + n + 1) (init v buf) = t from rfl] at hr
    dsimp only at inv ih
    generalize run (ipForm 𝕜 E) o Op (Module.finrank 𝕜 E) cs P dense rnd (m + n) (init v buf) = q at *
    by_cases hq : q.status = .iterating
    · rw [if_pos hq] at e
      obtain ⟨i1, i2, i3, i4, i5⟩ := inv (by rw [hq]; simp)
      have hst := cycle_step o he Op cs P hlock hcplx dense hd hconv rnd q (i1 hq) i3
      dsimp only at hst
      rw [← e] at hst
      obtain ⟨c1, c2, c3, c4, c5⟩ := hst hne hr
      obtain ⟨g1, g2⟩ := ih (by rw [hq]; simp)
      refine ⟨g1.trans c4, fun j hj => ?_⟩
      obtain ⟨d1, d2, d3⟩ := c5 j (by omega)
      obtain ⟨f1, f2, f3⟩ := g2 j hj
      obtain ⟨_, _, a1, _⟩ := i3 j (by omega)
      exact ⟨d1.trans f1, by rw [d2, ← a1, f2], d3.trans f3⟩
    · rw [if_neg hq] at e
      rw [e]
      exact ih (by rw [← e]; exact hne)

/-- Without breakdown the factorization has the requested size and the space is not exhausted. -/
theorem arnLoop_size (f : E →ₗ⋆[𝕜] E →ₗ[𝕜] 𝕜) (o : OrthOpts) (Op : E →ₗ[𝕜] E) (N nc : Nat) :
    ∀ (fuel j : Nat) (ss : List (Slot 𝕜 E)) (buf : Nat → Nat → 𝕜) (beta : ℝ),
      let r := arnLoop f o Op N nc fuel j ss buf beta
      j ≤ r.m ∧ r.m ≤ j + fuel ∧ (r.lindep = false → r.m = j + fuel ∧ (j < N → r.m < N)) := by
  intro fuel
  induction fuel with
  | zero => intro j ss buf beta; exact ⟨le_rfl, le_rfl, fun _ => ⟨rfl, id⟩⟩
  | succ fuel ih =>
    intro j ss buf beta r
    have e : r = arnLoop f o Op N nc (fuel + 1) j ss buf beta := rfl
    rw [arnLoop] at e
    dsimp only at e
    by_cases hj : j + 1 = N
    · rw [if_pos hj] at e
      rw [e]
      exact ⟨by show j ≤ j + 1; omega, by show j + 1 ≤ j + (fuel + 1); omega, fun hh => by cases hh⟩
    · rw [if_neg hj] at e
      by_cases hl : (orthonormalize f false o.mgs o.eta o.ref ss (Op (lastCol ss))).2.lindep = true
      · rw [if_pos hl] at e
        rw [e]
        exact ⟨by show j ≤ j + 1; omega, by show j + 1 ≤ j + (fuel + 1); omega, fun hh => by cases hh⟩
      · rw [if_neg hl] at e
        have := ih (j + 1) ((orthonormalize f false o.mgs o.eta o.ref ss (Op (lastCol ss))).2.ss ++
          [mkSlot (orthonormalize f false o.mgs o.eta o.ref ss (Op (lastCol ss))).1 1])
          (writeCol buf (j + 1) (bufferColumn nc (orthonormalize f false o.mgs o.eta o.ref ss (Op (lastCol ss))).2))
          (orthonormalize f false o.mgs o.eta o.ref ss (Op (lastCol ss))).2.nrm
        dsimp only at this
        rw [← e] at this
        obtain ⟨a, b, c⟩ := this
        exact ⟨by omega, by omega, fun hh => ⟨by have := (c hh).1; omega, fun hN => (c hh).2 (by omega)⟩⟩

theorem arnLoop_pos (f : E →ₗ⋆[𝕜] E →ₗ[𝕜] 𝕜) (o : OrthOpts) (Op : E →ₗ[𝕜] E) (N nc fuel j : Nat) (ss : List (Slot 𝕜 E)) (buf : Nat → Nat → 𝕜) (beta : ℝ) :
    0 < (arnLoop f o Op N nc (fuel + 1) j ss buf beta).m := by
  rw [arnLoop]
  dsimp only
  by_cases hj : j + 1 = N
  · rw [if_pos hj]; exact Nat.succ_pos _
  · rw [if_neg hj]
    by_cases hl : (orthonormalize f false o.mgs o.eta o.ref ss (Op (lastCol ss))).2.lindep = true
    · rw [if_pos hl]; exact Nat.succ_pos _
    · rw [if_neg hl]
      exact lt_of_lt_of_le (Nat.succ_pos j) (arnLoop_size f o Op N nc fuel (j + 1) _ _ _).1

theorem firstBad_le (d : KrylovData) (last : Nat) (hp : ∀ j, d.pair j = true → j + 1 < last) :
    ∀ f k, k ≤ last → firstBad d last f k ≤ last := by
  intro f
  induction f with
  | zero => intro k hk; exact hk
  | succ f ih =>
    intro k hk
    rw [firstBad]
    by_cases h : k < last
    · rw [if_pos h]
      by_cases a : Accepted d k
      · rw [if_pos a]
        refine ih _ ?_
        unfold nextIdx
        by_cases p : d.pair k = true
        · rw [if_pos p]; have := hp k p; omega
        · rw [if_neg p]; omega
      · rw [if_neg a]; exact hk
    · rw [if_neg h]; exact hk

/-- The number of vectors kept, real or complex scalars. -/
theorem newL_room (P : Params) (hkeep : P.keep ≤ 9 / 10) (it bd : Bool) (c nv k : Nat) (hck : c ≤ k) (hk : k ≤ nv) (hnv : 0 < nv) (A : Nat → Nat → 𝕜) :
    newL P it bd c nv k A = 0 ∨ (bd = false ∧ k + newL P it bd c nv k A < nv) ∨ (bd = false ∧ k + 1 = nv ∧ newL P it bd c nv k A = 1) := by
  by_cases h : it = false ∨ bd = true ∨ k = nv
  · left; exact newL_zero P it bd c nv k A h
  · right
    have hb : bd = false := by
      cases hbb : bd with
      | false => rfl
      | true => exact absurd (Or.inr (Or.inl hbb)) h
    have hkn : k < nv := by
      have : k ≠ nv := fun hh => h (Or.inr (Or.inr hh))
      omega
    have hfl : Nat.floor (((nv - k : Nat) : ℝ) * P.keep) < nv - k := by
      rw [Nat.floor_lt' (by omega)]
      have : (0 : ℝ) < ((nv - k : Nat) : ℝ) := by exact_mod_cast (by omega : 0 < nv - k)
      nlinarith
    unfold newL
    rw [if_neg h]
    dsimp only
    generalize Nat.floor (((nv - k : Nat) : ℝ) * P.keep) = a at *
    unfold DS.getTruncateSize
    dsimp only
    have e1 : (if ((k : Nat) : Int) ≠ 0 then ((k : Nat) : Int) else ((c : Nat) : Int)) = (k : Int) := by
      by_cases h0 : ((k : Nat) : Int) ≠ 0
      · rw [if_pos h0]
      · rw [if_neg h0]; omega
    rw [e1, if_pos (show (nv : Int) ≠ 0 by omega)]
    clear e1
    simp only [hb, true_and]
    by_cases h1 : P.cplx = true
    · rw [if_pos h1]; omega
    · rw [if_neg h1]
      by_cases h2 : (decide (A ((k : Int) + ((max 1 a : Nat) : Int)).toNat ((k : Int) + ((max 1 a : Nat) : Int) - 1).toNat ≠ 0)) = true
      · rw [if_pos h2]
        by_cases h3 : (k : Int) + ((max 1 a : Nat) : Int) < (nv : Int) - 1
        · rw [if_pos h3]; omega
        · rw [if_neg h3]; omega
      · rw [if_neg h2]; omega

/-- **C94.** Locking or `ncv<=mpd` (krylovschur.c:122), `mpd` at least 2, restart parameter at most 0.9, `nev<ncv` or `nev<=ncv` with `ncv` the dimension
of the problem (epssetup.c:700-706): for any operator, dense solver that does not split a complex pair, convergence test and region, real or complex scalars, at the top of every
iteration the number of vectors kept is smaller than the size of the next factorization. Partial: it fails for `mpd=1`
(`C94_false`). -/
theorem C94_room_partial (f : E →ₗ⋆[𝕜] E →ₗ[𝕜] 𝕜) (o : OrthOpts) (Op : E →ₗ[𝕜] E) (N : Nat) (cs : List E) (P : Params)
    (hlock : P.lock = true ∨ P.ncv ≤ P.mpd) (hmpd : 2 ≤ P.mpd) (hkeep : P.keep ≤ 9 / 10) (hnev : 0 < P.nev) (hncv : P.nev < P.ncv ∨ (P.nev ≤ P.ncv ∧ P.ncv = N)) (dense : Dense 𝕜)
    (hp : ∀ raw l n A d, dense raw l n A = some d → ∀ j, d.pair j = true → j + 1 < n) (rnd : Nat → E) (v : E) (buf : Nat → Nat → 𝕜) (n : Nat) :
    let t := run f o Op N cs P dense rnd n (init v buf)
    t.status = .iterating → t.nconv + t.l < min (t.nconv + P.mpd) P.ncv := by
  induction n with
  | zero =>
    intro t _
    show 0 + 0 < min (0 + P.mpd) P.ncv
    omega
  | succ n ih =>
    intro t hst
    have e : t = _ := run_succ f o Op N cs P dense rnd n (init v buf)
    generalize run f o Op N cs P dense rnd n (init v buf) = s at *
    by_cases hq : s.status = .iterating
    · rw [if_pos hq] at e
      have hs := ih hq
      unfold cycle at e
      dsimp only at e
      rw [if_neg (by omega)] at e
      have hsz := arnLoop_size f o Op N cs.length (min (s.nconv + P.mpd) P.ncv - (s.nconv + s.l)) (s.nconv + s.l)
        (slots cs s.V (s.nconv + s.l + 1)) s.buf 0
      have hm : ∀ r, r = matArnoldi f o Op N cs.length (s.nconv + s.l) (min (s.nconv + P.mpd) P.ncv) (P.ncv + 1)
          (slots cs s.V (s.nconv + s.l + 1)) s.buf s.A → s.nconv + s.l ≤ r.m ∧ r.m ≤ min (s.nconv + P.mpd) P.ncv ∧
          (r.breakdown = false → r.m = min (s.nconv + P.mpd) P.ncv ∧ (s.nconv + s.l < N → r.m < N)) := by
        intro r hr
        rw [hr]
        obtain ⟨a, b, c⟩ := hsz
        refine ⟨a, ?_, fun hb => ⟨?_, (c hb).2⟩⟩
        · refine b.trans (le_of_eq ?_); omega
        · refine (c hb).1.trans ?_; omega
      generalize hr : matArnoldi f o Op N cs.length (s.nconv + s.l) (min (s.nconv + P.mpd) P.ncv) (P.ncv + 1)
          (slots cs s.V (s.nconv + s.l + 1)) s.buf s.A = r at *
      obtain ⟨m1, m2, m3⟩ := hm r rfl
      cases hde : dense (decide (s.l ≠ 0)) s.nconv r.m r.H with
      | none =>
        rw [hde] at e
        rw [e] at hst
        cases hst
      | some d =>
        rw [hde] at e
        dsimp only at e
        have hN : Numbers (convData P (values P.cplx s.nconv r.m d) d r.beta) := fun k => ⟨by simp [convData], by simp [convData]⟩
        have hk : ∀ c, c = krylovConvergence (convData P (values P.cplx s.nconv r.m d) d r.beta) false s.nconv (r.m - s.nconv) s.err →
            s.nconv ≤ c.1 ∧ c.1 ≤ r.m := by
          intro c hc
          have e1 : c.1 = firstBad (convData P (values P.cplx s.nconv r.m d) d r.beta) (s.nconv + (r.m - s.nconv)) (r.m - s.nconv) s.nconv := by
            rw [hc]; exact loop_none _ hN _ _ _ _ _
          rw [e1]
          refine ⟨begin_ge (firstBad_spec _ _ _ _ (by omega)).1, ?_⟩
          refine (firstBad_le _ _ ?_ _ _ (by omega)).trans (by omega)
          intro j hj
          have := hp _ _ _ _ _ hde j hj
          omega
        generalize krylovConvergence (convData P (values P.cplx s.nconv r.m d) d r.beta) false s.nconv (r.m - s.nconv) s.err = c at *
        obtain ⟨k1, k2⟩ := hk c rfl
        have hm0 : 0 < r.m := by
          by_contra h0
          have hb : r.breakdown = true := by
            by_contra hb
            have := (m3 (by simpa using hb)).1
            omega
          have : s.nconv + s.l < min (s.nconv + P.mpd) P.ncv := hs
          obtain ⟨g, hg⟩ : ∃ g, min (s.nconv + P.mpd) P.ncv - (s.nconv + s.l) = g + 1 := ⟨_, (Nat.succ_pred_eq_of_pos (by omega)).symm⟩
          have h2 := arnLoop_pos f o Op N cs.length g (s.nconv + s.l) (slots cs s.V (s.nconv + s.l + 1)) s.buf 0
          have h3 : r.m = (arnLoop f o Op N cs.length (g + 1) (s.nconv + s.l) (slots cs s.V (s.nconv + s.l + 1)) s.buf 0).m := by
            rw [← hr]; unfold matArnoldi; rw [hg]
          omega
        have hreason : stoppingBasic (s.its + 1) P.maxIt c.1 P.nev = .iterating := by
          cases hrr : stoppingBasic (s.its + 1) P.maxIt c.1 P.nev with
          | iterating => rfl
          | tol => rw [e, hrr] at hst; exact absurd hst (by intro hh; cases hh)
          | divergedIts => rw [e, hrr] at hst; exact absurd hst (by intro hh; cases hh)
          | maxit => rw [e, hrr] at hst; exact absurd hst (by intro hh; cases hh)
        have hlt : c.1 < P.nev := by
          unfold stoppingBasic at hreason
          by_contra hcon
          rw [if_pos (by omega)] at hreason
          cases hreason
        rw [hreason] at e
        have hf : t.nconv + t.l = c.1 + newL P (decide (Reason.iterating = .iterating)) r.breakdown s.nconv r.m c.1 (withRow r.m d) ∧
            (t.nconv = c.1 ∨ P.ncv ≤ P.mpd) := by
          have hL : P.lock = true ∨ newL P (decide (Reason.iterating = .iterating)) r.breakdown s.nconv r.m c.1 (withRow r.m d) = 0 ∨
              (P.lock = false ∧ 0 < newL P (decide (Reason.iterating = .iterating)) r.breakdown s.nconv r.m c.1 (withRow r.m d)) := by
            cases P.lock
            · rcases Nat.eq_zero_or_pos (newL P (decide (Reason.iterating = .iterating)) r.breakdown s.nconv r.m c.1 (withRow r.m d)) with h | h
              · exact Or.inr (Or.inl h)
              · exact Or.inr (Or.inr ⟨rfl, h⟩)
            · exact Or.inl rfl
          have hL2 : 0 < newL P (decide (Reason.iterating = .iterating)) r.breakdown s.nconv r.m c.1 (withRow r.m d) → r.breakdown = false := by
            intro hpos
            by_contra hb
            rw [newL_zero P _ _ _ _ _ _ (Or.inr (Or.inl (by simpa using hb)))] at hpos
            omega
          rw [e]
          unfold restart
          dsimp only
          generalize newL P (decide (Reason.iterating = .iterating)) r.breakdown s.nconv r.m c.1 (withRow r.m d) = L at *
          by_cases hl : P.lock = false ∧ 0 < L
          · simp only [if_pos hl]
            rw [if_neg (by rw [hL2 hl.2]; rintro (hh | hh); cases hh; omega)]
            refine ⟨by show 0 + (L + c.1) = _; omega, Or.inr ?_⟩
            rcases hlock with h | h
            · rw [h] at hl; exact absurd hl.1 (by simp)
            · exact h
          · simp only [if_neg hl]
            by_cases h1 : r.breakdown = true ∨ c.1 = r.m
            · rw [if_pos h1, if_pos hlt]
              split
              · exact ⟨rfl, Or.inl rfl⟩
              · exact ⟨rfl, Or.inl rfl⟩
            · rw [if_neg h1]
              exact ⟨rfl, Or.inl rfl⟩
        obtain ⟨hf1, hf2⟩ := hf
        rcases newL_room (𝕜 := 𝕜) P hkeep (decide (Reason.iterating = .iterating)) r.breakdown s.nconv r.m c.1 k1 k2 hm0 (withRow r.m d) with h | ⟨hb, h⟩ | ⟨hb, h, h'⟩
        · rw [h] at hf1; omega
        · have := m3 hb
          omega
        · rw [h'] at hf1
          obtain ⟨g1, g2⟩ := m3 hb
          rcases hncv with hn | ⟨hn, hN'⟩
          · omega
          · have := g2 (by omega)
            omega
    · rw [if_neg hq] at e
      rw [e] at hst
      exact absurd hst hq

end
end Verif.EPS.KS
