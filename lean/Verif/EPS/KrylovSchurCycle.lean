import Verif.EPS.KrylovSchurStep
/-!
One Krylov-Schur cycle: the restart.
-/
set_option linter.all false
namespace Verif.EPS.KS
noncomputable section
open Classical Verif.BV Verif.EPS
variable {𝕜 : Type} [RCLike 𝕜] {E : Type} [NormedAddCommGroup E] [InnerProductSpace 𝕜 E]

theorem rotV_congr (c nv : Nat) (Q : Nat → Nat → 𝕜) (V V' : Nat → E) (h : ∀ i, i < nv → V' i = V i) (j : Nat) (hj : j < nv) :
    rotV c nv Q V' j = rotV c nv Q V j := by
  unfold rotV rotate
  by_cases hc : c ≤ j ∧ j < nv
  · rw [if_pos hc, if_pos hc]
    exact Finset.sum_congr rfl fun i hi => by rw [h i (Finset.mem_Ico.1 hi).2]
  · rw [if_neg hc, if_neg hc, h j hj]

theorem rotate_eq (c nv e : Nat) (Q : Nat → Nat → 𝕜) (V V' : Nat → E) (h : ∀ i, i < nv → V' i = V i) (j : Nat) (hj : j < nv) (hje : j < e) :
    rotate nv c e Q V' j = rotV c nv Q V j := by
  rw [← rotV_congr c nv Q V V' h j hj]
  unfold rotV rotate
  by_cases hc : c ≤ j
  · rw [if_pos ⟨hc, hje⟩, if_pos ⟨hc, hj⟩]
  · rw [if_neg (fun hh => hc hh.1), if_neg (fun hh => hc hh.1)]

theorem rotate_beyond (c nv e : Nat) (Q : Nat → Nat → 𝕜) (V : Nat → E) (j : Nat) (hj : e ≤ j) : rotate nv c e Q V j = V j := by
  unfold rotate
  rw [if_neg (by omega)]

theorem cols_congr (V V' : Nat → E) (n : Nat) (h : ∀ i, i < n → V' i = V i) : cols V' n = cols V n := by
  unfold cols
  exact List.map_congr_left fun i hi => h i (List.mem_range.1 hi)

theorem Solved.congr {Op : E →ₗ[𝕜] E} {cs : List E} {s : State 𝕜 E} {nv0 nv : Nat} {d : DenseOut 𝕜} {beta : ℝ} {bd : Bool} {V V' : Nat → E}
    (h : Solved Op cs s nv0 nv d beta bd V) (hV : ∀ i, i ≤ nv → V' i = V i) : Solved Op cs s nv0 nv d beta bd V' := by
  have e1 : ∀ j, j < nv → rotV s.nconv nv d.Q V' j = rotV s.nconv nv d.Q V j :=
    fun j hj => rotV_congr _ _ _ _ _ (fun i hi => hV i (by omega)) j hj
  have e2 : cols V' nv = cols V nv := cols_congr _ _ _ fun i hi => hV i (by omega)
  have hlt := h.lt
  refine ⟨h.lt, h.le, h.unit, h.block, fun i hi => (hV i (by omega)).trans (h.keep i hi), e2 ▸ h.on, ?_, h.same, h.tri, h.row, h.row0, h.low,
    h.out, fun hb => ⟨(h.good hb).1, (h.good hb).2.1, ?_⟩, fun hb => ⟨(h.bad hb).1, (hV nv le_rfl).trans (h.bad hb).2⟩⟩
  · intro j h1 h2
    obtain ⟨x, hx, e⟩ := h.rel j h1 h2
    refine ⟨x, hx, ?_⟩
    rw [e1 j h2, e, hV nv le_rfl]
    congr 2
    exact Finset.sum_congr rfl fun i hi => by rw [e1 i (by have := Finset.mem_range.1 hi; omega)]
  · rw [e2, hV nv le_rfl]; exact (h.good hb).2.2

/-- Residual of a combination of columns. -/
theorem comb (Op : E →ₗ[𝕜] E) (T : Nat → Nat → 𝕜) (W y g : Nat → E) (j : Nat) (w : Nat → 𝕜)
    (h : ∀ i, i ≤ j → Op (W i) = y i + ∑ a ∈ Finset.range (i + 1), T a i • W a + g i)
    (he : ∀ i, i ≤ j → ∑ a ∈ Finset.Ico i (j + 1), T i a * w a = T j j * w i) :
    Op (∑ i ∈ Finset.range (j + 1), w i • W i) - T j j • (∑ i ∈ Finset.range (j + 1), w i • W i) - ∑ i ∈ Finset.range (j + 1), w i • y i =
      ∑ i ∈ Finset.range (j + 1), w i • g i := by
  have e1 : Op (∑ i ∈ Finset.range (j + 1), w i • W i) = ∑ i ∈ Finset.range (j + 1), w i • y i +
      ∑ i ∈ Finset.range (j + 1), w i • ∑ a ∈ Finset.range (i + 1), T a i • W a + ∑ i ∈ Finset.range (j + 1), w i • g i := by
    rw [map_sum, ← Finset.sum_add_distrib, ← Finset.sum_add_distrib]
    refine Finset.sum_congr rfl fun i hi => ?_
    rw [map_smul, h i (by have := Finset.mem_range.1 hi; omega), smul_add, smul_add]
  have e2 : ∑ i ∈ Finset.range (j + 1), w i • ∑ a ∈ Finset.range (i + 1), T a i • W a = T j j • ∑ i ∈ Finset.range (j + 1), w i • W i := by
    have : ∀ i ∈ Finset.range (j + 1), w i • ∑ a ∈ Finset.range (i + 1), T a i • W a =
        ∑ a ∈ Finset.range (j + 1), if a ≤ i then (T a i * w i) • W a else 0 := by
      intro i hi
      rw [← Finset.sum_filter, Finset.smul_sum]
      refine Finset.sum_congr ?_ fun a _ => by rw [smul_smul, mul_comm]
      ext a
      have := Finset.mem_range.1 hi
      simp only [Finset.mem_range, Finset.mem_filter]
      omega
    rw [Finset.sum_congr rfl this, Finset.sum_comm, Finset.smul_sum]
    refine Finset.sum_congr rfl fun a ha => ?_
    rw [smul_smul, ← he a (by have := Finset.mem_range.1 ha; omega), Finset.sum_smul, ← Finset.sum_filter]
    refine Finset.sum_congr ?_ fun _ _ => rfl
    ext i
    simp only [Finset.mem_range, Finset.mem_filter, Finset.mem_Ico]
    omega
  rw [e1, e2]
  abel

/-- The common part of all restarts. -/
structure Out (s s' : State 𝕜 E) (nv k : Nat) (d : DenseOut 𝕜) (beta : ℝ) (V : Nat → E) (eig : Nat → ℂ) (err : Nat → Option ℝ) : Prop where
  nconv : s'.nconv = k
  V : ∀ j, j < k → s'.V j = rotV s.nconv nv d.Q V j
  A : ∀ i j, i ≤ j → j < k → s'.A i j = d.T i j
  eig : s'.eig = eig
  err : s'.err = err
  old : ∀ j, j < s.nconv → s'.drop j = s.drop j
  drop : ∀ j, s.nconv ≤ j → j < k → s'.drop j = (beta : 𝕜) * d.Q (nv - 1) j

theorem withRow_of_lt (nv : Nat) (d : DenseOut 𝕜) (i j : Nat) (h : i ≠ nv) : withRow nv d i j = d.T i j := by
  unfold withRow
  rw [if_neg (fun hh => h hh.1)]

theorem newL_zero (P : Params) (it bd : Bool) (c nv k : Nat) (A : Nat → Nat → 𝕜) (h : it = false ∨ bd = true ∨ k = nv) :
    newL P it bd c nv k A = 0 := by
  unfold newL
  rw [if_pos h]

theorem newL_pos (P : Params) (it bd : Bool) (c nv k : Nat) (A : Nat → Nat → 𝕜) (h : ¬ (it = false ∨ bd = true ∨ k = nv)) (hc : P.cplx = true) :
    newL P it bd c nv k A = max 1 (Nat.floor (((nv - k : Nat) : ℝ) * P.keep)) := by
  unfold newL
  rw [if_neg h]
  dsimp only
  unfold DS.getTruncateSize
  rw [if_pos hc]
  exact Int.toNat_natCast _

theorem lock_l (P : Params) (h : P.lock = true) (a b : Nat) : (if P.lock = false ∧ 0 < a then b else a) = a := by
  rw [if_neg (by simp [h])]

theorem lock_k (P : Params) (h : P.lock = true) (a k : Nat) : (if P.lock = false ∧ 0 < a then 0 else k) = k := by
  rw [if_neg (by simp [h])]

theorem restart_out (f : E →ₗ⋆[𝕜] E →ₗ[𝕜] 𝕜) (o : OrthOpts) (cs : List E) (P : Params) (hlock : P.lock = true) (s : State 𝕜 E) (d : DenseOut 𝕜)
    (beta : ℝ) (V : Nat → E) (buf : Nat → Nat → 𝕜) (eig : Nat → ℂ) (err : Nat → Option ℝ) (nv : Nat) (bd : Bool) (k : Nat) (reason : Reason) (x : E)
    (hk : k ≤ nv) (hc : s.nconv ≤ k) (hb : reason = .iterating → bd = true → k = nv) :
    Out s (restart f o cs P s d beta V (withRow nv d) buf eig err nv bd k reason x) nv k d beta V eig err := by
  have hA : ∀ i j, i ≤ j → j < k → withRow nv d i j = d.T i j := fun i j h1 h2 => withRow_of_lt _ _ _ _ (by omega)
  have hold : ∀ j, j < s.nconv → (if s.nconv ≤ j ∧ j < k then (beta : 𝕜) * d.Q (nv - 1) j else s.drop j) = s.drop j :=
    fun j hj => if_neg (by omega)
  have hnew : ∀ j, s.nconv ≤ j → j < k → (if s.nconv ≤ j ∧ j < k then (beta : 𝕜) * d.Q (nv - 1) j else s.drop j) = (beta : 𝕜) * d.Q (nv - 1) j :=
    fun j h1 h2 => if_pos ⟨h1, h2⟩
  unfold restart
  dsimp only
  rw [lock_l P hlock, lock_k P hlock]
  cases reason with
  | iterating =>
    dsimp only
    by_cases h : bd = true ∨ k = nv
    · rw [if_pos h]
      have hkn : k = nv := h.elim (fun hh => hb rfl hh) id
      by_cases hnev : k < P.nev
      · rw [if_pos hnev]
        have e1 : ∀ j, j < k → ∀ e, k ≤ e → rotate nv s.nconv e d.Q (fun j => if j = k then (startVector f o cs V k x).1 else V j) j =
            rotV s.nconv nv d.Q V j := by
          intro j hj e he
          refine rotate_eq _ _ _ _ _ _ ?_ j (by omega) (by omega)
          intro i hi
          exact if_neg (by omega)
        split
        · exact ⟨rfl, fun j hj => e1 j hj _ (by omega), hA, rfl, rfl, hold, hnew⟩
        · refine ⟨rfl, fun j hj => ?_, hA, rfl, rfl, hold, hnew⟩
          show (if j = _ then _ else _) = _
          rw [if_neg (by omega)]
          exact e1 j hj _ (by omega)
      · rw [if_neg hnev]
        have e1 : ∀ j, j < k → ∀ e, k ≤ e → rotate nv s.nconv e d.Q V j = rotV s.nconv nv d.Q V j :=
          fun j hj e he => rotate_eq _ _ _ _ _ _ (fun i _ => rfl) j (by omega) (by omega)
        refine ⟨rfl, fun j hj => ?_, hA, rfl, rfl, hold, hnew⟩
        cases bd with
        | true => exact e1 j hj _ (by omega)
        | false =>
          show (if j = _ then _ else _) = _
          rw [if_neg (by omega)]
          exact e1 j hj _ (by omega)
    · rw [if_neg h]
      refine ⟨rfl, fun j hj => ?_, ?_, rfl, rfl, hold, hnew⟩
      · show (if j = _ then _ else _) = _
        rw [if_neg (by omega)]
        exact rotate_eq _ _ _ _ _ _ (fun i _ => rfl) j (by omega) (by omega)
      · intro i j h1 h2
        show truncated _ _ _ _ _ _ = _
        rw [truncated_other _ _ _ _ _ _ (by omega) (by omega)]
        exact hA i j h1 h2
  | tol => exact ⟨rfl, fun j hj => rotate_eq _ _ _ _ _ _ (fun i _ => rfl) j (by omega) (by omega), hA, rfl, rfl, hold, hnew⟩
  | divergedIts => exact ⟨rfl, fun j hj => rotate_eq _ _ _ _ _ _ (fun i _ => rfl) j (by omega) (by omega), hA, rfl, rfl, hold, hnew⟩
  | maxit => exact ⟨rfl, fun j hj => rotate_eq _ _ _ _ _ _ (fun i _ => rfl) j (by omega) (by omega), hA, rfl, rfl, hold, hnew⟩

/-- The locked part after a restart. -/
theorem out_final (Op : E →ₗ[𝕜] E) (cs : List E) (s s' : State 𝕜 E) (nv0 nv k : Nat) (d : DenseOut 𝕜) (beta : ℝ) (bd : Bool) (V : Nat → E)
    (eig : Nat → ℂ) (err : Nat → Option ℝ) (hs : Good Op cs s) (hS : Solved Op cs s nv0 nv d beta bd V) (hk : k ≤ nv) (hc : s.nconv ≤ k)
    (ho : Out s s' nv k d beta V eig err) : Final Op cs s' ∧ (∀ j, j < s.nconv → s'.V j = s.V j) := by
  have hlt := hS.lt
  have hcn : s.nconv < nv := by omega
  have hold : ∀ j, j < s.nconv → s'.V j = s.V j := by
    intro j hj
    rw [ho.V j (by omega)]
    unfold rotV rotate
    rw [if_neg (by omega)]
    exact hS.keep j (by omega)
  refine ⟨⟨?_, ?_⟩, hold⟩
  · rw [ho.nconv, cols_congr _ _ _ ho.V]
    have := rotV_on cs s.nconv nv hcn d.Q V hS.block hS.unit hS.on
    refine this.sublist (List.Sublist.append (List.Sublist.refl _) ?_)
    unfold cols
    exact (List.range_sublist.2 hk).map _
  · intro j hj
    rw [ho.nconv] at hj
    by_cases h : j < s.nconv
    · obtain ⟨c, hc1, u, hu, e⟩ := hs.locked j h
      refine ⟨c, hc1, u, hu, ?_⟩
      rw [hold j h, e, ho.old j h]
      congr 2
      refine Finset.sum_congr rfl fun i hi => ?_
      have hi' := Finset.mem_range.1 hi
      rw [hold i (by omega), ho.A i j (by omega) hj, hS.same i j (by omega) h]
    · obtain ⟨x, hx, e⟩ := hS.rel j (by omega) (by omega)
      refine ⟨x, hx, V nv, hS.unorm, ?_⟩
      rw [ho.V j hj, e, ho.drop j (by omega) hj]
      congr 2
      refine Finset.sum_congr rfl fun i hi => ?_
      have hi' := Finset.mem_range.1 hi
      rw [ho.V i (by omega), ho.A i j (by omega) hj]

/-- Acceptance of the pairs after a restart. -/
theorem out_accept (Op : E →ₗ[𝕜] E) (cs : List E) (P : Params) (hcplx : P.cplx = true) (dense : Dense 𝕜) (hd : DenseOK dense) (raw : Bool) (A : Nat → Nat → 𝕜)
    (s s' : State 𝕜 E) (nv0 nv : Nat) (d : DenseOut 𝕜) (hde : dense raw s.nconv nv A = some d) (beta : ℝ) (bd : Bool) (V : Nat → E)
    (hs : Good Op cs s) (hacc : ∀ j, j < s.nconv → Accept Op cs P s j) (hS : Solved Op cs s nv0 nv d beta bd V) (hb0 : 0 ≤ beta) :
    let e := values P.cplx s.nconv nv d
    let c := krylovConvergence (convData P e d beta) false s.nconv (nv - s.nconv) s.err
    Out s s' nv c.1 d beta V e c.2 → ∀ j, j < s'.nconv → Accept Op cs P s' j := by
  intro e c ho j hj
  have hlt := hS.lt
  have hcn : s.nconv < nv := by omega
  obtain ⟨k1, k2, k3, k4, k5⟩ := conv_k P e d beta (hd.nopair _ _ _ _ _ hde) s.nconv nv hcn.le s.err
  rw [show krylovConvergence (convData P e d beta) false s.nconv (nv - s.nconv) s.err = c from rfl] at *
  obtain ⟨hF, hold⟩ := out_final Op cs s s' nv0 nv c.1 d beta bd V e c.2 hs hS k2 k1 ho
  have hev : e = fun j => if j < s.nconv then toC (d.T j j) else d.eig j := by
    show values _ _ _ _ = _
    unfold values
    rw [if_pos hcplx]
  by_cases h : j < s.nconv
  · obtain ⟨rho, w, a1, a2, a3, a4, a5, y, hy, a6⟩ := hacc j h
    rw [ho.nconv] at hj
    have hA : ∀ a b, a ≤ b → b < s.nconv → s'.A a b = s.A a b := fun a b h1 h2 => by
      rw [ho.A a b h1 (by omega), hS.same a b h1 h2]
    have eE : s'.eig j = s.eig j := by
      rw [ho.eig, hev, a1]
      dsimp only
      rw [if_pos h, hS.same j j le_rfl h]
    have eX : ∑ i ∈ Finset.range (j + 1), w i • s'.V i = ∑ i ∈ Finset.range (j + 1), w i • s.V i :=
      Finset.sum_congr rfl fun i hi => by rw [hold i (by have := Finset.mem_range.1 hi; omega)]
    refine ⟨rho, w, ?_, ?_, ?_, a4, ?_, y, hy, ?_⟩
    · rw [eE, a1, hA j j le_rfl h]
    · rw [ho.err, k3 j h, a2, eE]
    · rw [eE]; exact a3
    · intro i hi
      rw [hA j j le_rfl h, ← a5 i hi]
      refine Finset.sum_congr rfl fun b hb => ?_
      have := Finset.mem_Ico.1 hb
      rw [hA i b (by omega) (by omega)]
    · rw [eX, hA j j le_rfl h]
      refine a6.trans (le_of_eq ?_)
      congr 1
      refine Finset.sum_congr rfl fun i hi => ?_
      rw [ho.old i (by have := Finset.mem_range.1 hi; omega)]
  · rw [ho.nconv] at hj
    obtain ⟨q1, q2, q3⟩ := k4 j (by omega) hj
    obtain ⟨w, w1, w2, w3, w4⟩ := hd.vec _ _ _ _ _ hde hcn j (by omega) (by omega)
    have hA : ∀ a b, a ≤ b → b < c.1 → s'.A a b = d.T a b := fun a b h1 h2 => ho.A a b h1 h2
    have eE : s'.eig j = e j := by rw [ho.eig]
    have eT : e j = toC (d.T j j) := by
      rw [hev]
      dsimp only
      rw [if_neg h, hd.eig _ _ _ _ _ hde hcn j (by omega) (by omega)]
    have hsum : ∑ i ∈ Finset.range (j + 1), ‖w i‖ ^ 2 = 1 := by
      rw [← w2]
      refine Finset.sum_subset (Finset.range_subset_range.2 (by omega)) fun i _ hi => ?_
      rw [w1 i (by simpa using hi)]; simp
    have heig : ∀ i, i ≤ j → ∑ b ∈ Finset.Ico i (j + 1), s'.A i b * w b = s'.A j j * w i := by
      intro i hi
      rw [hA j j le_rfl hj, ← w3 i (by omega)]
      rw [← Finset.sum_subset (Finset.Ico_subset_Ico_right (show j + 1 ≤ nv by omega)) (f := fun b => d.T i b * w b)]
      · refine Finset.sum_congr rfl fun b hb => ?_
        have := Finset.mem_Ico.1 hb
        rw [hA i b (by omega) (by omega)]
      · intro b hb hb2
        have h1 := Finset.mem_Ico.1 hb
        have h2 : ¬ (i ≤ b ∧ b < j + 1) := fun hh => hb2 (Finset.mem_Ico.2 hh)
        rw [w1 b (by omega), mul_zero]
    refine ⟨d.last j * beta, w, ?_, ?_, ?_, hsum, heig, ?_⟩
    · rw [eE, eT, hA j j le_rfl hj]
    · rw [ho.err, q2, eE]
    · rw [eE]; exact q3
    · -- the residual
      have hcol : ∀ i, i ≤ j → ∃ y g : E, y ∈ Submodule.span 𝕜 {v | v ∈ cs} ∧
          Op (s'.V i) = y + ∑ a ∈ Finset.range (i + 1), s'.A a i • s'.V a + g ∧
          (i < s.nconv → ‖g‖ ≤ ‖s'.drop i‖) ∧ (s.nconv ≤ i → g = ((beta : 𝕜) * d.Q (nv - 1) i) • V nv) := by
        intro i hi
        by_cases hin : i < s.nconv
        · obtain ⟨y, hy, u, hu, eu⟩ := hF.locked i (by rw [ho.nconv]; omega)
          refine ⟨y, s'.drop i • u, hy, eu, fun _ => ?_, fun hh => absurd hh (by omega)⟩
          rw [norm_smul]
          exact mul_le_of_le_one_right (norm_nonneg _) hu
        · obtain ⟨y, hy, eu⟩ := hS.rel i (by omega) (by omega)
          refine ⟨y, _, hy, ?_, fun hh => absurd hh hin, fun _ => rfl⟩
          rw [ho.V i (by omega), eu]
          congr 2
          refine Finset.sum_congr rfl fun a ha => ?_
          have ha' := Finset.mem_range.1 ha
          rw [ho.V a (by omega), ho.A a i (by omega) (by omega)]
      choose! y g hy hop hg1 hg2 using hcol
      have hc := comb Op s'.A s'.V y g j w hop heig
      refine ⟨∑ i ∈ Finset.range (j + 1), w i • y i, Submodule.sum_mem _ fun i hi =>
        Submodule.smul_mem _ _ (hy i (by have := Finset.mem_range.1 hi; omega)), ?_⟩
      rw [hc, Finset.range_eq_Ico, ← Finset.sum_Ico_consecutive _ (Nat.zero_le s.nconv) (show s.nconv ≤ j + 1 by omega)]
      have hlast : ∑ i ∈ Finset.Ico s.nconv (j + 1), d.Q (nv - 1) i * w i = ∑ i ∈ Finset.range nv, d.Q (nv - 1) i * w i := by
        refine Finset.sum_subset (fun i hi => ?_) fun i hi hi2 => ?_
        · have := Finset.mem_Ico.1 hi
          exact Finset.mem_range.2 (by omega)
        · have h1 := Finset.mem_range.1 hi
          have h2 : ¬ (s.nconv ≤ i ∧ i < j + 1) := fun hh => hi2 (Finset.mem_Ico.2 hh)
          by_cases h3 : i < s.nconv
          · rw [hS.block (nv - 1) i (by omega) (by omega) (Or.inr h3), if_neg (by omega), zero_mul]
          · rw [w1 i (by omega), mul_zero]
      have p2 : ‖∑ i ∈ Finset.Ico s.nconv (j + 1), w i • g i‖ ≤ d.last j * beta := by
        have : ∑ i ∈ Finset.Ico s.nconv (j + 1), w i • g i = ((beta : 𝕜) * ∑ i ∈ Finset.Ico s.nconv (j + 1), d.Q (nv - 1) i * w i) • V nv := by
          rw [Finset.mul_sum, Finset.sum_smul]
          refine Finset.sum_congr rfl fun i hi => ?_
          have := Finset.mem_Ico.1 hi
          rw [hg2 i (by omega) (by omega), smul_smul]
          congr 1
          ring
        rw [this, hlast, norm_smul, norm_mul, w4, RCLike.norm_ofReal, abs_of_nonneg hb0, mul_comm beta]
        exact mul_le_of_le_one_right (by positivity) hS.unorm
      have p1 : ‖∑ i ∈ Finset.Ico 0 s.nconv, w i • g i‖ ≤ ∑ i ∈ Finset.range j, ‖s'.drop i‖ * ‖w i‖ := by
        refine (norm_sum_le _ _).trans ?_
        rw [← Finset.range_eq_Ico]
        refine (Finset.sum_le_sum (g := fun i => ‖s'.drop i‖ * ‖w i‖) fun i hi => ?_).trans
          (Finset.sum_le_sum_of_subset_of_nonneg (Finset.range_subset_range.2 (by omega)) fun i _ _ => by positivity)
        have := Finset.mem_range.1 hi
        rw [norm_smul, mul_comm]
        exact mul_le_mul_of_nonneg_right (hg1 i (by omega) this) (norm_nonneg _)
      calc _ ≤ _ := norm_add_le _ _
        _ ≤ _ := add_le_add p1 p2
        _ = _ := add_comm _ _

end
end Verif.EPS.KS
