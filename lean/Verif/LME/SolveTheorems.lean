import Verif.LME.SolveModel
import Verif.LME.WitnessRank
/-!
C90, C91: `LMESolve` for Lyapunov equations: the solution of an equation with several right-hand side vectors, repeated calls, and failure.
-/
set_option linter.all false
namespace Verif.LME
noncomputable section
open Verif.BV Verif.MFN
variable {𝕜 : Type} [RCLike 𝕜] {E : Type} [NormedAddCommGroup E] [InnerProductSpace 𝕜 E]

/-- What is found for one right-hand side vector: rank, number of cycles, estimate, columns. -/
structure VecRes (E : Type) where
  rk : Nat
  nouter : Nat
  errest : ℝ
  Z : Nat → E

/-- The vectors `bs`, treated one after the other when `its` iterations have been done, all converge, with results `rs`. -/
inductive AllConv {E : Type} (one : Nat → E → VecOut E) : Nat → List E → List (VecRes E) → Prop
  | nil (its : Nat) : AllConv one its [] []
  | cons (its : Nat) (b : E) (bs : List E) (q : VecRes E) (rs : List (VecRes E))
      (h : one its b = .done q.rk q.nouter q.errest q.Z) (t : AllConv one (its + q.nouter) bs rs) : AllConv one its (b :: bs) (q :: rs)

/-- The operator `X X^*` for the columns in a list. -/
def lowRankL (𝕜 : Type) [RCLike 𝕜] [InnerProductSpace 𝕜 E] (X : List E) (z : E) : E := (X.map fun x => inner 𝕜 x z • x).sum

/-- The residual `A X + X A^* + C C^*` for a right-hand side with several columns. -/
def residL [FiniteDimensional 𝕜 E] (A : E →ₗ[𝕜] E) (X : E → E) (C : List E) (z : E) : E :=
  A (X z) + X (A.adjoint z) + lowRankL 𝕜 C z

/-- The solver for one vector, as `LMESolve` calls it. -/
def lyapOne [FiniteDimensional 𝕜 E] (o : OrthOpts) (A : E →ₗ[𝕜] E) (P : Lim) (dense : Dense 𝕜) (svd : RankSVD 𝕜) (buf : Nat → Nat → 𝕜)
    (rrank : Option Nat) (totalits : Nat) (b : E) : VecOut E :=
  lyapVec (ipForm 𝕜 E) o A (Module.finrank 𝕜 E) { P with totalits := totalits } dense svd rrank b buf

theorem addCols_alloc {F : Type} [AddCommMonoid F] (X1 : Option (List F)) (col rk : Nat) (Z : Nat → F) (h : (X1.getD []).length = col) :
    addCols (alloc false X1 col rk) col rk Z = X1.getD [] ++ (List.range rk).map Z := by
  have e : alloc false X1 col rk = X1.getD [] ++ List.replicate rk 0 := by
    unfold alloc
    rw [if_neg (by simp)]
    by_cases hc : col = 0
    · rw [if_pos hc]
      have : X1.getD [] = [] := List.length_eq_zero_iff.1 (h.trans hc)
      rw [this]; rfl
    · rw [if_neg hc, List.take_append, h, List.take_of_length_le (by omega), List.take_replicate]
      congr 2; omega
  rw [e]
  unfold addCols
  apply List.ext_getElem
  · simp
  · intro j h1 h2
    simp only [List.length_mapIdx, List.length_append, List.length_replicate, h] at h1
    rw [List.getElem_mapIdx]
    by_cases hj : j < col
    · rw [if_neg (by omega), List.getElem_append_left (by omega), List.getElem_append_left (by omega)]
    · rw [if_pos ⟨by omega, h1⟩, List.getElem_append_right (by omega), List.getElem_append_right (by omega)]
      simp [h]

theorem loop_conv (one : Option Nat → Nat → E → VecOut E) : ∀ (bs : List E) (s t : Run E), loopC one none bs s = some t → t.fail = false →
    s.fail = false → (s.X1.getD []).length = s.col →
    ∃ rs, AllConv (one none) s.its bs rs ∧ t.X1.getD [] = s.X1.getD [] ++ (rs.map fun q => (List.range q.rk).map q.Z).flatten ∧
      t.its = s.its + (rs.map VecRes.nouter).sum ∧ t.errest = s.errest + (rs.map VecRes.errest).sum := by
  intro bs
  induction bs with
  | nil =>
    intro s t h hf hs hl
    unfold loopC at h
    have := Option.some.inj h
    subst this
    exact ⟨[], .nil _, by simp⟩
  | cons b bs ih =>
    intro s t h hf hs hl
    unfold loopC stepC at h
    cases ho : one none s.its b with
    | zeroRhs => rw [ho] at h; cases h
    | error => rw [ho] at h; cases h
    | fail i =>
      rw [ho] at h
      dsimp only at h
      rw [if_pos rfl] at h
      have := Option.some.inj h
      subst this
      cases hf
    | done rk no e Z =>
      rw [ho] at h
      dsimp only at h
      rw [if_neg (by simp)] at h
      rw [show (none : Option Nat).isSome = false from rfl, addCols_alloc _ _ _ _ hl] at h
      obtain ⟨rs, h1, h2, h3, h4⟩ := ih _ t h hf rfl (by simp [hl])
      refine ⟨⟨rk, no, e, Z⟩ :: rs, .cons _ _ _ _ _ ho h1, ?_, ?_, ?_⟩
      · rw [h2]; simp
      · rw [h3]; simp [add_assoc]
      · rw [h4]; simp [add_assoc]

/-- **C90, partial.** If the solution matrix is not given and `LMESolve` reports convergence, then every column of the right-hand side has
converged, the columns of the solution are those found for the columns of the right-hand side, and the iteration number and the error
estimate are the sums. -/
theorem C90_solution_partial (one : Option Nat → Nat → E → VecOut E) (C : List E) (r : Solved E)
    (h : solve one C none = some r) (hr : r.reason = .convergedTol) :
    ∃ rs, AllConv (one none) 0 C rs ∧ r.X = (rs.map fun q => (List.range q.rk).map q.Z).flatten ∧
      r.its = (rs.map VecRes.nouter).sum ∧ r.errest = (rs.map VecRes.errest).sum := by
  unfold solve at h
  rw [if_neg (by simp)] at h
  dsimp only at h
  cases hl : loopC one none C ⟨none, 0, 0, 0, false⟩ with
  | none => rw [show Option.map (fun x => List.length x / C.length) (none : Option (List E)) = none from rfl, hl] at h; cases h
  | some s =>
    rw [show Option.map (fun x => List.length x / C.length) (none : Option (List E)) = none from rfl, hl] at h
    dsimp only at h
    cases hx : s.X1 with
    | none => rw [hx] at h; cases h
    | some x =>
      rw [hx] at h
      have := Option.some.inj h
      subst this
      dsimp only at hr ⊢
      have hf : s.fail = false := by
        by_contra hc
        rw [if_pos (by simpa using hc)] at hr
        cases hr
      obtain ⟨rs, h1, h2, h3, h4⟩ := loop_conv one C _ s hl hf rfl rfl
      refine ⟨rs, h1, ?_, ?_, ?_⟩
      · rw [hx] at h2; simpa using h2
      · rw [h3]; simp
      · rw [h4]; simp

theorem lowRankL_append (X Y : List E) (z : E) : lowRankL 𝕜 (X ++ Y) z = lowRankL 𝕜 X z + lowRankL 𝕜 Y z := by
  unfold lowRankL; rw [List.map_append, List.sum_append]

theorem lowRankL_range (r : Nat) (Z : Nat → E) (z : E) : lowRankL 𝕜 ((List.range r).map Z) z = lowRank 𝕜 r Z z := by
  unfold lowRankL lowRank
  rw [List.map_map, Finset.sum_range]
  induction r with
  | zero => rfl
  | succ n ih =>
    rw [List.range_succ, List.map_append, List.sum_append, ih, Fin.sum_univ_castSucc]
    simp

/-- **C90/C86.** If the solution matrix is not given, `LMESolve` reports convergence, and each column of the right-hand side needed a single cycle and
the numerical rank was full, the norm of the residual of the equation with all columns is at most the error estimate
of `LMEGetErrorEstimate`. Full rank is: the rank found is the order of the matrix given to the SVD. -/
theorem C90_residual_partial [FiniteDimensional 𝕜 E] (o : OrthOpts) (he : o.eta ≤ 1) (A : E →ₗ[𝕜] E) (P : Lim) (hP : 0 < P.ncv) (ht : 0 < P.tol)
    (dense : Dense 𝕜) (hd : DenseOK dense) (svd : RankSVD 𝕜) (hsv : SvdOK svd) (hfull : ∀ n L US Vt rk, svd n L = some (US, Vt, rk) → rk = n)
    (buf : Nat → Nat → 𝕜) (C : List E) (r : Solved E)
    (h : solve (lyapOne o A P dense svd buf) C none = some r) (hr : r.reason = .convergedTol) (hone : r.its = C.length) (z : E) :
    ‖residL A (lowRankL 𝕜 r.X) C z‖ ≤ r.errest * ‖z‖ := by
  obtain ⟨rs, h1, h2, h3, h4⟩ := C90_solution_partial _ C r h hr
  rw [h2, h4]
  rw [h3] at hone
  clear h2 h4 h h3 hr
  have key : ∀ its (C : List E) rs, AllConv (lyapOne o A P dense svd buf none) its C rs → C.length ≤ (rs.map VecRes.nouter).sum ∧
      ((rs.map VecRes.nouter).sum = C.length →
      ‖residL A (lowRankL 𝕜 ((rs.map fun q => (List.range q.rk).map q.Z).flatten)) C z‖ ≤ (rs.map VecRes.errest).sum * ‖z‖) := by
    intro its C rs hc
    induction hc with
    | nil => simp [residL, lowRankL]
    | cons its b bs q rs hq hc ih =>
      obtain ⟨i1, i2⟩ := ih
      obtain ⟨n, hn, W, G, L, US, Vt, lrank, beta, u, p1, p2, p3, p4, p5, p6, p7, p8, p9, p10, p11, p12, p13, p14⟩ :=
        lyap_all o he A { P with totalits := its } hP ht dense hd svd hsv none b buf _ _ _ _ hq
      simp only [List.map_cons, List.sum_cons, List.length_cons, List.flatten_cons]
      refine ⟨by omega, fun hs => ?_⟩
      have hno : q.nouter = 1 := by omega
      have hrest := i2 (by omega)
      have hrk : q.rk = n := by rw [p4]; exact hfull _ _ _ _ _ p3
      have e : residL A (lowRankL 𝕜 ((List.range q.rk).map q.Z ++ (rs.map fun q => (List.range q.rk).map q.Z).flatten)) (b :: bs) z =
          resid A (lowRank 𝕜 q.rk q.Z) b z + residL A (lowRankL 𝕜 ((rs.map fun q => (List.range q.rk).map q.Z).flatten)) bs z := by
        unfold residL resid
        rw [lowRankL_append, lowRankL_append, lowRankL_range, lowRankL_range, map_add,
          show lowRankL 𝕜 (b :: bs) z = inner 𝕜 b z • b + lowRankL 𝕜 bs z by simp [lowRankL]]
        abel
      rw [e, add_mul]
      have hb : ‖resid A (lowRank 𝕜 q.rk q.Z) b z‖ ≤ q.errest * ‖z‖ := by
        have hX := p14 (.inl hno) hrk
        have e : resid A (lowRank 𝕜 q.rk q.Z) b z = resid A (lift n W (mat n L * (mat n L).conjTranspose)) b z := by
          unfold resid; rw [hX, hX]
        rw [e]
        obtain ⟨o1, o2⟩ := p13 hno
        have hw := lastCombo_norm n hn W o1 L
        rcases p12 with ⟨hb, hu⟩ | ⟨hb, hu⟩
        · have o3 := o2 hb
          have hort : inner 𝕜 u (lastCombo n hn W (mat n L * (mat n L).conjTranspose)) = 0 := by
            unfold lastCombo
            rw [inner_sum]
            refine Finset.sum_eq_zero fun i _ => ?_
            rw [inner_smul_right]
            have := (List.pairwise_append.1 o3.orth).2.2 (W i) (List.mem_map.2 ⟨i, List.mem_range.2 i.2, rfl⟩) u (by simp)
            rw [inner_eq_zero_symm.1 this, mul_zero]
          rw [p8, norm_smul, RCLike.norm_ofReal, abs_of_pos hb, p6, mul_assoc, ← hw]
          exact mul_le_mul_of_nonneg_left (rank2_le _ _ hu hort z) hb.le
        · rw [p8, hb, p6, hb]; simp
      exact (norm_add_le _ _).trans (add_le_add hb hrest)
  exact (key 0 C rs h1).2 hone

/-- With a given solution matrix and a single right-hand side, the columns found are added to those of the matrix. -/
theorem solve_given (one : Option Nat → Nat → E → VecOut E) (b : E) (X0 : List E) (rk no : Nat) (e : ℝ) (Z : Nat → E)
    (h : one (some X0.length) 0 b = .done rk no e Z) :
    solve one [b] (some X0) = some ⟨.convergedTol, no, e, X0.mapIdx fun j x => if j < rk then x + Z j else x⟩ := by
  unfold solve
  rw [if_neg (by simp)]
  dsimp only
  rw [show Option.map (fun x : List E => x.length / [b].length) (some X0) = some X0.length by simp]
  unfold loopC stepC
  rw [h]
  dsimp only
  rw [if_neg (by simp)]
  unfold loopC
  dsimp only
  rw [if_neg (by simp)]
  simp [addCols, alloc]

/-- **C90 fails for a second call.** For `A = [-17/2 -3; 41 -12]` and `b = 15 e_1`: the first call of `LMESolve` gives the exact solution, with
estimate zero; a second call of `LMESolve` with the same data (the solution of the first call is in the solver) reports convergence with estimate zero but
leaves four times the solution, with residual `-3 b b^*`. -/
theorem C90_false_second_solve (buf buf' : Nat → Nat → ℝ) : DenseOK dense3 ∧ SvdOK svd3 ∧
    ∃ r1 r2 : Solved E2, solve (lyapOne opt A3 P3w dense3 svd3 buf) [(15 : ℝ) • ev 0] none = some r1 ∧
      solve (lyapOne opt A3 P3w dense3 svd3 buf') [(15 : ℝ) • ev 0] (some r1.X) = some r2 ∧
      r1.reason = .convergedTol ∧ r1.errest = 0 ∧ r2.reason = .convergedTol ∧ r2.errest = 0 ∧
      (∀ z, residL A3 (lowRankL ℝ r1.X) [(15 : ℝ) • ev 0] z = 0) ∧
      (∀ z, lowRankL ℝ r2.X z = (4 : ℝ) • lowRankL ℝ r1.X z) ∧
      (∀ z, residL A3 (lowRankL ℝ r2.X) [(15 : ℝ) • ev 0] z = (-3 : ℝ) • lowRankL ℝ [(15 : ℝ) • ev 0] z) := by
  obtain ⟨Z, h1, hZ⟩ := run_3 none buf
  obtain ⟨Z', h1', hZ'⟩ := run_3 (some 2) buf'
  have hZZ : ∀ c, c < 2 → Z' c = Z c := by
    intro c hc; rw [hZ c hc, hZ' c hc]; rfl
  have s1 : solve (lyapOne opt A3 P3w dense3 svd3 buf) [(15 : ℝ) • ev 0] none = some ⟨.convergedTol, 1, 0, [Z 0, Z 1]⟩ := by
    have h1s : lyapOne opt A3 P3w dense3 svd3 buf none 0 ((15 : ℝ) • ev 0) = .done 2 1 0 Z := h1
    unfold solve
    rw [if_neg (by simp)]
    dsimp only
    unfold loopC stepC
    rw [show Option.map (fun x : List E2 => x.length / [(15 : ℝ) • ev 0].length) none = none from rfl, h1s]
    dsimp only
    rw [if_neg (by simp)]
    unfold loopC
    dsimp only
    rw [if_neg (by simp)]
    simp [addCols, alloc]
  have s2 := solve_given (lyapOne opt A3 P3w dense3 svd3 buf') ((15 : ℝ) • ev 0) [Z 0, Z 1] 2 1 0 Z' h1'
  have e2 : [Z 0, Z 1].mapIdx (fun j x => if j < 2 then x + Z' j else x) = [(2 : ℝ) • Z 0, (2 : ℝ) • Z 1] := by
    simp [hZZ, two_smul]
  rw [e2] at s2
  have h4 : ∀ z, lowRankL ℝ [(2 : ℝ) • Z 0, (2 : ℝ) • Z 1] z = (4 : ℝ) • lowRankL ℝ [Z 0, Z 1] z := by
    intro z
    simp only [lowRankL, List.map_cons, List.map_nil, List.sum_cons, List.sum_nil, add_zero, inner_smul_left, smul_smul, smul_add]
    simp only [conj_trivial]
    congr 2 <;> ring
  have h0 : ∀ z, residL A3 (lowRankL ℝ [Z 0, Z 1]) [(15 : ℝ) • ev 0] z = 0 := by
    intro z
    have := C90_residual_partial opt le_rfl A3 P3w (by norm_num [P3w]) (by norm_num [P3w]) dense3 dense3_ok svd3 svd3_ok (by
      intro n L US Vt rk h
      unfold svd3 at h
      by_cases h2 : n = 2 ∧ L 0 0 = 3 ∧ L 0 1 = 0 ∧ L 1 0 = 4 ∧ L 1 1 = 5
      · rw [if_pos h2] at h
        have e3 : 2 = rk := congrArg (fun q => q.2.2) (Option.some.inj h)
        omega
      · rw [if_neg h2] at h; cases h) buf [(15 : ℝ) • ev 0] _ s1 rfl rfl z
    simpa using this
  refine ⟨dense3_ok, svd3_ok, _, _, s1, s2, rfl, rfl, rfl, rfl, h0, h4, ?_⟩
  intro z
  dsimp only
  have := h0 z
  unfold residL at this ⊢
  rw [h4, h4, map_smul]
  have e : A3 (lowRankL ℝ [Z 0, Z 1] z) + lowRankL ℝ [Z 0, Z 1] (A3.adjoint z) = - lowRankL ℝ [(15 : ℝ) • ev 0] z :=
    eq_neg_of_add_eq_zero_left this
  rw [← smul_add, e, smul_neg, ← neg_smul]
  nth_rw 2 [← one_smul ℝ (lowRankL ℝ [(15 : ℝ) • ev 0] z)]
  rw [← add_smul]
  norm_num

/-- The hypotheses of `C90_solution_partial` and `C90_residual_partial` are met by the first call. -/
example (buf : Nat → Nat → ℝ) : ∃ r, solve (lyapOne opt A3 P3w dense3 svd3 buf) [(15 : ℝ) • ev 0] none = some r ∧ r.reason = .convergedTol := by
  obtain ⟨_, _, r1, r2, h, _, h2, _⟩ := C90_false_second_solve buf buf
  exact ⟨r1, h, h2⟩

/-! Failure. -/

theorem pass0_fail (f : E →ₗ⋆[𝕜] E →ₗ[𝕜] 𝕜) (o : OrthOpts) (A : E →ₗ[𝕜] E) (N : Nat) (P : Lim) (dense : Dense 𝕜) (bnorm : ℝ) :
    ∀ (fuel : Nat) (s : P0 𝕜 E), s.stat = .running → (s.its = 0 ∨ P.totalits + s.its < P.maxIt) →
    (pass0 f o A N P dense bnorm fuel s).stat = .fail →
    P.totalits + (pass0 f o A N P dense bnorm fuel s).its = max P.maxIt (P.totalits + 1) := by
  intro fuel
  induction fuel with
  | zero => intro s h1 _ h; unfold pass0 at h; rw [h1] at h; cases h
  | succ fuel ih =>
    intro s h1 h2 h
    unfold pass0 at h ⊢
    rw [h1] at h ⊢
    dsimp only at h ⊢
    have hc : ((cycle0 f o A N P dense bnorm s).stat = .running ∧ (P.totalits + (cycle0 f o A N P dense bnorm s).its < P.maxIt)) ∨
        ((cycle0 f o A N P dense bnorm s).stat = .fail ∧ P.maxIt ≤ P.totalits + (s.its + 1) ∧ (cycle0 f o A N P dense bnorm s).its = s.its + 1) ∨
        ((cycle0 f o A N P dense bnorm s).stat ≠ .running ∧ (cycle0 f o A N P dense bnorm s).stat ≠ .fail) := by
      unfold cycle0
      dsimp only
      generalize matArnoldi f o A N 0 0 s.m (P.ncv + 1) [mkSlot s.v0 1] s.buf s.M = r
      generalize glueL s.n r.m r.H s.G (decide (s.its = 0)) r.beta = G
      cases hd : dense (s.n + r.m) G bnorm with
      | none => right; right; dsimp only; exact ⟨(by intro hh; cases hh), (by intro hh; cases hh)⟩
      | some L =>
        dsimp only
        by_cases ht : ‖G (s.n + r.m) (s.n + r.m - 1)‖ * lastRow (s.n + r.m) L < P.tol
        · rw [if_pos ht]; right; right; exact ⟨(by intro hh; cases hh), (by intro hh; cases hh)⟩
        · rw [if_neg ht]
          by_cases hm : P.maxIt ≤ P.totalits + (s.its + 1)
          · rw [if_pos hm]; right; left; exact ⟨rfl, hm, rfl⟩
          · rw [if_neg hm]; left; exact ⟨h1, by dsimp only; omega⟩
    generalize cycle0 f o A N P dense bnorm s = t at *
    rcases hc with ⟨c1, c2⟩ | ⟨c1, c2, c3⟩ | ⟨c1, c2⟩
    · exact ih t c1 (.inr c2) h
    · have : pass0 f o A N P dense bnorm fuel t = t := by
        cases fuel with
        | zero => rfl
        | succ k => unfold pass0; rw [c1]
      rw [this, c3]
      rcases h2 with h2 | h2
      · rw [h2] at c2 ⊢; omega
      · omega
    · exfalso
      have : pass0 f o A N P dense bnorm fuel t = t := by
        cases fuel with
        | zero => rfl
        | succ k =>
          unfold pass0
          cases hs : t.stat with
          | running => exact absurd hs c1
          | fail => exact absurd hs c2
          | error => rfl
          | conv L => rfl
      rw [this] at h
      exact c2 h

/-- **C91: what fails.** A right-hand side vector that does not converge adds one to the number of iterations: the number reported is `max(max_it,totalits+1)+1`,
larger than the maximum. -/
theorem C91_iterations (o : OrthOpts) (A : E →ₗ[𝕜] E) [FiniteDimensional 𝕜 E] (P : Lim) (dense : Dense 𝕜) (svd : RankSVD 𝕜) (buf : Nat → Nat → 𝕜)
    (rrank : Option Nat) (t : Nat) (b : E) (its : Nat) (h : lyapOne o A P dense svd buf rrank t b = .fail its) :
    its = max P.maxIt (t + 1) + 1 := by
  unfold lyapOne lyapVec at h
  by_cases hb : ‖b‖ = 0
  · rw [if_pos hb] at h; cases h
  rw [if_neg hb] at h
  dsimp only at h
  have hp := pass0_fail (ipForm 𝕜 E) o A (Module.finrank 𝕜 E) { P with totalits := t } dense ‖b‖ (P.maxIt + 1)
    (start0 { P with totalits := t } ‖b‖ b buf) rfl (.inl rfl)
  generalize pass0 (ipForm 𝕜 E) o A (Module.finrank 𝕜 E) { P with totalits := t } dense ‖b‖ (P.maxIt + 1) (start0 { P with totalits := t } ‖b‖ b buf) = s at *
  cases hst : s.stat with
  | running => rw [hst] at h; cases h
  | error => rw [hst] at h; cases h
  | conv L =>
    rw [hst] at h
    dsimp only at h
    cases hsv : svd s.n L with
    | none => rw [hsv] at h; cases h
    | some q => rw [hsv] at h; cases h
  | fail =>
    rw [hst] at h
    dsimp only at h
    injection h with h
    have := hp hst
    dsimp only at this
    omega

theorem loop_div (one : Option Nat → Nat → E → VecOut E) (rr : Option Nat) : ∀ (bs : List E) (s t : Run E), loopC one rr bs s = some t → s.fail = false →
    t.fail = true → ∃ b ∈ bs, ∃ tot, one rr tot b = .fail t.its := by
  intro bs
  induction bs with
  | nil => intro s t h hs ht; unfold loopC at h; have := Option.some.inj h; subst this; rw [hs] at ht; cases ht
  | cons b bs ih =>
    intro s t h hs ht
    unfold loopC stepC at h
    cases ho : one rr s.its b with
    | zeroRhs => rw [ho] at h; cases h
    | error => rw [ho] at h; cases h
    | fail i =>
      rw [ho] at h
      dsimp only at h
      rw [if_pos rfl] at h
      have := Option.some.inj h
      subst this
      exact ⟨b, by simp, s.its, ho⟩
    | done rk no e Z =>
      rw [ho] at h
      dsimp only at h
      rw [if_neg (by simp)] at h
      obtain ⟨b', hb, tot, h'⟩ := ih _ t h rfl ht
      exact ⟨b', by simp [hb], tot, h'⟩

/-- **C91, partial.** If `LMESolve` returns with reason `LME_DIVERGED_ITS`, some column of the right-hand side did not converge (and the number of
iterations reported is larger than the maximum). -/
theorem C91_diverged_partial (o : OrthOpts) (A : E →ₗ[𝕜] E) [FiniteDimensional 𝕜 E] (P : Lim) (dense : Dense 𝕜) (svd : RankSVD 𝕜) (buf : Nat → Nat → 𝕜)
    (C : List E) (X : Option (List E)) (r : Solved E) (h : solve (lyapOne o A P dense svd buf) C X = some r) (hr : r.reason ≠ .convergedTol) :
    r.reason = .divergedIts ∧ (∃ b ∈ C, ∃ rr tot, lyapOne o A P dense svd buf rr tot b = .fail r.its) ∧ P.maxIt < r.its := by
  unfold solve at h
  by_cases hc : C = [] ∧ X ≠ none
  · rw [if_pos hc] at h; cases h
  rw [if_neg hc] at h
  dsimp only at h
  cases hl : loopC (lyapOne o A P dense svd buf) (X.map fun x => x.length / C.length) C ⟨X, 0, 0, 0, false⟩ with
  | none => rw [hl] at h; cases h
  | some s =>
    rw [hl] at h
    dsimp only at h
    cases hx : s.X1 with
    | none => rw [hx] at h; cases h
    | some x =>
      rw [hx] at h
      have := Option.some.inj h
      subst this
      dsimp only at hr ⊢
      by_cases hf : s.fail = true
      · obtain ⟨b, hb, tot, h'⟩ := loop_div _ _ C _ s hl rfl hf
        refine ⟨if_pos hf, ⟨b, hb, _, tot, h'⟩, ?_⟩
        have := C91_iterations o A P dense svd buf _ _ _ _ h'
        omega
      · rw [if_neg hf] at hr; exact absurd rfl hr

/-- **C91 fails for the first column.** If the solution matrix is not given and the first column of the right-hand side does not converge within the maximum number of
iterations, `LMESolve` ends with an error (it uses a null BV), and not with reason `LME_DIVERGED_ITS`. -/
theorem C91_false_first_column (one : Option Nat → Nat → E → VecOut E) (b : E) (bs : List E) (its : Nat) (h : one none 0 b = .fail its) :
    solve one (b :: bs) none = none := by
  unfold solve
  rw [if_neg (by simp)]
  dsimp only
  rw [show Option.map (fun x : List E => x.length / (b :: bs).length) none = none from rfl]
  unfold loopC stepC
  rw [h]
  rfl

/-- The hypothesis of `C91_iterations` and `C91_false_first_column` is met: for `A = [-2 -2; 2 -2]`, `b = 4 e_1`, one column per cycle, one iteration and tolerance 1 the estimate
with the correct factor is 8. -/
example (svd : RankSVD ℝ) (buf : Nat → Nat → ℝ) : lyapOne opt A1 ⟨1, 1, 1, 0⟩ dense1 svd buf none 0 ((4 : ℝ) • ev 0) = .fail 2 := by
  have hnb : ‖(4 : ℝ) • ev 0‖ = 4 := by rw [norm_smul, ev_norm]; norm_num
  have hv0 : ((‖(4 : ℝ) • ev 0‖⁻¹ : ℝ) : ℝ) • (4 : ℝ) • ev 0 = ev 0 := by
    rw [hnb, smul_smul]; norm_num
  obtain ⟨r1, r2, r3, r4, r5, r6⟩ := one_step opt le_rfl A1 2 (ev 0) (ev 1) (ev_norm 0) (ev_norm 1) ev_orth (-2) 2 (by norm_num) A1_0 buf (fun _ _ => 0) (fun _ _ _ => rfl)
  have hcyc : ∀ bn : ℝ, bn = 4 → (cycle0 (ipForm ℝ E2) opt A1 (Module.finrank ℝ E2) ⟨1, 1, 1, 0⟩ dense1 bn (start0 ⟨1, 1, 1, 0⟩ ‖(4 : ℝ) • ev 0‖ ((4 : ℝ) • ev 0) buf)).stat = .fail ∧
      (cycle0 (ipForm ℝ E2) opt A1 (Module.finrank ℝ E2) ⟨1, 1, 1, 0⟩ dense1 bn (start0 ⟨1, 1, 1, 0⟩ ‖(4 : ℝ) • ev 0‖ ((4 : ℝ) • ev 0) buf)).its = 1 := by
    rintro bn rfl
    have hs0 : start0 (𝕜 := ℝ) ⟨1, 1, 1, 0⟩ ‖(4 : ℝ) • ev 0‖ ((4 : ℝ) • ev 0) buf = ⟨0, 0, 1, fun _ _ => 0, fun _ _ => 0, buf, ev 0, 0, .running⟩ := by
      unfold start0
      have : (((‖(4 : ℝ) • ev 0‖⁻¹ : ℝ) : ℝ) • (4 : ℝ) • ev 0) = ev 0 := hv0
      congr 1
    rw [hs0]
    unfold cycle0
    dsimp only
    generalize matArnoldi (ipForm ℝ E2) opt A1 (Module.finrank ℝ E2) 0 0 1 (1 + 1) [mkSlot (ev 0) 1] buf (fun _ _ => 0) = r at *
    have g0 : glueL 0 r.m r.H (fun _ _ => (0:ℝ)) (decide ((0:ℕ) = 0)) r.beta 0 0 = -2 := by simp [glueL, r1, r4]
    have g1 : glueL 0 r.m r.H (fun _ _ => (0:ℝ)) (decide ((0:ℕ) = 0)) r.beta 1 0 = 2 := by simp [glueL, r1, r5]
    generalize glueL 0 r.m r.H (fun _ _ => (0:ℝ)) (decide ((0:ℕ) = 0)) r.beta = G at *
    have hd : dense1 (0 + r.m) G 4 = some fun _ _ => 2 := by
      unfold dense1
      rw [if_pos ⟨by omega, g0, rfl⟩]
    rw [hd]
    dsimp only
    have hl : ‖G (0 + r.m) (0 + r.m - 1)‖ * lastRow (0 + r.m) (fun _ _ => (2:ℝ)) = 8 := by
      rw [r1]
      simp [g1, lastRow]
      norm_num
    rw [hl, if_neg (by norm_num), if_pos (by norm_num)]
    exact ⟨rfl, rfl⟩
  obtain ⟨c1, c2⟩ := hcyc _ hnb
  unfold lyapOne lyapVec
  rw [if_neg (by rw [hnb]; norm_num)]
  dsimp only
  have hp : pass0 (ipForm ℝ E2) opt A1 (Module.finrank ℝ E2) ⟨1, 1, 1, 0⟩ dense1 ‖(4 : ℝ) • ev 0‖ (1 + 1)
      (start0 ⟨1, 1, 1, 0⟩ ‖(4 : ℝ) • ev 0‖ ((4 : ℝ) • ev 0) buf) =
      cycle0 (ipForm ℝ E2) opt A1 (Module.finrank ℝ E2) ⟨1, 1, 1, 0⟩ dense1 ‖(4 : ℝ) • ev 0‖ (start0 ⟨1, 1, 1, 0⟩ ‖(4 : ℝ) • ev 0‖ ((4 : ℝ) • ev 0) buf) := by
    unfold pass0
    rw [show (start0 (𝕜 := ℝ) ⟨1, 1, 1, 0⟩ ‖(4 : ℝ) • ev 0‖ ((4 : ℝ) • ev 0) buf).stat = .running from rfl]
    dsimp only
    unfold pass0
    rw [c1]
  rw [hp, c1]
  dsimp only
  rw [c2]

end
end Verif.LME
