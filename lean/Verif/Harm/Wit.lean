import Verif.Harm.Thm2
import Mathlib.Analysis.InnerProductSpace.PiL2
import Mathlib.Analysis.Complex.Basic
/-! Witnesses and examples for harmonic and refined extraction. -/
set_option linter.all false
namespace Verif.Harm
noncomputable section
open Classical

/-- Operator on the plane that sends 1 to `c` and `i` to 0. -/
def wop (c : ℂ) : ℂ →ₗ[ℝ] ℂ := Complex.reLm.smulRight c

/-- Search space spanned by 1, further vector `i`. -/
def wst (a beta : ℝ) : State ℝ ℂ where
  n := 1
  nconv := 0
  V := fun j => if j = 0 then 1 else Complex.I
  A := fun i j => if i = 0 ∧ j = 0 then a else 0
  beta := beta

theorem wop_one (c : ℂ) : wop c 1 = c := by simp [wop]

theorem worth (a beta : ℝ) : Orthon ℝ (wst a beta).V 2 := by
  intro i j hi hj
  have hi' : i = 0 ∨ i = 1 := by omega
  have hj' : j = 0 ∨ j = 1 := by omega
  rcases hi' with rfl | rfl <;> rcases hj' with rfl | rfl <;> simp [wst, Complex.inner]

theorem wdec (a beta : ℝ) : Decomp (wop (a + beta * Complex.I)) (wst a beta) (fun _ => 0) where
  size := Nat.one_pos
  orth := worth a beta
  rel := by
    intro j _ hj
    have : j = 0 := by have : j < 1 := hj; omega
    subst this
    simp [wst, comb, wop_one]
  locked := by intro j hj; exact absurd hj (by show ¬ j < 0; omega)
  clean := by
    intro i j _ hi
    have : 1 < i := hi
    simp [wst]; intro; omega

theorem wtrans (a beta tau : ℝ) (h : a - tau ≠ 0) :
    ∃ g, translateG (wst a beta).n (wst a beta).A tau (wst a beta).beta = some g ∧ (a - tau) * g 0 = beta := by
  have hd : ¬ (shifted (wst a beta).n (wst a beta).A tau).det = 0 := by
    show ¬ (shifted 1 (wst a beta).A tau).det = 0
    rw [Matrix.det_fin_one]
    simpa [shifted, wst] using h
  obtain ⟨g, hg⟩ : ∃ g, translateG (wst a beta).n (wst a beta).A tau (wst a beta).beta = some g := by
    unfold translateG; rw [if_neg hd]; exact ⟨_, rfl⟩
  refine ⟨g, hg, ?_⟩
  have := translateG_eq hg 0 (by show 0 < 1; omega)
  simpa [wst] using this

theorem weig (a beta : ℝ) (g : ℕ → ℝ) : EigPair 1 (translateA 1 (wst a beta).A g beta) (a + g 0 * beta) (fun _ => 1) where
  eq := by
    intro i hi
    have : i = 0 := by omega
    subst this
    simp [translateA, wst]
  unit := by simp

/-- C184, C186, C187: a concrete case meets the hypotheses, with a residual that does not vanish. -/
example : ∃ (Op : ℂ →ₗ[ℝ] ℂ) (s : State ℝ ℂ) (g : ℕ → ℝ) (theta : ℝ) (y : ℕ → ℝ), Decomp Op s (fun _ => 0) ∧ s.nconv = 0 ∧ 0 ≤ s.beta ∧
    translateG s.n s.A 0 s.beta = some g ∧ EigPair s.n (translateA s.n s.A g s.beta) theta y ∧ Op (comb s.V s.n y) ≠ theta • comb s.V s.n y := by
  obtain ⟨g, hg, h1⟩ := wtrans 1 1 0 (by norm_num)
  refine ⟨_, wst 1 1, g, _, _, wdec 1 1, rfl, by norm_num [wst], hg, weig 1 1 g, fun hh => ?_⟩
  have h2 := congrArg Complex.im hh
  simp [comb, wst, wop_one] at h2

/-- C184, second part: a self-adjoint operator meets the hypotheses. -/
example : ∃ (Op : ℂ →ₗ[ℝ] ℂ) (s : State ℝ ℂ) (g : ℕ → ℝ) (theta : ℝ) (y : ℕ → ℝ), (∀ x y, inner ℝ (Op x) y = inner ℝ x (Op y)) ∧
    Decomp Op s (fun _ => 0) ∧ s.nconv = 0 ∧ translateG s.n s.A ((0 : ℝ) : ℝ) s.beta = some g ∧
    EigPair s.n (translateA s.n s.A g s.beta) theta y ∧ Op (comb s.V s.n y) ≠ ((0 : ℝ) : ℝ) • comb s.V s.n y := by
  obtain ⟨g, hg, h1⟩ := wtrans 1 1 0 (by norm_num)
  refine ⟨wop (1 + Complex.I) + Complex.imLm.smulRight 1, wst 1 1, g, _, _, fun x y => ?_, ?_, rfl, hg, weig 1 1 g, fun hh => ?_⟩
  · simp [wop, Complex.inner]; ring
  · have h := wdec 1 1
    refine ⟨h.size, h.orth, fun j hj0 hj => ?_, fun j hj => absurd hj (by show ¬ j < 0; omega), h.clean⟩
    have : j = 0 := by have : j < 1 := hj; omega
    subst this
    simp [wst, comb, wop]
  · have h2 := congrArg Complex.im hh
    simp [comb, wst, wop] at h2

def idDense (T : ℕ → ℕ → ℝ) : Dense ℝ := ⟨fun i j => if i = j then 1 else 0, T⟩

theorem wschur (A : ℕ → ℕ → ℝ) : IsSchur 1 0 A (idDense A) where
  unit := by
    intro i j hi hj
    have hi' : i = 0 := by omega
    have hj' : j = 0 := by omega
    subst hi' hj'; simp [idDense]
  rows := by intro i j hi; omega
  cols := by intro i j _ hj; omega
  sim := by
    intro i j hi _ hj
    have hi' : i = 0 := by omega
    have hj' : j = 0 := by omega
    subst hi' hj'; simp [idDense]
  lockedBlock := by intro i j hi; omega
  lockedZero := by intro i j _ _ hj; omega
  beyond := fun _ _ _ => rfl

theorem wsing (A : ℕ → ℕ → ℝ) (beta : ℝ) (hb : 0 ≤ beta) : SmallestSing 1 (refinedMat 1 (idDense A) beta (A 0 0)) beta (fun _ => 1) where
  nonneg := hb
  unit := by simp
  attained := by
    simp [Finset.sum_range_succ, refinedMat, idDense, extraRow]
  least := by
    intro z hz
    have hz' : ‖z 0‖ ^ 2 = 1 := by simpa using hz
    simp only [Finset.sum_range_succ, Finset.sum_range_zero, refinedMat, idDense, extraRow]
    simp only [Real.norm_eq_abs, sq_abs] at hz' ⊢
    simp
    nlinarith

/-- C186 is false for refined harmonic extraction: the error estimate can be smaller than the residual norm of the vector by any factor. -/
theorem C186_false (C : ℝ) : ∃ (Op : ℂ →ₗ[ℝ] ℂ) (s : State ℝ ℂ) (g : ℕ → ℝ) (d : Dense ℝ) (sigma : ℝ) (w : ℕ → ℝ) (theta : ℝ),
    Decomp Op s (fun _ => 0) ∧ s.nconv = 0 ∧ translateG s.n s.A 0 s.beta = some g ∧ IsSchur s.n 0 (translateA s.n s.A g s.beta) d ∧
    theta = d.T 0 0 ∧ SmallestSing s.n (refinedMat s.n d s.beta theta) sigma w ∧
    ∀ last, 0 < estimate ⟨true, true⟩ s.n g s.beta last sigma ∧
      C * estimate ⟨true, true⟩ s.n g s.beta last sigma <
        ‖Op (comb s.V s.n (refinedVec s.n d.Q w)) - theta • comb s.V s.n (refinedVec s.n d.Q w)‖ := by
  set b : ℝ := |C| + 1 with hb
  have hb0 : 0 < b := by positivity
  obtain ⟨g, hg, h1⟩ := wtrans 1 b 0 (by norm_num)
  have hg0 : g 0 = b := by linarith
  refine ⟨_, wst 1 b, g, idDense (translateA 1 (wst 1 b).A g b), b, fun _ => 1, _, wdec 1 b, rfl, hg, wschur _, rfl, wsing _ b hb0.le, fun last => ?_⟩
  have he : estimate ⟨true, true⟩ (wst 1 b).n g (wst 1 b).beta last b = b := by simp [estimate]
  rw [he]
  refine ⟨hb0, ?_⟩
  have hx : comb (wst 1 b).V (wst 1 b).n (refinedVec (wst 1 b).n (idDense (translateA 1 (wst 1 b).A g b)).Q (fun _ => 1)) = 1 := by
    simp [comb, refinedVec, idDense, wst]
  have ht : (idDense (translateA 1 (wst 1 b).A g b)).T 0 0 = 1 + b * b := by simp [idDense, translateA, wst, hg0]
  rw [hx, ht, wop_one]
  have hre := Complex.abs_re_le_norm ((((1 : ℝ) : ℂ) + (b : ℂ) * Complex.I) - (1 + b * b : ℝ) • (1 : ℂ))
  have h2 : ((((1 : ℝ) : ℂ) + (b : ℂ) * Complex.I) - (1 + b * b : ℝ) • (1 : ℂ)).re = -(b * b) := by simp
  rw [h2, abs_neg, abs_of_nonneg (by positivity)] at hre
  have h3 : C * b < b * b := by
    have : C < b := by have := le_abs_self C; linarith
    nlinarith
  exact lt_of_lt_of_le h3 hre

/-- C187 is false for a nonzero shift: with shift 1 and target 2 the residual of the pair returned is not orthogonal to `(P-2I)K`. -/
theorem C187_false : ∃ (P : ℂ →ₗ[ℝ] ℂ) (sigma target : ℝ) (s : State ℝ ℂ) (g : ℕ → ℝ) (theta : ℝ) (y : ℕ → ℝ), Decomp (shiftOp P sigma) s (fun _ => 0) ∧
    s.nconv = 0 ∧ translateG s.n s.A target s.beta = some g ∧ EigPair s.n (translateA s.n s.A g s.beta) theta y ∧
    inner ℝ (P (comb s.V s.n y) - target • comb s.V s.n y) (P (comb s.V s.n y) - backShift sigma theta • comb s.V s.n y) ≠ 0 := by
  obtain ⟨g, hg, h1⟩ := wtrans 0 1 2 (by norm_num)
  have hg0 : g 0 = -1 / 2 := by linarith
  refine ⟨wop Complex.I + LinearMap.id, 1, 2, wst 0 1, g, _, _, ?_, rfl, hg, weig 0 1 g, ?_⟩
  · have hs : shiftOp (wop Complex.I + LinearMap.id) (1 : ℝ) = wop (((0 : ℝ) : ℂ) + ((1 : ℝ) : ℂ) * Complex.I) := by
      unfold shiftOp; simp
    rw [hs]; exact wdec 0 1
  · have hx : comb (wst 0 1).V (wst 0 1).n (fun _ => (1 : ℝ)) = 1 := by simp [comb, wst]
    rw [hx, hg0]
    simp only [LinearMap.add_apply, LinearMap.id_apply, wop_one, backShift]
    simp [Complex.inner]
    norm_num

/-- C188 is false for the vectors returned in non-Hermitian problems: the locked vectors are exact eigenvectors and the projected matrix is exact, but the vector
returned for the first eigenvalue is not an eigenvector, because it has been multiplied by `Q` again; without refinement it would be. -/
theorem C188_false : ∃ (Op : ℂ →ₗ[ℝ] ℂ) (V : ℕ → ℂ) (T : ℕ → ℕ → ℝ) (Q z : ℕ → ℕ → ℝ),
    Orthon ℝ V 2 ∧ (∀ j, j < 2 → Op (V j) = comb V 2 (fun i => T i j)) ∧ (∀ j, j < 2 → EigPair 2 T (T j j) (z j)) ∧
    (∀ i j, i < 2 → j < 2 → ∑ r ∈ Finset.range 2, Q r i * Q r j = if i = j then 1 else 0) ∧
    Op (returned false false 2 Q z V 0) = T 0 0 • returned false false 2 Q z V 0 ∧
    Op (returned true false 2 Q z V 0) ≠ T 0 0 • returned true false 2 Q z V 0 := by
  refine ⟨Complex.reLm.smulRight 1 + Complex.imLm.smulRight (2 * Complex.I), fun j => if j = 0 then 1 else Complex.I,
    fun i j => if i = j then (if i = 0 then 1 else 2) else 0,
    fun i j => if i = j then 3 / 5 else if i < j then -4 / 5 else 4 / 5, fun j i => if i = j then 1 else 0, worth 0 0, ?_, ?_, ?_, ?_, ?_⟩
  · intro j hj
    have hj' : j = 0 ∨ j = 1 := by omega
    rcases hj' with rfl | rfl <;> simp [comb, Finset.sum_range_succ]
  · intro j hj
    have hj' : j = 0 ∨ j = 1 := by omega
    refine ⟨fun i hi => ?_, ?_⟩
    · have hi' : i = 0 ∨ i = 1 := by omega
      rcases hj' with rfl | rfl <;> rcases hi' with rfl | rfl <;> simp [Finset.sum_range_succ]
    · rcases hj' with rfl | rfl <;> simp [Finset.sum_range_succ]
  · intro i j hi hj
    have hi' : i = 0 ∨ i = 1 := by omega
    have hj' : j = 0 ∨ j = 1 := by omega
    rcases hj' with rfl | rfl <;> rcases hi' with rfl | rfl <;> simp [Finset.sum_range_succ] <;> norm_num
  · simp [returned, Finset.sum_range_succ]
  · intro hh
    have := congrArg Complex.im hh
    simp [returned, refinedVec, Finset.sum_range_succ] at this

/-- C188, hypotheses of the minimality theorem are met. -/
example : ∃ (Op : ℂ →ₗ[ℝ] ℂ) (s : State ℝ ℂ) (d : Dense ℝ) (sigma : ℝ) (w : ℕ → ℝ), Decomp Op s (fun _ => 0) ∧ s.nconv = 0 ∧ IsSchur s.n 0 s.A d ∧
    SmallestSing s.n (refinedMat s.n d s.beta (d.T 0 0)) sigma w ∧ 0 < sigma :=
  ⟨_, wst 1 1, idDense (wst 1 1).A, 1, fun _ => 1, wdec 1 1, rfl, wschur _, wsing _ 1 (by norm_num), by norm_num⟩

/-- C189, a skew-symmetric operator (rotation by a right angle) with a search space of dimension 1. -/
example : ∃ (Op : ℂ →ₗ[ℝ] ℂ) (s : State ℝ ℂ), (∀ x y, inner ℝ (Op x) y = -inner ℝ x (Op y)) ∧ Decomp Op s (fun _ => 0) ∧ s.nconv = 0 ∧ Odd s.n := by
  refine ⟨Complex.reLm.smulRight Complex.I - Complex.imLm.smulRight 1, wst 0 1, fun x y => ?_, ?_, rfl, odd_one⟩
  · simp [Complex.inner]
  · have h := wdec 0 1
    refine ⟨h.size, h.orth, fun j hj0 hj => ?_, fun j hj => absurd hj (by show ¬ j < 0; omega), h.clean⟩
    have : j = 0 := by have : j < 1 := hj; omega
    subst this
    simp [wst, comb]

/-- C185: a restart that keeps one of two columns, with a translation that has to be undone. -/
example : ∃ (Op : EuclideanSpace ℝ (Fin 3) →ₗ[ℝ] EuclideanSpace ℝ (Fin 3)) (s s' : State ℝ (EuclideanSpace ℝ (Fin 3))),
    Decomp Op s (fun _ => 0) ∧ s.n = 2 ∧ s.beta = 1 ∧ s'.V 0 ≠ s.V 0 ∧ ∃ r, Reach Op 0 s (fun _ => 0) s' r := by
  set b := EuclideanSpace.basisFun (Fin 3) ℝ with hb
  have hbo : ∀ i j, inner ℝ (b i) (b j) = if i = j then (1 : ℝ) else 0 := orthonormal_iff_ite.1 b.orthonormal
  obtain ⟨Op, h0, h1, h2⟩ : ∃ Op : EuclideanSpace ℝ (Fin 3) →ₗ[ℝ] EuclideanSpace ℝ (Fin 3), Op (b 0) = b 0 ∧ Op (b 1) = b 1 + b 2 ∧ Op (b 2) = b 0 := by
    refine ⟨b.toBasis.constr ℝ ![b 0, b 1 + b 2, b 0], ?_, ?_, ?_⟩
    · have := b.toBasis.constr_basis ℝ ![b 0, b 1 + b 2, b 0] 0; simpa using this
    · have := b.toBasis.constr_basis ℝ ![b 0, b 1 + b 2, b 0] 1; simpa using this
    · have := b.toBasis.constr_basis ℝ ![b 0, b 1 + b 2, b 0] 2; simpa using this
  obtain ⟨s, hs⟩ : ∃ s : State ℝ (EuclideanSpace ℝ (Fin 3)), s = ⟨2, 0, fun j => if j = 0 then b 0 else if j = 1 then b 1 else b 2,
    fun i j => if i = j ∧ i < 2 then 1 else 0, 1⟩ := ⟨_, rfl⟩
  have hdec : Decomp Op s (fun _ => 0) := by
    subst hs
    refine ⟨by norm_num, ?_, ?_, ?_, ?_⟩
    · intro i j hi hj
      have hi' : i = 0 ∨ i = 1 ∨ i = 2 := by have : i < 3 := hi; omega
      have hj' : j = 0 ∨ j = 1 ∨ j = 2 := by have : j < 3 := hj; omega
      rcases hi' with rfl | rfl | rfl <;> rcases hj' with rfl | rfl | rfl <;> simp [hbo]
    · intro j _ hj
      have hj' : j = 0 ∨ j = 1 := by have : j < 2 := hj; omega
      rcases hj' with rfl | rfl
      · simp [comb, Finset.sum_range_succ, h0]
      · simp [comb, Finset.sum_range_succ, h1]
    · intro j hj; exact absurd hj (by show ¬ j < 0; omega)
    · intro i j _ hi
      have : 2 < i := hi
      show (if i = j ∧ i < 2 then (1 : ℝ) else 0) = 0
      rw [if_neg (by omega)]
  obtain ⟨g, hg, hg0, hg1⟩ : ∃ g, translateG s.n s.A 0 s.beta = some g ∧ g 0 = 0 ∧ g 1 = 1 := by
    have hd : ¬ (shifted s.n s.A 0).det = 0 := by
      subst hs
      show ¬ (shifted 2 _ 0).det = 0
      rw [Matrix.det_fin_two]
      simp [shifted]
    obtain ⟨g, hg⟩ : ∃ g, translateG s.n s.A 0 s.beta = some g := by unfold translateG; rw [if_neg hd]; exact ⟨_, rfl⟩
    have e0 := translateG_eq hg 0 (by subst hs; norm_num)
    have e1 := translateG_eq hg 1 (by subst hs; norm_num)
    subst hs
    simp [Finset.sum_range_succ] at e0 e1
    exact ⟨g, hg, e0, e1⟩
  obtain ⟨d, hd⟩ : ∃ d : Dense ℝ, d = ⟨fun i j => if (i = 0 ∧ j = 1) ∨ (i = 1 ∧ j = 0) then 1 else 0,
    fun i j => if i = 0 ∧ j = 0 then 2 else if i = 1 ∧ j = 1 then 1 else 0⟩ := ⟨_, rfl⟩
  have hn : s.n = 2 := by rw [hs]
  have hnc : s.nconv = 0 := by rw [hs]
  have hbt : s.beta = 1 := by rw [hs]
  have hAs : s.A = fun i j => if i = j ∧ i < 2 then 1 else 0 := by rw [hs]
  have hVs : s.V = fun j => if j = 0 then b 0 else if j = 1 then b 1 else b 2 := by rw [hs]
  have hgt : ∀ r, r < 2 → gtilde 2 1 d.Q g r = 0 := by
    intro r hr
    have hr' : r = 0 ∨ r = 1 := by omega
    rcases hr' with rfl | rfl <;> simp [gtilde, ghat, hd, Finset.sum_range_succ, hg0, hg1]
  have hgam : gammaOf 2 (gtilde 2 1 d.Q g) = 1 := by
    simp [gammaOf, Finset.sum_range_succ, hgt 0 (by norm_num), hgt 1 (by norm_num)]
  obtain ⟨s', hs'⟩ : ∃ s' : State ℝ (EuclideanSpace ℝ (Fin 3)), s' = ⟨2, 0, fun j => if j = 0 then b 1 else if j = 1 then b 2 else b 0,
    fun i j => if j = 0 then restartA 2 0 0 1 d g 1 i 0 else 0, 1⟩ := ⟨_, rfl⟩
  refine ⟨Op, s, s', hdec, hn, hbt, ?_, _, Reach.next s s' _ g d 0 1 Reach.start hg ?_ ?_ ?_ ?_ ?_ ?_ ?_⟩
  · rw [hs', hVs]
    intro hh
    have := hbo 0 1
    have h01 : b 1 = b 0 := by simpa using hh
    rw [h01, hbo 0 0] at this
    simp at this
  · rw [hn, hnc, hbt, hAs]
    refine ⟨?_, by intro i j hi; omega, by intro i j _ hj; omega, ?_, by intro i j hi; omega, by intro i j _ _ hj; omega, ?_⟩
    · intro i j hi hj
      have hi' : i = 0 ∨ i = 1 := by omega
      have hj' : j = 0 ∨ j = 1 := by omega
      rcases hj' with rfl | rfl <;> rcases hi' with rfl | rfl <;> simp [Finset.sum_range_succ, hd]
    · intro i j hi _ hj
      have hi' : i = 0 ∨ i = 1 := by omega
      have hj' : j = 0 ∨ j = 1 := by omega
      rcases hj' with rfl | rfl <;> rcases hi' with rfl | rfl <;> simp [Finset.sum_range_succ, hd, translateA, hg0, hg1]
      norm_num
    · intro i j hi
      rw [hd]
      show (if i = 0 ∧ j = 0 then (2 : ℝ) else if i = 1 ∧ j = 1 then 1 else 0) = _
      rw [if_neg (by omega), if_neg (by omega)]
      unfold translateA
      rw [if_neg (by omega)]
      show (0 : ℝ) = if i = j ∧ i < 2 then 1 else 0
      rw [if_neg (by omega)]
  · omega
  · omega
  · omega
  · intro i j _ _ hj; omega
  · intro i j hi hi2 hj
    rw [hn] at hi2
    have hi' : i = 1 := by omega
    have hj' : j = 0 := by omega
    subst hi' hj'
    simp [hd]
  · rw [hn, hnc, hbt]
    refine ⟨by rw [hs'], by rw [hs']; norm_num, ?_, ?_, ?_, ?_, ?_⟩
    · intro j hj
      have hj' : j = 0 ∨ j = 1 := by omega
      rcases hj' with rfl | rfl
      · rw [hs', hVs]; simp [restartV, hd, Finset.sum_Ico_eq_sum_range, Finset.sum_range_succ]
      · rw [hs', hVs]; simp [restartV, hgam, Finset.sum_range_succ, hgt 0 (by norm_num), hgt 1 (by norm_num)]
    · intro i j hj
      have hj' : j = 0 := by omega
      subst hj'
      rw [hs']; simp
    · intro _ i j hi hj
      rw [hs'] at hi hj ⊢
      have hi' : i = 0 ∨ i = 1 ∨ i = 2 := by have : i < 3 := hi; omega
      have hj' : j = 0 ∨ j = 1 ∨ j = 2 := by have : j < 3 := hj; omega
      rcases hi' with rfl | rfl | rfl <;> rcases hj' with rfl | rfl | rfl <;> simp [hbo]
    · intro j hj0 hj
      rw [hs'] at hj ⊢
      have hj' : j = 1 := by have : j < 2 := hj; omega
      subst hj'
      simp [comb, Finset.sum_range_succ, h2]
    · intro i j hj hi
      rw [hs']
      simp
      intro; omega

end
end Verif.Harm
