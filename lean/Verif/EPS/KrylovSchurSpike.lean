import Verif.EPS.KrylovSchurWitness
/-!
C92, C93: counterexamples in three dimensions.
-/
set_option linter.all false
namespace Verif.EPS.KS
noncomputable section
open Classical Verif.BV Verif.EPS

/-- Space of dimension three. -/
abbrev P3 := EuclideanSpace ℂ (Fin 3)
/-- Unit vectors. -/
def e3 (i : Fin 3) : P3 := EuclideanSpace.single i (1 : ℂ)
theorem e3_norm (i : Fin 3) : ‖e3 i‖ = 1 := by simp [e3]
theorem e3_orth (i j : Fin 3) (h : i ≠ j) : inner ℂ (e3 i) (e3 j) = 0 := by
  simp [e3, EuclideanSpace.inner_single_left, h]
theorem e3_self (i : Fin 3) : inner ℂ (e3 i) (e3 i) = 1 := by simp [e3, EuclideanSpace.inner_single_left]
theorem e3_fin : Module.finrank ℂ P3 = 3 := by simp [P3]

/-- The rotation with cosine 4/5. -/
def rotQ : Nat → Nat → ℂ := fun i j =>
  if i = 0 ∧ j = 0 then 4 / 5 else if i = 0 ∧ j = 1 then -3 / 5 else if i = 1 ∧ j = 0 then 3 / 5
  else if i = 1 ∧ j = 1 then 4 / 5 else if i = j then 1 else 0

/-- The solution of the problem of size two with eigenvalues `a`, `b`. -/
def out2 (a b : ℝ) (A : Nat → Nat → ℂ) : DenseOut ℂ :=
  ⟨rotQ, fun i j => if i < 2 ∧ j < 2 then (if i = j then (if i = 0 then (a : ℂ) else b) else 0) else A i j,
    fun j => if j = 0 then (a : ℂ) else b, fun _ => false, fun j => if j = 0 then 3 / 5 else 4 / 5⟩

/-- The solution of the problem of the second iteration. -/
def out3 (A : Nat → Nat → ℂ) : DenseOut ℂ :=
  ⟨fun i j => if i = j then 1 else 0, A, fun j => toC (A j j), fun _ => false, fun j => if j = 1 then 0 else 50 / Real.sqrt 2573⟩

/-- The matrix `[50 0 3; 0 25 4; 0 0 0]`. -/
def IsH3 (A : Nat → Nat → ℂ) : Prop :=
  A 0 0 = 50 ∧ A 0 1 = 0 ∧ A 0 2 = 3 ∧ A 1 0 = 0 ∧ A 1 1 = 25 ∧ A 1 2 = 4 ∧ A 2 0 = 0 ∧ A 2 1 = 0 ∧ A 2 2 = 0

/-- The symmetric matrix with eigenvalues `a`, `b` and eigenvectors `(4,3)/5`, `(-3,4)/5`. -/
def IsH2 (a b : ℝ) (A : Nat → Nat → ℂ) : Prop :=
  A 0 0 = ((16 * a + 9 * b) / 25 : ℝ) ∧ A 0 1 = (12 * (a - b) / 25 : ℝ) ∧ A 1 0 = (12 * (a - b) / 25 : ℝ) ∧ A 1 1 = ((9 * a + 16 * b) / 25 : ℝ)

/-- A dense solver that knows the problems of the examples. -/
def dense3 (a b : ℝ) : Dense ℂ := fun _ l n A =>
  if l = 0 ∧ n = 2 ∧ IsH2 a b A then some (out2 a b A)
  else if l = 1 ∧ n = 3 ∧ IsH3 A then some (out3 A) else none

theorem dense3_cases {a b : ℝ} {raw l n A d} (h : dense3 a b raw l n A = some d) :
    (l = 0 ∧ n = 2 ∧ IsH2 a b A ∧ d = out2 a b A) ∨ (l = 1 ∧ n = 3 ∧ IsH3 A ∧ d = out3 A) := by
  unfold dense3 at h
  by_cases h1 : l = 0 ∧ n = 2 ∧ IsH2 a b A
  · rw [if_pos h1] at h
    exact Or.inl ⟨h1.1, h1.2.1, h1.2.2, (Option.some.inj h).symm⟩
  · rw [if_neg h1] at h
    by_cases h2 : l = 1 ∧ n = 3 ∧ IsH3 A
    · rw [if_pos h2] at h
      exact Or.inr ⟨h2.1, h2.2.1, h2.2.2, (Option.some.inj h).symm⟩
    · rw [if_neg h2] at h; cases h

theorem ofReal_toC (x : ℝ) : toC ((x : ℝ) : ℂ) = (x : ℂ) := by
  apply Complex.ext <;> simp [toC]

theorem dense3_ok (a b : ℝ) : DenseOK (dense3 a b) where
  unit := by
    intro raw l n A d h hl i j hi hj
    rcases dense3_cases h with ⟨rfl, rfl, hA, rfl⟩ | ⟨rfl, rfl, hA, rfl⟩
    · rw [Finset.sum_range_succ, Finset.sum_range_one]
      interval_cases i <;> interval_cases j <;> simp [out2, rotQ] <;> norm_num
    · simp only [Finset.sum_range_succ, Finset.sum_range_zero]
      interval_cases i <;> interval_cases j <;> simp [out3]
  block := by
    intro raw l n A d h hl i j hi hj hh
    rcases dense3_cases h with ⟨rfl, rfl, hA, rfl⟩ | ⟨rfl, rfl, hA, rfl⟩
    · omega
    · rfl
  sim := by
    intro raw l n A d h hl i j hi hlj hj
    rcases dense3_cases h with ⟨rfl, rfl, ⟨a1, a2, a3, a4⟩, rfl⟩ | ⟨rfl, rfl, hA, rfl⟩
    · rw [Finset.sum_range_succ, Finset.sum_range_one, Finset.sum_range_succ, Finset.sum_range_one]
      interval_cases i <;> interval_cases j <;> simp [out2, rotQ, a1, a2, a3, a4] <;> ring
    · simp only [Finset.sum_range_succ, Finset.sum_range_zero]
      interval_cases i <;> interval_cases j <;> simp [out3]
  tri := by
    intro raw l n A d h hl i j h1 h2 h3
    rcases dense3_cases h with ⟨rfl, rfl, hA, rfl⟩ | ⟨rfl, rfl, hA, rfl⟩
    · interval_cases i <;> interval_cases j <;> simp [out2]
    · obtain ⟨rfl, rfl⟩ : i = 2 ∧ j = 1 := by omega
      exact hA.2.2.2.2.2.2.2.1
  locked := by
    intro raw l n A d h hl i j h1 h2
    rcases dense3_cases h with ⟨rfl, rfl, hA, rfl⟩ | ⟨rfl, rfl, hA, rfl⟩
    · omega
    · rfl
  low := by
    intro raw l n A d h hl i j h1 h2 h3
    rcases dense3_cases h with ⟨rfl, rfl, hA, rfl⟩ | ⟨rfl, rfl, hA, rfl⟩
    · omega
    · obtain ⟨rfl, rfl⟩ : i = 2 ∧ j = 0 := by omega
      show A 2 0 = _
      rw [hA.2.2.2.2.2.2.1]; simp
  outside := by
    intro raw l n A d h hl i j hh
    rcases dense3_cases h with ⟨rfl, rfl, hA, rfl⟩ | ⟨rfl, rfl, hA, rfl⟩
    · exact if_neg (by omega)
    · rfl
  nopair := by
    intro raw l n A d h j
    rcases dense3_cases h with ⟨rfl, rfl, hA, rfl⟩ | ⟨rfl, rfl, hA, rfl⟩ <;> rfl
  eig := by
    intro raw l n A d h hl j _ hj
    rcases dense3_cases h with ⟨rfl, rfl, hA, rfl⟩ | ⟨rfl, rfl, hA, rfl⟩
    · interval_cases j <;> simp [out2, ofReal_toC]
    · rfl
  vec := by
    intro raw l n A d h hl j h1 h2
    rcases dense3_cases h with ⟨rfl, rfl, hA, rfl⟩ | ⟨rfl, rfl, ⟨a1, a2, a3, a4, a5, a6, a7, a8, a9⟩, rfl⟩
    · refine ⟨fun i => if i = j then 1 else 0, fun i hi => if_neg (by omega), ?_, ?_, ?_⟩
      · interval_cases j <;> simp [Finset.sum_range_succ]
      · intro i hi
        interval_cases j <;> interval_cases i <;> simp [out2, Finset.sum_Ico_succ_top]
      · interval_cases j <;> simp [out2, rotQ, Finset.sum_range_succ]
    · have h73 : (0 : ℝ) < Real.sqrt 2573 := Real.sqrt_pos.2 (by norm_num)
      have h74 : Real.sqrt 2573 ^ 2 = 2573 := Real.sq_sqrt (by norm_num)
      rcases (by omega : j = 1 ∨ j = 2) with rfl | rfl
      · refine ⟨fun i => if i = 1 then 1 else 0, fun i hi => if_neg (by omega), by simp [Finset.sum_range_succ], ?_, ?_⟩
        · intro i hi
          interval_cases i <;> simp [out3, Finset.sum_Ico_succ_top, a1, a2, a3, a4, a5, a6, a7, a8, a9]
        · simp [out3, Finset.sum_range_succ]
      · refine ⟨fun i => if i = 0 then ((-3 / Real.sqrt 2573 : ℝ) : ℂ) else if i = 1 then ((-8 / Real.sqrt 2573 : ℝ) : ℂ)
          else if i = 2 then ((50 / Real.sqrt 2573 : ℝ) : ℂ) else 0, ?_, ?_, ?_, ?_⟩
        · intro i hi
          dsimp only
          rw [if_neg (by omega), if_neg (by omega), if_neg (by omega)]
        · simp only [Finset.sum_range_succ, Finset.sum_range_zero, Complex.norm_real]
          norm_num [div_pow, h74]
        · intro i hi
          interval_cases i <;> simp [out3, Finset.sum_Ico_succ_top, Finset.sum_range_succ, a1, a2, a3, a4, a5, a6, a7, a8, a9] <;> ring
        · simp [out3, Finset.sum_range_succ, abs_of_pos h73]

/-- The first cycle of the examples: two columns. -/
theorem cycle3 (P : Params) (hn : P.ncv = 3) (hm : P.mpd = 2) (Op : P3 →ₗ[ℂ] P3) (a b y : ℝ) (hab : b < a) (hy : 0 ≤ y)
    (h0 : Op (e3 0) = (((16 * a + 9 * b) / 25 : ℝ) : ℂ) • e3 0 + ((12 * (a - b) / 25 : ℝ) : ℂ) • e3 1)
    (h1 : Op (e3 1) = ((12 * (a - b) / 25 : ℝ) : ℂ) • e3 0 + (((9 * a + 16 * b) / 25 : ℝ) : ℂ) • e3 1 + (y : ℂ) • e3 2)
    (rnd : Nat → P3) (buf : Nat → Nat → ℂ) :
    ∃ r : ArnOut ℂ P3, r.m = 2 ∧ r.beta = y ∧ (0 < y → r.breakdown = false ∧ r.H 2 1 = (y : ℂ) ∧ (r.ss.map Slot.v).getD 2 0 = e3 2) ∧
      (y = 0 → r.breakdown = true ∧ (r.ss.map Slot.v).getD 2 0 = 0) ∧ (r.ss.map Slot.v).getD 0 0 = e3 0 ∧ (r.ss.map Slot.v).getD 1 0 = e3 1 ∧
      (∀ i j, j + 1 < i → r.H i j = 0) ∧
      cycle (ipForm ℂ P3) optKS Op (Module.finrank ℂ P3) [] P (dense3 a b) rnd (init (e3 0) buf) =
        restart (ipForm ℂ P3) optKS [] P (init (e3 0) buf) (out2 a b r.H) r.beta (fun i => (r.ss.map Slot.v).getD i 0) (withRow 2 (out2 a b r.H)) r.buf
          (values P.cplx 0 2 (out2 a b r.H)) (krylovConvergence (convData P (values P.cplx 0 2 (out2 a b r.H)) (out2 a b r.H) r.beta) false 0 2 (fun _ => none)).2 2 r.breakdown
          (krylovConvergence (convData P (values P.cplx 0 2 (out2 a b r.H)) (out2 a b r.H) r.beta) false 0 2 (fun _ => none)).1
          (stoppingBasic 1 P.maxIt (krylovConvergence (convData P (values P.cplx 0 2 (out2 a b r.H)) (out2 a b r.H) r.beta) false 0 2 (fun _ => none)).1 P.nev) (rnd 0) := by
  obtain ⟨r1, r2, r3, r4, r5, r6, r7, r8, r9, r10⟩ := Verif.LME.two_step optKS le_rfl Op 4 (e3 0) (e3 1) (e3 2) (e3_norm 0) (e3_norm 1) (e3_orth 0 1 (by decide))
    _ _ _ _ y (by linarith : 0 < 12 * (a - b) / 25) hy (fun _ => ⟨e3_norm 2, e3_orth 0 2 (by decide), e3_orth 1 2 (by decide)⟩) h0 h1 buf (fun _ _ => 0) (fun _ _ _ => rfl)
  have hf := arn_flag optKS le_rfl Op 2 4 two_pos (by norm_num) (e3 0) (e3_norm 0) buf (fun _ _ => 0) (fun _ _ _ => rfl)
  generalize hr : matArnoldi (ipForm ℂ P3) optKS Op (Module.finrank ℂ P3) 0 0 2 4 [mkSlot (e3 0) 1] buf (fun _ _ => 0) = r at *
  dsimp only at hf
  rw [r9, r1] at hf
  refine ⟨r, r1, r9, fun h => ⟨(hf.1 h).1, (hf.1 h).2.2, r4 h⟩, hf.2, r2, r3, r10, ?_⟩
  unfold cycle
  dsimp only
  have e0 : (init (e3 0) buf).nconv = 0 := rfl
  have e1 : (init (e3 0) buf).l = 0 := rfl
  have e2' : (init (e3 0) buf).its = 0 := rfl
  have hmin : min (0 + P.mpd) P.ncv = 2 := by omega
  rw [e0, e1, e2', hmin, if_neg (by omega)]
  have hmat : matArnoldi (ipForm ℂ P3) optKS Op (Module.finrank ℂ P3) ([] : List P3).length (0 + 0) 2 (P.ncv + 1)
      (slots [] (init (e3 0) buf).V (0 + 0 + 1)) (init (e3 0) buf).buf (init (e3 0) buf).A = r := by
    rw [← hr, hn, slots_one]; rfl
  rw [hmat]
  have hd : dense3 a b (decide ((0 : Nat) ≠ 0)) 0 r.m r.H = some (out2 a b r.H) := by
    unfold dense3
    rw [if_pos ⟨rfl, r1, r5, r7, r6, r8⟩]
  rw [hd]
  dsimp only
  rw [r1]
  simp only [List.length_nil, Nat.zero_add]
  rfl

/-- `nev=2`, `ncv=3`, `mpd=2`, the default restart parameter. -/
def par3 (tol : ℝ) (conv : ℂ → ℝ → ℝ) : Params := ⟨2, 3, 2, 10, 1 / 2, true, true, tol, conv, fun _ => true⟩

/-- The operator with rows `(41, 12, 0)`, `(12, 34, 5)`, `(0, 1, 0)`. -/
def opS : P3 →ₗ[ℂ] P3 := Matrix.toEuclideanLin !![41, 12, 0; 12, 34, 5; 0, 1, 0]
theorem opS_0 : opS (e3 0) = (41 : ℂ) • e3 0 + (12 : ℂ) • e3 1 := by
  ext i; fin_cases i <;> simp [opS, e3, Matrix.toEuclideanLin_apply]
theorem opS_1 : opS (e3 1) = (12 : ℂ) • e3 0 + (34 : ℂ) • e3 1 + e3 2 := by
  ext i; fin_cases i <;> simp [opS, e3, Matrix.toEuclideanLin_apply]
theorem opS_2 : opS (e3 2) = (5 : ℂ) • e3 1 := by
  ext i; fin_cases i <;> simp [opS, e3, Matrix.toEuclideanLin_apply]

/-- The operator with rows `(16, 12, 0)`, `(12, 9, 0)`, `(0, 0, 7)`. -/
def opB : P3 →ₗ[ℂ] P3 := Matrix.toEuclideanLin !![16, 12, 0; 12, 9, 0; 0, 0, 7]
theorem opB_0 : opB (e3 0) = (16 : ℂ) • e3 0 + (12 : ℂ) • e3 1 := by
  ext i; fin_cases i <;> simp [opB, e3, Matrix.toEuclideanLin_apply]
theorem opB_1 : opB (e3 1) = (12 : ℂ) • e3 0 + (9 : ℂ) • e3 1 := by
  ext i; fin_cases i <;> simp [opB, e3, Matrix.toEuclideanLin_apply]
theorem opB_2 : opB (e3 2) = (7 : ℂ) • e3 2 := by
  ext i; fin_cases i <;> simp [opB, e3, Matrix.toEuclideanLin_apply]

/-- The relative convergence test, epsdefault.c (`EPSConvergedRelative`): a very large estimate for the zero eigenvalue. -/
def relConv : ℂ → ℝ → ℝ := fun z r => if z = 0 then 10 ^ 300 else r / ‖z‖

/-- **C92, C93 fail when the factorization breaks down before everything has converged**: the operator has the eigenvalues 25, 0 and 7; from the
first unit vector the factorization breaks down with two columns, the values being 25 and 0, and the second one does not pass the relative test. The new start vector is written on a column
that has yet to be rotated: the locked vector is not an eigenvector (its stored estimate is zero), and the vector from which the next
factorization starts is zero. -/
theorem C92_false_breakdown (rnd : Nat → P3) (hr0 : rnd 0 = e3 2) (buf : Nat → Nat → ℂ) :
    let s := run (ipForm ℂ P3) optKS opB (Module.finrank ℂ P3) [] (par3 (1 / 2) relConv) (dense3 25 0) rnd 1 (init (e3 0) buf)
    s.status = .iterating ∧ s.nconv = 1 ∧ s.eig 0 = 25 ∧ s.err 0 = some 0 ∧ opB (s.V 0) ≠ (25 : ℂ) • s.V 0 ∧ s.V 1 = 0 ∧ ¬ Good opB [] s := by
  intro s
  obtain ⟨r, r1, r2, -, r4, v0, v1, rz, ec⟩ := cycle3 (par3 (1 / 2) relConv) rfl rfl opB 25 0 0 (by norm_num) le_rfl
    (by rw [opB_0]; norm_num) (by rw [opB_1]; norm_num) rnd buf
  obtain ⟨r4, v2⟩ := r4 rfl
  have hs : s = cycle (ipForm ℂ P3) optKS opB (Module.finrank ℂ P3) [] (par3 (1 / 2) relConv) (dense3 25 0) rnd (init (e3 0) buf) := rfl
  have hval : values (par3 (1 / 2) relConv).cplx 0 2 (out2 25 0 r.H) = fun j => if j = 0 then ((25 : ℝ) : ℂ) else ((0 : ℝ) : ℂ) := by
    unfold values
    rw [if_pos (show (par3 (1 / 2) relConv).cplx = true from rfl)]
    funext j
    rw [if_neg (by omega)]; rfl
  rw [hval, r2] at ec
  obtain ⟨k1, k2, k3, k4, k5⟩ := conv_k (par3 (1 / 2) relConv) (fun j => if j = 0 then ((25 : ℝ) : ℂ) else ((0 : ℝ) : ℂ)) (out2 25 0 r.H) 0 (fun _ => rfl) 0 2 (by omega) (fun _ => none)
  rw [Nat.sub_zero] at k1 k2 k3 k4 k5
  have hk : (krylovConvergence (convData (par3 (1 / 2) relConv) (fun j => if j = 0 then ((25 : ℝ) : ℂ) else ((0 : ℝ) : ℂ)) (out2 25 0 r.H) 0) false 0 2 (fun _ => none)).1 = 1 := by
    generalize (krylovConvergence (convData (par3 (1 / 2) relConv) (fun j => if j = 0 then ((25 : ℝ) : ℂ) else ((0 : ℝ) : ℂ)) (out2 25 0 r.H) 0) false 0 2 (fun _ => none)).1 = k at *
    interval_cases k
    · rcases k5 with k5 | k5 | k5
      · omega
      · exact absurd k5 (by simp [par3])
      · exfalso
        norm_num [par3, relConv] at k5
    · rfl
    · have := (k4 1 (by omega) (by omega)).2.2
      norm_num [par3, relConv] at this
      have h1 : (1 : ℝ) ≤ 10 ^ 300 := one_le_pow₀ (by norm_num)
      exact absurd this (not_lt.2 (le_trans (by norm_num) h1))
  have herr := (k4 0 le_rfl (by rw [hk]; omega)).2.1
  rw [hk] at ec
  generalize (krylovConvergence (convData (par3 (1 / 2) relConv) (fun j => if j = 0 then ((25 : ℝ) : ℂ) else ((0 : ℝ) : ℂ)) (out2 25 0 r.H) 0) false 0 2 (fun _ => none)).2 = err1 at *
  have herr0 : err1 0 = some 0 := by
    rw [herr]; norm_num [par3, relConv]
  have hstart : startVector (ipForm ℂ P3) optKS [] (fun i => (r.ss.map Slot.v).getD i 0) 1 (rnd 0) = (e3 2, false) := by
    rw [hr0]
    refine start_unit optKS le_rfl _ 1 _ ?_ (e3_norm 2) ?_
    · refine ⟨?_, ?_⟩
      · intro x hx
        simp only [cols, List.range_one, List.map_cons, List.map_nil, List.mem_singleton] at hx
        rw [hx, v0]; exact e3_norm 0
      · simp [cols]
    · intro j hj
      obtain rfl : j = 0 := by omega
      rw [v0]; exact e3_orth 0 2 (by decide)
  have h1 : s.status = .iterating ∧ s.nconv = 1 ∧ s.l = 0 ∧ s.eig 0 = 25 ∧ s.err = err1 ∧ s.V 0 = (4 / 5 : ℂ) • e3 0 + (3 / 5 : ℂ) • e3 2 ∧ s.V 1 = 0 := by
    rw [hs, ec, r4]
    unfold restart
    dsimp only
    rw [lock_l _ rfl, lock_k _ rfl]
    rw [newL_zero _ _ _ _ _ _ _ (Or.inr (Or.inl rfl))]
    rw [show stoppingBasic 1 (par3 (1 / 2) relConv).maxIt 1 (par3 (1 / 2) relConv).nev = .iterating by simp [stoppingBasic, par3]]
    dsimp only
    rw [if_pos (Or.inl rfl), if_pos (by simp [par3]), hstart]
    dsimp only
    rw [if_neg (by simp)]
    refine ⟨rfl, rfl, rfl, by simp, rfl, ?_, ?_⟩
    · dsimp only
      rw [if_neg (by omega)]
      unfold rotate
      rw [if_pos (by exact ⟨le_rfl, by omega⟩)]
      rw [show (init (e3 0) buf).nconv = 0 from rfl, show Finset.Ico 0 2 = Finset.range 2 from rfl, Finset.sum_range_succ, Finset.sum_range_one]
      dsimp only
      rw [if_neg (by omega), if_pos rfl, v0]
      rfl
    · dsimp only
      rw [if_pos (by omega), rotate_beyond _ _ _ _ _ _ (by omega), if_neg (by omega), v2]
  obtain ⟨a1, a2, a3, a4, a5, a6, a7⟩ := h1
  refine ⟨a1, a2, a4, by rw [a5, herr0], ?_, a7, ?_⟩
  · intro hh
    rw [a6, map_add, map_smul, map_smul, opB_0, opB_2] at hh
    have := congrArg (fun v : P3 => v 1) hh
    norm_num [e3] at this
    rw [if_neg (by decide), if_neg (by decide)] at this
    norm_num at this
  · intro hg
    have := hg.on.unit (s.V 1) (by
      rw [List.nil_append, a2, a3]
      exact List.mem_map.2 ⟨1, by simp, rfl⟩)
    rw [a7] at this
    simp at this

/-- **C92, C93 fail when all values but one converge**: tolerance 7/10 for the absolute residual. In the first iteration the value 50
converges (residual 3/5), 25 does not (residual 4/5); the restart keeps one vector, i.e., as many as there are, and the extra row is cleared instead of being moved. In the second
iteration 25 is accepted with estimate zero, but it is not an eigenvalue, and its vector has residual 4/5, above the tolerance. -/
theorem C92_false_spike (rnd : Nat → P3) (buf : Nat → Nat → ℂ) :
    let s := run (ipForm ℂ P3) optKS opS (Module.finrank ℂ P3) [] (par3 (7 / 10) (fun _ r => r)) (dense3 50 25) rnd 1 (init (e3 0) buf)
    let t := run (ipForm ℂ P3) optKS opS (Module.finrank ℂ P3) [] (par3 (7 / 10) (fun _ r => r)) (dense3 50 25) rnd 2 (init (e3 0) buf)
    s.status = .iterating ∧ s.nconv = 1 ∧ s.l = 1 ∧ ¬ Good opS [] s ∧ t.status = .tol ∧ t.nconv = 3 ∧ t.eig 1 = 25 ∧ t.err 1 = some 0 ∧
      (∀ x, opS x = (25 : ℂ) • x → x = 0) ∧ opS (t.V 1) - (25 : ℂ) • t.V 1 = (4 / 5 : ℂ) • e3 2 := by
  intro s t
  obtain ⟨r, r1, r2, r3, -, v0, v1, rz, ec⟩ := cycle3 (par3 (7 / 10) (fun _ r => r)) rfl rfl opS 50 25 1 (by norm_num) zero_le_one
    (by rw [opS_0]; norm_num) (by rw [opS_1]; norm_num) rnd buf
  obtain ⟨r3, r4, v2⟩ := r3 one_pos
  have hs : s = cycle (ipForm ℂ P3) optKS opS (Module.finrank ℂ P3) [] (par3 (7 / 10) (fun _ r => r)) (dense3 50 25) rnd (init (e3 0) buf) := rfl
  rw [r2] at ec
  obtain ⟨k1, k2, k3, k4, k5⟩ := conv_k (par3 (7 / 10) (fun _ r => r)) (values (par3 (7 / 10) (fun _ r => r)).cplx 0 2 (out2 50 25 r.H)) (out2 50 25 r.H) 1 (fun _ => rfl) 0 2 (by omega) (fun _ => none)
  rw [Nat.sub_zero] at k1 k2 k3 k4 k5
  generalize values (par3 (7 / 10) (fun _ r => r)).cplx 0 2 (out2 50 25 r.H) = vals at *
  have hk : (krylovConvergence (convData (par3 (7 / 10) (fun _ r => r)) vals (out2 50 25 r.H) 1) false 0 2 (fun _ => none)).1 = 1 := by
    generalize (krylovConvergence (convData (par3 (7 / 10) (fun _ r => r)) vals (out2 50 25 r.H) 1) false 0 2 (fun _ => none)).1 = k at *
    interval_cases k
    · rcases k5 with k5 | k5 | k5
      · omega
      · exact absurd k5 (by simp [par3])
      · exfalso
        norm_num [par3, out2] at k5
    · rfl
    · have := (k4 1 (by omega) (by omega)).2.2
      norm_num [par3, out2] at this
  rw [hk] at ec
  generalize (krylovConvergence (convData (par3 (7 / 10) (fun _ r => r)) vals (out2 50 25 r.H) 1) false 0 2 (fun _ => none)).2 = err1 at *
  have hrow : ∀ i j, j < 2 → truncated 0 2 2 (withRow 2 (out2 50 25 r.H)) i j = if i = 2 then 0 else withRow 2 (out2 50 25 r.H) i j := by
    intro i j hj
    by_cases hi : i = 2
    · rw [if_pos hi, hi]
      exact truncated_zero _ _ _ _ _ (Nat.zero_le _) hj
    · rw [if_neg hi]
      exact truncated_other _ _ _ _ _ _ (by omega) (by omega)
  have h1 : s.status = .iterating ∧ s.nconv = 1 ∧ s.l = 1 ∧ s.V 0 = (4 / 5 : ℂ) • e3 0 + (3 / 5 : ℂ) • e3 1 ∧ s.V 1 = (-3 / 5 : ℂ) • e3 0 + (4 / 5 : ℂ) • e3 1 ∧
      s.V 2 = e3 2 ∧ s.A = truncated 0 2 2 (withRow 2 (out2 50 25 r.H)) ∧ s.its = 1 := by
    rw [hs, ec, r3]
    unfold restart
    dsimp only
    rw [lock_l _ rfl, lock_k _ rfl]
    have hL : newL (par3 (7 / 10) (fun _ r => r)) (decide (stoppingBasic 1 (par3 (7 / 10) (fun _ r => r)).maxIt 1 (par3 (7 / 10) (fun _ r => r)).nev = .iterating)) false
        (init (e3 0) buf).nconv 2 1 (withRow 2 (out2 50 25 r.H)) = 1 := by
      rw [newL_pos _ _ _ _ _ _ _ (by simp [stoppingBasic, par3]) rfl]
      norm_num [par3]
      exact Nat.floor_le_of_le (by norm_num)
    rw [hL]
    rw [show stoppingBasic 1 (par3 (7 / 10) (fun _ r => r)).maxIt 1 (par3 (7 / 10) (fun _ r => r)).nev = .iterating by simp [stoppingBasic, par3]]
    dsimp only
    rw [if_neg (by simp)]
    refine ⟨rfl, rfl, rfl, ?_, ?_, ?_, rfl, rfl⟩
    · dsimp only
      rw [if_neg (by omega)]
      unfold rotate
      rw [if_pos (by exact ⟨le_rfl, by omega⟩)]
      rw [show (init (e3 0) buf).nconv = 0 from rfl, show Finset.Ico 0 2 = Finset.range 2 from rfl, Finset.sum_range_succ, Finset.sum_range_one]
      dsimp only
      rw [v0, v1]
      rfl
    · dsimp only
      rw [if_neg (by omega)]
      unfold rotate
      rw [if_pos (by exact ⟨Nat.zero_le _, by omega⟩)]
      rw [show (init (e3 0) buf).nconv = 0 from rfl, show Finset.Ico 0 2 = Finset.range 2 from rfl, Finset.sum_range_succ, Finset.sum_range_one]
      dsimp only
      rw [v0, v1]
      rfl
    · dsimp only
      rw [if_pos (by omega), rotate_beyond _ _ _ _ _ _ (by omega), v2]
  obtain ⟨a1, a2, a3, a4, a5, a6, a7, a8⟩ := h1
  have i00 : inner ℂ (s.V 0) (s.V 0) = 1 := by
    rw [a4]; simp [inner_add_left, inner_add_right, inner_smul_left, inner_smul_right, e3_self, e3_orth, -inner_self_eq_norm_sq_to_K, map_ofNat]; norm_num
  have i11 : inner ℂ (s.V 1) (s.V 1) = 1 := by
    rw [a5]; simp [inner_add_left, inner_add_right, inner_smul_left, inner_smul_right, e3_self, e3_orth, -inner_self_eq_norm_sq_to_K, map_ofNat]; norm_num
  have i01 : inner ℂ (s.V 0) (s.V 1) = 0 := by
    rw [a4, a5]; simp [inner_add_left, inner_add_right, inner_smul_left, inner_smul_right, e3_self, e3_orth, -inner_self_eq_norm_sq_to_K, map_ofNat]; norm_num
  have i02 : inner ℂ (s.V 0) (s.V 2) = 0 := by
    rw [a4, a6]; simp [inner_add_left, inner_smul_left, e3_orth]
  have i12 : inner ℂ (s.V 1) (s.V 2) = 0 := by
    rw [a5, a6]; simp [inner_add_left, inner_smul_left, e3_orth]
  have hun : ∀ x : P3, inner ℂ x x = 1 → ‖x‖ = 1 := by
    intro x hx
    rw [inner_self_eq_norm_sq_to_K] at hx
    have : ‖x‖ ^ 2 = 1 := by
      have h2 : ((‖x‖ ^ 2 : ℝ) : ℂ) = ((1 : ℝ) : ℂ) := by push_cast; exact hx
      exact Complex.ofReal_injective h2
    exact (pow_eq_one_iff_of_nonneg (norm_nonneg _) two_ne_zero).1 this
  have hon : ONList ℂ (cols s.V (2 + 1)) := by
    have : cols s.V (2 + 1) = [s.V 0, s.V 1, s.V 2] := by
      simp [cols, List.range_succ]
    rw [this]
    refine ⟨?_, ?_⟩
    · intro x hx
      simp only [List.mem_cons, List.not_mem_nil, or_false] at hx
      rcases hx with rfl | rfl | rfl
      · exact hun _ i00
      · exact hun _ i11
      · rw [a6]; exact e3_norm 2
    · simp [i01, i02, i12]
  have hA : ∀ i j, j < 2 → s.A i j = if i = 2 then 0 else withRow 2 (out2 50 25 r.H) i j := by
    intro i j hj
    rw [a7, hrow i j hj]
  have hop1 : opS (s.V 1) = (25 : ℂ) • s.V 1 + (4 / 5 : ℂ) • e3 2 := by
    rw [a5, map_add, map_smul, map_smul, opS_0, opS_1]
    simp only [smul_add, smul_smul]
    norm_num
    module
  obtain ⟨q1, q2, q3, q4, q5, q6⟩ := last_step optKS le_rfl opS 2 4 e3_fin s.V hon s.buf s.A (by
    intro i j hj hij
    rw [a7]
    have h1 : truncated 0 2 2 (withRow 2 (out2 50 25 r.H)) i j = withRow 2 (out2 50 25 r.H) i j := by
      exact truncated_other _ _ _ _ _ _ (by omega) (by omega)
    rw [h1, withRow_of_lt _ _ _ _ (by omega)]
    show (if i < 2 ∧ j < 2 then _ else r.H i j) = 0
    rw [if_neg (by omega)]
    exact rz i j hij)
  have ht : t = cycle (ipForm ℂ P3) optKS opS (Module.finrank ℂ P3) [] (par3 (7 / 10) (fun _ r => r)) (dense3 50 25) rnd s := by
    have := run_succ (ipForm ℂ P3) optKS opS (Module.finrank ℂ P3) [] (par3 (7 / 10) (fun _ r => r)) (dense3 50 25) rnd 1 (init (e3 0) buf)
    rw [show t = _ from this]
    exact if_pos a1
  unfold cycle at ht
  dsimp only at ht
  have hmin : min (1 + (par3 (7 / 10) (fun _ r => r)).mpd) (par3 (7 / 10) (fun _ r => r)).ncv = 2 + 1 := rfl
  rw [a2, a3, a8, hmin, if_neg (by omega)] at ht
  have hmat : matArnoldi (ipForm ℂ P3) optKS opS (Module.finrank ℂ P3) ([] : List P3).length (1 + 1) (2 + 1) ((par3 (7 / 10) (fun _ r => r)).ncv + 1)
        (slots [] s.V (1 + 1 + 1)) s.buf s.A = matArnoldi (ipForm ℂ P3) optKS opS (Module.finrank ℂ P3) 0 2 (2 + 1) 4 (slots [] s.V (2 + 1)) s.buf s.A := rfl
  rw [hmat] at ht
  generalize matArnoldi (ipForm ℂ P3) optKS opS (Module.finrank ℂ P3) 0 2 (2 + 1) 4 (slots [] s.V (2 + 1)) s.buf s.A = p at *
  have hH : IsH3 p.H := by
    refine ⟨?_, ?_, ?_, ?_, ?_, ?_, ?_, ?_, ?_⟩
    · rw [q6 0 0 (by omega), hA _ _ (by omega)]; simp [withRow, out2]
    · rw [q6 0 1 (by omega), hA _ _ (by omega)]; simp [withRow, out2]
    · rw [q5 0 (by omega), a6, opS_2, a4]
      simp [inner_add_left, inner_smul_left, inner_smul_right, e3_self, e3_orth, -inner_self_eq_norm_sq_to_K, map_ofNat]
      norm_num
    · rw [q6 1 0 (by omega), hA _ _ (by omega)]; simp [withRow, out2]
    · rw [q6 1 1 (by omega), hA _ _ (by omega)]; simp [withRow, out2]
    · rw [q5 1 (by omega), a6, opS_2, a5]
      simp [inner_add_left, inner_smul_left, inner_smul_right, e3_self, e3_orth, -inner_self_eq_norm_sq_to_K, map_ofNat]
      norm_num
    · rw [q6 2 0 (by omega), hA _ _ (by omega)]; simp
    · rw [q6 2 1 (by omega), hA _ _ (by omega)]; simp
    · rw [q5 2 (by omega), a6, opS_2]
      simp [inner_smul_right, e3_orth]
  have hd : dense3 50 25 (decide ((1 : Nat) ≠ 0)) 1 p.m p.H = some (out3 p.H) := by
    unfold dense3
    rw [if_neg (by omega), if_pos ⟨rfl, q1, hH⟩]
  rw [hd] at ht
  dsimp only at ht
  obtain ⟨m1, m2, m3, m4, m5⟩ := conv_k (par3 (7 / 10) (fun _ r => r)) (values (par3 (7 / 10) (fun _ r => r)).cplx 1 (2 + 1) (out3 p.H)) (out3 p.H) p.beta (fun _ => rfl) 1 (2 + 1) (by omega) s.err
  rw [q1, q2] at ht
  have hk2 : (krylovConvergence (convData (par3 (7 / 10) (fun _ r => r)) (values (par3 (7 / 10) (fun _ r => r)).cplx 1 (2 + 1) (out3 p.H)) (out3 p.H) p.beta) false 1 (2 + 1 - 1) s.err).1 = 3 := by
    rcases m5 with k5 | k5 | k5
    · exact k5
    · exact absurd k5 (by simp [par3])
    · rw [q3, mul_zero] at k5
      norm_num [par3] at k5
  have herr1 := (m4 1 le_rfl (by rw [hk2]; omega)).2.1
  rw [hk2] at ht
  have hfin : t.status = .tol ∧ t.nconv = 3 ∧ t.eig 1 = 25 ∧ t.err 1 = some 0 ∧ t.V 1 = s.V 1 := by
    rw [ht]
    unfold restart
    dsimp only
    rw [lock_l _ rfl, lock_k _ rfl]
    rw [newL_zero _ _ _ _ _ _ _ (Or.inr (Or.inl rfl))]
    rw [show stoppingBasic (1 + 1) (par3 (7 / 10) (fun _ r => r)).maxIt 3 (par3 (7 / 10) (fun _ r => r)).nev = .tol by simp [stoppingBasic, par3]]
    dsimp only
    refine ⟨rfl, rfl, ?_, ?_, ?_⟩
    · show values _ 1 3 (out3 p.H) 1 = 25
      unfold values
      rw [if_pos (show (par3 (7 / 10) (fun _ r => r)).cplx = true from rfl), if_neg (by omega)]
      show toC (p.H 1 1) = 25
      rw [hH.2.2.2.2.1]
      apply Complex.ext <;> simp [toC]
    · rw [herr1, q3, mul_zero]
      rfl
    · unfold rotate
      rw [if_pos (by rw [a2]; omega), a2, show Finset.Ico 1 (2 + 1) = {1, 2} from rfl, Finset.sum_pair (by omega)]
      simp only [out3, if_true, one_smul]
      rw [if_neg (by omega), zero_smul, add_zero]
      show (List.map Slot.v p.ss).getD (0 + 1) 0 = _
      exact q4 1 (by omega)
  obtain ⟨f1, f2, f3, f4, f5⟩ := hfin
  refine ⟨a1, a2, a3, ?_, f1, f2, f3, f4, ?_, ?_⟩
  · intro hg
    obtain ⟨c, hc, he⟩ := hg.active 1 (by omega) (by omega)
    have hc0 : c = 0 := by simpa using hc
    rw [hc0, a2, a3, hop1] at he
    simp only [Finset.sum_range_succ, Finset.sum_range_zero] at he
    rw [hA 0 1 (by omega), hA 1 1 (by omega), hA 2 1 (by omega)] at he
    have h2 : (4 / 5 : ℂ) • e3 2 = 0 := by
      have : withRow 2 (out2 50 25 r.H) 0 1 = 0 ∧ withRow 2 (out2 50 25 r.H) 1 1 = 25 := by
        constructor <;> simp [withRow, out2]
      rw [if_neg (by omega), if_neg (by omega), if_pos rfl, this.1, this.2] at he
      simpa using he
    have := congrArg norm h2
    rw [norm_smul, e3_norm] at this
    norm_num at this
  · intro x hx
    have h0 := congrArg (fun v : P3 => v 0) hx
    have h1 := congrArg (fun v : P3 => v 1) hx
    have h2 := congrArg (fun v : P3 => v 2) hx
    simp [opS, Matrix.toEuclideanLin_apply, Matrix.mulVec, dotProduct, Fin.sum_univ_three] at h0 h1 h2
    have z2 : x 2 = 0 := by linear_combination (1/5 : ℂ) * h1 - (3/20 : ℂ) * h0
    have z1 : x 1 = 0 := by rw [z2] at h2; simpa using h2
    have z0 : x 0 = 0 := by rw [z1] at h0; linear_combination (1/16 : ℂ) * h0
    ext i
    fin_cases i
    · exact z0
    · exact z1
    · exact z2
  · rw [f5, hop1]; abel

/-- C94: the hypotheses hold for the run of `C92_false_spike`, which is iterating after the first cycle. -/
example (rnd : Nat → P3) (buf : Nat → Nat → ℂ) :
    let P := par3 (7 / 10) (fun _ r => r)
    (P.lock = true ∨ P.ncv ≤ P.mpd) ∧ 2 ≤ P.mpd ∧ P.keep ≤ 9 / 10 ∧ 0 < P.nev ∧ P.nev < P.ncv ∧
      (∀ raw l n A d, dense3 50 25 raw l n A = some d → ∀ j, d.pair j = true → j + 1 < n) ∧
      (run (ipForm ℂ P3) optKS opS (Module.finrank ℂ P3) [] P (dense3 50 25) rnd 1 (init (e3 0) buf)).status = .iterating :=
  ⟨Or.inl rfl, le_rfl, by norm_num [par3], by norm_num [par3], by norm_num [par3],
    (fun raw l n A d h j hj => by rw [(dense3_ok 50 25).nopair raw l n A d h j] at hj; cases hj), (C92_false_spike rnd buf).1⟩

/-- C92, C93, C95: with tolerance 9/10 the run of `C92_false_spike` meets all the hypotheses, and ends in the first iteration with both
pairs accepted. -/
theorem run_example (rnd : Nat → P3) (buf : Nat → Nat → ℂ) :
    let P := par3 (9 / 10) (fun _ r => r)
    let t := run (ipForm ℂ P3) optKS opS (Module.finrank ℂ P3) [] P (dense3 50 25) rnd 1 (init (e3 0) buf)
    P.lock = true ∧ P.cplx = true ∧ DenseOK (dense3 50 25) ∧ (∀ z, P.inside z = true ∧ P.conv z 0 < P.tol) ∧ ONList ℂ ([] ++ [e3 0]) ∧
      t.status = .tol ∧ t.nconv = 2 ∧ t.eig 0 = 50 ∧ t.eig 1 = 25 ∧ t.err 0 = some (3 / 5) ∧ t.err 1 = some (4 / 5) ∧
      (∀ m, m < 1 → Room P (run (ipForm ℂ P3) optKS opS (Module.finrank ℂ P3) [] P (dense3 50 25) rnd m (init (e3 0) buf))
        (run (ipForm ℂ P3) optKS opS (Module.finrank ℂ P3) [] P (dense3 50 25) rnd (m + 1) (init (e3 0) buf))) := by
  intro P t
  obtain ⟨r, r1, r2, r3, -, v0, v1, rz, ec⟩ := cycle3 (par3 (9 / 10) (fun _ r => r)) rfl rfl opS 50 25 1 (by norm_num) zero_le_one
    (by rw [opS_0]; norm_num) (by rw [opS_1]; norm_num) rnd buf
  have hs : t = cycle (ipForm ℂ P3) optKS opS (Module.finrank ℂ P3) [] (par3 (9 / 10) (fun _ r => r)) (dense3 50 25) rnd (init (e3 0) buf) := rfl
  rw [r2] at ec
  obtain ⟨k1, k2, k3, k4, k5⟩ := conv_k (par3 (9 / 10) (fun _ r => r)) (values (par3 (9 / 10) (fun _ r => r)).cplx 0 2 (out2 50 25 r.H)) (out2 50 25 r.H) 1 (fun _ => rfl) 0 2 (by omega) (fun _ => none)
  rw [Nat.sub_zero] at k1 k2 k3 k4 k5
  have hv : ∀ j, values (par3 (9 / 10) (fun _ r => r)).cplx 0 2 (out2 50 25 r.H) j = (out2 50 25 r.H).eig j := fun j => by
    unfold values
    rw [if_pos (show (par3 (9 / 10) (fun _ r => r)).cplx = true from rfl), if_neg (by omega)]
  generalize values (par3 (9 / 10) (fun _ r => r)).cplx 0 2 (out2 50 25 r.H) = vals at *
  have hk : (krylovConvergence (convData (par3 (9 / 10) (fun _ r => r)) vals (out2 50 25 r.H) 1) false 0 2 (fun _ => none)).1 = 2 := by
    generalize (krylovConvergence (convData (par3 (9 / 10) (fun _ r => r)) vals (out2 50 25 r.H) 1) false 0 2 (fun _ => none)).1 = k at *
    rcases k5 with k5 | k5 | k5
    · exact k5
    · exact absurd k5 (by simp [par3])
    · exfalso
      by_cases h0 : k = 0
      · norm_num [par3, out2, h0] at k5
      · norm_num [par3, out2, h0] at k5
  have e0 := (k4 0 le_rfl (by rw [hk]; omega)).2.1
  have e1 := (k4 1 (by omega) (by rw [hk]; omega)).2.1
  rw [hk] at ec
  generalize (krylovConvergence (convData (par3 (9 / 10) (fun _ r => r)) vals (out2 50 25 r.H) 1) false 0 2 (fun _ => none)).2 = err1 at *
  have h1 : t.status = .tol ∧ t.nconv = 2 ∧ t.eig = vals ∧ t.err = err1 := by
    rw [hs, ec]
    unfold restart
    dsimp only
    rw [lock_l _ rfl, lock_k _ rfl]
    rw [show stoppingBasic 1 (par3 (9 / 10) (fun _ r => r)).maxIt 2 (par3 (9 / 10) (fun _ r => r)).nev = .tol by simp [stoppingBasic, par3]]
    exact ⟨rfl, rfl, rfl, rfl⟩
  obtain ⟨a1, a2, a3, a4⟩ := h1
  refine ⟨rfl, rfl, dense3_ok 50 25, fun z => ⟨rfl, by show (0 : ℝ) < 9 / 10; norm_num⟩, ⟨by simp [e3_norm], by simp⟩, a1, a2, ?_, ?_, ?_, ?_, ?_⟩
  · rw [a3, hv]; simp [out2]
  · rw [a3, hv]; simp [out2]
  · rw [a4, e0]; norm_num [par3, out2]
  · rw [a4, e1]; norm_num [par3, out2]
  · intro m hm hst
    obtain rfl : m = 0 := by omega
    rw [show run (ipForm ℂ P3) optKS opS (Module.finrank ℂ P3) [] P (dense3 50 25) rnd (0 + 1) (init (e3 0) buf) = t from rfl, a1] at hst
    cases hst

end
end Verif.EPS.KS
