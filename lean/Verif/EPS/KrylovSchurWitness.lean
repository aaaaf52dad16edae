import Verif.EPS.KrylovSchurSmall
/-!
C94, C95: counterexamples; a run that meets the hypotheses of C92-C95.
-/
set_option linter.all false
namespace Verif.EPS.KS
noncomputable section
open Classical Verif.BV Verif.EPS

/-- Plane. -/
abbrev P2 (𝕜 : Type) [RCLike 𝕜] := EuclideanSpace 𝕜 (Fin 2)
/-- Unit vectors. -/
def e2 (𝕜 : Type) [RCLike 𝕜] (i : Fin 2) : P2 𝕜 := EuclideanSpace.single i (1 : 𝕜)
/-- Orthogonalization options. -/
def optKS : OrthOpts := ⟨true, 1, .never⟩

variable {𝕜 : Type} [RCLike 𝕜]
theorem e2_norm (i : Fin 2) : ‖e2 𝕜 i‖ = 1 := by simp [e2]
theorem e2_orth : inner 𝕜 (e2 𝕜 0) (e2 𝕜 1) = 0 := by simp [e2, EuclideanSpace.inner_single_left]
theorem e2_fin : Module.finrank 𝕜 (P2 𝕜) = 2 := by simp [P2]

/-- The operator with rows `(2, 10)` and `(1/10, 3)`. -/
def opA (𝕜 : Type) [RCLike 𝕜] : P2 𝕜 →ₗ[𝕜] P2 𝕜 := Matrix.toEuclideanLin !![2, 10; 1/10, 3]

theorem opA_0 : opA 𝕜 (e2 𝕜 0) = (2 : 𝕜) • e2 𝕜 0 + (((1 / 10 : ℝ)) : 𝕜) • e2 𝕜 1 := by
  ext i
  fin_cases i
  · simp [opA, e2, Matrix.toEuclideanLin_apply]
  · simp [opA, e2, Matrix.toEuclideanLin_apply, map_ofNat]

theorem opA_1 : opA 𝕜 (e2 𝕜 1) = (10 : 𝕜) • e2 𝕜 0 + (3 : 𝕜) • e2 𝕜 1 := by
  ext i; fin_cases i <;> simp [opA, e2, Matrix.toEuclideanLin_apply]

/-- `nev=ncv=2`, `mpd=1`, tolerance `tol` for the absolute residual. -/
def parA (cplx : Bool) (tol : ℝ) : Params := ⟨2, 2, 1, 10, 1 / 2, true, cplx, tol, fun _ r => r, fun _ => true⟩

/-- The first cycle of the example: one column. -/
theorem first_cycle (P : Params) (hn : P.ncv = 2) (hm : P.mpd = 1) (rnd : Nat → P2 𝕜) (buf : Nat → Nat → 𝕜) :
    ∃ r : ArnOut 𝕜 (P2 𝕜), ∃ d : DenseOut 𝕜, r.m = 1 ∧ r.beta = 1 / 10 ∧ r.breakdown = false ∧ r.H 0 0 = 2 ∧ r.H 1 0 = ((1 / 10 : ℝ) : 𝕜) ∧
      (∀ i j, j + 1 < i → r.H i j = 0) ∧ d.Q = (fun i j => if i = j then 1 else 0) ∧ d.T = r.H ∧ d.eig = (fun j => toC (r.H j j)) ∧ (∀ j, d.pair j = false) ∧ d.last = (fun _ => 1) ∧
      (r.ss.map Slot.v).getD 0 0 = e2 𝕜 0 ∧ (r.ss.map Slot.v).getD 1 0 = e2 𝕜 1 ∧
      cycle (ipForm 𝕜 (P2 𝕜)) optKS (opA 𝕜) (Module.finrank 𝕜 (P2 𝕜)) [] P denseSmall rnd (init (e2 𝕜 0) buf) =
        restart (ipForm 𝕜 (P2 𝕜)) optKS [] P (init (e2 𝕜 0) buf) d r.beta (fun i => (r.ss.map Slot.v).getD i 0) (withRow 1 d) r.buf
          (values P.cplx 0 1 d) (krylovConvergence (convData P (values P.cplx 0 1 d) d r.beta) false 0 1 (fun _ => none)).2 1 false
          (krylovConvergence (convData P (values P.cplx 0 1 d) d r.beta) false 0 1 (fun _ => none)).1
          (stoppingBasic 1 P.maxIt (krylovConvergence (convData P (values P.cplx 0 1 d) d r.beta) false 0 1 (fun _ => none)).1 P.nev) (rnd 0) := by
  obtain ⟨r1, r2, r3, r4, r5, r6⟩ := Verif.LME.one_step optKS le_rfl (opA 𝕜) 3 (e2 𝕜 0) (e2 𝕜 1) (e2_norm 0) (e2_norm 1) e2_orth 2 (1 / 10)
    (by norm_num) opA_0 buf (fun _ _ => 0) (fun _ _ _ => rfl)
  have hf := arn_flag optKS le_rfl (opA 𝕜) 1 3 one_pos (by norm_num) (e2 𝕜 0) (e2_norm 0) buf (fun _ _ => 0) (fun _ _ _ => rfl)
  generalize hr : matArnoldi (ipForm 𝕜 (P2 𝕜)) optKS (opA 𝕜) (Module.finrank 𝕜 (P2 𝕜)) 0 0 1 3 [mkSlot (e2 𝕜 0) 1] buf (fun _ _ => 0) = r at *
  obtain ⟨f1, f2, f3⟩ := hf.1 (by rw [r5]; norm_num)
  refine ⟨r, ⟨fun i j => if i = j then 1 else 0, r.H, fun j => toC (r.H j j), fun _ => false, fun _ => 1⟩, r1, r5, f1, r4, ?_, r6, rfl, rfl, rfl, fun _ => rfl, rfl, r2, r3, ?_⟩
  · have := f3
    rw [r5] at this
    exact this
  · unfold cycle
    dsimp only
    have e0 : (init (e2 𝕜 0) buf).nconv = 0 := rfl
    have e1 : (init (e2 𝕜 0) buf).l = 0 := rfl
    have e2' : (init (e2 𝕜 0) buf).its = 0 := rfl
    have hmin : min (0 + P.mpd) P.ncv = 1 := by omega
    rw [e0, e1, e2', hmin, if_neg (by omega)]
    have hmat : matArnoldi (ipForm 𝕜 (P2 𝕜)) optKS (opA 𝕜) (Module.finrank 𝕜 (P2 𝕜)) ([] : List (P2 𝕜)).length (0 + 0) 1 (P.ncv + 1)
        (slots [] (init (e2 𝕜 0) buf).V (0 + 0 + 1)) (init (e2 𝕜 0) buf).buf (init (e2 𝕜 0) buf).A = r := by
      rw [← hr, hn, slots_one]; rfl
    rw [hmat]
    have hd : denseSmall (decide ((0 : Nat) ≠ 0)) 0 r.m r.H =
        some (⟨fun i j => if i = j then 1 else 0, r.H, fun j => toC (r.H j j), fun _ => false, fun _ => 1⟩ : DenseOut 𝕜) := by
      unfold denseSmall
      rw [if_pos ⟨rfl, r1⟩]
    rw [hd]
    dsimp only
    rw [r1, f1]
    simp only [List.length_nil, Nat.zero_add]
    rfl

/-- **C94 fails as stated for `mpd=1`** (complex scalars): the restart keeps one vector, which is all that the next factorization may have, and the call
ends with an argument error, although the dense solver and the factorization have worked. -/
theorem C94_false (rnd : Nat → P2 ℂ) (buf : Nat → Nat → ℂ) :
    let s := run (ipForm ℂ (P2 ℂ)) optKS (opA ℂ) (Module.finrank ℂ (P2 ℂ)) [] (parA true (1 / 20)) denseSmall rnd 1 (init (e2 ℂ 0) buf)
    s.status = .iterating ∧ s.nconv = 0 ∧ s.l = 1 ∧ min (s.nconv + (parA true (1 / 20)).mpd) (parA true (1 / 20)).ncv = 1 ∧
      (run (ipForm ℂ (P2 ℂ)) optKS (opA ℂ) (Module.finrank ℂ (P2 ℂ)) [] (parA true (1 / 20)) denseSmall rnd 2 (init (e2 ℂ 0) buf)).status = .error := by
  intro s
  obtain ⟨r, d, r1, r5, r0, r4, r6, rz, dq, dt, de, dp, dl, v0, v1, ec⟩ := first_cycle (𝕜 := ℂ) (parA true (1 / 20)) rfl rfl rnd buf
  have hs : s = cycle (ipForm ℂ (P2 ℂ)) optKS (opA ℂ) (Module.finrank ℂ (P2 ℂ)) [] (parA true (1 / 20)) denseSmall rnd (init (e2 ℂ 0) buf) := rfl
  obtain ⟨k1, k2, k3, k4, k5⟩ := conv_k (parA true (1 / 20)) (values (parA true (1 / 20)).cplx 0 1 d) d r.beta dp 0 1 (by omega) (fun _ => none)
  have hk : (krylovConvergence (convData (parA true (1 / 20)) (values (parA true (1 / 20)).cplx 0 1 d) d r.beta) false 0 1 (fun _ => none)).1 = 0 := by
    by_contra hc
    have := (k4 0 le_rfl (Nat.pos_of_ne_zero hc)).2.2
    rw [dl, r5] at this
    norm_num [parA] at this
  rw [hk] at ec
  have h1 : s.status = .iterating ∧ s.nconv = 0 ∧ s.l = 1 := by
    rw [hs, ec]
    unfold restart
    dsimp only
    rw [lock_l _ rfl, lock_k _ rfl]
    have hL : newL (parA true (1 / 20)) (decide (stoppingBasic 1 (parA true (1 / 20)).maxIt 0 (parA true (1 / 20)).nev = .iterating)) false
        (init (e2 ℂ 0) buf).nconv 1 0 (withRow 1 d) = 1 := by
      rw [newL_pos _ _ _ _ _ _ _ (by simp [stoppingBasic, parA]) rfl]
      norm_num [parA]
      exact Nat.floor_le_of_le (by norm_num)
    rw [hL]
    rw [show stoppingBasic 1 (parA true (1 / 20)).maxIt 0 (parA true (1 / 20)).nev = .iterating by simp [stoppingBasic, parA]]
    dsimp only
    rw [if_neg (by simp)]
    exact ⟨rfl, rfl, rfl⟩
  obtain ⟨a, b, c⟩ := h1
  have hmin : min (s.nconv + (parA true (1 / 20)).mpd) (parA true (1 / 20)).ncv = 1 := by rw [b]; rfl
  refine ⟨a, b, c, hmin, ?_⟩
  rw [run_succ, if_pos a]
  show (cycle _ _ _ _ _ _ _ _ s).status = _
  unfold cycle
  dsimp only
  rw [hmin, if_pos (by omega)]

/-- **C95 fails as stated for real scalars**: `Op = [2 10; 1/10 3]`, start vector `e_1`, one column per factorization, tolerance 1. The first iteration locks the
value 2 with estimate 1/10; the entry that couples it with the residual vector stays in the matrix, so that in the second iteration it is taken for the first value of a complex pair, and the solver
ends with `2+i`, `2-i`, which are not eigenvalues of `Op` (characteristic polynomial `z^2-5z+5`). -/
theorem C95_false (rnd : Nat → P2 ℝ) (hr0 : rnd 0 = e2 ℝ 1) (buf : Nat → Nat → ℝ) :
    let s := run (ipForm ℝ (P2 ℝ)) optKS (opA ℝ) (Module.finrank ℝ (P2 ℝ)) [] (parA false 1) denseSmall rnd 1 (init (e2 ℝ 0) buf)
    let t := run (ipForm ℝ (P2 ℝ)) optKS (opA ℝ) (Module.finrank ℝ (P2 ℝ)) [] (parA false 1) denseSmall rnd 2 (init (e2 ℝ 0) buf)
    s.status = .iterating ∧ s.nconv = 1 ∧ s.eig 0 = 2 ∧ s.err 0 = some (1 / 10) ∧ t.status = .tol ∧ t.nconv = 2 ∧
      t.eig 0 = ⟨2, 1⟩ ∧ t.eig 1 = ⟨2, -1⟩ ∧ (t.eig 0) ^ 2 - 5 * t.eig 0 + 5 ≠ 0 := by
  intro s t
  obtain ⟨r, d, r1, r5, r0, r4, r6, rz, dq, dt, de, dp, dl, v0, v1, ec⟩ := first_cycle (𝕜 := ℝ) (parA false 1) rfl rfl rnd buf
  have hs : s = cycle (ipForm ℝ (P2 ℝ)) optKS (opA ℝ) (Module.finrank ℝ (P2 ℝ)) [] (parA false 1) denseSmall rnd (init (e2 ℝ 0) buf) := rfl
  obtain ⟨k1, k2, k3, k4, k5⟩ := conv_k (parA false 1) (values (parA false 1).cplx 0 1 d) d r.beta dp 0 1 (by omega) (fun _ => none)
  rw [Nat.sub_zero] at k1 k2 k3 k4 k5
  have hk : (krylovConvergence (convData (parA false 1) (values (parA false 1).cplx 0 1 d) d r.beta) false 0 1 (fun _ => none)).1 = 1 := by
    rcases k5 with k5 | k5 | k5
    · exact k5
    · exact absurd k5 (by simp [parA])
    · rw [dl, r5] at k5
      norm_num [parA] at k5
  have herr := (k4 0 le_rfl (by rw [hk]; omega)).2.1
  rw [hk] at ec
  generalize (krylovConvergence (convData (parA false 1) (values (parA false 1).cplx 0 1 d) d r.beta) false 0 1 (fun _ => none)).2 = err1 at *
  have herr0 : err1 0 = some (1 / 10) := by
    rw [herr, dl, r5]; norm_num [parA]
  have hV0 : rotate 1 0 1 d.Q (fun j => if j = 1 then e2 ℝ 1 else (r.ss.map Slot.v).getD j 0) 0 = e2 ℝ 0 := by
    unfold rotate
    rw [if_pos (by omega), dq]
    rw [show Finset.Ico 0 1 = {0} from rfl, Finset.sum_singleton]
    dsimp only
    rw [if_pos rfl, one_smul, if_neg (by omega), v0]
  have hstart : startVector (ipForm ℝ (P2 ℝ)) optKS [] (fun i => (r.ss.map Slot.v).getD i 0) 1 (rnd 0) = (e2 ℝ 1, false) := by
    rw [hr0]
    refine start_unit optKS le_rfl _ 1 _ ?_ (e2_norm 1) ?_
    · refine ⟨?_, ?_⟩
      · intro x hx
        simp only [cols, List.range_one, List.map_cons, List.map_nil, List.mem_singleton] at hx
        rw [hx, v0]; exact e2_norm 0
      · simp [cols]
    · intro j hj
      obtain rfl : j = 0 := by omega
      rw [v0]; exact e2_orth
  have hA : ∀ j, withRow 1 d 0 j = r.H 0 j := fun j => by rw [withRow_of_lt _ _ _ _ (by omega), dt]
  have hA10 : withRow 1 d 1 0 = 1 / 10 := by
    unfold withRow
    rw [if_pos ⟨rfl, one_pos⟩, DS.C57_update, Finset.sum_range_one, dq, dt, r6]
    simp
  have h1 : s.status = .iterating ∧ s.nconv = 1 ∧ s.l = 0 ∧ s.eig = values false 0 1 d ∧ s.err = err1 ∧ s.A = withRow 1 d ∧ s.V 0 = e2 ℝ 0 ∧ s.V 1 = e2 ℝ 1 ∧ s.its = 1 := by
    rw [hs, ec]
    unfold restart
    dsimp only
    rw [lock_l _ rfl, lock_k _ rfl]
    rw [newL_zero _ _ _ _ _ _ _ (Or.inr (Or.inr rfl))]
    rw [show stoppingBasic 1 (parA false 1).maxIt 1 (parA false 1).nev = .iterating by simp [stoppingBasic, parA]]
    dsimp only
    rw [if_pos (Or.inr rfl), if_pos (by simp [parA]), hstart]
    dsimp only
    rw [if_neg (by simp)]
    refine ⟨rfl, rfl, rfl, rfl, rfl, rfl, ?_, ?_, rfl⟩
    · dsimp only
      rw [if_neg (by omega)]
      exact hV0
    · dsimp only
      rw [if_pos (by omega), rotate_beyond _ _ _ _ _ _ (by omega), if_pos rfl]
  obtain ⟨a1, a2, a3, a4, a5, a6, a7, a8, a9⟩ := h1
  have hon : ONList ℝ (cols s.V (1 + 1)) := by
    have : cols s.V (1 + 1) = [e2 ℝ 0, e2 ℝ 1] := by
      simp [cols, List.range_succ, a7, a8]
    rw [this]
    refine ⟨?_, ?_⟩
    · intro x hx
      simp only [List.mem_cons, List.not_mem_nil, or_false] at hx
      rcases hx with rfl | rfl <;> exact e2_norm _
    · simp [e2_orth]
  obtain ⟨q1, q2, q3, q4, q5, q6⟩ := last_step optKS le_rfl (opA ℝ) 1 3 e2_fin s.V hon s.buf s.A (by
    intro i j hj hij
    rw [a6, withRow_of_lt _ _ _ _ (by omega), dt, rz _ _ hij])
  have ht : t = cycle (ipForm ℝ (P2 ℝ)) optKS (opA ℝ) (Module.finrank ℝ (P2 ℝ)) [] (parA false 1) denseSmall rnd s := by
    have := run_succ (ipForm ℝ (P2 ℝ)) optKS (opA ℝ) (Module.finrank ℝ (P2 ℝ)) [] (parA false 1) denseSmall rnd 1 (init (e2 ℝ 0) buf)
    rw [show t = _ from this]
    exact if_pos a1
  unfold cycle at ht
  dsimp only at ht
  have hmin : min (1 + (parA false 1).mpd) (parA false 1).ncv = 1 + 1 := rfl
  rw [a2, a3, a9, hmin, if_neg (by omega)] at ht
  have hmat : matArnoldi (ipForm ℝ (P2 ℝ)) optKS (opA ℝ) (Module.finrank ℝ (P2 ℝ)) ([] : List (P2 ℝ)).length (1 + 0) (1 + 1) ((parA false 1).ncv + 1)
        (slots [] s.V (1 + 0 + 1)) s.buf s.A = matArnoldi (ipForm ℝ (P2 ℝ)) optKS (opA ℝ) (Module.finrank ℝ (P2 ℝ)) 0 1 (1 + 1) 3 (slots [] s.V (1 + 1)) s.buf s.A := rfl
  rw [hmat] at ht
  generalize matArnoldi (ipForm ℝ (P2 ℝ)) optKS (opA ℝ) (Module.finrank ℝ (P2 ℝ)) 0 1 (1 + 1) 3 (slots [] s.V (1 + 1)) s.buf s.A = p at *
  have p00 : p.H 0 0 = 2 := by rw [q6 0 0 (by omega), a6, hA, r4]
  have p10 : p.H 1 0 = 1 / 10 := by rw [q6 1 0 (by omega), a6, hA10]
  have p01 : p.H 0 1 = 10 := by
    rw [q5 0 (by omega), a7, a8, opA_1, inner_add_right, inner_smul_right, inner_smul_right, e2_orth, inner_self_eq_norm_sq_to_K, e2_norm]
    simp
  have p11 : p.H 1 1 = 3 := by
    rw [q5 1 (by omega), a8, opA_1, inner_add_right, inner_smul_right, inner_smul_right, inner_eq_zero_symm.1 e2_orth, inner_self_eq_norm_sq_to_K, e2_norm]
    simp
  have hd : denseSmall (decide ((0 : Nat) ≠ 0)) 1 p.m p.H = some (⟨fun i j => if i = j then 1 else 0, p.H, fun j => toC (p.H j j), fun _ => false,
      fun _ => ‖p.H 1 1 - p.H 0 0‖ / Real.sqrt (‖p.H 0 1‖ ^ 2 + ‖p.H 1 1 - p.H 0 0‖ ^ 2)⟩ : DenseOut ℝ) := by
    unfold denseSmall
    rw [if_neg (by omega), if_pos ⟨rfl, q1, by rw [p11, p00]; norm_num⟩]
  rw [hd] at ht
  dsimp only at ht
  generalize hdd : (⟨fun i j => if i = j then 1 else 0, p.H, fun j => toC (p.H j j), fun _ => false,
      fun _ => ‖p.H 1 1 - p.H 0 0‖ / Real.sqrt (‖p.H 0 1‖ ^ 2 + ‖p.H 1 1 - p.H 0 0‖ ^ 2)⟩ : DenseOut ℝ) = d2 at *
  have hp2 : ∀ j, d2.pair j = false := fun j => by rw [← hdd]
  have hT2 : d2.T = p.H := by rw [← hdd]
  obtain ⟨m1, m2, m3, m4, m5⟩ := conv_k (parA false 1) (values (parA false 1).cplx 1 (1 + 1) d2) d2 p.beta hp2 1 (1 + 1) (by omega) s.err
  rw [q1, q2] at ht
  have hk2 : (krylovConvergence (convData (parA false 1) (values (parA false 1).cplx 1 (1 + 1) d2) d2 p.beta) false 1 (1 + 1 - 1) s.err).1 = 1 + 1 := by
    rcases m5 with k5 | k5 | k5
    · exact k5
    · exact absurd k5 (by simp [parA])
    · rw [q3, mul_zero] at k5
      norm_num [parA] at k5
  rw [hk2] at ht
  have hval : values (parA false 1).cplx 1 (1 + 1) d2 = fun i => if i = 0 then (⟨2, 1⟩ : ℂ) else if i = 1 then ⟨2, -1⟩ else d2.eig i := by
    show lockedReal 1 (1 + 1) d2.T 1 0 d2.eig = _
    unfold lockedReal
    rw [if_pos (by omega), if_neg (by rw [hT2, p10]; rintro (h | h); omega; norm_num at h)]
    dsimp only
    unfold lockedReal
    rw [hT2, p10, p01, p00]
    have : Real.sqrt ‖(1 / 10 : ℝ)‖ * Real.sqrt ‖(10 : ℝ)‖ = 1 := by
      rw [← Real.sqrt_mul (norm_nonneg _)]
      norm_num
    simp only [this]
    rfl
  have hfin : t.status = .tol ∧ t.nconv = 2 ∧ t.eig = values (parA false 1).cplx 1 (1 + 1) d2 := by
    rw [ht]
    unfold restart
    dsimp only
    rw [lock_l _ rfl, lock_k _ rfl]
    rw [show stoppingBasic (1 + 1) (parA false 1).maxIt (1 + 1) (parA false 1).nev = .tol by simp [stoppingBasic, parA]]
    exact ⟨rfl, rfl, rfl⟩
  obtain ⟨f1, f2, f3⟩ := hfin
  have e0 : t.eig 0 = ⟨2, 1⟩ := by rw [f3, hval]; rfl
  have e1 : t.eig 1 = ⟨2, -1⟩ := by rw [f3, hval]; rfl
  refine ⟨a1, a2, ?_, by rw [a5, herr0], f1, f2, e0, e1, ?_⟩
  · rw [a4]
    show d.eig 0 = 2
    rw [de]
    dsimp only
    rw [r4]
    apply Complex.ext <;> simp [toC]
  · rw [e0]
    intro h
    have := congrArg Complex.im h
    simp [pow_two] at this
    norm_num at this

end
end Verif.EPS.KS
