import Verif.Ebal.Thm
/-!
Witnesses and examples for balancing.
-/
set_option linter.all false
namespace Verif.Ebal
noncomputable section
open Classical

/-- Exchange of two components. -/
def Sx : Matrix (Fin 2) (Fin 2) ℂ := !![0, 1; 1, 0]

/-- Diagonal of the user. -/
def Du : Vc 2 := ![1, 2]

/-- Symmetric matrix with eigenpair `(4, (1, 2))`. -/
def Ss : Matrix (Fin 2) (Fin 2) ℂ := !![0, 2; 2, 3]

/-- All signs positive. -/
def ones {n : ℕ} : ℕ → Vc n := fun _ _ => 1

theorem Sx_op : RightEig (applyOp Sx (some Du)) 1 Du := by
  refine ⟨fun h => by have := congrFun h 0; simp [Du] at this, ?_⟩
  funext i
  fin_cases i <;> simp [applyOp, pmul, pdiv, Sx, Du, Matrix.mulVec, dotProduct, Fin.sum_univ_two]

theorem Sx_not (mu : ℂ) : ¬ RightEig Sx.mulVec mu Du := by
  rintro ⟨_, h⟩
  have h0 := congrFun h 0
  have h1 := congrFun h 1
  simp [Sx, Du, Matrix.mulVec, dotProduct, Fin.sum_univ_two] at h0 h1
  rw [← h0] at h1
  norm_num at h1

/-- C197 is false for a balancing matrix given by the user: the vector returned is not an eigenvector. -/
theorem C197_user_false : ∃ (S : Matrix (Fin 2) (Fin 2) ℂ) (d y : Vc 2) (lam : ℂ), (∀ i, d i ≠ 0) ∧ ∀ z : ℕ → Vc 2, ∀ s,
    s = run (create S false) [.setBalance .user .current .current, .setUserD (some d), .solve z] →
    s.stage = .solved ∧ RightEig (applyOp s.S s.stD) lam y ∧ ∀ mu, ¬ RightEig s.S.mulVec mu (retVec s y) := by
  refine ⟨Sx, Du, Du, 1, fun i => by fin_cases i <;> simp [Du], fun z s hs => ?_⟩
  have e : s = ⟨.user, 5, 1 / 10 ^ 8, false, .solved, none, some Du, Sx⟩ := by
    rw [hs]; simp [run, step, setBalance, create, solve, setUp]
  rw [e]
  refine ⟨rfl, Sx_op, fun mu => ?_⟩
  have : retVec (⟨.user, 5, 1 / 10 ^ 8, false, .solved, none, some Du, Sx⟩ : EPS 2) Du = Du := by simp [retVec]
  rw [this]; exact Sx_not mu

/-- C197 is false if the user sets a balancing matrix between the set-up and the solve, without selecting any balancing. -/
theorem C197_late_false : ∃ (S : Matrix (Fin 2) (Fin 2) ℂ) (d y : Vc 2) (lam : ℂ), (∀ i, d i ≠ 0) ∧ ∀ z : ℕ → Vc 2, ∀ s,
    s = run (create S false) [.setUp z, .setUserD (some d), .solve z] →
    s.stage = .solved ∧ RightEig (applyOp s.S s.stD) lam y ∧ ∀ mu, ¬ RightEig s.S.mulVec mu (retVec s y) := by
  refine ⟨Sx, Du, Du, 1, fun i => by fin_cases i <;> simp [Du], fun z s hs => ?_⟩
  have e : s = ⟨.none, 5, 1 / 10 ^ 8, false, .solved, none, some Du, Sx⟩ := by
    rw [hs]; simp [run, step, create, solve, setUp]
  rw [e]
  refine ⟨rfl, Sx_op, fun mu => ?_⟩
  have : retVec (⟨.none, 5, 1 / 10 ^ 8, false, .solved, none, some Du, Sx⟩ : EPS 2) Du = Du := by simp [retVec]
  rw [this]; exact Sx_not mu

theorem build_Ss (c : ℝ) : build .oneside 1 c Ss ones = ![1 / 2, 1 / 5] := by
  rw [build_succ]
  have hb : build .oneside 0 c Ss ones = fun _ => 1 := rfl
  rw [hb]
  have h0 : rowProd Ss (fun _ => 1) (ones 0) 0 = 2 := by simp [rowProd, applyOp, pmul, pdiv, Ss, ones, Matrix.mulVec, dotProduct, Fin.sum_univ_two]
  have h1 : rowProd Ss (fun _ => 1) (ones 0) 1 = 5 := by
    simp [rowProd, applyOp, pmul, pdiv, Ss, ones, Matrix.mulVec, dotProduct, Fin.sum_univ_two]; norm_num
  funext i
  fin_cases i
  · show adjust _ _ _ _ _ _ 0 = _
    unfold adjust; rw [if_neg (by decide), h0]; simp
  · show adjust _ _ _ _ _ _ 1 = _
    unfold adjust; rw [if_neg (by decide), h1]; simp

/-- Calls of the witness for C198: a one-sided balanced solve, and then a solve as a Hermitian problem. -/
def callsH : List (Call 2) := [.setBalance .oneside (.val 1) .current, .solve ones, .setProblem true, .solve ones]

theorem callsH_run : run (create Ss false) callsH = ⟨.oneside, 1, 1 / 10 ^ 8, true, .solved, some ![1 / 2, 1 / 5], none, Ss⟩ := by
  have hb := build_Ss ((10 ^ 8)⁻¹)
  simp [callsH, run, step, setBalance, setProblem, create, solve, setUp]
  simpa using hb

/-- C198 is false for a Hermitian problem if the same object was used before for a balanced solve with a non-Hermitian problem type. -/
theorem C198_false (orth : (Fin 1 → Vc 2) → Fin 1 → Vc 2) (horth : OrthSpec orth) :
    ∃ (S : Matrix (Fin 2) (Fin 2) ℂ) (cs : List (Call 2)) (V : Fin 1 → Vc 2), S.conjTranspose = S ∧ Orderly (create S false) cs ∧ ∀ s, s = run (create S false) cs →
    s.stage = .solved ∧ s.herm = true ∧ InvBasis (applyOp s.S s.stD) V ∧ ¬ InvBasis s.S.mulVec (retSpace orth s V) := by
  have hli : ∀ v : Vc 2, v ≠ 0 → LinearIndependent ℂ (fun _ : Fin 1 => v) := fun v hv => by
    rw [linearIndependent_unique_iff]; exact hv
  refine ⟨Ss, callsH, fun _ => ![1, 2], ?_, ?_, fun s hs => ?_⟩
  · ext i j; fin_cases i <;> fin_cases j <;> simp [Ss]
  · simp [Orderly, callsH]
  · rw [callsH_run] at hs
    rw [hs]
    refine ⟨rfl, rfl, ⟨hli _ (fun h => by have := congrFun h 0; simp at this), fun i => ?_⟩, ?_⟩
    · have : applyOp Ss none ![1, 2] = (4 : ℂ) • ![1, 2] := by
        funext i
        fin_cases i <;> simp [applyOp, Ss, Matrix.mulVec, dotProduct, Fin.sum_univ_two] <;> norm_num
      show applyOp Ss none ![1, 2] ∈ _
      rw [this]
      exact Submodule.smul_mem _ _ (Submodule.subset_span ⟨0, rfl⟩)
    · rintro ⟨_, h⟩
      have e : retSpace orth (⟨.oneside, 1, 1 / 10 ^ 8, true, .solved, some ![1 / 2, 1 / 5], none, Ss⟩ : EPS 2) (fun _ => ![1, 2])
          = orth (fun _ => pdiv ![1, 2] ![1 / 2, 1 / 5]) := by simp [retSpace]
      rw [e] at h
      have hv : pdiv ![1, 2] ![1 / 2, 1 / 5] = (![2, 10] : Vc 2) := by
        funext i; fin_cases i <;> simp [pdiv]; norm_num
      rw [hv] at h
      obtain ⟨o1, o2⟩ := horth (fun _ => ![2, 10]) (hli _ (fun h => by have := congrFun h 0; simp at this))
      have := span_mulVec Ss (fun _ => ![2, 10]) _ o2.symm h 0
      rw [Set.range_const, Submodule.mem_span_singleton] at this
      obtain ⟨c, hc⟩ := this
      have c0 := congrFun hc 0
      have c1 := congrFun hc 1
      simp [Ss, Matrix.mulVec, dotProduct, Fin.sum_univ_two] at c0 c1
      have hc10 : c = 10 := by linear_combination c0 / 2
      rw [hc10] at c1
      norm_num at c1

/-- Operator of size one. -/
def S1 : Matrix (Fin 1) (Fin 1) ℂ := !![2]

theorem build_S1 (k : ℕ) (c : ℝ) : build .oneside k c S1 ones = fun _ => (1 / 2) ^ k := by
  induction k with
  | zero => funext i; simp [build, loop]
  | succ k ih =>
    rw [build_succ, ih]
    funext i
    have h : rowProd S1 (fun _ => (1 / 2 : ℂ) ^ k) (ones k) i = 2 := by
      rw [rowProd_eq]
      fin_cases i
      simp [rowQty, S1, ones]
      field_simp
    unfold adjust
    rw [if_neg (by decide), h, if_pos (by norm_num)]
    simp [pow_succ]; ring

/-- C200 is false if only the number of iterations changes after a solve: the next solve still uses the old diagonal. -/
theorem C200_false : ∃ (S : Matrix (Fin 1) (Fin 1) ℂ) (z : ℕ → Vc 1) (s : EPS 1),
    s = run (create S false) [.setBalance .oneside (.val 1) .current, .solve z] ∧ (setBalance s .oneside (.val 2) .current).2 = true ∧
    (solve (setBalance s .oneside (.val 2) .current).1 z).stD ≠ wantedD s.herm .oneside 2 s.cutoff s.S z := by
  refine ⟨S1, ones, _, rfl, by simp [setBalance], ?_⟩
  have e : run (create S1 false) [.setBalance .oneside (.val 1) .current, .solve ones] =
      ⟨.oneside, 1, 1 / 10 ^ 8, false, .solved, some (build .oneside 1 (1 / 10 ^ 8) S1 ones), some (build .oneside 1 (1 / 10 ^ 8) S1 ones), S1⟩ := by
    simp [run, step, setBalance, create, solve, setUp]
  rw [e]
  have e2 : (solve (setBalance (⟨.oneside, 1, 1 / 10 ^ 8, false, .solved, some (build .oneside 1 (1 / 10 ^ 8) S1 ones), some (build .oneside 1 (1 / 10 ^ 8) S1 ones), S1⟩ : EPS 1)
      .oneside (.val 2) .current).1 ones).stD = some (build .oneside 1 (1 / 10 ^ 8) S1 ones) := by
    simp [setBalance, solve]
  rw [e2]
  intro h
  have h' : some (build .oneside 1 (1 / 10 ^ 8) S1 ones) = some (build .oneside 2 (1 / 10 ^ 8) S1 ones) := by
    rw [h]; simp [wantedD]
  have h3 := congrFun (Option.some.inj h') 0
  rw [build_S1, build_S1] at h3
  norm_num at h3

/-- C200 is false for failing calls: the method is changed and the results of the last solve are discarded. -/
theorem C200_fail_false {n : ℕ} (s : EPS n) (b : Bal) (hb : s.bal ≠ b) (k : ℤ) (hk : k ≤ 0) (cutoff : Par ℝ) :
    (setBalance s b (.val k) cutoff).2 = false ∧ (setBalance s b (.val k) cutoff).1.bal = b ∧ (setBalance s b (.val k) cutoff).1.stage = .initial := by
  have h : ¬ 0 < k := by omega
  simp [setBalance, h, hb]

/-- The calls of a balanced solve are orderly, and the solver finds an eigenpair of the balanced operator: C197 and C198 apply with a nontrivial diagonal. -/
example : Orderly (create Ss false) [.setBalance .oneside (.val 1) .current, .solve ones] ∧
    ∃ s, s = run (create Ss false) [.setBalance .oneside (.val 1) .current, .solve ones] ∧ s.stage = .solved ∧ s.stD = some ![1 / 2, 1 / 5] ∧
    RightEig (applyOp s.S s.stD) 4 ![1 / 2, 2 / 5] ∧ retVec s ![1 / 2, 2 / 5] = ![1, 2] := by
  have e : run (create Ss false) [.setBalance .oneside (.val 1) .current, .solve ones] =
      ⟨.oneside, 1, 1 / 10 ^ 8, false, .solved, some ![1 / 2, 1 / 5], some ![1 / 2, 1 / 5], Ss⟩ := by
    have hb := build_Ss ((10 ^ 8)⁻¹)
    simp [run, step, setBalance, create, solve, setUp]
    simpa using hb
  refine ⟨by simp [Orderly], _, rfl, by rw [e], by rw [e], ?_, ?_⟩
  · rw [e]
    refine ⟨fun h => by have := congrFun h 0; simp at this, ?_⟩
    funext i
    fin_cases i <;> simp [applyOp, pmul, pdiv, Ss, Matrix.mulVec, dotProduct, Fin.sum_univ_two] <;> norm_num
  · rw [e]
    funext i
    fin_cases i <;> simp [retVec, pdiv]

/-- An orthogonalization meeting the specification exists. -/
example {n k : ℕ} : OrthSpec (fun V : Fin k → Vc n => V) := fun V h => ⟨h, rfl⟩

/-- A matrix with all row products above the cutoff and nonzero column products (C199, two-sided). -/
example : (∀ k, (1 / 100 : ℝ) * ‖rowQty !![1, 4; 1, 1] (fun _ => 1) (ones 0) k‖ < ‖rowQty !![1, 4; 1, 1] (fun _ => 1) (ones 0) 0‖) ∧
    colQty !![1, 4; 1, 1] (fun _ => 1) (ones 0) (0 : Fin 2) ≠ 0 := by
  have h0 : rowQty !![1, 4; 1, 1] (fun _ => 1) (ones 0) (0 : Fin 2) = 5 := by simp [rowQty, ones, Fin.sum_univ_two]; norm_num
  have h1 : rowQty !![1, 4; 1, 1] (fun _ => 1) (ones 0) (1 : Fin 2) = 2 := by simp [rowQty, ones, Fin.sum_univ_two]; norm_num
  refine ⟨fun k => ?_, by simp [colQty, ones, Fin.sum_univ_two]⟩
  fin_cases k
  · show (1 / 100 : ℝ) * ‖rowQty !![1, 4; 1, 1] (fun _ => 1) (ones 0) (0 : Fin 2)‖ < _
    rw [h0]; norm_num
  · show (1 / 100 : ℝ) * ‖rowQty !![1, 4; 1, 1] (fun _ => 1) (ones 0) (1 : Fin 2)‖ < _
    rw [h0, h1]; norm_num

end
end Verif.Ebal
