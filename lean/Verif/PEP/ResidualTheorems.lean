import Verif.PEP.ResidualModel
import Verif.PEP.BasisTheorems
import Verif.EPS.ResidualTheorems

/-! # C72: residual norms and errors of computed solutions of polynomial problems -/
set_option linter.all false

namespace Verif.PEP

open Verif.EPS (norm2 absEig cmat cvec norm2_cvec mulVec_cvec)
open Polynomial Finset Classical

variable {n : Type*} [Fintype n]

/-- `P(lam) x = sum_i phi_i(lam) A_i x`. -/
noncomputable def polyResidual (φ : ℕ → ℂ[X]) (A : ℕ → Matrix n n ℂ) (nmat : ℕ) (lam : ℂ) (x : n → ℂ) : n → ℂ :=
  ∑ i ∈ range nmat, (φ i).eval lam • (A i).mulVec x

theorem cvec_add (a b c d : n → ℝ) : cvec (a + c) (b + d) = cvec a b + cvec c d := by
  funext j; simp only [cvec, Pi.add_apply, Complex.ofReal_add]; ring

theorem residStep_cvec (A : ℕ → Matrix n n ℝ) (vals ivals : ℕ → ℝ) (xr xi : n → ℝ) (i : ℕ) (s : (n → ℝ) × (n → ℝ)) :
    cvec (residStep A true vals ivals xr xi i s).1 (residStep A true vals ivals xr xi i s).2 =
      cvec s.1 s.2 + (⟨vals i, ivals i⟩ : ℂ) • (cmat (A i)).mulVec (cvec xr xi) := by
  have key : residStep A true vals ivals xr xi i s =
      (s.1 + (vals i • (A i).mulVec xr + (-ivals i) • (A i).mulVec xi), s.2 + (ivals i • (A i).mulVec xr + vals i • (A i).mulVec xi)) := by
    unfold residStep
    by_cases h1 : vals i = 0 <;> by_cases h2 : ivals i = 0 <;> simp [h1, h2, add_assoc]
  rw [key, cvec_add, mulVec_cvec]
  congr 1
  funext j
  simp only [cvec, Pi.add_apply, Pi.smul_apply, smul_eq_mul, Complex.ofReal_add, Complex.ofReal_mul, Complex.ofReal_neg]
  apply Complex.ext <;> simp <;> ring

theorem residStep_real (A : ℕ → Matrix n n ℝ) (vals ivals : ℕ → ℝ) (xr xi : n → ℝ) (i : ℕ) (s : (n → ℝ) × (n → ℝ)) :
    (residStep A false vals ivals xr xi i s).1 = s.1 + vals i • (A i).mulVec xr := by
  unfold residStep
  by_cases h1 : vals i = 0 <;> simp [h1]

/-- C72, real arithmetic, complex eigenvalue: the number is the 2-norm of the complex vector `P(λ)x`. -/
theorem C72_pair (eps : ℝ) (p : Pbc ℝ) (φ : ℕ → ℂ[X]) (h : IsBasis p.toComplex φ) (ha : ∀ k, p.ca k ≠ 0) (nmat : ℕ) (hn : 2 ≤ nmat)
    (A : ℕ → Matrix n n ℝ) (v0 iv0 : ℕ → ℝ) (kr ki : ℝ) (xr xi : n → ℝ) (hki : ki ≠ 0) (hbig : |kr * eps| ≤ |ki|) :
    pepResidNorm eps p nmat A v0 iv0 kr ki xr xi =
      norm2 (polyResidual φ (fun i => cmat (A i)) nmat ⟨kr, ki⟩ (cvec xr xi)) := by
  have ha' : ∀ k, p.toComplex.ca k ≠ 0 := fun k => by simpa [Pbc.toComplex] using ha k
  have hp := rec3_pair p _ kr ki (h.rec3 ha' ⟨kr, ki⟩)
  have hv := evalBasisPair_eq p _ _ kr ki hp nmat hn (v0, iv0)
  unfold pepResidNorm
  have him : decide (¬ (ki = 0 ∨ |ki| < |kr * eps|)) = true := by
    rw [decide_eq_true_iff]; push Not; exact ⟨hki, hbig⟩
  simp only [him, if_true]
  rw [← norm2_cvec]
  congr 1
  have := forUp_inv (fun m (s : (n → ℝ) × (n → ℝ)) => m ≤ nmat →
      cvec s.1 s.2 = polyResidual φ (fun i => cmat (A i)) m ⟨kr, ki⟩ (cvec xr xi)) (Nat.zero_le nmat)
    (residStep A true (evalBasisPair p nmat kr ki (v0, iv0)).1 (evalBasisPair p nmat kr ki (v0, iv0)).2 xr xi) (0, 0) ?_ ?_
  · exact this le_rfl
  · intro _; unfold polyResidual cvec; funext j; simp
  · intro k s _ hk ih _
    rw [residStep_cvec, ih (by omega)]
    unfold polyResidual
    rw [Finset.sum_range_succ, (hv k hk).1, (hv k hk).2]

/-- C72, real eigenvalue in real arithmetic. -/
theorem C72_real (eps : ℝ) (p : Pbc ℝ) (φ : ℕ → ℂ[X]) (h : IsBasis p.toComplex φ) (ha : ∀ k, p.ca k ≠ 0) (nmat : ℕ) (hn : 2 ≤ nmat)
    (A : ℕ → Matrix n n ℝ) (v0 iv0 : ℕ → ℝ) (kr : ℝ) (xr xi : n → ℝ) :
    pepResidNorm eps p nmat A v0 iv0 kr 0 xr xi =
      norm2 (polyResidual φ (fun i => cmat (A i)) nmat kr (cvec xr 0)) := by
  have ha' : ∀ k, p.toComplex.ca k ≠ 0 := fun k => by simpa [Pbc.toComplex] using ha k
  have hp := rec3_pair p _ kr 0 (h.rec3 ha' ⟨kr, 0⟩)
  have hv := evalBasisPair_eq p _ _ kr 0 hp nmat hn (v0, iv0)
  have him0 : ∀ k, ((φ k).eval (⟨kr, 0⟩ : ℂ)).im = 0 := by
    intro k
    induction k using Nat.strong_induction_on with
    | _ k ih =>
      match k with
      | 0 => exact hp.izero
      | 1 => rw [hp.ione]; simp
      | k+2 => rw [hp.istep, ih (k+1) (by omega), ih k (by omega)]; simp
  unfold pepResidNorm
  dsimp only
  have him : decide (¬ ((0:ℝ) = 0 ∨ |(0:ℝ)| < |kr * eps|)) = false := by
    rw [decide_eq_false_iff_not, not_not]; exact Or.inl rfl
  rw [him]
  simp only [Bool.false_eq_true, if_false]
  have := forUp_inv (fun m (s : (n → ℝ) × (n → ℝ)) => m ≤ nmat →
      cvec s.1 0 = polyResidual φ (fun i => cmat (A i)) m kr (cvec xr 0)) (Nat.zero_le nmat)
    (residStep A false (evalBasisPair p nmat kr 0 (v0, iv0)).1 (evalBasisPair p nmat kr 0 (v0, iv0)).2 xr xi) (0, 0) ?_ ?_
  · rw [← this le_rfl, norm2_cvec]
    unfold absEig
    rw [show norm2 (0 : n → ℝ) = 0 by unfold norm2; simp]
    rw [zero_pow two_ne_zero, add_zero, Real.sqrt_sq (by unfold norm2; exact norm_nonneg _)]
  · intro _; unfold polyResidual cvec; funext j; simp
  · intro k s _ hk ih _
    have e : cvec (residStep A false (evalBasisPair p nmat kr 0 (v0, iv0)).1 (evalBasisPair p nmat kr 0 (v0, iv0)).2 xr xi k s).1 0 =
        cvec s.1 0 + (φ k).eval (kr : ℂ) • (cmat (A k)).mulVec (cvec xr 0) := by
      rw [residStep_real, (hv k hk).1, mulVec_cvec, Matrix.mulVec_zero]
      have e0 : cvec (s.1 + ((φ k).eval (⟨kr, 0⟩ : ℂ)).re • (A k).mulVec xr) (0 : n → ℝ) =
          cvec s.1 0 + cvec (((φ k).eval (⟨kr, 0⟩ : ℂ)).re • (A k).mulVec xr) 0 := by
        rw [← cvec_add, add_zero]
      rw [e0]
      congr 1
      funext j
      have hh := him0 k
      have hr : (φ k).eval (kr : ℂ) = (((φ k).eval (⟨kr, 0⟩ : ℂ)).re : ℂ) := by
        apply Complex.ext
        · rfl
        · rw [Complex.ofReal_im]; exact hh
      rw [Pi.smul_apply, hr]
      simp [cvec]
    rw [e, ih (by omega)]
    unfold polyResidual
    rw [Finset.sum_range_succ]

/-- C72, complex arithmetic. -/
theorem C72_complex (p : Pbc ℂ) (φ : ℕ → ℂ[X]) (h : IsBasis p φ) (ha : ∀ k, p.ca k ≠ 0) (nmat : ℕ) (hn : 2 ≤ nmat)
    (A : ℕ → Matrix n n ℂ) (v0 : ℕ → ℂ) (k : ℂ) (x : n → ℂ) :
    pepResidNormC p nmat A v0 k x = norm2 (polyResidual φ A nmat k x) := by
  have hv := evalBasis_eq p _ k (h.rec3 ha k) nmat hn v0
  unfold pepResidNormC
  dsimp only
  congr 1
  refine forUp_inv (fun m (u : n → ℂ) => m ≤ nmat → u = polyResidual φ A m k x) (Nat.zero_le nmat) _ _ ?_ ?_ le_rfl
  · intro _; unfold polyResidual; simp
  · intro i u _ hi ih _
    have hs : polyResidual φ A (i+1) k x = polyResidual φ A i k x + (φ i).eval k • (A i).mulVec x := by
      unfold polyResidual; rw [Finset.sum_range_succ]
    rw [hs, ← ih (by omega), hv i hi]
    by_cases h0 : (φ i).eval k = 0
    · rw [if_neg (not_not_intro h0), h0, zero_smul, add_zero]
    · rw [if_pos h0]

/-- C72 is false when the imaginary part is not zero but less than `eps |kr|`: the imaginary part of the vector is then ignored. -/
theorem C72_tiny_false : ¬ ∀ (eps : ℝ) (A : ℕ → Matrix (Fin 1) (Fin 1) ℝ) (kr ki : ℝ) (xr xi : Fin 1 → ℝ), 0 < eps →
    pepResidNorm eps (basisCoefficients .monomial) 3 A 0 0 kr ki xr xi =
      norm2 (polyResidual (classical ℂ .monomial) (fun i => cmat (A i)) 3 ⟨kr, ki⟩ (cvec xr xi)) := by
  intro hall
  have h := hall 1 (fun i => if i = 0 then 1 else 0) 1 (1/2) 0 1 one_pos
  have hl : pepResidNorm 1 (basisCoefficients .monomial) 3 (fun i => if i = 0 then (1 : Matrix (Fin 1) (Fin 1) ℝ) else 0) 0 0 1 (1/2) 0 1 = 0 := by
    unfold pepResidNorm
    have him : decide (¬ ((1/2:ℝ) = 0 ∨ |(1/2:ℝ)| < |(1:ℝ) * 1|)) = false := by
      rw [decide_eq_false_iff_not, not_not]; right; norm_num [abs_of_pos]
    simp only [him, Bool.false_eq_true, if_false]
    have : ∀ m, (forUp 0 m (residStep (fun i => if i = 0 then (1 : Matrix (Fin 1) (Fin 1) ℝ) else 0) false
        (evalBasisPair (basisCoefficients .monomial) 3 (1:ℝ) (1/2) (0, 0)).1
        (evalBasisPair (basisCoefficients .monomial) 3 (1:ℝ) (1/2) (0, 0)).2 0 1) (0, 0)).1 = 0 := by
      intro m
      refine forUp_inv (fun _ (s : (Fin 1 → ℝ) × (Fin 1 → ℝ)) => s.1 = 0) (Nat.zero_le m) _ _ rfl ?_
      intro k s _ _ hs
      rw [residStep_real, hs, Matrix.mulVec_zero, smul_zero, add_zero]
    rw [this]
    unfold norm2; simp
  rw [hl] at h
  have hr : polyResidual (classical ℂ .monomial)
      (fun i => cmat ((fun i => if i = 0 then (1 : Matrix (Fin 1) (Fin 1) ℝ) else 0) i)) 3 ⟨1, 1/2⟩ (cvec 0 1) ≠ 0 := by
    intro h0
    have := congrFun h0 0
    simp [polyResidual, Finset.sum_range_succ, classical, cmat, cvec, Matrix.mulVec, dotProduct] at this
  apply hr
  unfold norm2 at h
  simpa using h.symm

/-- A concrete complex pair of `λ²+1`. -/
example : polyResidual (classical ℂ .monomial) (fun i => cmat (if i = 1 then 0 else (1 : Matrix (Fin 1) (Fin 1) ℝ))) 3 ⟨0, 1⟩
    (cvec 1 0) = 0 ∧ (1:ℝ) ≠ 0 ∧ |(0:ℝ) * (1/8)| ≤ |(1:ℝ)| := by
  refine ⟨?_, by norm_num, by norm_num⟩
  funext j
  have hI : (⟨0, 1⟩ : ℂ) = Complex.I := rfl
  simp [polyResidual, Finset.sum_range_succ, classical, cmat, cvec, Matrix.mulVec, dotProduct, hI, Matrix.one_apply, Subsingleton.elim j 0]

/-! ### Errors -/

theorem hornerNorms_eq (s : Norms) (t : ℝ) : hornerNorms s t = ∑ j ∈ range s.nmat, s.nrma j * t ^ j := by
  unfold hornerNorms
  have : ∀ m z, forDown 0 m (fun j z => z * t + s.nrma j) z = z * t ^ m + ∑ j ∈ range m, s.nrma j * t ^ j := by
    intro m
    induction m with
    | zero => intro z; rw [forDown_le le_rfl]; simp
    | succ m ih => intro z; rw [forDown_succ (Nat.zero_le m), ih, Finset.sum_range_succ]; ring
  rw [this]; simp

/-- The array of norms holds the norms of the current matrices, or will be recomputed. -/
def NormsOk (s : Norms) : Prop := s.nrma (s.nmat - 1) = 0 ∨ s.nrma = s.norms

theorem normsOk_init (s : Norms) (h : NormsOk s) : (initNorms s).nrma = s.norms ∧ (initNorms s).nmat = s.nmat ∧
    (initNorms s).norms = s.norms := by
  unfold initNorms
  by_cases h0 : s.nrma (s.nmat - 1) = 0
  · rw [if_pos h0]; exact ⟨rfl, rfl, rfl⟩
  · rw [if_neg h0]; exact ⟨h.resolve_left h0, rfl, rfl⟩

/-- An operation other than changing the entries of the matrices behind the back of PEP. -/
def NormOp.regular : NormOp → Bool
  | .modify _ => false
  | _ => true

theorem normsOk_step (big : ℝ) (s : Norms) (o : NormOp) (ho : o.regular = true) (h : NormsOk s) : NormsOk (normStep big s o) := by
  have hi : NormsOk (initNorms s) := Or.inr (by have := normsOk_init s h; rw [this.1, this.2.2])
  cases o with
  | setOperators m f => exact Or.inl rfl
  | error t kr ki r => cases t <;> first | exact h | exact hi
  | converged t kr ki r => cases t <;> first | exact h | exact hi
  | modify f => simp [NormOp.regular] at ho

theorem normsOk_run (big : ℝ) (ops : List NormOp) (h : ∀ o ∈ ops, o.regular = true) (s : Norms) (hs : NormsOk s) :
    NormsOk (ops.foldl (normStep big) s) := by
  induction ops generalizing s with
  | nil => exact hs
  | cons o ops ih => exact ih (fun o ho => h o (List.mem_cons_of_mem _ ho)) _ (normsOk_step big s o (h o List.mem_cons_self) hs)

/-- C72, errors: after any history of calls, the three errors (and the three convergence estimates) are the residual norm, the residual
norm over `|λ|`, and the residual norm over `sum_j ||A_j|| |λ|^j` with the norms of the matrices now in the problem. -/
theorem C72_errors (big : ℝ) (ops : List NormOp) (hops : ∀ o ∈ ops, o.regular = true) (nmat : ℕ) (norms : ℕ → ℝ) (kr ki res : ℝ) :
    let s := ops.foldl (normStep big) ⟨nmat, norms, fun _ => 0⟩
    let lam : ℂ := ⟨kr, ki⟩
    (computeError s .absolute kr ki res).2 = res ∧ (computeError s .relative kr ki res).2 = res / ‖lam‖ ∧
    (computeError s .backward kr ki res).2 = res / ∑ j ∈ range s.nmat, s.norms j * ‖lam‖ ^ j ∧
    (converged s .absolute big kr ki res).2 = res ∧ (lam ≠ 0 → (converged s .relative big kr ki res).2 = res / ‖lam‖) ∧
    (converged s .backward big kr ki res).2 = res / ∑ j ∈ range s.nmat, s.norms j * ‖lam‖ ^ j := by
  intro s lam
  have hok : NormsOk s := normsOk_run big ops hops _ (Or.inl rfl)
  have habs : absEig kr ki = ‖lam‖ := by
    unfold absEig
    rw [Complex.norm_def, Complex.normSq_apply, pow_two, pow_two]
  obtain ⟨h1, h2, h3⟩ := normsOk_init s hok
  refine ⟨rfl, by show res / absEig kr ki = _; rw [habs], ?_, rfl, fun hl => ?_, ?_⟩
  · show res / hornerNorms (initNorms s) (absEig kr ki) = _
    rw [hornerNorms_eq, habs, h1, h2]
  · show (if absEig kr ki ≠ 0 then res / absEig kr ki else big) = _
    rw [habs, if_pos (norm_ne_zero_iff.2 hl)]
  · show res / hornerNorms (initNorms s) (absEig kr ki) = _
    rw [hornerNorms_eq, habs, h1, h2]

/-- With matrices changed in place after an error was computed, the error uses the norms of the old matrices. -/
theorem C72_inplace_false : ¬ ∀ (big : ℝ) (ops : List NormOp) (nmat : ℕ) (norms : ℕ → ℝ) (kr res : ℝ),
    (computeError (ops.foldl (normStep big) ⟨nmat, norms, fun _ => 0⟩) .backward kr 0 res).2 =
      res / ∑ j ∈ range (ops.foldl (normStep big) ⟨nmat, norms, fun _ => 0⟩).nmat,
        (ops.foldl (normStep big) ⟨nmat, norms, fun _ => 0⟩).norms j * |kr| ^ j := by
  intro h
  have := h 0 [.error .backward 1 0 1, .modify (fun _ => 2)] 3 (fun _ => 1) 1 1
  simp [normStep, computeError, initNorms, hornerNorms_eq, absEig, Finset.sum_range_succ] at this
  try norm_num at this

end Verif.PEP
