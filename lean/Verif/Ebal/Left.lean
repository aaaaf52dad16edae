import Verif.Ebal.Lemmas
import Mathlib.LinearAlgebra.Matrix.NonsingularInverse
/-!
Left eigenvectors in generalized problems: model and property C202.
-/
set_option linter.all false
namespace Verif.Ebal.Left
noncomputable section
open Classical

variable {n : ℕ}

/-- Spectral transformations with their parameters: shift `sigma`, and antishift `nu` of the Cayley transformation. -/
inductive Trans | shift (sigma : ℂ) | sinvert (sigma : ℂ) | cayley (sigma nu : ℂ)

/-- Matrix `P` of the linear systems: src/sys/classes/st/impls/shift/shift.c:143, sinvert/sinvert.c:100-103, cayley/cayley.c:155-158 (two matrices). -/
def matP (A B : Matrix (Fin n) (Fin n) ℂ) : Trans → Matrix (Fin n) (Fin n) ℂ
  | .shift _ => B
  | .sinvert sigma => A - sigma • B
  | .cayley sigma _ => A - sigma • B

/-- Matrix `M`: src/sys/classes/st/impls/shift/shift.c:140-144, sinvert/sinvert.c:97-104, cayley/cayley.c:145-152. -/
def matM (A B : Matrix (Fin n) (Fin n) ℂ) : Trans → Matrix (Fin n) (Fin n) ℂ
  | .shift sigma => A - sigma • B
  | .sinvert _ => B
  | .cayley _ nu => A + nu • B

/-- Operator `P^-1 M` (src/sys/classes/st/interface/stsolve.c, STApply_Generic), without balancing. -/
def opMat (A B : Matrix (Fin n) (Fin n) ℂ) (t : Trans) : Matrix (Fin n) (Fin n) ℂ := (matP A B t)⁻¹ * matM A B t

/-- Back-transformation in complex arithmetic: shift.c:108-110, sinvert.c:66-68, cayley.c:106-108. -/
def backTr : Trans → ℂ → ℂ
  | .shift sigma, theta => theta + sigma
  | .sinvert sigma, theta => 1 / theta + sigma
  | .cayley sigma nu, theta => (nu + theta * sigma) / (theta - 1)

/-- `STMatSolveHermitianTranspose` (src/sys/classes/st/interface/stsles.c:320-328): conjugate, solve with the transpose of `P`, conjugate. -/
def solveH (P : Matrix (Fin n) (Fin n) ℂ) (b : Vc n) : Vc n := star ((P.transpose)⁻¹.mulVec (star b))

/-- Correction of the left vector for balancing (src/eps/interface/epsdefault.c:149-155). -/
def unbal (D : Option (Vc n)) (w : Vc n) : Vc n :=
  match D with
  | .some d => pmul w d
  | .none => w

/-- Left eigenvector returned in a generalized two-sided problem: correction for balancing (src/eps/interface/epsdefault.c:149-155) and then
`EPSComputeVectors_Twosided` (epsdefault.c:86-93). Normalization omitted. -/
def leftVec (A B : Matrix (Fin n) (Fin n) ℂ) (t : Trans) (D : Option (Vc n)) (w : Vc n) : Vc n :=
  solveH (matP A B t) (unbal D w)

/-- Specification: `lam` is an eigenvalue of the pencil with left eigenvector `y`. -/
def PencilLeft (A B : Matrix (Fin n) (Fin n) ℂ) (lam : ℂ) (y : Vc n) : Prop :=
  y ≠ 0 ∧ Matrix.vecMul (star y) A = lam • Matrix.vecMul (star y) B

/-- Specification: `theta` is the image of a finite eigenvalue. -/
def Finite (t : Trans) (theta : ℂ) : Prop :=
  match t with
  | .shift _ => True
  | .sinvert _ => theta ≠ 0
  | .cayley _ _ => theta ≠ 1

theorem left_vecMul (S : Matrix (Fin n) (Fin n) ℂ) (lam : ℂ) (w : Vc n) (h : LeftEig S.mulVec lam w) : Matrix.vecMul (star w) S = lam • star w := by
  have h2 : ∀ x, Matrix.vecMul (star w) S ⬝ᵥ x = (lam • star w) ⬝ᵥ x := by
    intro x
    rw [← Matrix.dotProduct_mulVec, smul_dotProduct]
    exact h.2 x
  funext i
  have := h2 (Pi.single i 1)
  rwa [dotProduct_single_one, dotProduct_single_one] at this

theorem solveH_eq (P : Matrix (Fin n) (Fin n) ℂ) (hP : IsUnit P.det) (b : Vc n) : Matrix.vecMul (star (solveH P b)) P = star b := by
  unfold solveH
  rw [star_star, ← Matrix.transpose_nonsing_inv, Matrix.mulVec_transpose, Matrix.vecMul_vecMul, Matrix.nonsing_inv_mul _ hP, Matrix.vecMul_one]

/-- C202: the left eigenvector returned is a left eigenvector of the user's pencil for the returned eigenvalue. -/
theorem C202_partial (A B : Matrix (Fin n) (Fin n) ℂ) (t : Trans) (hP : IsUnit (matP A B t).det) (D : Option (Vc n))
    (hD : ∀ d, D = some d → ∀ i, Pos (d i)) (theta : ℂ) (hf : Finite t theta) (w : Vc n) (h : LeftEig (applyOp (opMat A B t) D) theta w) :
    PencilLeft A B (backTr t theta) (leftVec A B t D w) := by
  obtain ⟨u, hu⟩ : ∃ u : Vc n, u = unbal D w := ⟨_, rfl⟩
  have hl : LeftEig (opMat A B t).mulVec theta u := by
    cases hd : D with
    | none => rw [hd] at hu h; rw [hu]; exact h
    | some d =>
      rw [hd] at hu h; rw [hu]
      have hp := hD d hd
      exact left_fix _ d (fun i => (hp i).ne) (fun i => (hp i).star) _ _ h
  have hv : leftVec A B t D w = solveH (matP A B t) u := by rw [hu]; rfl
  rw [hv]
  obtain ⟨y, hy⟩ : ∃ y, y = solveH (matP A B t) u := ⟨_, rfl⟩
  have h1 : Matrix.vecMul (star y) (matP A B t) = star u := by rw [hy]; exact solveH_eq _ hP u
  have h2 := left_vecMul _ _ _ hl
  rw [← h1, opMat, Matrix.vecMul_vecMul, ← Matrix.mul_assoc, Matrix.mul_nonsing_inv _ hP, Matrix.one_mul] at h2
  rw [← hy]
  have hy0 : y ≠ 0 := by
    intro h0
    apply hl.1
    rw [h0, star_zero, Matrix.zero_vecMul] at h1
    exact star_eq_zero.mp h1.symm
  refine ⟨hy0, ?_⟩
  obtain ⟨a, ha⟩ : ∃ a, a = Matrix.vecMul (star y) A := ⟨_, rfl⟩
  obtain ⟨b, hb⟩ : ∃ b, b = Matrix.vecMul (star y) B := ⟨_, rfl⟩
  rw [← ha, ← hb]
  funext i
  have h3 := congrFun h2 i
  cases t with
  | shift sigma =>
    simp only [matM, matP, Matrix.vecMul_sub, Matrix.vecMul_smul, ← ha, ← hb, Pi.sub_apply, Pi.smul_apply, smul_eq_mul] at h3
    show a i = (theta + sigma) * b i
    linear_combination h3
  | sinvert sigma =>
    simp only [matM, matP, Matrix.vecMul_sub, Matrix.vecMul_smul, ← ha, ← hb, Pi.sub_apply, Pi.smul_apply, smul_eq_mul] at h3
    have hf' : theta ≠ 0 := hf
    show a i = (1 / theta + sigma) * b i
    field_simp
    linear_combination -h3
  | cayley sigma nu =>
    simp only [matM, matP, Matrix.vecMul_sub, Matrix.vecMul_add, Matrix.vecMul_smul, ← ha, ← hb, Pi.sub_apply, Pi.add_apply, Pi.smul_apply, smul_eq_mul] at h3
    have hf' : theta - 1 ≠ 0 := sub_ne_zero.mpr hf
    show a i = (nu + theta * sigma) / (theta - 1) * b i
    field_simp
    linear_combination -h3

/-- A balanced shift-and-invert operator of a pencil with nonsingular `P` and a left eigenvector. -/
example : ∃ (A B : Matrix (Fin 2) (Fin 2) ℂ) (d w : Vc 2), IsUnit (matP A B (.sinvert 1)).det ∧ (∀ i, Pos (d i)) ∧ Finite (.sinvert 1) 1 ∧
    LeftEig (applyOp (opMat A B (.sinvert 1)) (some d)) 1 w := by
  have hP : matP !![2, 1; 0, 3] !![1, 0; 0, 1] (.sinvert 1) = (!![1, 1; 0, 2] : Matrix (Fin 2) (Fin 2) ℂ) := by
    ext i j; fin_cases i <;> fin_cases j <;> simp [matP] <;> norm_num
  have hop : opMat !![2, 1; 0, 3] !![1, 0; 0, 1] (.sinvert 1) = (!![1, -(1 / 2); 0, 1 / 2] : Matrix (Fin 2) (Fin 2) ℂ) := by
    have hM : matM !![2, 1; 0, 3] !![1, 0; 0, 1] (.sinvert 1) = (1 : Matrix (Fin 2) (Fin 2) ℂ) := by
      ext i j; fin_cases i <;> fin_cases j <;> simp [matM]
    unfold opMat
    rw [hP, hM, Matrix.mul_one]
    apply Matrix.inv_eq_right_inv
    ext i j; fin_cases i <;> fin_cases j <;> simp [Matrix.mul_apply, Fin.sum_univ_two]
  refine ⟨!![2, 1; 0, 3], !![1, 0; 0, 1], ![1, 2], ![2, -1], ?_, ?_, one_ne_zero, ?_, ?_⟩
  · rw [hP, Matrix.det_fin_two]; simp
  · intro i; fin_cases i
    · exact ⟨1, one_pos, by simp⟩
    · exact ⟨2, two_pos, by simp⟩
  · intro h; have := congrFun h 0; simp at this
  · intro x
    rw [hop]
    have h2 : (starRingEnd ℂ) 2 = 2 := map_ofNat _ 2
    simp [applyOp, pmul, pdiv, Matrix.mulVec, dotProduct, Fin.sum_univ_two, h2]
    ring

end
end Verif.Ebal.Left
