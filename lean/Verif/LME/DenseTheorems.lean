import Verif.LME.DenseModel
import Mathlib.Tactic
import Mathlib.LinearAlgebra.Matrix.Notation
/-!
C87: dense Lyapunov equations.
-/
set_option linter.all false
namespace Verif.LME
noncomputable section
open Matrix
variable {𝕜 : Type} [RCLike 𝕜] {n k : Nat}

theorem rd_wr (mem : Nat → 𝕜) (ld : Nat) (h : n ≤ ld) (X : Matrix (Fin n) (Fin n) 𝕜) : rd n n (wr mem ld X) ld = X := by
  ext i j
  have hi := i.2
  have hj := j.2
  have h1 : (i.1 + j.1 * ld) % ld = i.1 := by
    rw [Nat.add_mul_mod_self_right]; exact Nat.mod_eq_of_lt (by omega)
  have h2 : (i.1 + j.1 * ld) / ld = j.1 := by
    rw [Nat.add_mul_div_right _ _ (by omega), Nat.div_eq_of_lt (by omega), zero_add]
  simp only [rd, wr, of_apply]
  rw [dif_pos ⟨by omega, by omega⟩]
  congr 1 <;> exact Fin.ext (by assumption)

theorem back (Q T S A B : Matrix (Fin n) (Fin n) 𝕜) (h1 : Qᴴ * Q = 1) (h2 : Q * Qᴴ = 1) (hA : A = Q * T * Qᴴ)
    (hS : T * S + S * Tᴴ = -(Qᴴ * B * Q)) : A * (Q * S * Qᴴ) + Q * S * Qᴴ * Aᴴ = -B := by
  have e1 : A * (Q * S * Qᴴ) = Q * (T * S) * Qᴴ := by
    rw [hA]
    calc Q * T * Qᴴ * (Q * S * Qᴴ) = Q * T * (Qᴴ * Q) * S * Qᴴ := by simp only [Matrix.mul_assoc]
      _ = Q * (T * S) * Qᴴ := by rw [h1]; simp only [Matrix.mul_assoc, Matrix.mul_one, Matrix.one_mul]
  have e2 : Q * S * Qᴴ * Aᴴ = Q * (S * Tᴴ) * Qᴴ := by
    rw [hA]
    simp only [conjTranspose_mul, conjTranspose_conjTranspose]
    calc Q * S * Qᴴ * (Q * (Tᴴ * Qᴴ)) = Q * S * (Qᴴ * Q) * Tᴴ * Qᴴ := by simp only [Matrix.mul_assoc]
      _ = Q * (S * Tᴴ) * Qᴴ := by rw [h1]; simp only [Matrix.mul_assoc, Matrix.mul_one, Matrix.one_mul]
  rw [e1, e2, ← Matrix.add_mul, ← Matrix.mul_add, hS, Matrix.mul_neg, Matrix.neg_mul]
  congr 1
  calc Q * (Qᴴ * B * Q) * Qᴴ = (Q * Qᴴ) * B * (Q * Qᴴ) := by simp only [Matrix.mul_assoc]
    _ = B := by rw [h2, Matrix.one_mul, Matrix.mul_one]

/-- **C87, partial: `LMEDenseLyapunov`.** With correct LAPACK kernels the array returned holds `X` with `A X + X A^* = -B`,
for any leading dimensions of `A` and `B`, if the leading dimension of `X` is the size of the matrices. -/
theorem C87_lyapunov_partial (K : Kern 𝕜 n) (hK : KernOK K) (memA : Nat → 𝕜) (lda : Nat) (memB : Nat → 𝕜) (ldb : Nat)
    (memX X : Nat → 𝕜) (h : lyapunov K memA lda memB ldb memX n = some X) :
    rd n n memA lda * rd n n X n + rd n n X n * (rd n n memA lda)ᴴ = -rd n n memB ldb := by
  simp only [lyapunov, Option.map_eq_some_iff] at h
  obtain ⟨S, hS, rfl⟩ := h
  rw [rd_wr _ _ le_rfl] at hS
  rw [rd_wr _ _ le_rfl, rd_wr _ _ le_rfl]
  exact back _ _ _ _ _ (hK.unitary _).1 (hK.unitary _).2 (hK.schur _) (hK.trsyl _ _ _ hS)

/-- **C87, partial: `LMEDenseHessLyapunovChol`.** With correct kernels, if the leading dimension of the factor is the size
of the matrices and the solution is positive definite in the sense of `potrf`, the array returned holds an upper triangular `U` such that
`X = U^* U` satisfies `H X + X H^* = -B B^*`, and `res` has been multiplied by the norm of the last row of `X`.
If `potrf` fails once, the diagonal of the solution is perturbed by 50 times the machine precision. -/
theorem C87_hessLyapunovChol_partial (K : Kern 𝕜 n) (hK : KernOK K) (hn : 0 < n) (eps : ℝ) (memH : Nat → 𝕜) (ldh k : Nat)
    (memB : Nat → 𝕜) (ldb : Nat) (memU : Nat → 𝕜) (res : ℝ) (U : Nat → 𝕜) (res' : ℝ)
    (h : hessLyapunovChol K eps memH ldh k memB ldb memU n res = some (U, res')) :
    ∃ Y : Matrix (Fin n) (Fin n) 𝕜,
      rd n n memH ldh * Y + Y * (rd n n memH ldh)ᴴ = -(rd n k memB ldb * (rd n k memB ldb)ᴴ) ∧
      res' = res * Real.sqrt (∑ j, ‖Y ⟨n - 1, by omega⟩ j‖ ^ 2) ∧
      ((rd n n U n)ᴴ * rd n n U n = Y ∨
        K.potrf Y = none ∧ (rd n n U n)ᴴ * rd n n U n = Y + Matrix.diagonal fun _ => ((50 * eps : ℝ) : 𝕜)) ∧
      ∀ i j, j < i → rd n n U n i j = 0 := by
  unfold hessLyapunovChol at h
  dsimp only at h
  cases hS : K.trsyl (K.schur (rd n n memH ldh)).1 (rd n n (wr memU n (-((K.schur (rd n n memH ldh)).2ᴴ * rd n k memB ldb *
    ((K.schur (rd n n memH ldh)).2ᴴ * rd n k memB ldb)ᴴ))) n) with
  | none => rw [hS] at h; cases h
  | some S =>
    rw [hS] at h
    dsimp only at h
    rw [rd_wr _ _ le_rfl] at hS
    rw [rd_wr _ _ le_rfl, Option.map_eq_some_iff] at h
    obtain ⟨F, hF, e⟩ := h
    have eU : F = U := congrArg Prod.fst e
    have er := congrArg Prod.snd e
    dsimp only at er
    subst eU
    generalize hTQ : K.schur (rd n n memH ldh) = TQ at *
    have hu := hK.unitary (rd n n memH ldh)
    have hs := hK.schur (rd n n memH ldh)
    rw [hTQ] at hu hs
    refine ⟨TQ.2 * S * TQ.2ᴴ, ?_, ?_, ?_⟩
    · refine back _ _ _ _ _ hu.1 hu.2 hs ?_
      rw [hK.trsyl _ _ _ hS, conjTranspose_mul, conjTranspose_conjTranspose]
      simp only [Matrix.mul_assoc]
    · rw [← er]
      congr 1
      unfold strideNorm
      congr 1
      refine Finset.sum_congr rfl fun j _ => ?_
      congr 2
      exact congrFun (congrFun (rd_wr (wr (wr memU n _) n S) n le_rfl (TQ.2 * S * TQ.2ᴴ)) ⟨n - 1, by omega⟩) j
    · unfold choleskyFactor at hF
      dsimp only at hF
      rw [rd_wr _ _ le_rfl] at hF
      rw [Option.map_eq_some_iff] at hF
      obtain ⟨R, hR, rfl⟩ := hF
      rw [rd_wr _ _ le_rfl]
      generalize TQ.2 * S * TQ.2ᴴ = Y at *
      have key : ∀ C, K.potrf C = some R → (Matrix.of fun i j => if j < i then 0 else R i j) = R := by
        intro C hC
        ext i j
        rw [of_apply]
        by_cases hij : j < i
        · rw [if_pos hij, (hK.potrf _ _ hC).2 i j hij]
        · rw [if_neg hij]
      cases hp : K.potrf Y with
      | some R' =>
        rw [hp] at hR
        have : R' = R := by simpa using hR
        subst this
        rw [key _ hp]
        exact ⟨.inl (hK.potrf _ _ hp).1, (hK.potrf _ _ hp).2⟩
      | none =>
        rw [hp] at hR
        dsimp only at hR
        rw [key _ hR]
        exact ⟨.inr ⟨rfl, (hK.potrf _ _ hR).1⟩, (hK.potrf _ _ hR).2⟩

/-- Kernels that are correct for all matrices that are a negative multiple of the identity, sufficient for the examples: the
Schur form is the matrix itself. -/
def idKern : Kern ℝ 2 :=
  ⟨fun A => (A, 1), fun T C => if T = -(1 : Matrix (Fin 2) (Fin 2) ℝ) then some (-(1/2 : ℝ) • C) else none,
    fun C => if C = 1 then some 1 else none⟩

theorem idKern_ok : KernOK idKern := by
  refine ⟨fun A => by simp [idKern], fun A => by simp [idKern], ?_, ?_⟩
  swap
  · intro C U h
    simp only [idKern] at h
    by_cases hC : C = 1
    · rw [if_pos hC] at h
      have : U = 1 := (Option.some.inj h).symm
      subst this
      refine ⟨by simp [hC], fun i j hij => ?_⟩
      rw [Matrix.one_apply_ne (ne_of_gt hij)]
    · rw [if_neg hC] at h; cases h
  intro T C X h
  simp only [idKern] at h
  by_cases hT : T = -1
  · rw [if_pos hT] at h
    have : X = -(1/2 : ℝ) • C := (Option.some.inj h).symm
    rw [this, hT]
    ext i j
    simp
    ring
  · rw [if_neg hT] at h; cases h

/-- The array of `A = -I`. -/
def memNeg : Nat → ℝ := fun p => if p = 0 ∨ p = 3 then -1 else 0

theorem rd_memNeg : rd 2 2 memNeg 2 = -1 := by
  ext i j; fin_cases i <;> fin_cases j <;> simp [rd, memNeg]

theorem lyap_id (memB memX : Nat → ℝ) (ldx : Nat) (h : 2 ≤ ldx) :
    let X2 := wr (wr memX ldx (-rd 2 2 memB 2)) ldx ((1/2 : ℝ) • rd 2 2 memB 2)
    lyapunov idKern memNeg 2 memB 2 memX ldx = some (wr X2 ldx (rd 2 2 X2 2)) := by
  intro X2
  unfold lyapunov
  dsimp only
  rw [rd_memNeg, rd_wr _ _ h]
  simp only [idKern, if_true, conjTranspose_one, Matrix.mul_one, Matrix.one_mul, Option.map_some, smul_neg, neg_smul, neg_neg]
  rfl

/-- The hypotheses of the partial theorem are met: `A=-I` and any `B`. -/
example (memB : Nat → ℝ) : ∃ X, lyapunov idKern memNeg 2 memB 2 (fun _ => 0) 2 = some X := by
  simp [lyapunov, idKern, rd_memNeg]

/-- The hypotheses of the second partial theorem are met: `H=-I`, `B` with `B B^*=2I`. -/
example : ∃ X, hessLyapunovChol idKern 0 memNeg 2 2 (fun p => if p = 3 then -1 else 1) 2 (fun _ => 0) 2 1 = some X := by
  have h1 : rd 2 2 (fun p => if p = 3 then (-1 : ℝ) else 1) 2 = !![1, 1; 1, -1] := by
    ext i j; fin_cases i <;> fin_cases j <;> simp [rd]
  have h2 : (!![1, 1; 1, -1] : Matrix (Fin 2) (Fin 2) ℝ) * (!![1, 1; 1, -1])ᴴ = (2 : ℝ) • 1 := by
    ext i j; fin_cases i <;> fin_cases j <;> simp [Matrix.mul_apply, Fin.sum_univ_two] <;> norm_num
  have h3 : -(-(1/2 : ℝ) • (2 : ℝ) • (1 : Matrix (Fin 2) (Fin 2) ℝ)) = 1 := by
    rw [smul_smul]; norm_num
  unfold hessLyapunovChol choleskyFactor
  dsimp only
  rw [rd_memNeg, rd_wr _ _ le_rfl, h1]
  simp only [idKern, if_true, conjTranspose_one, Matrix.mul_one, Matrix.one_mul, h2, rd_wr _ _ le_rfl, smul_neg, h3]
  exact ⟨_, rfl⟩

/-- **C87 fails as stated.** With a leading dimension of `X` larger than the size of the matrices the result is wrong: for
`A=-I`, `B=2I` the array with leading dimension 3 returned does not hold `X=I`, and its content depends on what the
array of the caller contained before. -/
theorem C87_false_leading_dimension :
    ∃ (K : Kern ℝ 2) (memA memB memX X : Nat → ℝ), KernOK K ∧ lyapunov K memA 2 memB 2 memX 3 = some X ∧
      rd 2 2 memA 2 * rd 2 2 X 3 + rd 2 2 X 3 * (rd 2 2 memA 2)ᴴ ≠ -rd 2 2 memB 2 ∧
      (∃ memX' X', lyapunov K memA 2 memB 2 memX' 3 = some X' ∧ rd 2 2 X' 3 ≠ rd 2 2 X 3) := by
  have key : ∀ c : ℝ, ∃ X, lyapunov idKern memNeg 2 (fun p => if p = 0 ∨ p = 3 then 2 else 0) 2 (fun _ => c) 3 = some X ∧
      rd 2 2 X 3 0 1 = c ∧ rd 2 2 X 3 1 1 = 0 := by
    intro c
    refine ⟨(lyapunov idKern memNeg 2 (fun p => if p = 0 ∨ p = 3 then 2 else 0) 2 (fun _ => c) 3).getD (fun _ => 0), ?_, ?_, ?_⟩
    · rw [lyap_id _ _ _ (by omega)]; rfl
    · rw [lyap_id _ _ _ (by omega)]; simp [rd, wr]
    · rw [lyap_id _ _ _ (by omega)]; simp [rd, wr]
  obtain ⟨X, h1, h2, h3⟩ := key 0
  obtain ⟨X', h1', h2', h3'⟩ := key 1
  refine ⟨idKern, memNeg, _, _, X, idKern_ok, h1, ?_, _, X', h1', ?_⟩
  · intro h
    have := congrFun (congrFun h 1) 1
    rw [rd_memNeg] at this
    have h4 : X 4 = 0 := by simpa [rd] using h3
    simp [h4, rd] at this
  · intro h
    have := congrFun (congrFun h 0) 1
    rw [h2, h2'] at this
    norm_num at this

end
end Verif.LME
