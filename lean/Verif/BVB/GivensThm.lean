import Verif.BVB.Givens
/-!
C114: triangular factors by a reduction.
-/
set_option linter.all false
namespace Verif.BVB
variable {𝕜 : Type} [Field 𝕜] [StarRing 𝕜]

/-- The sum over the leaves of a tree. -/
theorem tree_gram {P : Type} {lartg : 𝕜 → 𝕜 → Rot 𝕜} (hL : IsLartg lartg) (n : ℕ) (R : P → ℕ → 𝕜) (T : Tree P) :
    (unpackR n (T.reduce lartg (n + n * (n - 1) / 2) R)).conjTranspose * unpackR n (T.reduce lartg (n + n * (n - 1) / 2) R) =
      (T.leaves.map (fun p => (unpackR n (R p)).conjTranspose * unpackR n (R p))).sum := by
  induction T with
  | leaf p => simp [Tree.reduce, Tree.leaves]
  | node a b iha ihb =>
    rw [Tree.leaves, List.map_append, List.sum_append, ← iha, ← ihb]
    ext i j
    rw [gram_unpack, Tree.reduce, givensPacked_gram hL n _ _ i j i.2 j.2, Matrix.add_apply, gram_unpack, gram_unpack, add_comm]

/-- Contract of `geqrf` on the local rows: the upper triangle of the array (rows that exist) is a triangular factor of the local matrix. -/
def IsGeqrf {n m : ℕ} (ldq : ℕ) (V : Matrix (Fin m) (Fin n) 𝕜) (A : ℕ → 𝕜) : Prop :=
  let R : Matrix (Fin n) (Fin n) 𝕜 := fun i j => if i.1 ≤ j.1 ∧ i.1 < m then A (i + j * ldq) else 0
  R.conjTranspose * R = V.conjTranspose * V

/-- **C114.** With any order of combination that uses each process once, the matrix unpacked from the result is upper triangular, and its Gram matrix is
the Gram matrix of the distributed matrix: it is a triangular factor of the whole matrix. -/
theorem tsqr_onlyR {P : Type} [Fintype P] [DecidableEq P] {lartg : 𝕜 → 𝕜 → Rot 𝕜} (hL : IsLartg lartg) (n : ℕ) (m ldq : P → ℕ)
    (V : (p : P) → Matrix (Fin (m p)) (Fin n) 𝕜) (A : P → ℕ → 𝕜) (hA : ∀ p, IsGeqrf (ldq p) (V p) (A p))
    (T : Tree P) (hT : T.leaves.Perm Finset.univ.toList) :
    let R := unpackR n (T.reduce lartg (n + n * (n - 1) / 2) (fun p => packR n (m p) (ldq p) (A p)))
    (∀ i j : Fin n, j < i → R i j = 0) ∧ R.conjTranspose * R = ∑ p, (V p).conjTranspose * V p := by
  intro R
  refine ⟨fun i j h => if_pos h, ?_⟩
  rw [tree_gram hL, (hT.map _).sum_eq, Finset.sum_map_toList]
  refine Finset.sum_congr rfl (fun p _ => ?_)
  rw [← hA p]
  have : unpackR n (packR n (m p) (ldq p) (A p)) = fun (i j : Fin n) => if i.1 ≤ j.1 ∧ i.1 < m p then A p (i + j * ldq p) else 0 := by
    funext i j
    exact unpack_pack n (m p) (ldq p) (A p) i j
  rw [this]

/-- Different orders give factors with the same Gram matrix: if one of them is invertible, they differ by a unitary matrix from the left. -/
theorem tsqr_onlyR_unique {P : Type} [Fintype P] [DecidableEq P] {lartg : 𝕜 → 𝕜 → Rot 𝕜} (hL : IsLartg lartg) (n : ℕ) (R : P → ℕ → 𝕜)
    (T T' : Tree P) (hT : T.leaves.Perm T'.leaves)
    (hinv : IsUnit (unpackR n (T.reduce lartg (n + n * (n - 1) / 2) R))) :
    ∃ U : Matrix (Fin n) (Fin n) 𝕜, U.conjTranspose * U = 1 ∧
      unpackR n (T'.reduce lartg (n + n * (n - 1) / 2) R) = U * unpackR n (T.reduce lartg (n + n * (n - 1) / 2) R) := by
  have h1 := tree_gram hL n R T
  have h2 := tree_gram hL n R T'
  rw [(hT.map _).sum_eq, ← h2] at h1
  obtain ⟨A, hA⟩ : ∃ A, A = unpackR n (T.reduce lartg (n + n * (n - 1) / 2) R) := ⟨_, rfl⟩
  obtain ⟨B, hB⟩ : ∃ B, B = unpackR n (T'.reduce lartg (n + n * (n - 1) / 2) R) := ⟨_, rfl⟩
  rw [← hA] at hinv h1 ⊢
  rw [← hB] at h1 ⊢
  have hd : IsUnit A.det := (Matrix.isUnit_iff_isUnit_det _).mp hinv
  refine ⟨B * A⁻¹, ?_, ?_⟩
  · have hd' : IsUnit A.conjTranspose.det := by
      rw [Matrix.det_conjTranspose]; exact hd.star
    have e1 : (B * A⁻¹).conjTranspose * (B * A⁻¹) = (A⁻¹).conjTranspose * (B.conjTranspose * B) * A⁻¹ := by
      rw [Matrix.conjTranspose_mul]; simp only [Matrix.mul_assoc]
    have e2 : (A⁻¹).conjTranspose * A.conjTranspose = 1 := by
      rw [← Matrix.conjTranspose_mul, Matrix.mul_nonsing_inv _ hd, Matrix.conjTranspose_one]
    rw [e1, ← h1, ← Matrix.mul_assoc, e2, Matrix.one_mul, Matrix.mul_nonsing_inv _ hd]
  · rw [Matrix.mul_assoc, Matrix.nonsing_inv_mul _ hd, Matrix.mul_one]

/-- A plane rotation for real scalars: the contract of `lartg` can be met. -/
noncomputable def lartgReal (f g : ℝ) : Rot ℝ :=
  if f ^ 2 + g ^ 2 = 0 then ⟨1, 0, f⟩ else ⟨f / Real.sqrt (f ^ 2 + g ^ 2), g / Real.sqrt (f ^ 2 + g ^ 2), Real.sqrt (f ^ 2 + g ^ 2)⟩

theorem lartgReal_ok : IsLartg lartgReal := by
  have key : ∀ f g : ℝ, f ^ 2 + g ^ 2 ≠ 0 → 0 < Real.sqrt (f ^ 2 + g ^ 2) ∧ Real.sqrt (f ^ 2 + g ^ 2) * Real.sqrt (f ^ 2 + g ^ 2) = f ^ 2 + g ^ 2 := by
    intro f g h
    have : 0 < f ^ 2 + g ^ 2 := lt_of_le_of_ne (by positivity) (Ne.symm h)
    exact ⟨Real.sqrt_pos.mpr this, Real.mul_self_sqrt this.le⟩
  have z : ∀ f g : ℝ, f ^ 2 + g ^ 2 = 0 → g = 0 := fun f g h => by nlinarith [sq_nonneg f, sq_nonneg g]
  refine ⟨fun f g => ?_, fun f g => ?_, fun f g => ?_, fun f g => ?_⟩ <;> by_cases h : f ^ 2 + g ^ 2 = 0 <;> simp only [lartgReal, h, if_true, if_false]
  · simp
  · simp
  · simp [z f g h]
  · obtain ⟨h1, h2⟩ := key f g h
    field_simp
    nlinarith
  · simp [z f g h]
  · simp; ring
  · simp
  · obtain ⟨h1, h2⟩ := key f g h
    simp only [star_trivial]
    field_simp
    nlinarith

/-- The hypotheses are met: three processes with 0, 1 and 2 rows of ones, one column. -/
example : ∃ (V : (p : Fin 3) → Matrix (Fin p.1) (Fin 1) ℝ) (A : Fin 3 → ℕ → ℝ) (T : Tree (Fin 3)),
    (∀ p, IsGeqrf 2 (V p) (A p)) ∧ T.leaves.Perm Finset.univ.toList ∧ V 2 ⟨1, by decide⟩ 0 = 1 := by
  refine ⟨fun p => fun i _ => 1, fun p _ => Real.sqrt p.1, .node (.leaf 2) (.node (.leaf 0) (.leaf 1)), ?_, ?_, rfl⟩
  · intro p
    unfold IsGeqrf
    ext i j
    have hi : i.1 = 0 := by omega
    have hj : j.1 = 0 := by omega
    show (∑ t : Fin 1, star (if t.1 ≤ i.1 ∧ t.1 < p.1 then Real.sqrt p.1 else 0) * (if t.1 ≤ j.1 ∧ t.1 < p.1 then Real.sqrt p.1 else 0)) =
      ∑ t : Fin p.1, star (1 : ℝ) * 1
    simp only [Matrix.conjTranspose_apply, hi, hj, Fin.sum_univ_one, star_trivial, Fin.val_zero, le_refl, true_and, mul_one, Finset.sum_const, Finset.card_univ,
      Fintype.card_fin, nsmul_eq_mul]
    by_cases h : 0 < p.1
    · simp only [h, if_true]
      exact Real.mul_self_sqrt (by positivity)
    · have : p.1 = 0 := by omega
      simp [this]
  · have : (Finset.univ : Finset (Fin 3)).toList.Perm [0, 1, 2] := by
      rw [← Multiset.coe_eq_coe]
      simp only [Finset.coe_toList]
      rfl
    refine List.Perm.trans ?_ this.symm
    decide

end Verif.BVB
