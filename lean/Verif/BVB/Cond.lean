import Verif.BVB.Base
import Mathlib.Analysis.Matrix.Normed
import Mathlib.Data.Matrix.Mul
import Mathlib.Data.Real.Sqrt
/-!
Model of BVSetRandomCond (`src/sys/classes/bv/interface/bvops.c:610-664`): random columns changed so that the condition number is the given one.  Real scalars, no leading
columns (`l=0`).  `B` holds the random columns, `eig` and `X` are the eigenvalues and orthogonal eigenvectors of `B' B` given by the DS object.
-/
set_option linter.all false
namespace Verif.BVB.Cond
open Matrix

variable {N k : ℕ}

/-- bvops.c:642, the numerator: the values `linspace(1/condn,1,k)`. -/
noncomputable def lin (condn : ℝ) (k i : ℕ) : ℝ := 1 / condn + (1 - 1 / condn) / ((k : ℝ) - 1) * i

/-- bvops.c:639-643: the array of the dense matrix `M` of dimension `k`, filled by `d[i+i*m] = ...` where `m` is the number of columns of the BV.
`none`: an address out of the `k*k` entries of the array. -/
noncomputable def fillM (condn : ℝ) (eig : ℕ → ℝ) (k m : ℕ) : Option (ℕ → ℝ) :=
  forN k (fun i (o : Option (ℕ → ℝ)) => match o with
    | none => none
    | some d => if i + i * m < k * k then some (wr d (i + i * m) (lin condn k i / Real.sqrt (eig i))) else none) (some fun _ => 0)

/-- The matrix in the array (leading dimension `k`). -/
def matOf (d : ℕ → ℝ) : Matrix (Fin k) (Fin k) ℝ := fun i j => d (i + j * k)

/-- bvops.c:645-657: `Xt` is the transpose of `X`; MatProductCreate(Xt,M) of type PtAP, which computes `P' A P` with `A` the first and `P` the second argument; then `B = B G`. -/
noncomputable def setRandomCond (condn : ℝ) (B : Matrix (Fin N) (Fin k) ℝ) (eig : ℕ → ℝ) (X : Matrix (Fin k) (Fin k) ℝ) (m : ℕ) : Option (Matrix (Fin N) (Fin k) ℝ) :=
  match fillM condn eig k m with
  | none => none
  | some d => some (B * ((matOf d)ᵀ * Xᵀ * matOf d))

/-- The same with the arguments of the product exchanged, that is with the matrix `G = X M X'` that the comment in line 644 tells; not in the code. -/
noncomputable def setRandomCondFixed (condn : ℝ) (B : Matrix (Fin N) (Fin k) ℝ) (eig : ℕ → ℝ) (X : Matrix (Fin k) (Fin k) ℝ) (m : ℕ) : Option (Matrix (Fin N) (Fin k) ℝ) :=
  match fillM condn eig k m with
  | none => none
  | some d => some (B * ((Xᵀ)ᵀ * matOf d * Xᵀ))

/-! ### Specification -/

/-- The square of the 2-norm of a vector. -/
def sq {n : ℕ} (x : Fin n → ℝ) : ℝ := x ⬝ᵥ x

/-- The condition number of the matrix is `κ`: the norms of the images of unit vectors lie between two positive values that are attained and whose ratio is `κ`. -/
def CondIs (B : Matrix (Fin N) (Fin k) ℝ) (κ : ℝ) : Prop :=
  ∃ lo hi : ℝ, 0 < lo ∧ 0 < hi ∧ κ = hi / lo ∧ (∀ x, sq x = 1 → lo ^ 2 ≤ sq (B *ᵥ x) ∧ sq (B *ᵥ x) ≤ hi ^ 2) ∧
    (∃ x, sq x = 1 ∧ sq (B *ᵥ x) = lo ^ 2) ∧ (∃ x, sq x = 1 ∧ sq (B *ᵥ x) = hi ^ 2)

/-- The eigendecomposition given by the DS object: `X` orthogonal, `B'B X = X diag(eig)`, positive eigenvalues. -/
structure IsEig (B : Matrix (Fin N) (Fin k) ℝ) (eig : ℕ → ℝ) (X : Matrix (Fin k) (Fin k) ℝ) : Prop where
  orth : Xᵀ * X = 1
  eq : Bᵀ * B = X * Matrix.diagonal (fun i : Fin k => eig i) * Xᵀ
  pos : ∀ i < k, 0 < eig i

/-! ### Lemmas -/

theorem fillM_ok (condn : ℝ) (eig : ℕ → ℝ) (hk : 0 < k) : ∃ d, fillM condn eig k k = some d ∧
    matOf (k := k) d = Matrix.diagonal (fun i : Fin k => lin condn k i / Real.sqrt (eig i)) := by
  have h := forN_inv (f := fun i (o : Option (ℕ → ℝ)) => match o with
    | none => none
    | some d => if i + i * k < k * k then some (wr d (i + i * k) (lin condn k i / Real.sqrt (eig i))) else none) (s := some fun _ => (0:ℝ))
    (fun (n : ℕ) (o : Option (ℕ → ℝ)) => ∃ d, o = some d ∧ ∀ i < k, ∀ j < k, d (i + j * k) = if i = j ∧ i < n then lin condn k i / Real.sqrt (eig i) else 0) k
    ⟨_, rfl, fun i _ j _ => by rw [if_neg (by omega)]⟩
    (by
      rintro n hn o ⟨d, rfl, hd⟩
      have hin : n + n * k < k * k := by nlinarith
      refine ⟨wr d (n + n * k) (lin condn k n / Real.sqrt (eig n)), by dsimp only; rw [if_pos hin], ?_⟩
      intro i hi j hj
      rw [wr_addr (ld := k) j n d _ hi hn, hd i hi j hj]
      by_cases h : i = n ∧ j = n
      · obtain ⟨rfl, rfl⟩ := h
        rw [if_pos ⟨rfl, rfl⟩, if_pos ⟨rfl, by omega⟩]
      · rw [if_neg h]
        by_cases h2 : i = j ∧ i < n
        · rw [if_pos h2, if_pos ⟨h2.1, by omega⟩]
        · rw [if_neg h2, if_neg (by omega)])
  obtain ⟨d, hd, hv⟩ := h
  refine ⟨d, hd, ?_⟩
  ext i j
  show d (i + j * k) = _
  rw [hv i i.2 j j.2]
  by_cases hij : i = j
  · subst hij; rw [if_pos ⟨rfl, i.2⟩, Matrix.diagonal_apply_eq]
  · rw [if_neg (fun h => hij (Fin.ext h.1)), Matrix.diagonal_apply_ne _ hij]

theorem sq_mulVec {n : ℕ} (B : Matrix (Fin n) (Fin k) ℝ) (x : Fin k → ℝ) : sq (B *ᵥ x) = x ⬝ᵥ ((Bᵀ * B) *ᵥ x) := by
  unfold sq
  rw [← Matrix.mulVec_mulVec, Matrix.dotProduct_mulVec x Bᵀ, Matrix.vecMul_transpose]

theorem sq_diag (w : Fin k → ℝ) (x : Fin k → ℝ) : x ⬝ᵥ (Matrix.diagonal w *ᵥ x) = ∑ i, w i * (x i * x i) := by
  simp only [dotProduct, Matrix.mulVec_diagonal]
  exact Finset.sum_congr rfl fun i _ => by ring

/-- A matrix with `C'C = X diag(s²) X'`, with values `s` between `lo` and `hi` attained, has condition number `hi/lo`. -/
theorem cond_of_gram {n : ℕ} (C : Matrix (Fin n) (Fin k) ℝ) (X : Matrix (Fin k) (Fin k) ℝ) (hX : Xᵀ * X = 1) (s : Fin k → ℝ)
    (hC : Cᵀ * C = X * Matrix.diagonal (fun i => s i ^ 2) * Xᵀ) (lo hi : ℝ) (hlo : 0 < lo) (hhi : 0 < hi) (hb : ∀ i, lo ≤ s i ∧ s i ≤ hi)
    (hl : ∃ i, s i = lo) (hh : ∃ i, s i = hi) : CondIs C (hi / lo) := by
  have hX2 : X * Xᵀ = 1 := mul_eq_one_comm.mp hX
  have hform : ∀ x, sq (C *ᵥ x) = ∑ i, s i ^ 2 * ((Xᵀ *ᵥ x) i * (Xᵀ *ᵥ x) i) := by
    intro x
    rw [sq_mulVec, hC, ← sq_diag, ← Matrix.mulVec_mulVec, ← Matrix.mulVec_mulVec, Matrix.dotProduct_mulVec x X]
    congr 1
    rw [Matrix.mulVec_transpose]
  have hiso : ∀ x, sq (Xᵀ *ᵥ x) = sq x := by
    intro x
    rw [sq_mulVec, Matrix.transpose_transpose, hX2, Matrix.one_mulVec]; rfl
  have hsum : ∀ x, sq x = 1 → ∑ i, (Xᵀ *ᵥ x) i * (Xᵀ *ᵥ x) i = 1 := by
    intro x hx
    have := hiso x
    rw [hx] at this; exact this
  have hatt : ∀ i0, ∃ x, sq x = 1 ∧ sq (C *ᵥ x) = s i0 ^ 2 := by
    intro i0
    have hinv : Xᵀ *ᵥ (X *ᵥ Pi.single i0 1) = Pi.single i0 1 := by rw [Matrix.mulVec_mulVec, hX, Matrix.one_mulVec]
    refine ⟨X *ᵥ Pi.single i0 1, ?_, ?_⟩
    · rw [← hiso, hinv]
      simp [sq]
    · rw [hform, hinv, Finset.sum_eq_single i0]
      · simp
      · intro b _ hb; simp [Pi.single_eq_of_ne hb]
      · simp
  refine ⟨lo, hi, hlo, hhi, rfl, ?_, ?_, ?_⟩
  · intro x hx
    rw [hform]
    have h1 := hsum x hx
    constructor
    · calc lo ^ 2 = ∑ i, lo ^ 2 * ((Xᵀ *ᵥ x) i * (Xᵀ *ᵥ x) i) := by rw [← Finset.mul_sum, h1, mul_one]
        _ ≤ _ := Finset.sum_le_sum fun i _ => mul_le_mul_of_nonneg_right (pow_le_pow_left₀ hlo.le (hb i).1 2) (mul_self_nonneg _)
    · calc _ ≤ ∑ i, hi ^ 2 * ((Xᵀ *ᵥ x) i * (Xᵀ *ᵥ x) i) := Finset.sum_le_sum fun i _ => mul_le_mul_of_nonneg_right (pow_le_pow_left₀ (le_trans hlo.le (hb i).1) (hb i).2 2) (mul_self_nonneg _)
        _ = hi ^ 2 := by rw [← Finset.mul_sum, h1, mul_one]
  · obtain ⟨i, hi0⟩ := hl
    obtain ⟨x, h1, h2⟩ := hatt i
    exact ⟨x, h1, by rw [h2, hi0]⟩
  · obtain ⟨i, hi0⟩ := hh
    obtain ⟨x, h1, h2⟩ := hatt i
    exact ⟨x, h1, by rw [h2, hi0]⟩

/-- The condition number is unique. -/
theorem CondIs.unique {B : Matrix (Fin N) (Fin k) ℝ} {a b : ℝ} (ha : CondIs B a) (hb : CondIs B b) : a = b := by
  obtain ⟨lo, hi, h1, h2, h3, h4, ⟨x, hx, hx'⟩, ⟨y, hy, hy'⟩⟩ := ha
  obtain ⟨lo', hi', g1, g2, g3, g4, ⟨x2, gx, gx'⟩, ⟨y2, gy, gy'⟩⟩ := hb
  have e1 : lo ^ 2 = lo' ^ 2 := le_antisymm (by rw [← gx']; exact (h4 x2 gx).1) (by rw [← hx']; exact (g4 x hx).1)
  have e2 : hi ^ 2 = hi' ^ 2 := le_antisymm (by rw [← hy']; exact (g4 y hy).2) (by rw [← gy']; exact (h4 y2 gy).2)
  have e3 : lo = lo' := by nlinarith
  have e4 : hi = hi' := by nlinarith
  rw [h3, g3, e3, e4]

theorem lin_bounds (condn : ℝ) (hc : 1 ≤ condn) (hk : 2 ≤ k) (i : ℕ) (hi : i < k) : 1 / condn ≤ lin condn k i ∧ lin condn k i ≤ 1 := by
  have hk1 : (0:ℝ) < (k:ℝ) - 1 := by have : (2:ℝ) ≤ k := by exact_mod_cast hk
                                     linarith
  have hi1 : (i:ℝ) ≤ (k:ℝ) - 1 := by have : (i:ℝ) + 1 ≤ k := by exact_mod_cast hi
                                     linarith
  have hc1 : 1 / condn ≤ 1 := by rw [div_le_one (by linarith)]; exact hc
  have hq : 0 ≤ (1 - 1 / condn) / ((k:ℝ) - 1) := div_nonneg (by linarith) hk1.le
  unfold lin
  constructor
  · have : 0 ≤ (1 - 1 / condn) / ((k:ℝ) - 1) * i := mul_nonneg hq (Nat.cast_nonneg _)
    linarith
  · have : (1 - 1 / condn) / ((k:ℝ) - 1) * i ≤ (1 - 1 / condn) / ((k:ℝ) - 1) * ((k:ℝ) - 1) := mul_le_mul_of_nonneg_left hi1 hq
    rw [div_mul_cancel₀ _ hk1.ne'] at this
    linarith

/-! ### Theorems -/

/-- **C122 (partial).**  With the product the comment tells (the arguments of the product exchanged with respect to the code), if all columns of the BV are active and there are at
least two of them, the result has the requested condition number. -/
theorem fixed_cond_partial (condn : ℝ) (hc : 1 ≤ condn) (hk : 2 ≤ k) (B : Matrix (Fin N) (Fin k) ℝ) (eig : ℕ → ℝ) (X : Matrix (Fin k) (Fin k) ℝ) (h : IsEig B eig X) :
    ∃ C, setRandomCondFixed condn B eig X k = some C ∧ CondIs C condn := by
  obtain ⟨d, hd, hM⟩ := fillM_ok (k := k) condn eig (by omega)
  refine ⟨B * ((Xᵀ)ᵀ * matOf d * Xᵀ), by unfold setRandomCondFixed; rw [hd], ?_⟩
  have hgram : (B * ((Xᵀ)ᵀ * matOf (k := k) d * Xᵀ))ᵀ * (B * ((Xᵀ)ᵀ * matOf d * Xᵀ)) = X * Matrix.diagonal (fun i : Fin k => lin condn k i ^ 2) * Xᵀ := by
    rw [hM, Matrix.transpose_transpose]
    have e1 : (B * (X * Matrix.diagonal (fun i : Fin k => lin condn k i / Real.sqrt (eig i)) * Xᵀ))ᵀ * (B * (X * Matrix.diagonal (fun i : Fin k => lin condn k i / Real.sqrt (eig i)) * Xᵀ)) =
        X * Matrix.diagonal (fun i : Fin k => lin condn k i / Real.sqrt (eig i)) * (Xᵀ * (Bᵀ * B) * X) * Matrix.diagonal (fun i : Fin k => lin condn k i / Real.sqrt (eig i)) * Xᵀ := by
      simp only [Matrix.transpose_mul, Matrix.transpose_transpose, Matrix.diagonal_transpose, Matrix.mul_assoc]
    have e2 : Xᵀ * (Bᵀ * B) * X = Matrix.diagonal (fun i : Fin k => eig i) := by
      rw [h.eq]
      calc Xᵀ * (X * Matrix.diagonal (fun i : Fin k => eig i) * Xᵀ) * X = (Xᵀ * X) * Matrix.diagonal (fun i : Fin k => eig i) * (Xᵀ * X) := by simp only [Matrix.mul_assoc]
        _ = _ := by rw [h.orth, Matrix.one_mul, Matrix.mul_one]
    rw [e1, e2, Matrix.mul_assoc X, Matrix.mul_assoc X, Matrix.diagonal_mul_diagonal, Matrix.diagonal_mul_diagonal]
    congr 3
    funext i
    have hp := h.pos i i.2
    have hs : Real.sqrt (eig i) ≠ 0 := (Real.sqrt_pos.mpr hp).ne'
    have hss := Real.mul_self_sqrt hp.le
    field_simp
    rw [pow_two (Real.sqrt _), hss]
  have := cond_of_gram _ X h.orth (fun i : Fin k => lin condn k i) hgram (1 / condn) 1 (by positivity) one_pos
    (fun i => lin_bounds condn hc hk i i.2) ⟨⟨0, by omega⟩, by simp [lin]⟩ ⟨⟨k - 1, by omega⟩, by
      have hk1 : ((k:ℝ) - 1) ≠ 0 := by have : (2:ℝ) ≤ k := by exact_mod_cast hk
                                       intro h; linarith
      show lin condn k (k - 1) = 1
      unfold lin
      rw [Nat.cast_sub (by omega), Nat.cast_one, div_mul_cancel₀ _ hk1]; ring⟩
  simpa using this

/-- Negation (line 647): the code computes `M' X' M` instead of `X M X'`.  For two orthonormal random columns (where `eig=1` and `X` is the identity) the condition number of the result is the
square of the requested one. -/
theorem code_cond_squared (condn : ℝ) (hc : 1 < condn) : ∃ (B : Matrix (Fin 2) (Fin 2) ℝ) (eig : ℕ → ℝ) (X : Matrix (Fin 2) (Fin 2) ℝ), IsEig B eig X ∧
    ∃ C, setRandomCond condn B eig X 2 = some C ∧ CondIs C (condn ^ 2) ∧ ¬ CondIs C condn := by
  obtain ⟨d, hd, hM⟩ := fillM_ok (k := 2) condn (fun _ => 1) (by omega)
  have hE : IsEig (1 : Matrix (Fin 2) (Fin 2) ℝ) (fun _ => 1) 1 := by
    refine ⟨by simp, ?_, fun _ _ => one_pos⟩
    simp
  have hcond : CondIs ((1 : Matrix (Fin 2) (Fin 2) ℝ) * ((matOf (k := 2) d)ᵀ * (1 : Matrix (Fin 2) (Fin 2) ℝ)ᵀ * matOf d)) (condn ^ 2) := by
    rw [hM]
    have := cond_of_gram ((1 : Matrix (Fin 2) (Fin 2) ℝ) * ((Matrix.diagonal (fun i : Fin 2 => lin condn 2 i / Real.sqrt 1))ᵀ * (1 : Matrix (Fin 2) (Fin 2) ℝ)ᵀ * Matrix.diagonal (fun i : Fin 2 => lin condn 2 i / Real.sqrt 1))) 1
      (by simp) (fun i : Fin 2 => lin condn 2 i ^ 2) (by
        simp only [Real.sqrt_one, div_one, Matrix.transpose_one, Matrix.mul_one, Matrix.one_mul, Matrix.diagonal_transpose, Matrix.diagonal_mul_diagonal]
        congr 1
        funext i; ring) ((1 / condn) ^ 2) 1 (by positivity) one_pos
      (fun i => by
        obtain ⟨h1, h2⟩ := lin_bounds condn hc.le (le_refl 2) i i.2
        have h0 : 0 ≤ 1 / condn := by positivity
        exact ⟨pow_le_pow_left₀ h0 h1 2, by nlinarith⟩)
      ⟨0, by simp [lin]⟩ ⟨1, by simp [lin]; norm_num⟩
    have e : 1 / (1 / condn) ^ 2 = condn ^ 2 := by
      have : condn ≠ 0 := by linarith
      field_simp
    rw [e] at this
    exact this
  refine ⟨1, fun _ => 1, 1, hE, _, by unfold setRandomCond; rw [hd], hcond, ?_⟩
  intro h
  have := hcond.unique h
  nlinarith

/-- Negation (line 642): if not all columns of the BV are active (and at least two are) the diagonal is written with the wrong leading dimension, out of the array. -/
theorem code_out_of_bounds (condn : ℝ) (B : Matrix (Fin N) (Fin k) ℝ) (eig : ℕ → ℝ) (X : Matrix (Fin k) (Fin k) ℝ) (m : ℕ) (hk : 2 ≤ k) (hm : k < m) : setRandomCond condn B eig X m = none := by
  have : fillM condn eig k m = none := by
    obtain ⟨k', rfl⟩ : ∃ k', k = k' + 1 := ⟨k - 1, by omega⟩
    unfold fillM
    rw [forN_succ]
    have hno : ¬ (k' + k' * m < (k' + 1) * (k' + 1)) := by nlinarith
    split
    · rfl
    · rw [if_neg hno]
  unfold setRandomCond
  rw [this]

/-- The hypotheses are met by two orthogonal columns of norms 2 and 3. -/
example : IsEig !![(2:ℝ), 0; 0, 3] (fun i => if i = 0 then 4 else 9) 1 := by
  refine ⟨by simp, ?_, ?_⟩
  · ext i j
    fin_cases i <;> fin_cases j <;> simp [Matrix.mul_apply, Fin.sum_univ_two] <;> norm_num
  · intro i _
    by_cases h : i = 0
    · simp [h]
    · simp [h]

end Verif.BVB.Cond
