import Verif.Harm.Spec
/-! Helper lemmas for harmonic and refined extraction. -/
set_option linter.all false
namespace Verif.Harm
noncomputable section
open Classical
variable {𝕜 : Type} [RCLike 𝕜] {E : Type} [NormedAddCommGroup E] [InnerProductSpace 𝕜 E]

theorem translateG_eq {n : ℕ} {A : ℕ → ℕ → 𝕜} {tau : 𝕜} {beta : ℝ} {g : ℕ → 𝕜} (h : translateG n A tau beta = some g) :
    ∀ j, j < n → ∑ i ∈ Finset.range n, (starRingEnd 𝕜) (A i j - if i = j then tau else 0) * g i = if j + 1 = n then (beta : 𝕜) else 0 := by
  intro j hj
  unfold translateG at h
  by_cases hd : (shifted n A tau).det = 0
  · rw [if_pos hd] at h; cases h
  rw [if_neg hd] at h
  have hg := Option.some.inj h
  have hu : IsUnit (shifted n A tau).conjTranspose.det := by
    rw [Matrix.det_conjTranspose]
    exact isUnit_iff_ne_zero.2 (by simpa using hd)
  have key := Matrix.mul_nonsing_inv (shifted n A tau).conjTranspose hu
  have h2 := congrArg (fun M : Matrix (Fin n) (Fin n) 𝕜 => M.mulVec (fun j : Fin n => if j.1 + 1 = n then (beta : 𝕜) else 0) ⟨j, hj⟩) key
  simp only [← Matrix.mulVec_mulVec, Matrix.one_mulVec] at h2
  rw [← h2]
  rw [Matrix.mulVec, dotProduct, ← hg, Finset.sum_range]
  refine Finset.sum_congr rfl fun i _ => ?_
  simp only [i.2, dif_pos, Matrix.conjTranspose_apply, shifted, Matrix.of_apply, Fin.eta]
  have : (if (i : ℕ) = j then tau else 0) = if i = (⟨j, hj⟩ : Fin n) then tau else 0 := by
    simp only [Fin.ext_iff]
  rw [this]
  rfl

theorem translateG_beyond {n : ℕ} {A : ℕ → ℕ → 𝕜} {tau : 𝕜} {beta : ℝ} {g : ℕ → 𝕜} (h : translateG n A tau beta = some g) :
    ∀ j, n ≤ j → g j = 0 := by
  intro j hj
  unfold translateG at h
  by_cases hd : (shifted n A tau).det = 0
  · rw [if_pos hd] at h; cases h
  rw [if_neg hd] at h
  rw [← Option.some.inj h]
  exact dif_neg (by omega)

theorem inner_comb_right (V : ℕ → E) (n : ℕ) (y : ℕ → 𝕜) (x : E) : inner 𝕜 x (comb V n y) = ∑ i ∈ Finset.range n, y i * inner 𝕜 x (V i) := by
  unfold comb
  rw [inner_sum]
  exact Finset.sum_congr rfl fun i _ => inner_smul_right _ _ _

theorem inner_comb_left (V : ℕ → E) (n : ℕ) (y : ℕ → 𝕜) (x : E) :
    inner 𝕜 (comb V n y) x = ∑ i ∈ Finset.range n, (starRingEnd 𝕜) (y i) * inner 𝕜 (V i) x := by
  unfold comb
  rw [sum_inner]
  exact Finset.sum_congr rfl fun i _ => inner_smul_left _ _ _

theorem inner_col_comb {V : ℕ → E} {N n : ℕ} (h : Orthon 𝕜 V N) (hn : n ≤ N) (y : ℕ → 𝕜) {j : ℕ} (hj : j < N) :
    inner 𝕜 (V j) (comb V n y) = if j < n then y j else 0 := by
  rw [inner_comb_right]
  by_cases hjn : j < n
  · rw [if_pos hjn, Finset.sum_eq_single j]
    · rw [h j j hj hj, if_pos rfl, mul_one]
    · intro i hi hij
      rw [h j i hj (lt_of_lt_of_le (Finset.mem_range.1 hi) hn), if_neg (Ne.symm hij), mul_zero]
    · intro hh; exact absurd (Finset.mem_range.2 hjn) hh
  · rw [if_neg hjn]
    refine Finset.sum_eq_zero fun i hi => ?_
    have := Finset.mem_range.1 hi
    rw [h j i hj (lt_of_lt_of_le this hn), if_neg (by omega), mul_zero]

theorem inner_comb_comb {V : ℕ → E} {N n : ℕ} (h : Orthon 𝕜 V N) (hn : n ≤ N) (y z : ℕ → 𝕜) :
    inner 𝕜 (comb V n y) (comb V n z) = ∑ i ∈ Finset.range n, (starRingEnd 𝕜) (y i) * z i := by
  rw [inner_comb_left]
  refine Finset.sum_congr rfl fun i hi => ?_
  have := Finset.mem_range.1 hi
  rw [inner_col_comb h hn z (lt_of_lt_of_le this hn), if_pos this]

theorem inner_comb_col {V : ℕ → E} {N n : ℕ} (h : Orthon 𝕜 V N) (hn : n < N) (y : ℕ → 𝕜) : inner 𝕜 (comb V n y) (V n) = 0 := by
  rw [← inner_conj_symm, inner_col_comb h hn.le y hn, if_neg (lt_irrefl _), map_zero]

theorem sum_conj_self (n : ℕ) (y : ℕ → 𝕜) : ∑ i ∈ Finset.range n, (starRingEnd 𝕜) (y i) * y i = ((∑ i ∈ Finset.range n, ‖y i‖ ^ 2 : ℝ) : 𝕜) := by
  push_cast
  exact Finset.sum_congr rfl fun i _ => RCLike.conj_mul _

/-- Norm of a combination of orthonormal columns and one more. -/
theorem norm_comb_add {V : ℕ → E} {n : ℕ} (h : Orthon 𝕜 V (n + 1)) (y : ℕ → 𝕜) (c : 𝕜) :
    ‖comb V n y + c • V n‖ ^ 2 = ∑ i ∈ Finset.range n, ‖y i‖ ^ 2 + ‖c‖ ^ 2 := by
  have h1 : ((‖comb V n y + c • V n‖ ^ 2 : ℝ) : 𝕜) = ((∑ i ∈ Finset.range n, ‖y i‖ ^ 2 + ‖c‖ ^ 2 : ℝ) : 𝕜) := by
    have := inner_self_eq_norm_sq_to_K (𝕜 := 𝕜) (comb V n y + c • V n)
    rw [show ((‖comb V n y + c • V n‖ ^ 2 : ℝ) : 𝕜) = (‖comb V n y + c • V n‖ : 𝕜) ^ 2 by push_cast; rfl, ← this]
    rw [inner_add_left, inner_add_right, inner_add_right, inner_comb_comb h (Nat.le_succ n), inner_smul_right, inner_comb_col h (Nat.lt_succ_self n),
      inner_smul_left, inner_col_comb h (Nat.le_succ n) y (Nat.lt_succ_self n), if_neg (lt_irrefl n), inner_smul_left, inner_smul_right,
      h n n (Nat.lt_succ_self n) (Nat.lt_succ_self n), if_pos rfl, sum_conj_self]
    have := RCLike.conj_mul c
    push_cast
    rw [← this]
    ring
  exact_mod_cast h1

theorem norm_comb {V : ℕ → E} {n : ℕ} (h : Orthon 𝕜 V (n + 1)) (y : ℕ → 𝕜) : ‖comb V n y‖ ^ 2 = ∑ i ∈ Finset.range n, ‖y i‖ ^ 2 := by
  have := norm_comb_add h y 0
  simpa using this

theorem comb_sub (V : ℕ → E) (n : ℕ) (y z : ℕ → 𝕜) : comb V n (fun i => y i - z i) = comb V n y - comb V n z := by
  unfold comb; rw [← Finset.sum_sub_distrib]; exact Finset.sum_congr rfl fun i _ => sub_smul _ _ _

theorem comb_add (V : ℕ → E) (n : ℕ) (y z : ℕ → 𝕜) : comb V n (fun i => y i + z i) = comb V n y + comb V n z := by
  unfold comb; rw [← Finset.sum_add_distrib]; exact Finset.sum_congr rfl fun i _ => add_smul _ _ _

theorem comb_smul (V : ℕ → E) (n : ℕ) (c : 𝕜) (y : ℕ → 𝕜) : comb V n (fun i => c * y i) = c • comb V n y := by
  unfold comb; rw [Finset.smul_sum]; exact Finset.sum_congr rfl fun i _ => mul_smul _ _ _

theorem comb_succ (V : ℕ → E) (n : ℕ) (y : ℕ → 𝕜) : comb V (n + 1) y = comb V n y + y n • V n := Finset.sum_range_succ _ _

theorem comb_single (V : ℕ → E) {n j : ℕ} (hj : j < n) (y : ℕ → 𝕜) (h : ∀ i, i < n → i ≠ j → y i = 0) : comb V n y = y j • V j := by
  unfold comb
  rw [Finset.sum_eq_single j]
  · intro b hb hbj
    rw [h b (Finset.mem_range.1 hb) hbj, zero_smul]
  · intro hh; exact absurd (Finset.mem_range.2 hj) hh

theorem comb_extend (V : ℕ → E) {m n : ℕ} (hmn : m ≤ n) (y : ℕ → 𝕜) (h : ∀ i, m ≤ i → i < n → y i = 0) : comb V n y = comb V m y := by
  unfold comb
  refine (Finset.sum_subset (Finset.range_mono hmn) fun x hx hx2 => ?_).symm
  rw [h x (by simpa using hx2) (Finset.mem_range.1 hx), zero_smul]

theorem comb_congr {V W : ℕ → E} {n : ℕ} {y z : ℕ → 𝕜} (h : ∀ i, i < n → y i • V i = z i • W i) : comb V n y = comb W n z :=
  Finset.sum_congr rfl fun i hi => h i (Finset.mem_range.1 hi)

theorem gammaOf_pos (n : ℕ) (g : ℕ → 𝕜) : 0 < gammaOf n g :=
  Real.sqrt_pos.2 (by have : 0 ≤ ∑ i ∈ Finset.range n, ‖g i‖ ^ 2 := Finset.sum_nonneg fun i _ => by positivity
                      linarith)

theorem gammaOf_sq (n : ℕ) (g : ℕ → 𝕜) : gammaOf n g ^ 2 = 1 + ∑ i ∈ Finset.range n, ‖g i‖ ^ 2 := by
  unfold gammaOf
  rw [Real.sq_sqrt]
  have : 0 ≤ ∑ i ∈ Finset.range n, ‖g i‖ ^ 2 := Finset.sum_nonneg fun i _ => by positivity
  linarith

theorem norm_resvec {V : ℕ → E} {n : ℕ} (h : Orthon 𝕜 V (n + 1)) (g : ℕ → 𝕜) : ‖V n - comb V n g‖ = gammaOf n g := by
  have h1 := norm_comb_add h (fun i => - g i) 1
  have h2 : comb V n (fun i => - g i) + (1 : 𝕜) • V n = V n - comb V n g := by
    rw [one_smul]
    have : comb V n (fun i => - g i) = - comb V n g := by
      unfold comb; rw [← Finset.sum_neg_distrib]; exact Finset.sum_congr rfl fun i _ => neg_smul _ _
    rw [this]; abel
  rw [h2] at h1
  simp only [norm_neg, norm_one, one_pow] at h1
  have h3 : ‖V n - comb V n g‖ ^ 2 = gammaOf n g ^ 2 := by rw [h1, gammaOf_sq]; ring
  exact (sq_eq_sq₀ (norm_nonneg _) (gammaOf_pos n g).le).1 h3

/-- Columns `V*Q`. -/
def rot (V : ℕ → E) (n : ℕ) (Q : ℕ → ℕ → 𝕜) (j : ℕ) : E := comb V n (fun i => Q i j)

theorem rot_orth {V : ℕ → E} {n l : ℕ} {A : ℕ → ℕ → 𝕜} {d : Dense 𝕜} (h : Orthon 𝕜 V (n + 1)) (hs : IsSchur n l A d) {i j : ℕ} (hi : i < n)
    (hj : j < n) : inner 𝕜 (rot V n d.Q i) (rot V n d.Q j) = if i = j then (1 : 𝕜) else 0 := by
  unfold rot
  rw [inner_comb_comb h (Nat.le_succ n), hs.unit i j hi hj]

theorem comb_rot (V : ℕ → E) (n m : ℕ) (Q : ℕ → ℕ → 𝕜) (y : ℕ → 𝕜) :
    comb (rot V n Q) m y = comb V n (fun r => ∑ i ∈ Finset.range m, Q r i * y i) := by
  unfold rot comb
  simp only [Finset.smul_sum, Finset.sum_smul]
  rw [Finset.sum_comm]
  refine Finset.sum_congr rfl fun r _ => Finset.sum_congr rfl fun i _ => ?_
  rw [smul_smul, mul_comm]

/-- The operator on a combination that involves no locked column. -/
theorem op_comb {Op : E →ₗ[𝕜] E} {s : State 𝕜 E} {r : ℕ → E} (h : Decomp Op s r) (y : ℕ → 𝕜) (hy : ∀ i, i < s.nconv → y i = 0) :
    Op (comb s.V s.n y) = comb s.V s.n (fun i => ∑ j ∈ Finset.range s.n, s.A i j * y j) + ((s.beta : 𝕜) * y (s.n - 1)) • s.V s.n := by
  have hsz := h.size
  have h1 : Op (comb s.V s.n y) =
      ∑ j ∈ Finset.range s.n, (y j • comb s.V s.n (fun i => s.A i j) + if j + 1 = s.n then ((s.beta : 𝕜) * y j) • s.V s.n else 0) := by
    unfold comb
    rw [map_sum]
    refine Finset.sum_congr rfl fun j hj => ?_
    rw [LinearMap.map_smul]
    by_cases hjl : s.nconv ≤ j
    · rw [h.rel j hjl (Finset.mem_range.1 hj), smul_add]
      congr 1
      by_cases hjn : j + 1 = s.n
      · rw [if_pos hjn, if_pos hjn, smul_smul, mul_comm]
      · rw [if_neg hjn, if_neg hjn, smul_zero]
    · rw [hy j (by omega), zero_smul, zero_smul, mul_zero, zero_smul, ite_self, add_zero]
  rw [h1, Finset.sum_add_distrib]
  congr 1
  · unfold comb
    simp only [Finset.smul_sum, Finset.sum_smul]
    rw [Finset.sum_comm]
    refine Finset.sum_congr rfl fun r _ => Finset.sum_congr rfl fun i _ => ?_
    rw [smul_smul, mul_comm]
  · rw [Finset.sum_eq_single (s.n - 1)]
    · rw [if_pos (by omega)]
    · intro b hb hne
      rw [if_neg (by omega)]
    · intro hh; exact absurd (Finset.mem_range.2 (by omega)) hh

theorem translateA_sum {n : ℕ} (hn : 0 < n) (A : ℕ → ℕ → 𝕜) (g : ℕ → 𝕜) (beta : ℝ) (y : ℕ → 𝕜) {i : ℕ} (hi : i < n) :
    ∑ j ∈ Finset.range n, translateA n A g beta i j * y j = ∑ j ∈ Finset.range n, A i j * y j + g i * ((beta : 𝕜) * y (n - 1)) := by
  have h1 : ∀ j ∈ Finset.range n, translateA n A g beta i j * y j = A i j * y j + if j = n - 1 then g i * ((beta : 𝕜) * y (n - 1)) else 0 := by
    intro j hj
    have := Finset.mem_range.1 hj
    unfold translateA
    by_cases hjn : j + 1 = n
    · rw [if_pos ⟨hjn, hi⟩, if_pos (by omega), show n - 1 = j by omega]; ring
    · rw [if_neg (fun hh => hjn hh.1), if_neg (by omega), add_zero]
  rw [Finset.sum_congr rfl h1, Finset.sum_add_distrib, Finset.sum_ite_eq', if_pos (Finset.mem_range.2 (by omega))]

/-- The translated relation on a combination that involves no locked column. -/
theorem op_comb_trans {Op : E →ₗ[𝕜] E} {s : State 𝕜 E} {r : ℕ → E} (h : Decomp Op s r) (g : ℕ → 𝕜) (y : ℕ → 𝕜) (hy : ∀ i, i < s.nconv → y i = 0) :
    Op (comb s.V s.n y) = comb s.V s.n (fun i => ∑ j ∈ Finset.range s.n, translateA s.n s.A g s.beta i j * y j) +
      ((s.beta : 𝕜) * y (s.n - 1)) • (s.V s.n - comb s.V s.n g) := by
  have hsz := h.size
  rw [op_comb h y hy]
  have h1 : comb s.V s.n (fun i => ∑ j ∈ Finset.range s.n, translateA s.n s.A g s.beta i j * y j) =
      comb s.V s.n (fun i => ∑ j ∈ Finset.range s.n, s.A i j * y j) + ((s.beta : 𝕜) * y (s.n - 1)) • comb s.V s.n g := by
    rw [← comb_smul, ← comb_add]
    refine comb_congr fun i hi => ?_
    rw [translateA_sum (by omega) _ _ _ _ hi, mul_comm (g i)]
  rw [h1, smul_sub]
  abel

/-- The operator on an active column of `V*Q`. -/
theorem op_rot {Op : E →ₗ[𝕜] E} {s : State 𝕜 E} {r : ℕ → E} (h : Decomp Op s r) {g : ℕ → 𝕜} {d : Dense 𝕜}
    (hs : IsSchur s.n s.nconv (translateA s.n s.A g s.beta) d) {j : ℕ} (hj0 : s.nconv ≤ j) (hj : j < s.n) {c : ℕ} (hc : Cut d.T s.n c) (hcn : c ≤ s.n)
    (hjc : j < c) : Op (rot s.V s.n d.Q j) = comb (rot s.V s.n d.Q) c (fun i => d.T i j) +
      ((s.beta : 𝕜) * d.Q (s.n - 1) j) • (s.V s.n - comb s.V s.n g) := by
  have h1 := op_comb_trans h g (fun i => d.Q i j) (fun i hi => by
    have := hs.rows i j hi hj
    rw [if_neg (by omega)] at this; exact this)
  unfold rot at *
  rw [h1]
  congr 1
  have h2 : comb (fun k => comb s.V s.n fun i => d.Q i k) c (fun i => d.T i j) = comb s.V s.n (fun r => ∑ i ∈ Finset.range c, d.Q r i * d.T i j) :=
    comb_rot s.V s.n c d.Q (fun i => d.T i j)
  rw [h2]
  refine comb_congr fun i hi => ?_
  rw [hs.sim i j hi hj0 hj]
  congr 1
  refine (Finset.sum_subset (Finset.range_mono hcn) fun x hx hx2 => ?_).symm
  rw [hc x j (by simpa using hx2) (Finset.mem_range.1 hx) hjc, mul_zero]

end
end Verif.Harm
