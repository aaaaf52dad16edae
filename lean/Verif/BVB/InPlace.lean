import Verif.BVB.Base
import Mathlib.Data.Complex.Basic
import Mathlib.Algebra.BigOperators.Intervals
/-!
Model of `BVMultInPlace` and `BVMultInPlaceHermitianTranspose` (src/sys/classes/bv/interface/bvops.c:220-293) for the storage types:
`BVMultInPlace_BLAS_Private` and `BVMultInPlace_Vecs_Private` (bvblas.c:74-158), svec.c:54-88 (contiguous and mat are the same), vecs.c:87-154.
Exact arithmetic.  The local rows of one process: `V r c` is row `r` of column `c` (numbered without the constraints); `q` is the array of the dense matrix `Q`.
The number of rows treated together (`BLOCKSIZE`, 64) is a parameter `bs`.
-/
set_option linter.all false
namespace Verif.BVB
variable {𝕜 : Type} [Field 𝕜] [StarRing 𝕜]

/-- One block of rows: `BLASgemm` into the work array, then the copy to columns `s` to `e-1`.  `u` is the number of terms, `a r t` the entries of the first factor
and `b t c` those of the second. -/
def rowBlock (r0 len s e u : ℕ) (col0 : ℕ) (b : ℕ → ℕ → 𝕜) (V : ℕ → ℕ → 𝕜) : ℕ → ℕ → 𝕜 :=
  fun r c => if (r0 ≤ r ∧ r < r0 + len) ∧ (s ≤ c ∧ c < e) then ∑ t ∈ Finset.range u, V r (col0 + t) * b t (c - s) else V r c

/-- Loop over blocks of rows, bvblas.c:95-103 and 129-155: first the remainder, then `m/bs` blocks. -/
def rowLoop (bs m s e u col0 : ℕ) (b : ℕ → ℕ → 𝕜) (V : ℕ → ℕ → 𝕜) : ℕ → ℕ → 𝕜 :=
  let l := m % bs
  let V1 := if l ≠ 0 then rowBlock 0 l s e u col0 b V else V
  forN (m / bs) (fun i V => rowBlock (l + i * bs) bs s e u col0 b V) V1

/-- Data of a call: block size, local rows, active range, number of columns of `Q`, leading dimension of `Q`, `s`, `e`. -/
structure Call where
  bs : ℕ
  m : ℕ
  l : ℕ
  k : ℕ
  ncq : ℕ
  ldq : ℕ
  s : ℕ
  e : ℕ

/-- `BVMultInPlace_Svec` and `BVMultInPlaceHermitianTranspose_Svec`, svec.c:54-88, with `BVMultInPlace_BLAS_Private`, bvblas.c:74-106: the
arrays start at the leading columns. -/
def svecInPlace (d : Call) (trans : Bool) (q : ℕ → 𝕜) (V : ℕ → ℕ → 𝕜) : ℕ → ℕ → 𝕜 :=
  if d.e ≤ d.s ∨ d.m = 0 then V
  else
    let base := d.l * d.ldq + d.l
    let s' := d.s - d.l
    let b := if trans then fun t c => star (q (base + s' + c + t * d.ldq)) else fun t c => q (base + s' * d.ldq + t + c * d.ldq)
    rowLoop d.bs d.m d.s d.e (d.k - d.l) d.l b V

/-- `VecMAXPY(V_i, n, q+off, V+j0)`. -/
def maxpy (m i n off j0 : ℕ) (q : ℕ → 𝕜) (V : ℕ → ℕ → 𝕜) : ℕ → ℕ → 𝕜 :=
  fun r c => if r < m ∧ c = i then V r c + ∑ t ∈ Finset.range n, q (off + t) * V r (j0 + t) else V r c

/-- `BVMultInPlace_Vecs_ME`, vecs.c:87-105, with `BVMultInPlace_Vecs_Private`, bvblas.c:113-158. -/
def vecsME (d : Call) (q : ℕ → 𝕜) (V : ℕ → ℕ → 𝕜) : ℕ → ℕ → 𝕜 :=
  let V1 := rowLoop d.bs d.m d.s d.e (d.e - d.s) d.s (fun t c => q (d.s * d.ldq + d.s + t + c * d.ldq)) V
  forR d.s d.e (fun i V =>
    let V := if d.l < d.s then maxpy d.m i (d.s - d.l) (i * d.ldq + d.l) d.l q V else V
    if d.e < d.k then maxpy d.m i (d.k - d.e) (i * d.ldq + d.e) d.e q V else V) V1

/-- `BVMultInPlace_Vecs_Alloc`, vecs.c:112-130: work vectors, then copies. -/
def vecsAlloc (d : Call) (q : ℕ → 𝕜) (V : ℕ → ℕ → 𝕜) : ℕ → ℕ → 𝕜 :=
  let W : ℕ → ℕ → 𝕜 := forR d.s d.e (fun i (W : ℕ → ℕ → 𝕜) => fun r c => if c = i - d.s then
    W r c + ∑ t ∈ Finset.range (d.k - d.l), q (i * d.ldq + d.l + t) * V r (d.l + t) else W r c) (fun _ _ => 0)
  forR d.s d.e (fun i V => fun r c => if r < d.m ∧ c = i then W r (i - d.s) else V r c) V

/-- `BVMultInPlaceHermitianTranspose_Vecs`, vecs.c:135-154. -/
def vecsTrans (d : Call) (q : ℕ → 𝕜) (V : ℕ → ℕ → 𝕜) : ℕ → ℕ → 𝕜 :=
  let V1 := rowLoop d.bs d.m d.s d.e (d.e - d.s) d.s (fun t c => star (q (d.s * d.ldq + d.s + c + t * d.ldq))) V
  forR d.s d.e (fun i V =>
    let V := forR d.l d.s (fun j V => fun r c => if r < d.m ∧ c = i then V r c + q (i + j * d.ldq) * V r j else V r c) V
    forR d.e d.ncq (fun j V => fun r c => if r < d.m ∧ c = i then V r c + q (i + j * d.ldq) * V r j else V r c) V) V1

/-- Specification: columns `s` to `e-1` of `V(:,l:k-1)*Q(l:k-1,:)`, everything else unchanged. -/
def IsProduct (d : Call) (q : ℕ → 𝕜) (V V' : ℕ → ℕ → 𝕜) : Prop :=
  ∀ r c, V' r c = if r < d.m ∧ (d.s ≤ c ∧ c < d.e) then ∑ t ∈ Finset.Ico d.l d.k, V r t * q (t + c * d.ldq) else V r c

/-- Specification: the same with the conjugate transpose of `Q`. -/
def IsProductH (d : Call) (q : ℕ → 𝕜) (V V' : ℕ → ℕ → 𝕜) : Prop :=
  ∀ r c, V' r c = if r < d.m ∧ (d.s ≤ c ∧ c < d.e) then ∑ t ∈ Finset.Ico d.l d.k, V r t * star (q (c + t * d.ldq)) else V r c

/-! ### Lemmas -/

theorem rowLoop_apply (bs m s e u col0 : ℕ) (b : ℕ → ℕ → 𝕜) (V : ℕ → ℕ → 𝕜) (hbs : 0 < bs) (r c : ℕ) :
    rowLoop bs m s e u col0 b V r c =
      if r < m ∧ (s ≤ c ∧ c < e) then ∑ t ∈ Finset.range u, V r (col0 + t) * b t (c - s) else V r c := by
  unfold rowLoop
  obtain ⟨V1, hV1⟩ : ∃ V1, V1 = (if m % bs ≠ 0 then rowBlock 0 (m % bs) s e u col0 b V else V) := ⟨_, rfl⟩
  rw [← hV1]
  have h0 : ∀ r c, V1 r c = if r < m % bs ∧ (s ≤ c ∧ c < e) then ∑ t ∈ Finset.range u, V r (col0 + t) * b t (c - s) else V r c := by
    intro r c
    rw [hV1]
    by_cases h : m % bs ≠ 0
    · rw [if_pos h]
      unfold rowBlock
      simp only [Nat.zero_le, true_and, Nat.zero_add]
    · rw [if_neg h, if_neg (by omega)]
  have key := forN_inv (f := fun i V => rowBlock (m % bs + i * bs) bs s e u col0 b V) (s := V1)
    (fun n (U : ℕ → ℕ → 𝕜) => ∀ r c, U r c = if r < m % bs + n * bs ∧ (s ≤ c ∧ c < e) then ∑ t ∈ Finset.range u, V r (col0 + t) * b t (c - s) else V r c) (m / bs)
    (by simpa using h0)
    (fun i hi U hU r c => by
      have hu : ∀ c', ¬ (r < m % bs + i * bs) → U r c' = V r c' := fun c' h => by rw [hU r c', if_neg (fun hh => h hh.1)]
      unfold rowBlock
      have e1 : m % bs + (i + 1) * bs = m % bs + i * bs + bs := by ring
      rw [e1]
      by_cases h : (m % bs + i * bs ≤ r ∧ r < m % bs + i * bs + bs) ∧ (s ≤ c ∧ c < e)
      · rw [if_pos h, if_pos ⟨h.1.2, h.2⟩]
        exact Finset.sum_congr rfl (fun t _ => by rw [hu _ (by omega)])
      · rw [if_neg h, hU r c]
        by_cases h2 : r < m % bs + i * bs ∧ (s ≤ c ∧ c < e)
        · rw [if_pos h2, if_pos ⟨by omega, h2.2⟩]
        · rw [if_neg h2, if_neg]
          rintro ⟨g1, g2⟩
          by_cases hr : r < m % bs + i * bs
          · exact h2 ⟨hr, g2⟩
          · exact h ⟨⟨by omega, g1⟩, g2⟩)
  have hm : m % bs + m / bs * bs = m := Nat.mod_add_div' m bs
  rw [key r c, hm]

theorem sum_shift (f : ℕ → 𝕜) (a b : ℕ) (h : a ≤ b) : ∑ t ∈ Finset.range (b - a), f (a + t) = ∑ t ∈ Finset.Ico a b, f t := by
  rw [Finset.sum_Ico_eq_sum_range]

theorem svec_product (d : Call) (q : ℕ → 𝕜) (V : ℕ → ℕ → 𝕜) (hbs : 0 < d.bs) (hlk : d.l ≤ d.k) (hs : d.l ≤ d.s) :
    IsProduct d q V (svecInPlace d false q V) := by
  intro r c
  unfold svecInPlace
  by_cases h : d.e ≤ d.s ∨ d.m = 0
  · rw [if_pos h, if_neg (by omega)]
  · rw [if_neg h]
    simp only [Bool.false_eq_true, if_false]
    rw [rowLoop_apply _ _ _ _ _ _ _ _ hbs]
    by_cases h2 : r < d.m ∧ (d.s ≤ c ∧ c < d.e)
    · rw [if_pos h2, if_pos h2, ← sum_shift _ _ _ hlk]
      refine Finset.sum_congr rfl (fun t _ => ?_)
      have : d.l * d.ldq + d.l + (d.s - d.l) * d.ldq + t + (c - d.s) * d.ldq = d.l + t + c * d.ldq := by
        have e1 : d.l * d.ldq + (d.s - d.l) * d.ldq = d.s * d.ldq := by rw [← Nat.add_mul, Nat.add_sub_cancel' hs]
        have e2 : d.s * d.ldq + (c - d.s) * d.ldq = c * d.ldq := by rw [← Nat.add_mul, Nat.add_sub_cancel' h2.2.1]
        omega
      rw [this]
    · rw [if_neg h2, if_neg h2]

theorem svec_productH (d : Call) (q : ℕ → 𝕜) (V : ℕ → ℕ → 𝕜) (hbs : 0 < d.bs) (hlk : d.l ≤ d.k) (hs : d.l ≤ d.s) :
    IsProductH d q V (svecInPlace d true q V) := by
  intro r c
  unfold svecInPlace
  by_cases h : d.e ≤ d.s ∨ d.m = 0
  · rw [if_pos h, if_neg (by omega)]
  · rw [if_neg h]
    simp only [if_true]
    rw [rowLoop_apply _ _ _ _ _ _ _ _ hbs]
    by_cases h2 : r < d.m ∧ (d.s ≤ c ∧ c < d.e)
    · rw [if_pos h2, if_pos h2, ← sum_shift _ _ _ hlk]
      refine Finset.sum_congr rfl (fun t _ => ?_)
      have : d.l * d.ldq + d.l + (d.s - d.l) + (c - d.s) + t * d.ldq = c + (d.l + t) * d.ldq := by
        have e2 : (d.l + t) * d.ldq = d.l * d.ldq + t * d.ldq := by ring
        omega
      rw [this]
    · rw [if_neg h2, if_neg h2]

theorem alloc_product (d : Call) (q : ℕ → 𝕜) (V : ℕ → ℕ → 𝕜) (hlk : d.l ≤ d.k) (hse : d.s ≤ d.e) : IsProduct d q V (vecsAlloc d q V) := by
  intro r c
  unfold vecsAlloc
  obtain ⟨W, hW⟩ : ∃ W : ℕ → ℕ → 𝕜, W = forR d.s d.e (fun i (W : ℕ → ℕ → 𝕜) => fun r c => if c = i - d.s then
    W r c + ∑ t ∈ Finset.range (d.k - d.l), q (i * d.ldq + d.l + t) * V r (d.l + t) else W r c) (fun _ _ => 0) := ⟨_, rfl⟩
  rw [← hW]
  have h1 : ∀ r c, W r c = if c < d.e - d.s then ∑ t ∈ Finset.range (d.k - d.l), q ((d.s + c) * d.ldq + d.l + t) * V r (d.l + t) else 0 := by
    rw [hW]
    refine forR_inv (fun n (U : ℕ → ℕ → 𝕜) => ∀ r c, U r c = if c < n - d.s then ∑ t ∈ Finset.range (d.k - d.l), q ((d.s + c) * d.ldq + d.l + t) * V r (d.l + t) else 0)
      hse (fun r c => by rw [if_neg (by omega)]) (fun i hi1 hi2 U hU r c => ?_)
    by_cases h : c = i - d.s
    · have e1 : d.s + c = i := by omega
      simp only [if_pos h]
      rw [hU r c, if_neg (by omega), if_pos (by omega), zero_add, e1]
    · simp only [if_neg h]
      rw [hU r c]
      by_cases h2 : c < i - d.s
      · rw [if_pos h2, if_pos (by omega)]
      · rw [if_neg h2, if_neg (by omega)]
  refine (forR_inv (fun n (U : ℕ → ℕ → 𝕜) => ∀ r c, U r c = if r < d.m ∧ (d.s ≤ c ∧ c < n) then W r (c - d.s) else V r c) hse
    (fun r c => by rw [if_neg (by omega)]) (fun i hi1 hi2 U hU r c => ?_) r c).trans ?_
  · by_cases h : r < d.m ∧ c = i
    · simp only [if_pos h]
      rw [if_pos (by omega), h.2]
    · simp only [if_neg h]
      rw [hU r c]
      by_cases h2 : r < d.m ∧ (d.s ≤ c ∧ c < i)
      · rw [if_pos h2, if_pos (by omega)]
      · rw [if_neg h2, if_neg (by omega)]
  · by_cases h : r < d.m ∧ (d.s ≤ c ∧ c < d.e)
    · rw [if_pos h, if_pos h, h1, if_pos (by omega), Nat.add_sub_cancel' h.2.1, ← sum_shift _ _ _ hlk]
      refine Finset.sum_congr rfl (fun t _ => ?_)
      rw [mul_comm, Nat.add_assoc, Nat.add_comm (c * d.ldq)]
    · rw [if_neg h, if_neg h]

theorem me_product (d : Call) (q : ℕ → 𝕜) (V : ℕ → ℕ → 𝕜) (hbs : 0 < d.bs) (hs : d.l ≤ d.s) (hse : d.s ≤ d.e) (hek : d.e ≤ d.k) :
    IsProduct d q V (vecsME d q V) := by
  intro r c
  unfold vecsME
  simp only
  obtain ⟨V1, hV1⟩ : ∃ V1, V1 = rowLoop d.bs d.m d.s d.e (d.e - d.s) d.s (fun t c => q (d.s * d.ldq + d.s + t + c * d.ldq)) V := ⟨_, rfl⟩
  have h1 : ∀ r c, V1 r c = if r < d.m ∧ (d.s ≤ c ∧ c < d.e) then ∑ t ∈ Finset.Ico d.s d.e, V r t * q (t + c * d.ldq) else V r c := by
    intro r c
    rw [hV1, rowLoop_apply _ _ _ _ _ _ _ _ hbs]
    by_cases h2 : r < d.m ∧ (d.s ≤ c ∧ c < d.e)
    · rw [if_pos h2, if_pos h2, ← sum_shift _ _ _ hse]
      refine Finset.sum_congr rfl (fun t _ => ?_)
      have : d.s * d.ldq + d.s + t + (c - d.s) * d.ldq = d.s + t + c * d.ldq := by
        have e2 : d.s * d.ldq + (c - d.s) * d.ldq = c * d.ldq := by rw [← Nat.add_mul, Nat.add_sub_cancel' h2.2.1]
        omega
      rw [this]
    · rw [if_neg h2, if_neg h2]
  rw [← hV1]
  refine (forR_inv (fun n (U : ℕ → ℕ → 𝕜) => ∀ r c, U r c = if r < d.m ∧ (d.s ≤ c ∧ c < n) then
      ∑ t ∈ Finset.Ico d.s d.e, V r t * q (t + c * d.ldq) + ∑ t ∈ Finset.Ico d.l d.s, V r t * q (t + c * d.ldq) +
        ∑ t ∈ Finset.Ico d.e d.k, V r t * q (t + c * d.ldq) else V1 r c) hse
    (fun r c => by rw [if_neg (by omega)]) (fun i hi1 hi2 U hU => ?_) r c).trans ?_
  · -- the first part
    obtain ⟨U1, hU1⟩ : ∃ U1, U1 = (if d.l < d.s then maxpy d.m i (d.s - d.l) (i * d.ldq + d.l) d.l q U else U) := ⟨_, rfl⟩
    rw [← hU1]
    have hout : ∀ r c, ¬ (d.s ≤ c ∧ c < d.e) → U r c = V r c := fun r c h => by
      rw [hU r c, if_neg (by omega), h1 r c, if_neg (by omega)]
    have e1 : ∀ r c, U1 r c = if r < d.m ∧ c = i then U r c + ∑ t ∈ Finset.Ico d.l d.s, V r t * q (t + c * d.ldq) else U r c := by
      intro r c
      rw [hU1]
      by_cases h : d.l < d.s
      · rw [if_pos h]
        unfold maxpy
        by_cases h2 : r < d.m ∧ c = i
        · rw [if_pos h2, if_pos h2, ← sum_shift _ _ _ hs]
          congr 1
          refine Finset.sum_congr rfl (fun t ht => ?_)
          rw [Finset.mem_range] at ht
          rw [hout r _ (by omega), mul_comm, h2.2, Nat.add_assoc, Nat.add_comm (i * d.ldq)]
        · rw [if_neg h2, if_neg h2]
      · rw [if_neg h]
        have : d.l = d.s := by omega
        rw [this, Finset.Ico_self, Finset.sum_empty, add_zero]
        simp
    obtain ⟨U2, hU2⟩ : ∃ U2, U2 = (if d.e < d.k then maxpy d.m i (d.k - d.e) (i * d.ldq + d.e) d.e q U1 else U1) := ⟨_, rfl⟩
    rw [← hU2]
    have e2 : ∀ r c, U2 r c = if r < d.m ∧ c = i then U1 r c + ∑ t ∈ Finset.Ico d.e d.k, V r t * q (t + c * d.ldq) else U1 r c := by
      intro r c
      rw [hU2]
      by_cases h : d.e < d.k
      · rw [if_pos h]
        unfold maxpy
        by_cases h2 : r < d.m ∧ c = i
        · rw [if_pos h2, if_pos h2, ← sum_shift _ _ _ hek]
          congr 1
          refine Finset.sum_congr rfl (fun t ht => ?_)
          rw [Finset.mem_range] at ht
          rw [e1 r _, if_neg (by omega), hout r _ (by omega), mul_comm, h2.2, Nat.add_assoc, Nat.add_comm (i * d.ldq)]
        · rw [if_neg h2, if_neg h2]
      · rw [if_neg h]
        have : d.e = d.k := by omega
        rw [this, Finset.Ico_self, Finset.sum_empty, add_zero]
        simp
    intro r c
    rw [e2 r c, e1 r c, hU r c]
    by_cases h : r < d.m ∧ c = i
    · rw [if_pos h, if_pos h, if_neg (by omega), h1 r c, if_pos (by omega), if_pos (by omega)]
    · rw [if_neg h, if_neg h]
      by_cases h2 : r < d.m ∧ (d.s ≤ c ∧ c < i)
      · rw [if_pos h2, if_pos (by omega)]
      · rw [if_neg h2, if_neg (by omega)]
  · by_cases h : r < d.m ∧ (d.s ≤ c ∧ c < d.e)
    · rw [if_pos h, if_pos h, ← Finset.sum_Ico_consecutive _ hs (le_trans hse hek), ← Finset.sum_Ico_consecutive _ hse hek]
      ring
    · rw [if_neg h, if_neg h, h1 r c, if_neg h]

/-- Loop of `VecAXPY` onto column `i` with columns outside `[s,e)`. -/
theorem axpyLoop (m i a b ldq : ℕ) (q : ℕ → 𝕜) (U : ℕ → ℕ → 𝕜) (hab : a ≤ b) (hi : ¬ (a ≤ i ∧ i < b)) (r c : ℕ) :
    forR a b (fun j (V : ℕ → ℕ → 𝕜) => fun r c => if r < m ∧ c = i then V r c + q (i + j * ldq) * V r j else V r c) U r c =
      if r < m ∧ c = i then U r c + ∑ t ∈ Finset.Ico a b, U r t * q (i + t * ldq) else U r c := by
  refine forR_inv (fun n (T : ℕ → ℕ → 𝕜) => ∀ r c, T r c = if r < m ∧ c = i then U r c + ∑ t ∈ Finset.Ico a n, U r t * q (i + t * ldq) else U r c) hab
    (fun r c => by simp) (fun j h1 h2 T hT r c => ?_) r c
  by_cases h : r < m ∧ c = i
  · simp only [if_pos h]
    rw [hT r c, if_pos h, hT r j, if_neg (by omega), Finset.sum_Ico_succ_top h1, mul_comm (q _)]
    ring
  · simp only [if_neg h]
    rw [hT r c, if_neg h]

theorem trans_product (d : Call) (q : ℕ → 𝕜) (V : ℕ → ℕ → 𝕜) (hbs : 0 < d.bs) (hs : d.l ≤ d.s) (hse : d.s ≤ d.e) (hek : d.e ≤ d.k)
    (hn : d.ncq = d.k) (hreal : ∀ z : 𝕜, star z = z) : IsProductH d q V (vecsTrans d q V) := by
  intro r c
  unfold vecsTrans
  simp only [hreal]
  obtain ⟨V1, hV1⟩ : ∃ V1, V1 = rowLoop d.bs d.m d.s d.e (d.e - d.s) d.s (fun t c => q (d.s * d.ldq + d.s + c + t * d.ldq)) V := ⟨_, rfl⟩
  have h1 : ∀ r c, V1 r c = if r < d.m ∧ (d.s ≤ c ∧ c < d.e) then ∑ t ∈ Finset.Ico d.s d.e, V r t * q (c + t * d.ldq) else V r c := by
    intro r c
    rw [hV1, rowLoop_apply _ _ _ _ _ _ _ _ hbs]
    by_cases h2 : r < d.m ∧ (d.s ≤ c ∧ c < d.e)
    · rw [if_pos h2, if_pos h2, ← sum_shift _ _ _ hse]
      refine Finset.sum_congr rfl (fun t _ => ?_)
      have : d.s * d.ldq + d.s + (c - d.s) + t * d.ldq = c + (d.s + t) * d.ldq := by
        have e2 : (d.s + t) * d.ldq = d.s * d.ldq + t * d.ldq := by ring
        omega
      rw [this]
    · rw [if_neg h2, if_neg h2]
  rw [← hV1]
  refine (forR_inv (fun n (U : ℕ → ℕ → 𝕜) => ∀ r c, U r c = if r < d.m ∧ (d.s ≤ c ∧ c < n) then
      ∑ t ∈ Finset.Ico d.s d.e, V r t * q (c + t * d.ldq) + ∑ t ∈ Finset.Ico d.l d.s, V r t * q (c + t * d.ldq) +
        ∑ t ∈ Finset.Ico d.e d.k, V r t * q (c + t * d.ldq) else V1 r c) hse
    (fun r c => by rw [if_neg (by omega)]) (fun i hi1 hi2 U hU r c => ?_) r c).trans ?_
  · have hout : ∀ r c, ¬ (d.s ≤ c ∧ c < d.e) → U r c = V r c := fun r c h => by
      rw [hU r c, if_neg (by omega), h1 r c, if_neg (by omega)]
    rw [axpyLoop d.m i d.e d.ncq d.ldq q _ (by omega) (by omega), axpyLoop d.m i d.l d.s d.ldq q _ hs (by omega)]
    by_cases h : r < d.m ∧ c = i
    · rw [if_pos h, if_pos h, if_pos (by omega), hU r c, if_neg (by omega), h1 r c, if_pos (by omega), h.2, hn]
      congr 1
      · congr 1
        exact Finset.sum_congr rfl (fun t ht => by rw [Finset.mem_Ico] at ht; rw [hout r t (by omega)])
      · refine Finset.sum_congr rfl (fun t ht => ?_)
        rw [Finset.mem_Ico] at ht
        rw [axpyLoop d.m i d.l d.s d.ldq q _ hs (by omega), if_neg (by omega), hout r t (by omega)]
    · rw [if_neg h, if_neg h, hU r c]
      by_cases h2 : r < d.m ∧ (d.s ≤ c ∧ c < i)
      · rw [if_pos h2, if_pos (by omega)]
      · rw [if_neg h2, if_neg (by omega)]
  · by_cases h : r < d.m ∧ (d.s ≤ c ∧ c < d.e)
    · rw [if_pos h, if_pos h, ← Finset.sum_Ico_consecutive _ hs (le_trans hse hek), ← Finset.sum_Ico_consecutive _ hse hek]
      ring
    · rw [if_neg h, if_neg h, h1 r c, if_neg h]

/-- The storage types. -/
inductive Store where
  | contiguous
  | vecsMemory
  | vecsAlloc
  deriving DecidableEq

/-- `BVMultInPlace`, bvops.c:220-245, after the checks.  In the contiguous case `s ≥ e` returns at once; the vector types are called with
`s ≤ e`. -/
def multInPlace (ty : Store) (d : Call) (q : ℕ → 𝕜) (V : ℕ → ℕ → 𝕜) : ℕ → ℕ → 𝕜 :=
  match ty with
  | .contiguous => svecInPlace d false q V
  | .vecsMemory => vecsME d q V
  | .vecsAlloc => vecsAlloc d q V

/-- `BVMultInPlaceHermitianTranspose`, bvops.c:268-293. -/
def multInPlaceH (ty : Store) (d : Call) (q : ℕ → 𝕜) (V : ℕ → ℕ → 𝕜) : ℕ → ℕ → 𝕜 :=
  match ty with
  | .contiguous => svecInPlace d true q V
  | _ => vecsTrans d q V

/-- **C115**, `BVMultInPlace`: right for all storage types and sizes if the columns computed are active ones; for contiguous storage and for the version with work vectors
also if not.  Full property: `e > k` also for the memory-saving version of the type vecs (`memory_version_inactive` shows that it is false). -/
theorem multInPlace_partial (ty : Store) (d : Call) (q : ℕ → 𝕜) (V : ℕ → ℕ → 𝕜) (hbs : 0 < d.bs) (hlk : d.l ≤ d.k) (hs : d.l ≤ d.s) (hse : d.s ≤ d.e)
    (he : ty = .vecsMemory → d.e ≤ d.k) : IsProduct d q V (multInPlace ty d q V) := by
  cases ty with
  | contiguous => exact svec_product d q V hbs hlk hs
  | vecsMemory => exact me_product d q V hbs hs hse (he rfl)
  | vecsAlloc => exact alloc_product d q V hlk hse

/-- The storage type does not matter. -/
theorem multInPlace_types (ty ty' : Store) (d : Call) (q : ℕ → 𝕜) (V : ℕ → ℕ → 𝕜) (hbs : 0 < d.bs) (hs : d.l ≤ d.s) (hse : d.s ≤ d.e) (he : d.e ≤ d.k) :
    multInPlace ty d q V = multInPlace ty' d q V := by
  funext r c
  rw [multInPlace_partial ty d q V hbs (by omega) hs hse (fun _ => he) r c, multInPlace_partial ty' d q V hbs (by omega) hs hse (fun _ => he) r c]

/-- **C115**, `BVMultInPlaceHermitianTranspose`: right for contiguous storage; for the type vecs only with real scalars, a matrix with exactly `k` columns, and
active columns.  Full property: without these conditions (`trans_not_conjugated` and `trans_all_columns` show that it is false). -/
theorem multInPlaceH_partial (ty : Store) (d : Call) (q : ℕ → 𝕜) (V : ℕ → ℕ → 𝕜) (hbs : 0 < d.bs) (hlk : d.l ≤ d.k) (hs : d.l ≤ d.s) (hse : d.s ≤ d.e)
    (he : ty ≠ .contiguous → d.e ≤ d.k ∧ d.ncq = d.k ∧ ∀ z : 𝕜, star z = z) : IsProductH d q V (multInPlaceH ty d q V) := by
  cases ty with
  | contiguous => exact svec_productH d q V hbs hlk hs
  | vecsMemory => obtain ⟨h1, h2, h3⟩ := he (by decide); exact trans_product d q V hbs hs hse h1 h2 h3
  | vecsAlloc => obtain ⟨h1, h2, h3⟩ := he (by decide); exact trans_product d q V hbs hs hse h1 h2 h3

/-- The hypotheses are met: 100 rows in blocks of 64, columns 1 to 4 active, columns 2 and 3 computed. -/
example (q : ℕ → ℂ) (V : ℕ → ℕ → ℂ) : IsProduct ⟨64, 100, 1, 5, 5, 7, 2, 4⟩ q V (multInPlace .vecsMemory ⟨64, 100, 1, 5, 5, 7, 2, 4⟩ q V) :=
  multInPlace_partial _ _ q V (by decide) (by decide) (by decide) (by decide) (fun _ => by decide)

/-- **Not C115**: the memory-saving version of the type vecs multiplies also by an inactive column, if that column is computed. -/
theorem memory_version_inactive : ∃ (q : ℕ → ℝ) (V : ℕ → ℕ → ℝ),
    multInPlace .vecsMemory ⟨64, 1, 0, 1, 2, 2, 1, 2⟩ q V 0 1 = 2 ∧ multInPlace .contiguous ⟨64, 1, 0, 1, 2, 2, 1, 2⟩ q V 0 1 = 1 := by
  refine ⟨fun _ => 1, fun _ _ => 1, ?_, ?_⟩
  · show vecsME _ _ _ 0 1 = 2
    simp [vecsME, rowLoop, rowBlock, forR, maxpy]
    norm_num
  · simp [multInPlace, svecInPlace, rowLoop, rowBlock, forR]

/-- **Not C115** (vecs.c:149): the product with the conjugate transpose lacks the conjugate for the columns before `s`. -/
theorem trans_not_conjugated : ∃ (q : ℕ → ℂ) (V : ℕ → ℕ → ℂ),
    multInPlaceH .vecsMemory ⟨64, 1, 0, 2, 2, 2, 1, 2⟩ q V 0 1 = Complex.I ∧ multInPlaceH .contiguous ⟨64, 1, 0, 2, 2, 2, 1, 2⟩ q V 0 1 = - Complex.I := by
  refine ⟨fun a => if a = 1 then Complex.I else 0, fun _ _ => 1, ?_, ?_⟩
  · simp [multInPlaceH, vecsTrans, rowLoop, rowBlock, forR]
  · simp [multInPlaceH, svecInPlace, rowLoop, rowBlock, forR, Finset.sum_range_succ]

/-- **Not C115** (vecs.c:150): the loop runs over all columns of `Q`, not over the active columns of `V`. -/
theorem trans_all_columns : ∃ (q : ℕ → ℝ) (V : ℕ → ℕ → ℝ),
    multInPlaceH .vecsMemory ⟨64, 1, 0, 1, 2, 2, 0, 1⟩ q V 0 0 = 2 ∧ multInPlaceH .contiguous ⟨64, 1, 0, 1, 2, 2, 0, 1⟩ q V 0 0 = 1 := by
  refine ⟨fun _ => 1, fun _ _ => 1, ?_, ?_⟩
  · simp [multInPlaceH, vecsTrans, rowLoop, rowBlock, forR]
    norm_num
  · simp [multInPlaceH, svecInPlace, rowLoop, rowBlock, forR]

end Verif.BVB
