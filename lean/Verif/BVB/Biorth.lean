import Verif.BVB.Base
import Mathlib.Analysis.InnerProductSpace.Basic
import Mathlib.Analysis.InnerProductSpace.PiL2
/-!
Model of `src/sys/classes/bv/interface/bvbiorthog.c`: biorthogonalization of the columns of two bases.  Vectors are elements of an inner product space
`E`; the inner product `⟪w,v⟫` of Mathlib is `w^H v`, that is `VecDot(v,w)`.  The columns `0..m-1` of a basis are the values of a function of the
index.  There is no inner product matrix and there are no constraints (both are checked by the code, lines 114-115).
-/
set_option linter.all false
namespace Verif.BVB.Biorth

variable {𝕜 E : Type*} [RCLike 𝕜] [NormedAddCommGroup E] [InnerProductSpace 𝕜 E]

/-- BVOrthogType and whether BVOrthogRefineType is different from NEVER (`V->orthog_type`, `V->orthog_ref`, bvimpl.h). -/
structure Opt where
  mgs : Bool
  refine : Bool

variable (𝕜) in
/-- bvbiorthog.c:19-39 BVBiorthogonalizeMGS1: for each column `i<k`, `h_i=(v,w_i)`, `v <- v-h_i v_i`; returns the vector and the coefficients `c`. -/
def mgs1 (V W : ℕ → E) (k : ℕ) (v : E) : E × (ℕ → 𝕜) :=
  forN k (fun i (s : E × (ℕ → 𝕜)) => (s.1 - inner 𝕜 (W i) s.1 • V i, wr s.2 i (inner 𝕜 (W i) s.1))) (v, fun _ => 0)

variable (𝕜) in
/-- bvbiorthog.c:44-55 BVBiorthogonalizeCGS1: `c = W' v`, `v = v - V c`. -/
def cgs1 (V W : ℕ → E) (k : ℕ) (v : E) : E × (ℕ → 𝕜) :=
  let c : ℕ → 𝕜 := fun i => if i < k then inner 𝕜 (W i) v else 0
  (v - ∑ i ∈ Finset.range k, c i • V i, c)

variable (𝕜) in
/-- bvbiorthog.c:57 the macro that selects one of them. -/
def gs1 (o : Opt) (V W : ℕ → E) (k : ℕ) (v : E) : E × (ℕ → 𝕜) := if o.mgs then mgs1 𝕜 V W k v else cgs1 𝕜 V W k v

variable (𝕜) in
/-- bvbiorthog.c:65-76 BVBiorthogonalizeGS: one step, and a second one unless refinement is NEVER; coefficients are added in `h`
(BV_CleanCoefficients, BV_AddCoefficients). -/
def gs (o : Opt) (V W : ℕ → E) (k : ℕ) (v : E) : E × (ℕ → 𝕜) :=
  let s := gs1 𝕜 o V W k v
  if o.refine then ((gs1 𝕜 o V W k s.1).1, fun i => s.2 i + (gs1 𝕜 o V W k s.1).2 i) else s

variable (𝕜) in
/-- bvbiorthog.c:96-144 BVBiorthogonalizeColumn (lines 118-142): column `j` of `V` against the first `j` columns of `W`, and then column `j` of `W` against
the first `j` columns of `V`.  In the second call the roles are exchanged, so that the options are those of `W`. -/
def bioCol (oV oW : Opt) (V W : ℕ → E) (j : ℕ) : (ℕ → E) × (ℕ → E) :=
  let V' := wr V j (gs 𝕜 oV V W j (V j)).1
  (V', wr W j (gs 𝕜 oW W V' j (W j)).1)

variable (𝕜) in
/-- bvbiorthog.c:168-231 BVBiorthonormalizeColumn: as before (192-214) and then scaling (216-227): `alpha = VecDot(z,y)`, `delta = sqrt(|alpha|)`, column `j` of `V` by
`1/conj(alpha/delta)` and that of `W` by `1/delta`; returns also `delta`.  A division by zero gives zero here and an infinite or undefined number in the code. -/
noncomputable def bionormCol (oV oW : Opt) (V W : ℕ → E) (j : ℕ) : (ℕ → E) × (ℕ → E) × ℝ :=
  let b := bioCol 𝕜 oV oW V W j
  let alpha : 𝕜 := inner 𝕜 (b.1 j) (b.2 j)
  let deltat : ℝ := Real.sqrt ‖alpha‖
  (wr b.1 j ((1 / (starRingEnd 𝕜) (alpha / (deltat : 𝕜))) • b.1 j), wr b.2 j ((1 / (deltat : 𝕜)) • b.2 j), deltat)

variable (𝕜) in
/-- A loop of the caller over all columns `0..m-1`; the values `delta` are kept. -/
noncomputable def bionormAll (oV oW : Opt) (V W : ℕ → E) (m : ℕ) : (ℕ → E) × (ℕ → E) × (ℕ → ℝ) :=
  forN m (fun j s => let r := bionormCol 𝕜 oV oW s.1 s.2.1 j; (r.1, r.2.1, wr s.2.2 j r.2.2)) (V, W, fun _ => 0)

/-! ### Specification -/

variable (𝕜) in
/-- The first `k` columns are biorthonormal: `W^H V = I`. -/
def Biorthonormal (V W : ℕ → E) (k : ℕ) : Prop := ∀ i < k, ∀ j < k, inner 𝕜 (W i) (V j) = if i = j then (1 : 𝕜) else 0

variable (𝕜) in
/-- The span of the first `k` columns. -/
def spanOf (V : ℕ → E) (k : ℕ) : Submodule 𝕜 E := Submodule.span 𝕜 {v | ∃ i < k, v = V i}

/-! ### Lemmas -/

theorem Biorthonormal.symm {V W : ℕ → E} {k : ℕ} (h : Biorthonormal 𝕜 V W k) : Biorthonormal 𝕜 W V k := by
  intro i hi j hj
  rw [← inner_conj_symm, h j hj i hi]
  by_cases hij : i = j
  · simp [hij]
  · rw [if_neg (fun e => hij e.symm), if_neg hij]; simp

theorem Biorthonormal.mono {V W : ℕ → E} {k l : ℕ} (h : Biorthonormal 𝕜 V W k) (hl : l ≤ k) : Biorthonormal 𝕜 V W l :=
  fun i hi j hj => h i (lt_of_lt_of_le hi hl) j (lt_of_lt_of_le hj hl)

theorem inner_comb {V W : ℕ → E} {k : ℕ} (h : Biorthonormal 𝕜 V W k) (c : ℕ → 𝕜) (i : ℕ) (hi : i < k) :
    inner 𝕜 (W i) (∑ t ∈ Finset.range k, c t • V t) = c i := by
  rw [inner_sum, Finset.sum_eq_single i]
  · rw [inner_smul_right, h i hi i hi, if_pos rfl, mul_one]
  · intro t ht hti
    rw [inner_smul_right, h i hi t (Finset.mem_range.mp ht), if_neg (fun e => hti e.symm), mul_zero]
  · intro hh; exact absurd (Finset.mem_range.mpr hi) hh

theorem cgs1_spec {V W : ℕ → E} {k : ℕ} (h : Biorthonormal 𝕜 V W k) (v : E) :
    v = ∑ t ∈ Finset.range k, (cgs1 𝕜 V W k v).2 t • V t + (cgs1 𝕜 V W k v).1 ∧ ∀ i < k, inner 𝕜 (W i) (cgs1 𝕜 V W k v).1 = 0 := by
  refine ⟨by simp [cgs1], ?_⟩
  intro i hi
  have := inner_comb h (cgs1 𝕜 V W k v).2 i hi
  show inner 𝕜 (W i) (v - ∑ t ∈ Finset.range k, (cgs1 𝕜 V W k v).2 t • V t) = 0
  rw [inner_sub_right, this]
  simp [cgs1, hi]

theorem mgs1_inv {V W : ℕ → E} {k : ℕ} (h : Biorthonormal 𝕜 V W k) (v : E) (n : ℕ) (hn : n ≤ k) :
    v = ∑ t ∈ Finset.range n, (mgs1 𝕜 V W n v).2 t • V t + (mgs1 𝕜 V W n v).1 ∧ ∀ i < n, inner 𝕜 (W i) (mgs1 𝕜 V W n v).1 = 0 := by
  induction n with
  | zero => simp [mgs1]
  | succ n ih =>
    obtain ⟨h1, h2⟩ := ih (by omega)
    obtain ⟨s, hs⟩ : ∃ s, s = mgs1 𝕜 V W n v := ⟨_, rfl⟩
    have e : mgs1 𝕜 V W (n + 1) v = (s.1 - inner 𝕜 (W n) s.1 • V n, wr s.2 n (inner 𝕜 (W n) s.1)) := by rw [hs]; rfl
    rw [← hs] at h1 h2
    rw [e]
    refine ⟨?_, ?_⟩
    · rw [Finset.sum_range_succ]
      have : ∑ t ∈ Finset.range n, wr s.2 n (inner 𝕜 (W n) s.1) t • V t = ∑ t ∈ Finset.range n, s.2 t • V t := by
        refine Finset.sum_congr rfl fun t ht => ?_
        have := Finset.mem_range.mp ht
        simp [wr, show t ≠ n by omega]
      show v = ∑ t ∈ Finset.range n, wr s.2 n (inner 𝕜 (W n) s.1) t • V t + wr s.2 n (inner 𝕜 (W n) s.1) n • V n + (s.1 - inner 𝕜 (W n) s.1 • V n)
      rw [this]
      conv_lhs => rw [h1]
      simp [wr]
    · intro i hi
      show inner 𝕜 (W i) (s.1 - inner 𝕜 (W n) s.1 • V n) = 0
      rw [inner_sub_right, inner_smul_right, h i (by omega) n (by omega)]
      by_cases hin : i = n
      · subst hin; simp
      · rw [if_neg hin, h2 i (by omega)]; simp

theorem gs1_spec (o : Opt) {V W : ℕ → E} {k : ℕ} (h : Biorthonormal 𝕜 V W k) (v : E) :
    v = ∑ t ∈ Finset.range k, (gs1 𝕜 o V W k v).2 t • V t + (gs1 𝕜 o V W k v).1 ∧ ∀ i < k, inner 𝕜 (W i) (gs1 𝕜 o V W k v).1 = 0 := by
  unfold gs1
  by_cases hm : o.mgs = true
  · rw [if_pos hm]; exact mgs1_inv h v k le_rfl
  · rw [if_neg hm]; exact cgs1_spec h v

theorem gs_spec (o : Opt) {V W : ℕ → E} {k : ℕ} (h : Biorthonormal 𝕜 V W k) (v : E) :
    v = ∑ t ∈ Finset.range k, (gs 𝕜 o V W k v).2 t • V t + (gs 𝕜 o V W k v).1 ∧ ∀ i < k, inner 𝕜 (W i) (gs 𝕜 o V W k v).1 = 0 := by
  by_cases hr : o.refine = true
  · have e : gs 𝕜 o V W k v = ((gs1 𝕜 o V W k (gs1 𝕜 o V W k v).1).1, fun i => (gs1 𝕜 o V W k v).2 i + (gs1 𝕜 o V W k (gs1 𝕜 o V W k v).1).2 i) := by
      unfold gs; dsimp only; rw [if_pos hr]
    obtain ⟨h1, h2⟩ := gs1_spec o h v
    obtain ⟨h3, h4⟩ := gs1_spec o h (gs1 𝕜 o V W k v).1
    rw [e]
    refine ⟨?_, h4⟩
    simp only [add_smul, Finset.sum_add_distrib]
    rw [add_assoc, ← h3]
    exact h1
  · have e : gs 𝕜 o V W k v = gs1 𝕜 o V W k v := by unfold gs; dsimp only; rw [if_neg hr]
    rw [e]; exact gs1_spec o h v

/-- The first step depends only on the first columns. -/
theorem mgs1_congr {V V' W W' : ℕ → E} (k : ℕ) (hV : ∀ i < k, V i = V' i) (hW : ∀ i < k, W i = W' i) (v : E) : mgs1 𝕜 V W k v = mgs1 𝕜 V' W' k v := by
  induction k with
  | zero => rfl
  | succ k ih =>
    have := ih (fun i hi => hV i (by omega)) (fun i hi => hW i (by omega))
    unfold mgs1 at this ⊢
    rw [forN_succ, forN_succ, this, hV k (by omega), hW k (by omega)]

theorem wr_other {α : Type*} (a : ℕ → α) (p : ℕ) (v : α) {x : ℕ} (h : x ≠ p) : wr a p v x = a x := by simp [wr, h]
theorem wr_same {α : Type*} (a : ℕ → α) (p : ℕ) (v : α) : wr a p v p = v := by simp [wr]

theorem spanOf_congr {V V' : ℕ → E} {k : ℕ} (h : ∀ i < k, V i = V' i) : spanOf 𝕜 V k = spanOf 𝕜 V' k := by
  unfold spanOf
  congr 1
  ext x
  constructor
  · rintro ⟨i, hi, rfl⟩; exact ⟨i, hi, h i hi⟩
  · rintro ⟨i, hi, rfl⟩; exact ⟨i, hi, (h i hi).symm⟩

theorem mem_spanOf {V : ℕ → E} {k i : ℕ} (hi : i < k) : V i ∈ spanOf 𝕜 V k := Submodule.subset_span ⟨i, hi, rfl⟩

theorem comb_mem {V : ℕ → E} {k n : ℕ} (hn : n ≤ k) (c : ℕ → 𝕜) : ∑ t ∈ Finset.range n, c t • V t ∈ spanOf 𝕜 V k :=
  Submodule.sum_mem _ fun t ht => Submodule.smul_mem _ _ (mem_spanOf (lt_of_lt_of_le (Finset.mem_range.mp ht) hn))

/-- Replacing the last column by a nonzero multiple of it plus a combination of the others keeps the span. -/
theorem span_step {V : ℕ → E} {j : ℕ} {w : E} {c : ℕ → 𝕜} {a : 𝕜} (ha : a ≠ 0) (h : V j = ∑ t ∈ Finset.range j, c t • V t + w) :
    spanOf 𝕜 (wr V j (a • w)) (j + 1) = spanOf 𝕜 V (j + 1) := by
  apply le_antisymm
  · refine Submodule.span_le.mpr ?_
    rintro x ⟨i, hi, rfl⟩
    by_cases hij : i = j
    · subst hij
      rw [wr_same]
      refine Submodule.smul_mem _ _ ?_
      have : w = V i - ∑ t ∈ Finset.range i, c t • V t := by rw [h]; simp
      rw [this]
      exact Submodule.sub_mem _ (mem_spanOf (by omega)) (comb_mem (by omega) c)
    · rw [wr_other _ _ _ hij]; exact mem_spanOf hi
  · refine Submodule.span_le.mpr ?_
    rintro x ⟨i, hi, rfl⟩
    have hm : ∀ t < j, V t ∈ spanOf 𝕜 (wr V j (a • w)) (j + 1) := fun t ht => by
      have := mem_spanOf (𝕜 := 𝕜) (V := wr V j (a • w)) (k := j + 1) (i := t) (by omega)
      rwa [wr_other _ _ _ (by omega)] at this
    by_cases hij : i = j
    · subst hij
      rw [h]
      refine Submodule.add_mem _ (Submodule.sum_mem _ fun t ht => Submodule.smul_mem _ _ (hm t (Finset.mem_range.mp ht))) ?_
      have h1 := mem_spanOf (𝕜 := 𝕜) (V := wr V i (a • w)) (k := i + 1) (i := i) (by omega)
      rw [wr_same] at h1
      have h2 := Submodule.smul_mem _ a⁻¹ h1
      rwa [smul_smul, inv_mul_cancel₀ ha, one_smul] at h2
    · exact hm i (by omega)

end Verif.BVB.Biorth
