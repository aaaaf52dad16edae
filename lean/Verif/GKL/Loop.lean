import Verif.GKL.Lem
/-! The invariant of the bidiagonalization. -/
set_option linter.all false
namespace Verif.GKL
open Verif.BV Verif.BVB Finset
variable {𝕜 E F : Type} [RCLike 𝕜] [NormedAddCommGroup E] [InnerProductSpace 𝕜 E] [NormedAddCommGroup F] [InnerProductSpace 𝕜 F]

theorem nxt_gt (p i : ℕ) : i < nxt p i := by
  unfold nxt
  by_cases h : i < p
  · rw [if_pos h]; exact h
  · rw [if_neg h]; omega

theorem nxt_le {p i n : ℕ} (hp : p ≤ n) (hi : i < n) : nxt p i ≤ n := by
  unfold nxt
  by_cases h : i < p
  · rw [if_pos h]; exact hp
  · rw [if_neg h]; omega

theorem bent_self (p : ℕ) (a b : ℕ → ℝ) (i : ℕ) : bent p a b i i = a i := by simp [bent]
theorem bent_nxt (p : ℕ) (a b : ℕ → ℝ) (i : ℕ) : bent p a b i (nxt p i) = b i := by
  have := nxt_gt p i
  unfold bent
  rw [if_neg (by omega), if_pos rfl]
theorem bent_other (p : ℕ) (a b : ℕ → ℝ) {i j : ℕ} (h1 : i ≠ j) (h2 : nxt p i ≠ j) : bent p a b i j = 0 := by simp [bent, h1, h2]
theorem bent_low (p : ℕ) (a b : ℕ → ℝ) {i j : ℕ} (h : j < i) : bent p a b i j = 0 :=
  bent_other p a b (by omega) (by have := nxt_gt p i; omega)

/-- State with `i` columns on both sides finished. -/
structure Run (A : E →ₗ[𝕜] F) (AT : F →ₗ[𝕜] E) (c p i : ℕ) (s : Bid E F) : Prop where
  le : c ≤ p
  onV : Insert.ON 𝕜 s.V i
  onU : Insert.ON 𝕜 s.U i
  low : ∀ j < c, A (s.V j) ∈ Biorth.spanOf 𝕜 s.U (j + 1)
  right : ∀ j, c ≤ j → j < i → A (s.V j) - ∑ m ∈ Ico c (j + 1), ((bent p s.alpha s.beta m j : ℝ) : 𝕜) • s.U m ∈ Biorth.spanOf 𝕜 s.U c
  left : ∀ m, c ≤ m → m + 1 < i → AT (s.U m) = (s.alpha m : 𝕜) • s.V m + (s.beta m : 𝕜) • s.V (nxt p m)

theorem on_congr {col col' : ℕ → E} {n : ℕ} (h : Insert.ON 𝕜 col n) (e : ∀ i < n, col' i = col i) : Insert.ON 𝕜 col' n := by
  intro i hi j hj
  rw [e i hi, e j hj]; exact h i hi j hj

theorem Insert_ON_mono {col : ℕ → E} {k n : ℕ} (h : Insert.ON 𝕜 col n) (hk : k ≤ n) : Insert.ON 𝕜 col k :=
  fun i hi j hj => h i (by omega) j (by omega)

theorem bent_congr {p : ℕ} {a a' b b' : ℕ → ℝ} {m j i : ℕ} (hmj : m ≤ j) (hj : j < i) (ha : ∀ j < i, a' j = a j) (hb : ∀ j, j + 1 < i → b' j = b j) :
    bent p a' b' m j = bent p a b m j := by
  unfold bent
  by_cases h : m = j
  · rw [if_pos h, if_pos h, ha m (by omega)]
  · rw [if_neg h, if_neg h, hb m (by omega)]

theorem Run.congr {A : E →ₗ[𝕜] F} {AT : F →ₗ[𝕜] E} {c p i : ℕ} {s s' : Bid E F} (h : Run A AT c p i s) (hp : p < i)
    (hV : ∀ j < i, s'.V j = s.V j) (hU : ∀ j < i, s'.U j = s.U j) (ha : ∀ j < i, s'.alpha j = s.alpha j) (hb : ∀ j, j + 1 < i → s'.beta j = s.beta j) :
    Run A AT c p i s' := by
  have hle := h.le
  refine ⟨h.le, on_congr h.onV hV, on_congr h.onU hU, ?_, ?_, ?_⟩
  · intro j hj
    rw [hV j (by omega), Biorth.spanOf_congr (fun m hm => hU m (by omega))]
    exact h.low j hj
  · intro j hc hj
    rw [hV j hj, Biorth.spanOf_congr (fun m hm => hU m (by omega))]
    have : ∑ m ∈ Ico c (j + 1), ((bent p s'.alpha s'.beta m j : ℝ) : 𝕜) • s'.U m = ∑ m ∈ Ico c (j + 1), ((bent p s.alpha s.beta m j : ℝ) : 𝕜) • s.U m := by
      refine sum_congr rfl fun m hm => ?_
      have := (mem_Ico.mp hm)
      rw [bent_congr (by omega) hj ha hb, hU m (by omega)]
    rw [this]
    exact h.right j hc hj
  · intro m hc hm
    rw [hU m (by omega), ha m (by omega), hb m hm, hV m (by omega), hV _ (by have := nxt_le (p := p) (i := m) (n := i - 1) (by omega) (by omega); omega)]
    exact h.left m hc hm

theorem Run.tri {A : E →ₗ[𝕜] F} {AT : F →ₗ[𝕜] E} {c p i : ℕ} {s : Bid E F} (h : Run A AT c p i s) (j : ℕ) (hj : j < i) : A (s.V j) ∈ Biorth.spanOf 𝕜 s.U (j + 1) := by
  by_cases hc : j < c
  · exact h.low j hc
  · have h1 := h.right j (by omega) hj
    have h2 := Insert.spanOf_mono (𝕜 := 𝕜) (col := s.U) (k := c) (n := j + 1) (by omega) h1
    have h3 := sum_mem_span (𝕜 := 𝕜) (col := s.U) (n := j + 1) (Ico c (j + 1)) (fun m hm => (mem_Ico.mp hm).2) (fun m => ((bent p s.alpha s.beta m j : ℝ) : 𝕜))
    have := Submodule.add_mem _ h2 h3
    rwa [sub_add_cancel] at this

/-- The diagonal entries are inner products. -/
theorem Run.diag {A : E →ₗ[𝕜] F} {AT : F →ₗ[𝕜] E} {c p i : ℕ} {s : Bid E F} (h : Run A AT c p i s) (j : ℕ) (hc : c ≤ j) (hj : j < i) :
    inner 𝕜 (s.U j) (A (s.V j)) = (s.alpha j : 𝕜) := by
  have h1 := inner_span' (x := s.U j) (fun m hm => by rw [h.onU m (by omega) j hj, if_neg (by omega)]) (h.right j hc hj)
  rw [inner_sub_right, inner_comb (Insert_ON_mono h.onU (k := j + 1) (by omega)) _ (fun m hm => (mem_Ico.mp hm).2) (fun m => ((bent p s.alpha s.beta m j : ℝ) : 𝕜)) (by omega),
    if_pos (mem_Ico.mpr ⟨hc, by omega⟩), bent_self] at h1
  exact sub_eq_zero.mp h1

/-- The coefficients of `A* u_{i-1}`. -/
theorem Run.vstep {A : E →ₗ[𝕜] F} {AT : F →ₗ[𝕜] E} (hadj : Adj A AT) {c p i : ℕ} {s : Bid E F} (h : Run A AT c p i s) (hp : p < i) :
    ∑ m ∈ range i, inner 𝕜 (s.V m) (AT (s.U (i - 1))) • s.V m = (s.alpha (i - 1) : 𝕜) • s.V (i - 1) := by
  have hle := h.le
  have hi : i - 1 ∈ range i := mem_range.mpr (by omega)
  rw [Finset.sum_eq_single_of_mem (i - 1) hi]
  · rw [← hadj, ← inner_conj_symm, h.diag (i - 1) (by omega) (by omega), RCLike.conj_ofReal]
  · intro m hm hne
    have hm' := mem_range.mp hm
    rw [← hadj, inner_span (x := s.U (i - 1)) (fun q hq => by rw [h.onU q (by omega) (i - 1) (by omega), if_neg (by omega)]) (h.tri m hm'), zero_smul]

/-- The coefficients of `A v_i`. -/
theorem ustep {A : E →ₗ[𝕜] F} {AT : F →ₗ[𝕜] E} (hadj : Adj A AT) {c p i : ℕ} {V : ℕ → E} {U : ℕ → F} {a b : ℕ → ℝ} (hcp : c ≤ p) (hpi : p ≤ i) (hV : Insert.ON 𝕜 V (i + 1))
    (left : ∀ m, c ≤ m → m < i → AT (U m) = (a m : 𝕜) • V m + (b m : 𝕜) • V (nxt p m)) :
    ∑ m ∈ range i, inner 𝕜 (U m) (A (V i)) • U m - ∑ m ∈ Ico c i, ((bent p a b m i : ℝ) : 𝕜) • U m ∈ Biorth.spanOf 𝕜 U c := by
  have e : ∑ m ∈ range i, inner 𝕜 (U m) (A (V i)) • U m = ∑ m ∈ range c, inner 𝕜 (U m) (A (V i)) • U m + ∑ m ∈ Ico c i, inner 𝕜 (U m) (A (V i)) • U m :=
    (Finset.sum_range_add_sum_Ico _ (by omega)).symm
  have e2 : ∑ m ∈ Ico c i, inner 𝕜 (U m) (A (V i)) • U m = ∑ m ∈ Ico c i, ((bent p a b m i : ℝ) : 𝕜) • U m := by
    refine sum_congr rfl fun m hm => ?_
    obtain ⟨h1, h2⟩ := mem_Ico.mp hm
    congr 1
    rw [← inner_conj_symm, hadj, left m h1 h2, inner_add_right, inner_smul_right, inner_smul_right, hV i (by omega) m (by omega), if_neg (by omega), mul_zero, zero_add,
      hV i (by omega) _ (by have := nxt_le (p := p) hpi h2; omega)]
    by_cases hx : i = nxt p m
    · rw [if_pos hx, mul_one, RCLike.conj_ofReal]
      have := bent_nxt p a b m
      rw [← hx] at this
      rw [this]
    · rw [if_neg hx, mul_zero, map_zero, bent_other p a b (by omega) (fun e => hx e.symm), RCLike.ofReal_zero]
  rw [e, e2, add_sub_cancel_right]
  exact sum_mem_span _ (fun m hm => mem_range.mp hm) _

end Verif.GKL
