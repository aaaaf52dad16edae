import Verif.GKL.SolveModel
import Verif.GKL.TwoThm
/-! Lemmas about one iteration of the Lanczos solvers for singular values. -/
set_option linter.all false
namespace Verif.GKL
open Verif.BV Verif.BVB Finset
variable {𝕜 E F : Type} [RCLike 𝕜] [NormedAddCommGroup E] [InnerProductSpace 𝕜 E] [NormedAddCommGroup F] [InnerProductSpace 𝕜 F]

/-- Once the marker is set the loop only changes error estimates with index at least `k`. -/
theorem convLoop_set (getall : Bool) (tol : ℝ) (est : ℕ → ℝ) (fuel k m : ℕ) (err : ℕ → ℝ) :
    (convLoop getall tol est fuel k (some m) err).1 = m ∧ ∀ j < k, (convLoop getall tol est fuel k (some m) err).2 j = err j := by
  induction fuel generalizing k err with
  | zero => exact ⟨rfl, fun _ _ => rfl⟩
  | succ f ih =>
    unfold convLoop
    dsimp only
    rw [if_neg (fun h : some m = none ∧ _ => by cases h.1)]
    by_cases hg : getall = false
    · rw [if_pos ⟨by simp, hg⟩]
      exact ⟨rfl, fun j hj => Biorth.wr_other _ _ _ (by omega)⟩
    · rw [if_neg (fun h => hg h.2)]
      obtain ⟨h1, h2⟩ := ih (k + 1) (wr err k (est k))
      exact ⟨h1, fun j hj => (h2 j (by omega)).trans (Biorth.wr_other _ _ _ (by omega))⟩

/-- The convergence loop: the first index whose estimate is not below the tolerance. -/
theorem convLoop_spec (getall : Bool) (tol : ℝ) (est : ℕ → ℝ) (fuel k : ℕ) (err : ℕ → ℝ) :
    k ≤ (convLoop getall tol est fuel k none err).1 ∧ (convLoop getall tol est fuel k none err).1 ≤ k + fuel ∧
    (∀ j < k, (convLoop getall tol est fuel k none err).2 j = err j) ∧
    (∀ j, k ≤ j → j < (convLoop getall tol est fuel k none err).1 → (convLoop getall tol est fuel k none err).2 j = est j ∧ est j < tol) ∧
    ((convLoop getall tol est fuel k none err).1 < k + fuel → tol ≤ est (convLoop getall tol est fuel k none err).1) := by
  induction fuel generalizing k err with
  | zero => exact ⟨le_rfl, le_rfl, fun _ _ => rfl, fun j h1 h2 => absurd (lt_of_le_of_lt h1 h2) (lt_irrefl _), fun h => absurd h (lt_irrefl _)⟩
  | succ f ih =>
    by_cases ht : est k ≥ tol
    · have e : (convLoop getall tol est (f + 1) k none err).1 = k ∧ ∀ j < k, (convLoop getall tol est (f + 1) k none err).2 j = err j := by
        unfold convLoop
        dsimp only
        have hc : (none : Option ℕ) = none ∧ wr err k (est k) k ≥ tol := ⟨rfl, by rw [Biorth.wr_same]; exact ht⟩
        rw [if_pos hc]
        by_cases hg : getall = false
        · rw [if_pos ⟨by simp, hg⟩]
          exact ⟨rfl, fun j hj => Biorth.wr_other _ _ _ (by omega)⟩
        · rw [if_neg (fun h => hg h.2)]
          obtain ⟨h1, h2⟩ := convLoop_set getall tol est f (k + 1) k (wr err k (est k))
          exact ⟨h1, fun j hj => (h2 j (by omega)).trans (Biorth.wr_other _ _ _ (by omega))⟩
      refine ⟨by omega, by omega, e.2, fun j h1 h2 => by omega, fun _ => ?_⟩
      rw [e.1]; exact ht
    · have e : convLoop getall tol est (f + 1) k none err = convLoop getall tol est f (k + 1) none (wr err k (est k)) := by
        rw [convLoop]
        rw [if_neg (fun h : (none : Option ℕ) = none ∧ _ => ht (by have := h.2; rwa [Biorth.wr_same] at this)), if_neg (fun h => h.1 rfl)]
      obtain ⟨h1, h2, h3, h4, h5⟩ := ih (k + 1) (wr err k (est k))
      rw [e]
      refine ⟨by omega, by omega, fun j hj => (h3 j (by omega)).trans (Biorth.wr_other _ _ _ (by omega)), fun j h1' h2' => ?_, fun h => h5 (by omega)⟩
      by_cases hj : j = k
      · subst hj
        exact ⟨(h3 j (by omega)).trans (Biorth.wr_same _ _ _), lt_of_not_ge ht⟩
      · exact h4 j (by omega) h2'

theorem converge_spec (P : Params) {c nv : ℕ} (h : c ≤ nv) (sigma beta err : ℕ → ℝ) :
    c ≤ (converge P c nv sigma beta err).1 ∧ (converge P c nv sigma beta err).1 ≤ nv ∧
    (∀ j < c, (converge P c nv sigma beta err).2 j = err j) ∧
    (∀ j, c ≤ j → j < (converge P c nv sigma beta err).1 → (converge P c nv sigma beta err).2 j = P.conv (sigma j) |beta j| ∧ P.conv (sigma j) |beta j| < P.tol) ∧
    ((converge P c nv sigma beta err).1 < nv → P.tol ≤ P.conv (sigma (converge P c nv sigma beta err).1) |beta (converge P c nv sigma beta err).1|) := by
  obtain ⟨h1, h2, h3, h4, h5⟩ := convLoop_spec P.trackall P.tol (fun k => P.conv (sigma k) |beta k|) (nv - c) c err
  refine ⟨h1, ?_, h3, h4, fun hk => h5 ?_⟩
  · exact le_trans h2 (by omega)
  · exact lt_of_lt_of_eq hk (by omega)

section rot
variable {X : Type} [NormedAddCommGroup X] [InnerProductSpace 𝕜 X]

/-- Inner products of combinations of orthonormal vectors. -/
theorem rot_inner {V : ℕ → X} {n : ℕ} (h : Insert.ON 𝕜 V n) (c : ℕ) (Q : ℕ → ℕ → ℝ) (a b : ℕ) :
    inner 𝕜 (∑ i ∈ Ico c n, (Q i a : 𝕜) • V i) (∑ i ∈ Ico c n, (Q i b : 𝕜) • V i) = ((∑ i ∈ Ico c n, Q i a * Q i b : ℝ) : 𝕜) := by
  rw [sum_inner, RCLike.ofReal_sum]
  refine sum_congr rfl fun i hi => ?_
  have hi' := mem_Ico.mp hi
  rw [inner_smul_left, inner_comb h _ (fun m hm => (mem_Ico.mp hm).2) (fun i => (Q i b : 𝕜)) hi'.2, if_pos hi, RCLike.conj_ofReal, RCLike.ofReal_mul]

theorem rot_low {V : ℕ → X} {n : ℕ} (h : Insert.ON 𝕜 V n) (c : ℕ) (Q : ℕ → ℕ → ℝ) (b : ℕ) {j : ℕ} (hj : j < c) (hn : j < n) :
    inner 𝕜 (V j) (∑ i ∈ Ico c n, (Q i b : 𝕜) • V i) = 0 := by
  rw [inner_comb h _ (fun m hm => (mem_Ico.mp hm).2) (fun i => (Q i b : 𝕜)) hn, if_neg (fun hm => by have := (mem_Ico.mp hm).1; omega)]

/-- The rotated columns are orthonormal. -/
theorem on_rot {V V' : ℕ → X} {c k n : ℕ} (h : Insert.ON 𝕜 V n) (hc : c ≤ n) (hk : k ≤ n) {Q : ℕ → ℕ → ℝ}
    (hQ : ∀ a b, c ≤ a → a < n → c ≤ b → b < n → ∑ i ∈ Ico c n, Q i a * Q i b = if a = b then 1 else 0)
    (hl : ∀ j < c, V' j = V j) (hm : ∀ j, c ≤ j → j < k → V' j = ∑ i ∈ Ico c n, (Q i j : 𝕜) • V i) : Insert.ON 𝕜 V' k := by
  intro a ha b hb
  by_cases h1 : a < c
  · by_cases h2 : b < c
    · rw [hl a h1, hl b h2]; exact h a (by omega) b (by omega)
    · rw [hl a h1, hm b (by omega) hb, rot_low h c Q b h1 (by omega), if_neg (by omega)]
  · by_cases h2 : b < c
    · rw [hl b h2, hm a (by omega) ha, ← inner_conj_symm, rot_low h c Q a h2 (by omega), map_zero, if_neg (by omega)]
    · rw [hm a (by omega) ha, hm b (by omega) hb, rot_inner h, hQ a b (by omega) (by omega) (by omega) (by omega)]
      by_cases e : a = b
      · rw [if_pos e, if_pos e, RCLike.ofReal_one]
      · rw [if_neg e, if_neg e, RCLike.ofReal_zero]

/-- Adding a vector orthogonal to the old basis. -/
theorem on_rot_add {V V' : ℕ → X} {c k n : ℕ} (h : Insert.ON 𝕜 V n) (hc : c ≤ n) (hck : c ≤ k) (hk : k ≤ n) {Q : ℕ → ℕ → ℝ}
    (hQ : ∀ a b, c ≤ a → a < n → c ≤ b → b < n → ∑ i ∈ Ico c n, Q i a * Q i b = if a = b then 1 else 0)
    (hl : ∀ j < c, V' j = V j) (hm : ∀ j, c ≤ j → j < k → V' j = ∑ i ∈ Ico c n, (Q i j : 𝕜) • V i)
    (ho : ∀ j < n, inner 𝕜 (V j) (V' k) = 0) (hn : ‖V' k‖ = 1) : Insert.ON 𝕜 V' (k + 1) := by
  have h1 := on_rot h hc hk hQ hl hm
  have h2 := Insert.on_step h1 (x := V' k) (fun a ha => ?_) hn
  · refine on_congr h2 (fun i hi => ?_)
    by_cases e : i = k
    · rw [e, Biorth.wr_same]
    · rw [Biorth.wr_other _ _ _ e]
  · by_cases hac : a < c
    · rw [hl a hac]; exact ho a (by omega)
    · rw [hm a (by omega) ha, sum_inner]
      refine sum_eq_zero fun i hi => ?_
      rw [inner_smul_left, ho i (mem_Ico.mp hi).2, mul_zero]
end rot

/-- The triplets computed by the dense solver: exact residuals. -/
theorem triplet {A : E →ₗ[𝕜] F} {AT : F →ₗ[𝕜] E} {c p n : ℕ} {t : Bid E F} {r : E} (D : Decomp A AT c p n t r) {d : DenseOut} (S : IsSvd c n (bent p t.alpha t.beta) d) {a : ℕ}
    (hc : c ≤ a) (ha : a < n) :
    A (∑ j ∈ Ico c n, (d.Q j a : 𝕜) • t.V j) - (d.w a : 𝕜) • ∑ i ∈ Ico c n, (d.P i a : 𝕜) • t.U i ∈ Biorth.spanOf 𝕜 t.U c ∧
    AT (∑ i ∈ Ico c n, (d.P i a : 𝕜) • t.U i) = (d.w a : 𝕜) • ∑ j ∈ Ico c n, (d.Q j a : 𝕜) • t.V j + (d.P (n - 1) a : 𝕜) • r := by
  constructor
  · have e : (d.w a : 𝕜) • ∑ i ∈ Ico c n, (d.P i a : 𝕜) • t.U i = ∑ j ∈ Ico c n, (d.Q j a : 𝕜) • ∑ i ∈ Ico c n, ((bent p t.alpha t.beta i j : ℝ) : 𝕜) • t.U i := by
      rw [smul_sum]
      simp only [smul_sum]
      rw [sum_comm]
      refine sum_congr rfl fun i hi => ?_
      have hi' := mem_Ico.mp hi
      have h := S.left i a hi'.1 hi'.2 hc ha
      rw [smul_smul, mul_comm, ← RCLike.ofReal_mul, ← h, RCLike.ofReal_sum, sum_smul]
      refine sum_congr rfl fun j _ => ?_
      rw [smul_smul, RCLike.ofReal_mul, mul_comm]
    rw [e, map_sum, ← sum_sub_distrib]
    refine Submodule.sum_mem _ fun j hj => ?_
    have hj' := mem_Ico.mp hj
    rw [map_smul, ← smul_sub]
    exact Submodule.smul_mem _ _ (D.right j hj'.1 hj'.2)
  · have e : (d.w a : 𝕜) • ∑ j ∈ Ico c n, (d.Q j a : 𝕜) • t.V j = ∑ i ∈ Ico c n, (d.P i a : 𝕜) • ∑ j ∈ Ico c n, ((bent p t.alpha t.beta i j : ℝ) : 𝕜) • t.V j := by
      rw [smul_sum]
      simp only [smul_sum]
      rw [sum_comm]
      refine sum_congr rfl fun j hj => ?_
      have hj' := mem_Ico.mp hj
      have h := S.right j a hj'.1 hj'.2 hc ha
      rw [smul_smul, mul_comm, ← RCLike.ofReal_mul, ← h, RCLike.ofReal_sum, sum_smul]
      refine sum_congr rfl fun i _ => ?_
      rw [smul_smul, RCLike.ofReal_mul, mul_comm]
    have e2 : (d.P (n - 1) a : 𝕜) • r = ∑ i ∈ Ico c n, (d.P i a : 𝕜) • (if i + 1 = n then r else 0) := by
      rw [Finset.sum_eq_single_of_mem (n - 1) (mem_Ico.mpr ⟨by omega, by omega⟩), if_pos (by omega)]
      intro i _ hne
      rw [if_neg (by omega), smul_zero]
    rw [e, e2, ← sum_add_distrib, map_sum]
    refine sum_congr rfl fun i hi => ?_
    have hi' := mem_Ico.mp hi
    rw [map_smul, D.left i hi'.1 hi'.2, smul_add]

/-- A linear map that is injective does not map orthonormal vectors into the span of fewer vectors. -/
theorem inj_dim {A : E →ₗ[𝕜] F} (hinj : Function.Injective A) {V : ℕ → E} {U : ℕ → F} {k : ℕ} (hV : Insert.ON 𝕜 V (k + 1)) (hU : Insert.ON 𝕜 U k)
    (hm : ∀ j ≤ k, A (V j) ∈ Biorth.spanOf 𝕜 U k) : False := by
  have h1 : (Biorth.spanOf 𝕜 V (k + 1)).map A ≤ Biorth.spanOf 𝕜 U k := by
    rw [Submodule.map_le_iff_le_comap]
    refine Submodule.span_le.mpr ?_
    rintro x ⟨i, hi, rfl⟩
    exact hm i (by omega)
  haveI : FiniteDimensional 𝕜 (Biorth.spanOf 𝕜 U k) := by
    unfold Biorth.spanOf
    refine FiniteDimensional.span_of_finite 𝕜 ?_
    exact ((Set.finite_lt_nat k).image U).subset (by rintro x ⟨i, hi, rfl⟩; exact ⟨i, hi, rfl⟩)
  have h2 := Submodule.finrank_mono h1
  rw [← (Submodule.equivMapOfInjective A hinj (Biorth.spanOf 𝕜 V (k + 1))).finrank_eq] at h2
  rw [Insert.finrank_on hV, Insert.finrank_on hU] at h2
  omega

/-- With full column rank the computed singular values are positive. -/
theorem sigma_pos {A : E →ₗ[𝕜] F} (hinj : Function.Injective A) {AT : F →ₗ[𝕜] E} {c p n : ℕ} {t : Bid E F} {r : E} (D : Decomp A AT c p n t r) {d : DenseOut}
    (S : IsSvd c n (bent p t.alpha t.beta) d) (hlow : ∀ j < c, A (t.V j) ∈ Biorth.spanOf 𝕜 t.U (j + 1)) {a : ℕ} (hc : c ≤ a) (ha : a < n) : 0 < d.w a := by
  refine lt_of_le_of_ne (S.nonneg a hc ha) fun h0 => ?_
  have h1 := (triplet D S hc ha).1
  rw [← h0, RCLike.ofReal_zero, zero_smul, sub_zero] at h1
  refine inj_dim hinj (V := wr t.V c (∑ j ∈ Ico c n, (d.Q j a : 𝕜) • t.V j)) (U := t.U) (k := c) ?_ (Insert_ON_mono D.onU (by omega)) ?_
  · refine Insert.on_step (Insert_ON_mono D.onV (by omega)) (fun j hj => rot_low D.onV c d.Q a hj (by omega)) ?_
    have h2 := rot_inner D.onV c d.Q a a
    rw [S.onQ a a hc ha hc ha, if_pos rfl, inner_self_eq_norm_sq_to_K] at h2
    have h3 : ‖∑ i ∈ Ico c n, (d.Q i a : 𝕜) • t.V i‖ ^ 2 = 1 := by exact_mod_cast h2
    nlinarith [norm_nonneg (∑ i ∈ Ico c n, (d.Q i a : 𝕜) • t.V i)]
  · intro j hj
    by_cases e : j = c
    · rw [e, Biorth.wr_same]; exact h1
    · rw [Biorth.wr_other _ _ _ e]
      exact Insert.spanOf_mono (by omega) (hlow j (by omega))

/-- The locked triplets after an iteration. -/
theorem locked_next {A : E →ₗ[𝕜] F} {AT : F →ₗ[𝕜] E} {P : Params} {c p n k : ℕ} {s s' : State E F} {t : Bid E F} {r : E} (h : Locked A AT P c s) (D : Decomp A AT c p n t r)
    {d : DenseOut} (S : IsSvd c n (bent p t.alpha t.beta) d) (hcn : c < n) (hck : c ≤ k) (hkn : k ≤ n)
    (tV : ∀ j < c, t.V j = s.B.V j) (tU : ∀ j < c, t.U j = s.B.U j)
    (vl : ∀ j < c, s'.B.V j = t.V j) (vm : ∀ j, c ≤ j → j < k → s'.B.V j = ∑ i ∈ Ico c n, (d.Q i j : 𝕜) • t.V i)
    (ul : ∀ j < c, s'.B.U j = t.U j) (um : ∀ j, c ≤ j → j < k → s'.B.U j = ∑ i ∈ Ico c n, (d.P i j : 𝕜) • t.U i)
    (sl : ∀ j < c, s'.sigma j = s.sigma j) (sm : ∀ j, c ≤ j → j < k → s'.sigma j = d.w j)
    (el : ∀ j < c, s'.err j = s.err j)
    (em : ∀ j, c ≤ j → j < k → s'.err j = P.conv (d.w j) |t.beta (n - 1) * d.P (n - 1) j| ∧ P.conv (d.w j) |t.beta (n - 1) * d.P (n - 1) j| < P.tol) : Locked A AT P k s' := by
  refine ⟨on_rot D.onV hcn.le hkn S.onQ vl vm, on_rot D.onU hcn.le hkn S.onP ul um, ?_, ?_, ?_, ?_⟩
  · intro j hj
    by_cases hc : j < c
    · rw [sl j hc]; exact h.nonneg j hc
    · rw [sm j (by omega) hj]; exact S.nonneg j (by omega) (by omega)
  · intro j hj
    by_cases hc : j < c
    · rw [sl j hc, vl j hc, ul j hc, tV j hc, tU j hc, Biorth.spanOf_congr (fun i hi => (ul i (by omega)).trans (tU i (by omega)))]
      exact h.right j hc
    · rw [sm j (by omega) hj, vm j (by omega) hj, um j (by omega) hj]
      have h1 := (triplet D S (a := j) (by omega) (by omega)).1
      have h2 := Insert.spanOf_mono (𝕜 := 𝕜) (col := s'.B.U) (k := c) (n := j) (by omega)
      rw [Biorth.spanOf_congr ul] at h2
      exact h2 h1
  · intro j hj
    by_cases hc : j < c
    · rw [sl j hc, vl j hc, ul j hc, tV j hc, tU j hc, el j hc]
      exact h.est j hc
    · rw [(em j (by omega) hj).1, sm j (by omega) hj, vm j (by omega) hj, um j (by omega) hj, (triplet D S (a := j) (by omega) (by omega)).2, add_sub_cancel_left, norm_smul,
        RCLike.norm_ofReal, D.norm hcn, abs_mul, mul_comm, abs_of_nonneg (a := t.beta (n - 1)) (by rw [← D.norm hcn]; exact norm_nonneg _)]
  · intro j hj
    by_cases hc : j < c
    · rw [el j hc]; exact h.acc j hc
    · rw [(em j (by omega) hj).1]; exact (em j (by omega) hj).2

/-- **Kept part after a restart.** -/
theorem kept_next {A : E →ₗ[𝕜] F} {AT : F →ₗ[𝕜] E} {c p n k q : ℕ} {B B' : Bid E F} {t : Bid E F} {r : E} (h : Kept A AT c p B) (D : Decomp A AT c p n t r)
    {d : DenseOut} (S : IsSvd c n (bent p t.alpha t.beta) d) (hcn : c < n) (hck : c ≤ k) (hkq : k ≤ q) (hqn : q ≤ n)
    (tV : ∀ j < c, t.V j = B.V j) (tU : ∀ j < c, t.U j = B.U j)
    (vl : ∀ j < c, B'.V j = t.V j) (vm : ∀ j, c ≤ j → j < q → B'.V j = ∑ i ∈ Ico c n, (d.Q i j : 𝕜) • t.V i)
    (ul : ∀ j < c, B'.U j = t.U j) (um : ∀ j, c ≤ j → j < q → B'.U j = ∑ i ∈ Ico c n, (d.P i j : 𝕜) • t.U i)
    (al : ∀ j < c, B'.alpha j = B.alpha j) (am : ∀ j, c ≤ j → j < q → B'.alpha j = d.w j)
    (bm : ∀ j, k ≤ j → j < q → r = (t.beta (n - 1) : 𝕜) • B'.V q ∧ B'.beta j = t.beta (n - 1) * d.P (n - 1) j)
    (hv : Insert.ON 𝕜 B'.V (q + 1)) : Kept A AT k q B' := by
  have hle := h.le
  refine ⟨hkq, hv, on_rot D.onU hcn.le hqn S.onP ul um, ?_, ?_⟩
  · intro j hj
    by_cases hc : j < c
    · have h1 := h.right j (by omega)
      rw [min_eq_left (by omega : j ≤ c)] at h1
      rw [al j hc, vl j hc, ul j hc, tV j hc, tU j hc, min_eq_left (by omega : j ≤ k), Biorth.spanOf_congr (fun i hi => (ul i (by omega)).trans (tU i (by omega)))]
      exact h1
    · rw [am j (by omega) hj, vm j (by omega) hj, um j (by omega) hj]
      have h1 := (triplet D S (a := j) (by omega) (by omega)).1
      have h2 := Insert.spanOf_mono (𝕜 := 𝕜) (col := B'.U) (k := c) (n := min j k) (by omega)
      rw [Biorth.spanOf_congr ul] at h2
      exact h2 h1
  · intro j hk hj
    obtain ⟨e1, e2⟩ := bm j hk hj
    rw [am j (by omega) hj, vm j (by omega) hj, um j (by omega) hj, e2, (triplet D S (a := j) (by omega) (by omega)).2]
    congr 1
    rw [e1, smul_smul, RCLike.ofReal_mul, mul_comm]

end Verif.GKL
