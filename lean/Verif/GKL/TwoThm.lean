import Verif.GKL.Two
/-! Theorems about SVDTwoSideLanczos (C123). -/
set_option linter.all false
namespace Verif.GKL
open Verif.BV Verif.BVB Finset
variable {𝕜 E F : Type} [RCLike 𝕜] [NormedAddCommGroup E] [InnerProductSpace 𝕜 E] [NormedAddCommGroup F] [InnerProductSpace 𝕜 F]

theorem row_sum {c p n i : ℕ} (hc : c ≤ i) (hi : i < n) (a b : ℕ → ℝ) (V : ℕ → E) :
    ∑ j ∈ Ico c n, ((bent p a b i j : ℝ) : 𝕜) • V j = (a i : 𝕜) • V i + if nxt p i < n then (b i : 𝕜) • V (nxt p i) else 0 := by
  have hg := nxt_gt p i
  have e : ∀ j ∈ Ico c n, ((bent p a b i j : ℝ) : 𝕜) • V j = (if i = j then (a i : 𝕜) • V i else 0) + (if nxt p i = j then (b i : 𝕜) • V (nxt p i) else 0) := by
    intro j _
    by_cases h1 : i = j
    · subst h1
      rw [bent_self, if_pos rfl, if_neg (by omega), add_zero]
    · by_cases h2 : nxt p i = j
      · subst h2
        rw [bent_nxt, if_neg h1, if_pos rfl, zero_add]
      · rw [bent_other _ _ _ h1 h2, if_neg h1, if_neg h2, RCLike.ofReal_zero, zero_smul, add_zero]
  rw [sum_congr rfl e, sum_add_distrib, sum_ite_eq, sum_ite_eq, if_pos (mem_Ico.mpr ⟨hc, hi⟩)]
  congr 1
  by_cases h : nxt p i < n
  · rw [if_pos h, if_pos (mem_Ico.mpr ⟨by omega, h⟩)]
  · rw [if_neg h, if_neg (fun hm => h (mem_Ico.mp hm).2)]

theorem Run.decomp {A : E →ₗ[𝕜] F} {AT : F →ₗ[𝕜] E} {c p n : ℕ} {s : Bid E F} (h : Run A AT c p n s) (hp : p < n) {r : E}
    (hl : AT (s.U (n - 1)) = (s.alpha (n - 1) : 𝕜) • s.V (n - 1) + r) (ho : ∀ j < n, inner 𝕜 (s.V j) r = 0) (hn : ‖r‖ = s.beta (n - 1)) : Decomp A AT c p n s r := by
  have hle := h.le
  refine ⟨h.onV, h.onU, ?_, ?_, ho, fun _ => hn⟩
  · intro j hc hj
    have e : ∑ i ∈ Ico c n, ((bent p s.alpha s.beta i j : ℝ) : 𝕜) • s.U i = ∑ i ∈ Ico c (j + 1), ((bent p s.alpha s.beta i j : ℝ) : 𝕜) • s.U i := by
      symm
      refine Finset.sum_subset (fun i hi => ?_) (fun i hi hi' => ?_)
      · have := mem_Ico.mp hi; exact mem_Ico.mpr ⟨this.1, by omega⟩
      · have := mem_Ico.mp hi
        rw [bent_low _ _ _ (by by_contra hh; exact hi' (mem_Ico.mpr ⟨this.1, by omega⟩)), RCLike.ofReal_zero, zero_smul]
    rw [e]
    exact h.right j hc hj
  · intro i hc hi
    rw [row_sum hc hi]
    by_cases hi1 : i + 1 = n
    · have hx : nxt p i = n := by unfold nxt; rw [if_neg (by omega)]; exact hi1
      rw [if_pos hi1, if_neg (by omega), add_zero]
      have : i = n - 1 := by omega
      rw [this]; exact hl
    · have hx : nxt p i < n := by
        have := nxt_le (p := p) (i := i) (n := n - 1) (by omega) (by omega)
        omega
      rw [if_neg hi1, if_pos hx, add_zero]
      exact h.left i hc (by omega)

/-- The kept part, written as for the loop. -/
theorem Kept.start {A : E →ₗ[𝕜] F} {AT : F →ₗ[𝕜] E} {c p : ℕ} {s : Bid E F} (h : Kept A AT c p s) :
    (∀ j < c, A (s.V j) ∈ Biorth.spanOf 𝕜 s.U (j + 1)) ∧
    (∀ j, c ≤ j → j < p → A (s.V j) - ∑ m ∈ Ico c (j + 1), ((bent p s.alpha s.beta m j : ℝ) : 𝕜) • s.U m ∈ Biorth.spanOf 𝕜 s.U c) ∧
    (∀ m, c ≤ m → m < p → AT (s.U m) = (s.alpha m : 𝕜) • s.V m + (s.beta m : 𝕜) • s.V (nxt p m)) := by
  have hle := h.le
  refine ⟨?_, ?_, ?_⟩
  · intro j hj
    have h1 := h.right j (by omega)
    have h2 := Insert.spanOf_mono (𝕜 := 𝕜) (col := s.U) (k := min j c) (n := j + 1) (by omega) h1
    have h3 := Submodule.add_mem _ h2 (Submodule.smul_mem _ (s.alpha j : 𝕜) (Biorth.mem_spanOf (𝕜 := 𝕜) (V := s.U) (k := j + 1) (i := j) (by omega)))
    rwa [sub_add_cancel] at h3
  · intro j hc hj
    have e : ∑ m ∈ Ico c (j + 1), ((bent p s.alpha s.beta m j : ℝ) : 𝕜) • s.U m = (s.alpha j : 𝕜) • s.U j := by
      rw [Finset.sum_eq_single_of_mem j (mem_Ico.mpr ⟨hc, by omega⟩), bent_self]
      intro m hm hne
      have := mem_Ico.mp hm
      rw [bent_other _ _ _ hne (by unfold nxt; rw [if_pos (by omega)]; omega), RCLike.ofReal_zero, zero_smul]
    rw [e]
    have := h.right j hj
    rwa [min_eq_right hc] at this
  · intro m hc hm
    have : nxt p m = p := by unfold nxt; rw [if_pos hm]
    rw [this]
    exact h.left m hc hm

/-- **C123.**  From locked columns `0..c-1`, kept columns `c..p-1` and start vector `v_p`, SVDTwoSideLanczos with requested size `n > p` leaves these unchanged and either
reports that `A v_p` depends on the left basis, with returned size `p`, or returns a size `n'` with `p < n' ≤ n` and a decomposition of that size.  If no breakdown is reported then
`n' = n`, the residual is nonzero and is what column `n` contains; if a breakdown is reported then either the residual is zero or `n' < n`, the residual is `beta_{n'-1}` times
column `n'`, which is orthonormal to the previous ones, and `A v_{n'}` depends on the left basis. -/
theorem twoSide_ok (o : Opts) (he : o.eta ≤ 1) {A : E →ₗ[𝕜] F} {AT : F →ₗ[𝕜] E} (hadj : Adj A AT) {c p n : ℕ} (s : Bid E F) (hk : Kept A AT c p s) (hpn : p < n) :
    ∃ s' n' bd, twoSide o A AT p n s = (s', n', bd) ∧
    (∀ j ≤ p, s'.V j = s.V j) ∧ (∀ j < p, s'.U j = s.U j) ∧ (∀ j < p, s'.alpha j = s.alpha j) ∧ (∀ j < p, s'.beta j = s.beta j) ∧
    ((bd = true ∧ n' = p ∧ A (s.V p) ∈ Biorth.spanOf 𝕜 s.U p) ∨
     (p < n' ∧ n' ≤ n ∧ ∃ x, Decomp A AT c p n' s' x ∧
       (bd = false → n' = n ∧ x ≠ 0 ∧ s'.V n = x) ∧
       (bd = true → x = 0 ∨ (n' < n ∧ Insert.ON 𝕜 s'.V (n' + 1) ∧ 0 < s'.beta (n' - 1) ∧ x = (s'.beta (n' - 1) : 𝕜) • s'.V n' ∧ A (s'.V n') ∈ Biorth.spanOf 𝕜 s'.U n')))) := by
  have hle := hk.le
  obtain ⟨k1, k2, k3⟩ := hk.start
  obtain ⟨f1, f2, f3, f4, f5, f6⟩ := orthon_facts (𝕜 := 𝕜) o he s.U p hk.onU (A (s.V p))
  have hrun := ustep_run (A := A) (AT := AT) (c := c) (p := p) (a := s.alpha) (b := s.beta) o he hadj hle le_rfl hk.onV hk.onU k1 k2 k3
  obtain ⟨u, hu⟩ : ∃ u, u = orthon 𝕜 o s.U p (A (s.V p)) := ⟨_, rfl⟩
  rw [← hu] at f1 f2 f3 f4 f5 f6 hrun
  by_cases hl : u.2.2 = true
  · refine ⟨⟨s.V, u.1, wr s.alpha p u.2.1, s.beta⟩, p, true, ?_, fun _ _ => rfl, fun j hj => f1 j (by omega), fun j hj => Biorth.wr_other _ _ _ (by omega), fun _ _ => rfl,
      Or.inl ⟨rfl, rfl, f4.mp hl⟩⟩
    unfold twoSide
    rw [← hu]
    exact if_pos hl
  · have hl' : u.2.2 = false := by cases hq : u.2.2 with
      | false => rfl
      | true => exact absurd hq hl
    have hr0 := hrun hl'
    obtain ⟨s1, hs1⟩ : ∃ s1 : Bid E F, s1 = ⟨s.V, u.1, wr s.alpha p u.2.1, s.beta⟩ := ⟨_, rfl⟩
    rw [← hs1] at hr0
    obtain ⟨g1, g2, g3⟩ := twoLoop_ok o he hadj (n - (p + 1)) (p + 1) s1 (by omega) hr0
    obtain ⟨r, hr⟩ : ∃ r, r = twoLoop o A AT (n - (p + 1)) (p + 1) s1 := ⟨_, rfl⟩
    rw [← hr] at g1 g2 g3
    have e1 : ∀ j ≤ p, r.1.V j = s.V j := fun j hj => by rw [g1.1 j (by omega), hs1]
    have e2 : ∀ j < p, r.1.U j = s.U j := fun j hj => by rw [g1.2.1 j (by omega), hs1]; exact f1 j (by omega)
    have e3 : ∀ j < p, r.1.alpha j = s.alpha j := fun j hj => by rw [g1.2.2.1 j (by omega), hs1]; exact Biorth.wr_other _ _ _ (by omega)
    have e4 : ∀ j < p, r.1.beta j = s.beta j := fun j hj => by rw [g1.2.2.2 j (by omega), hs1]
    have hun : twoSide o A AT p n s = if r.2.2 = true then (r.1, r.2.1, true) else
        ({ r.1 with V := (orthog 𝕜 o r.1.V n (AT (r.1.U (n - 1)))).1, beta := wr r.1.beta (n - 1) (orthog 𝕜 o r.1.V n (AT (r.1.U (n - 1)))).2.1 }, n,
          (orthog 𝕜 o r.1.V n (AT (r.1.U (n - 1)))).2.2) := by
      unfold twoSide
      rw [← hu]
      dsimp only
      rw [← hs1, ← hr]
      exact if_neg hl
    by_cases hb : r.2.2 = true
    · rw [if_pos hb] at hun
      obtain ⟨b1, b2, b3, b4⟩ := g3 hb
      refine ⟨r.1, r.2.1, true, hun, e1, e2, e3, e4, Or.inr ⟨by omega, by omega, ?_⟩⟩
      rcases b4 with ⟨q1, q2⟩ | ⟨q1, q2, q3, q4⟩
      · refine ⟨0, b3.decomp (by omega) (by rw [add_zero]; exact q1) (fun j _ => inner_zero_right _) (by rw [norm_zero, q2]), (fun e => by cases e), fun _ => Or.inl rfl⟩
      · refine ⟨(r.1.beta (r.2.1 - 1) : 𝕜) • r.1.V r.2.1, b3.decomp (by omega) q2 ?_ ?_, (fun e => by cases e), fun _ => Or.inr ⟨by omega, q1, q3, rfl, q4⟩⟩
        · intro j hj
          rw [inner_smul_right, q1 j (by omega) _ (by omega), if_neg (by omega), mul_zero]
        · have h1 := q1 r.2.1 (by omega) r.2.1 (by omega)
          rw [if_pos rfl, inner_self_eq_norm_sq_to_K] at h1
          have h2 : ‖r.1.V r.2.1‖ ^ 2 = 1 := by exact_mod_cast h1
          have h3 : ‖r.1.V r.2.1‖ = 1 := by nlinarith [norm_nonneg (r.1.V r.2.1)]
          rw [norm_smul, RCLike.norm_ofReal, h3, mul_one, abs_of_pos q3]
    · rw [if_neg hb] at hun
      have hb' : r.2.2 = false := by cases hq : r.2.2 with
        | false => rfl
        | true => exact absurd hq hb
      have hR := g2 hb'
      rw [show p + 1 + (n - (p + 1)) = n by omega] at hR
      obtain ⟨d1, d2, d3, d4, d5, d6⟩ := orthog_facts (𝕜 := 𝕜) o he r.1.V n hR.onV (AT (r.1.U (n - 1)))
      rw [hR.vstep hadj hpn] at d3
      obtain ⟨z, hz⟩ : ∃ z, z = orthog 𝕜 o r.1.V n (AT (r.1.U (n - 1))) := ⟨_, rfl⟩
      rw [← hz] at d1 d2 d3 d4 d5 d6 hun
      have hS : Run A AT c p n (⟨z.1, r.1.U, r.1.alpha, wr r.1.beta (n - 1) z.2.1⟩ : Bid E F) :=
        hR.congr hpn (fun j hj => d1 j (by omega)) (fun _ _ => rfl) (fun _ _ => rfl) (fun j hj => Biorth.wr_other _ _ _ (by omega))
      refine ⟨_, n, z.2.2, hun, fun j hj => (d1 j (by omega)).trans (e1 j hj), e2, e3, fun j hj => ?_, Or.inr ⟨hpn, le_rfl, z.1 n, hS.decomp hpn ?_ ?_ ?_, ?_, ?_⟩⟩
      · show wr r.1.beta (n - 1) z.2.1 j = s.beta j
        rw [Biorth.wr_other _ _ _ (by omega)]; exact e4 j hj
      · show AT (r.1.U (n - 1)) = (r.1.alpha (n - 1) : 𝕜) • z.1 (n - 1) + z.1 n
        rw [d1 (n - 1) (by omega)]; exact d3
      · intro j hj
        show inner 𝕜 (z.1 j) (z.1 n) = 0
        rw [d1 j (by omega)]; exact d2 j hj
      · show ‖z.1 n‖ = wr r.1.beta (n - 1) z.2.1 (n - 1)
        rw [Biorth.wr_same]; exact d4.symm
      · intro hq
        refine ⟨rfl, fun h0 => ?_, rfl⟩
        rw [d6.mpr h0] at hq; cases hq
      · intro hq
        exact Or.inl (d6.mp hq)

/-- **C123 (full column rank).**  If `A` is injective there is no breakdown on the left side: a breakdown is reported only with zero residual. -/
theorem twoSide_injective (o : Opts) (he : o.eta ≤ 1) {A : E →ₗ[𝕜] F} {AT : F →ₗ[𝕜] E} (hadj : Adj A AT) (hinj : Function.Injective A) {c p n : ℕ} (s : Bid E F)
    (hk : Kept A AT c p s) (hpn : p < n) :
    ∃ s' n' bd x, twoSide o A AT p n s = (s', n', bd) ∧ p < n' ∧ n' ≤ n ∧ Decomp A AT c p n' s' x ∧ (bd = false → n' = n ∧ x ≠ 0 ∧ s'.V n = x) ∧ (bd = true → x = 0) ∧
    (∀ j ≤ p, s'.V j = s.V j) ∧ (∀ j < p, s'.U j = s.U j) ∧ (∀ j < p, s'.alpha j = s.alpha j) ∧ (∀ j < p, s'.beta j = s.beta j) := by
  have hle := hk.le
  -- a set of orthonormal vectors cannot be mapped into the span of fewer vectors
  have key : ∀ (V : ℕ → E) (U : ℕ → F) (k : ℕ), Insert.ON 𝕜 V (k + 1) → Insert.ON 𝕜 U k → (∀ j ≤ k, A (V j) ∈ Biorth.spanOf 𝕜 U k) → False := by
    intro V U k hV hU hm
    have h1 : (Biorth.spanOf 𝕜 V (k + 1)).map A ≤ Biorth.spanOf 𝕜 U k := by
      rw [Submodule.map_le_iff_le_comap]
      refine Submodule.span_le.mpr ?_
      rintro x ⟨i, hi, rfl⟩
      exact hm i (by omega)
    haveI : FiniteDimensional 𝕜 (Biorth.spanOf 𝕜 U k) := by
      unfold Biorth.spanOf
      refine FiniteDimensional.span_of_finite 𝕜 ?_
      exact ((Set.finite_lt_nat k).image U).subset (by rintro x ⟨i, hi, rfl⟩; exact ⟨i, hi, rfl⟩)
    have h2 := Submodule.finrank_mono h1
    rw [← (Submodule.equivMapOfInjective A hinj (Biorth.spanOf 𝕜 V (k + 1))).finrank_eq] at h2
    rw [Insert.finrank_on hV, Insert.finrank_on hU] at h2
    omega
  obtain ⟨k1, k2, k3⟩ := hk.start
  obtain ⟨s', n', bd, h1, h2, h3, h4, h5, h6⟩ := twoSide_ok o he hadj s hk hpn
  rcases h6 with ⟨q1, q2, q3⟩ | ⟨q1, q2, x, q3, q4, q5⟩
  · refine (key s.V s.U p hk.onV hk.onU ?_).elim
    intro j hj
    by_cases hjp : j = p
    · rw [hjp]; exact q3
    · have g1 := hk.right j (by omega)
      have g2 := Insert.spanOf_mono (𝕜 := 𝕜) (col := s.U) (k := min j c) (n := p) (by omega) g1
      have g3 := Submodule.add_mem _ g2 (Submodule.smul_mem _ (s.alpha j : 𝕜) (Biorth.mem_spanOf (𝕜 := 𝕜) (V := s.U) (k := p) (i := j) (by omega)))
      rwa [sub_add_cancel] at g3
  · refine ⟨s', n', bd, x, h1, q1, q2, q3, q4, fun hb => ?_, h2, h3, h4, h5⟩
    rcases q5 hb with h | ⟨r1, r2, r3, r4, r5⟩
    · exact h
    · refine (key s'.V s'.U n' r2 q3.onU ?_).elim
      intro j hj
      by_cases hjp : j = n'
      · rw [hjp]; exact r5
      · by_cases hjc : j < c
        · rw [h2 j (by omega)]
          have := k1 j hjc
          have g2 := Insert.spanOf_mono (𝕜 := 𝕜) (col := s.U) (k := j + 1) (n := p) (by omega) this
          have g3 := Insert.spanOf_mono (𝕜 := 𝕜) (col := s'.U) (k := p) (n := n') (by omega)
          rw [Biorth.spanOf_congr (fun i hi => h3 i hi)] at g3
          exact g3 g2
        · have g1 := q3.right j (by omega) (by omega)
          have g2 := Insert.spanOf_mono (𝕜 := 𝕜) (col := s'.U) (k := c) (n := n') (by omega) g1
          have g3 := Submodule.add_mem _ g2 (sum_mem_span (𝕜 := 𝕜) (col := s'.U) (n := n') (Ico c n') (fun m hm => (mem_Ico.mp hm).2) (fun i => ((bent p s'.alpha s'.beta i j : ℝ) : 𝕜)))
          rwa [sub_add_cancel] at g3

end Verif.GKL
