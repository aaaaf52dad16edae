import Verif.Ts.Arn

/-!
# C168: the Krylov decompositions of two-sided Krylov-Schur
-/
set_option linter.all false

namespace Verif.Ts

open Finset Verif.Iter

variable {E : Type} [NormedAddCommGroup E] [InnerProductSpace ℂ E] {A At : E →ₗ[ℂ] E}

/-- One factorization after EPSTwoSidedRQUpdate1: orthonormal vectors, and the relation with the corrected matrix and the corrected last vector. -/
structure Fixed (A : E →ₗ[ℂ] E) (nc nv : ℕ) (beta : ℝ) (s : Half E) : Prop where
  ortho : OrthoN s.V nv
  rel : ∀ c, nc ≤ c → c < nv → A (s.V c) = ∑ i ∈ range nv, s.H i c • s.V i + s.H nv c • s.V nv
  row : ∀ c, nc ≤ c → c + 1 < nv → s.H nv c = 0
  last : s.H nv (nv - 1) = beta
  below : ∀ c, nc ≤ c → ∀ i, c + 1 < i → nv ≤ i → s.H i c = 0

theorem fix_spec {nc j n : ℕ} {s : Half E} {o : ArnOut E} (h : ArnSpec A nc j n s o) (w : ℕ → ℂ) : Fixed A nc o.m o.beta (fixHalf o.s o.m o.beta w) := by
  have hm := h.lo
  have hV : ∀ i < o.m, (fixHalf o.s o.m o.beta w).V i = o.s.V i := fun i hi => Function.update_of_ne (by omega) _ _
  have hH : ∀ i, o.m ≤ i → ∀ c, (fixHalf o.s o.m o.beta w).H i c = o.s.H i c := fun i hi c => if_neg (by omega)
  refine ⟨orthoN_congr h.ortho hV, ?_, ?_, ?_, ?_⟩
  · intro c hc hcm
    rw [hV c hcm, h.rel c hc hcm, sum_range_succ, hH o.m (le_refl _)]
    have hu : (fixHalf o.s o.m o.beta w).V o.m = o.s.V o.m - ∑ i ∈ range o.m, w i • o.s.V i := Function.update_self _ _ _
    by_cases e : c + 1 = o.m
    · have e1 : o.s.H o.m c = (o.beta : ℂ) := by rw [← h.last]; congr 1; omega
      have e2 : ∑ i ∈ range o.m, (fixHalf o.s o.m o.beta w).H i c • (fixHalf o.s o.m o.beta w).V i = ∑ i ∈ range o.m, o.s.H i c • o.s.V i + (o.beta : ℂ) • ∑ i ∈ range o.m, w i • o.s.V i := by
        rw [smul_sum, ← sum_add_distrib]
        refine sum_congr rfl fun i hi => ?_
        have hi := mem_range.mp hi
        rw [hV i hi]
        show (if c + 1 = o.m ∧ i < o.m then _ else _) • _ = _
        rw [if_pos ⟨e, hi⟩, add_smul, smul_smul]
      rw [e2, hu, e1, smul_sub]; abel
    · rw [h.row c hc (by omega), zero_smul, zero_smul]
      congr 1
      refine sum_congr rfl fun i hi => ?_
      rw [hV i (mem_range.mp hi)]
      show _ = (if c + 1 = o.m ∧ i < o.m then _ else _) • _
      rw [if_neg (by omega)]
  · intro c hc h1; rw [hH _ (le_refl _)]; exact h.row c hc h1
  · rw [hH _ (le_refl _)]; exact h.last
  · intro c hc i h1 h2; rw [hH i h2]; exact h.below c hc i h1 h2

/-- the columns kept are combinations of all columns -/
theorem multIP_eq {nc nv n : ℕ} {H H1 Q : ℕ → ℕ → ℂ} (hs : Schur nc nv H H1 Q) (hn : n < nv) (V : ℕ → E) {j : ℕ} (hj : j < n) :
    multIP nc nv n Q V j = ∑ r ∈ range nv, Q r j • V r := by
  unfold multIP
  by_cases h : nc ≤ j
  · rw [if_pos ⟨h, hj⟩]
    refine sum_subset (fun r hr => mem_range.mpr (mem_Ico.mp hr).2) fun r hr hr2 => ?_
    have hr := mem_range.mp hr
    have hr2 : r < nc := by by_contra hh; exact hr2 (mem_Ico.mpr ⟨by omega, hr⟩)
    rw [hs.lead r hr j (by omega) (Or.inl hr2), if_neg (by omega), zero_smul]
  · rw [if_neg (by omega), sum_eq_single j]
    · rw [hs.lead j (by omega) j (by omega) (Or.inl (by omega)), if_pos rfl, one_smul]
    · intro r hr hne
      rw [hs.lead r (mem_range.mp hr) j (by omega) (Or.inr (by omega)), if_neg hne, zero_smul]
    · intro h2; exact absurd (mem_range.mpr (by omega)) h2

theorem multIP_ortho {nc nv n : ℕ} {H H1 Q : ℕ → ℕ → ℂ} (hs : Schur nc nv H H1 Q) (hn : n < nv) {V : ℕ → E} (hV : OrthoN V nv) : OrthoN (multIP nc nv n Q V) n := by
  refine orthoN_congr (orthoN_mono (mulIP_ortho hV hs.unit) (le_of_lt hn)) fun j hj => ?_
  unfold multIP mulIP
  by_cases h : nc ≤ j
  · rw [if_pos ⟨h, hj⟩, if_pos ⟨h, by omega⟩]
  · rw [if_neg (by omega), if_neg (by omega)]

/-- relation of the rotated columns, before the last vector is orthonormalized -/
theorem rot_rel {nc nv n : ℕ} {beta : ℝ} {H1 Q : ℕ → ℕ → ℂ} {s : Half E} (hf : Fixed A nc nv beta s) (hs : Schur nc nv s.H H1 Q) (hn : n < nv)
    (hcut : ∀ i < nv, n ≤ i → ∀ j < n, H1 i j = 0) {j : ℕ} (hj : nc ≤ j) (hjn : j < n) :
    A (multIP nc nv n Q s.V j) = ∑ i ∈ range n, H1 i j • multIP nc nv n Q s.V i + (∑ p ∈ range nv, s.H nv p * Q p j) • s.V nv := by
  have hQ : ∀ r < nv, r < nc → Q r j = 0 := fun r hr h => by rw [hs.lead r hr j (by omega) (Or.inl h), if_neg (by omega)]
  have e1 : A (multIP nc nv n Q s.V j) = ∑ r ∈ range nv, Q r j • (∑ i ∈ range nv, s.H i r • s.V i + s.H nv r • s.V nv) := by
    rw [multIP_eq hs hn s.V hjn, map_sum]
    refine sum_congr rfl fun r hr => ?_
    have hr := mem_range.mp hr
    rw [map_smul]
    by_cases h : r < nc
    · rw [hQ r hr h, zero_smul, zero_smul]
    · rw [hf.rel r (by omega) hr]
  have e2 : ∑ i ∈ range n, H1 i j • multIP nc nv n Q s.V i = ∑ i ∈ range nv, H1 i j • ∑ r ∈ range nv, Q r i • s.V r := by
    rw [← sum_subset (range_subset_range.mpr (le_of_lt hn) : range n ⊆ range nv) (fun i hi hi2 => by
      rw [hcut i (mem_range.mp hi) (by by_contra hh; exact hi2 (mem_range.mpr (by omega))) j hjn, zero_smul])]
    exact sum_congr rfl fun i hi => by rw [multIP_eq hs hn s.V (mem_range.mp hi)]
  have e3 : ∑ i ∈ range nv, H1 i j • ∑ r ∈ range nv, Q r i • s.V r = ∑ r ∈ range nv, (∑ p ∈ range nv, s.H r p * Q p j) • s.V r := by
    simp_rw [smul_sum]
    rw [sum_comm]
    refine sum_congr rfl fun r hr => ?_
    rw [hs.eq r (mem_range.mp hr) j (by omega), sum_smul]
    exact sum_congr rfl fun i _ => by rw [smul_smul, mul_comm]
  have e4 : ∑ r ∈ range nv, Q r j • (∑ i ∈ range nv, s.H i r • s.V i + s.H nv r • s.V nv) =
      ∑ r ∈ range nv, (∑ p ∈ range nv, s.H r p * Q p j) • s.V r + (∑ p ∈ range nv, s.H nv p * Q p j) • s.V nv := by
    simp_rw [smul_add, sum_add_distrib]
    congr 1
    · simp_rw [smul_sum, sum_smul]
      rw [sum_comm]
      exact sum_congr rfl fun r _ => sum_congr rfl fun p _ => by rw [smul_smul, mul_comm]
    · rw [sum_smul]
      exact sum_congr rfl fun p _ => by rw [smul_smul, mul_comm]
  rw [e1, e4, e2, e3]

/-- orthonormalizing the last vector (EPSTwoSidedRQUpdate2) -/
theorem gs_last {V : ℕ → E} {n : ℕ} (h0 : gsCol V n (V n) ≠ 0) : V n = ∑ i ∈ range n, inner ℂ (V i) (V n) • V i + (‖gsCol V n (V n)‖ : ℂ) • rq2V V n n := by
  have hn : (‖gsCol V n (V n)‖ : ℂ) ≠ 0 := by exact_mod_cast norm_ne_zero_iff.mpr h0
  have : rq2V V n n = (‖gsCol V n (V n)‖ : ℂ)⁻¹ • gsCol V n (V n) := Function.update_self _ _ _
  rw [this, smul_smul, mul_inv_cancel₀ hn, one_smul]
  unfold gsCol; abel

theorem rq2_ortho {V : ℕ → E} {n : ℕ} (ho : OrthoN V n) (h0 : gsCol V n (V n) ≠ 0) : OrthoN (rq2V V n) (n + 1) := by
  refine orthoN_snoc ho ?_ fun i hi => ?_
  · rw [norm_smul, norm_inv, Complex.norm_real, norm_norm, inv_mul_cancel₀ (norm_ne_zero_iff.mpr h0)]
  · rw [inner_smul_right, gsCol_inner ho _ hi, mul_zero]

/-- the corrected residual vector is never in the span of the kept columns -/
theorem resid_ne {nc nv n : ℕ} {H H1 Q : ℕ → ℕ → ℂ} (hs : Schur nc nv H H1 Q) (hn : n < nv) {V : ℕ → E} (ho : OrthoN V (nv + 1)) (w : ℕ → ℂ) :
    gsCol (copyCol (multIP nc nv n Q (fixV V nv w)) nv n) n (copyCol (multIP nc nv n Q (fixV V nv w)) nv n n) ≠ 0 := by
  intro h0
  set V1 := fixV V nv w with hV1
  have hi1 : ∀ i < nv, inner ℂ (V nv) (V1 i) = (0 : ℂ) := by
    intro i hi
    rw [hV1, fixV, Function.update_of_ne (by omega), ho nv (by omega) i (by omega), if_neg (by omega)]
  have hi2 : ∀ i < n, inner ℂ (V nv) (multIP nc nv n Q V1 i) = (0 : ℂ) := by
    intro i hi
    rw [multIP_eq hs hn V1 hi, inner_sum]
    exact sum_eq_zero fun r hr => by rw [inner_smul_right, hi1 r (mem_range.mp hr), mul_zero]
  have hc : copyCol (multIP nc nv n Q V1) nv n n = V1 nv := by
    unfold copyCol; rw [Function.update_self]; unfold multIP; rw [if_neg (by omega)]
  have hu : inner ℂ (V nv) (V1 nv) = (1 : ℂ) := by
    rw [hV1, fixV, Function.update_self, inner_sub_right, inner_sum, ho nv (by omega) nv (by omega), if_pos rfl, sum_eq_zero, sub_zero]
    intro i hi
    rw [inner_smul_right, ho nv (by omega) i (by have := mem_range.mp hi; omega), if_neg (by have := mem_range.mp hi; omega), mul_zero]
  have := congrArg (fun x => inner ℂ (V nv) x) h0
  simp only [inner_zero_right] at this
  rw [gsCol, inner_sub_right, hc, hu, inner_sum, sum_eq_zero, sub_zero] at this
  · exact one_ne_zero this
  · intro i hi
    have hi := mem_range.mp hi
    rw [inner_smul_right]
    unfold copyCol
    rw [Function.update_of_ne (by omega), hi2 i hi, mul_zero]

/-- one factorization in a restart -/
theorem restart_decomp {nc nv k n : ℕ} {beta : ℝ} {H1 Q : ℕ → ℕ → ℂ} {s : Half E} (hf : Fixed A nc nv beta s) (hs : Schur nc nv s.H H1 Q) (hn : n < nv) (hk : nc ≤ k) (hkn : k ≤ n)
    (hcut : ∀ i < nv, n ≤ i → ∀ j < n, H1 i j = 0) (h0 : gsCol (copyCol (multIP nc nv n Q s.V) nv n) n (copyCol (multIP nc nv n Q s.V) nv n n) ≠ 0) :
    Decomp A k n (restart nc nv k n Q H1 s) ∧ Below k n (restart nc nv k n Q H1 s).H := by
  set V2 := copyCol (multIP nc nv n Q s.V) nv n with hV2
  have hlow : ∀ i < n, V2 i = multIP nc nv n Q s.V i := fun i hi => Function.update_of_ne (by omega) _ _
  have hlast : V2 n = s.V nv := by
    rw [hV2]; unfold copyCol; rw [Function.update_self]; unfold multIP; rw [if_neg (by omega)]
  have ho : OrthoN V2 n := orthoN_congr (multIP_ortho hs hn hf.ortho) hlow
  have hRV : ∀ i < n, (restart nc nv k n Q H1 s).V i = V2 i := fun i hi => Function.update_of_ne (by omega) _ _
  refine ⟨⟨rq2_ortho ho h0, ?_⟩, ?_⟩
  · intro c hc hcn
    rw [hRV c hcn, hlow c hcn, rot_rel hf hs hn hcut (by omega) hcn, sum_range_succ, ← hlast, gs_last h0]
    have t1 : ∀ i < n, truncH nv k n (dsOut nv s.H H1 Q) i c = H1 i c := by
      intro i hi
      unfold truncH dsOut
      rw [if_neg (by omega), if_neg (by omega), if_pos (by omega)]
    have t2 : truncH nv k n (dsOut nv s.H H1 Q) n c = ∑ p ∈ range nv, s.H nv p * Q p c := by
      unfold truncH dsOut
      rw [if_neg (by omega), if_pos ⟨rfl, hc, hcn⟩, if_neg (by omega), if_pos ⟨rfl, by omega⟩]
    set b := ∑ p ∈ range nv, s.H nv p * Q p c with hb
    have r1 : ∀ i < n, (restart nc nv k n Q H1 s).H i c = H1 i c + inner ℂ (V2 i) (V2 n) * b := by
      intro i hi
      show rq2H V2 _ nc n i c = _
      unfold rq2H
      rw [if_pos ⟨by omega, hcn⟩, if_pos hi, t1 i hi, t2]
    have r2 : (restart nc nv k n Q H1 s).H n c = b * (‖gsCol V2 n (V2 n)‖ : ℂ) := by
      show rq2H V2 _ nc n n c = _
      unfold rq2H
      rw [if_pos ⟨by omega, hcn⟩, if_neg (by omega), if_pos rfl, t2]
    have s1 : ∑ i ∈ range n, (restart nc nv k n Q H1 s).H i c • (restart nc nv k n Q H1 s).V i = ∑ i ∈ range n, H1 i c • multIP nc nv n Q s.V i + b • ∑ i ∈ range n, inner ℂ (V2 i) (V2 n) • V2 i := by
      rw [smul_sum, ← sum_add_distrib]
      refine sum_congr rfl fun i hi => ?_
      have hi := mem_range.mp hi
      rw [r1 i hi, hRV i hi, hlow i hi, add_smul, smul_smul, mul_comm b]
    rw [s1, r2, smul_add, mul_smul]
    show _ = _ + b • (‖gsCol V2 n (V2 n)‖ : ℂ) • rq2V V2 n n
    rw [add_assoc]
  · intro c hc i h1 h2
    show rq2H V2 _ nc n i c = 0
    have hd : ∀ i, c + 1 < i → n < i → truncH nv k n (dsOut nv s.H H1 Q) i c = 0 := by
      intro i h1 h2
      unfold truncH dsOut
      by_cases e : i = nv ∧ k ≤ c ∧ c < nv
      · rw [if_pos e]
      · rw [if_neg e, if_neg (by omega)]
        by_cases e2 : i < nv ∧ c < nv
        · rw [if_pos e2]; exact hs.tri i e2.1 c (by omega) h1
        · rw [if_neg e2, if_neg (by omega)]
          exact hf.below c (by omega) i h1 (by omega)
    unfold rq2H
    by_cases e : nc ≤ c ∧ c < n
    · rw [if_pos e, if_neg (by omega), if_neg (by omega)]; exact hd i h1 h2
    · rw [if_neg e]; exact hd i h1 h2

/-- Specification: `M` contains the inner products of the first `p` vectors of both bases. -/
def GramOk (p : ℕ) (V W : ℕ → E) (M : ℕ → ℕ → ℂ) : Prop := ∀ i < p, ∀ j < p, M i j = inner ℂ (W i) (V j)

theorem rq2M_ok {nc nv n : ℕ} {Hr H1 Q Hl T1 Z : ℕ → ℕ → ℂ} (hq : Schur nc nv Hr H1 Q) (hz : Schur nc nv Hl T1 Z) (hn : n < nv) {V W : ℕ → E} {M : ℕ → ℕ → ℂ} (hM : GramOk nv V W M) :
    GramOk n (multIP nc nv n Q V) (multIP nc nv n Z W) (rq2M nv Z M Q) := by
  intro i hi j hj
  unfold rq2M
  rw [if_pos ⟨by omega, by omega⟩, multIP_eq hq hn V hj, multIP_eq hz hn W hi, sum_inner]
  refine sum_congr rfl fun a ha => ?_
  rw [inner_smul_left, inner_sum]
  show star (Z a i) * _ = star (Z a i) * _
  congr 1
  refine sum_congr rfl fun b hb => ?_
  rw [inner_smul_right, hM a (mem_range.mp ha) b (mem_range.mp hb), mul_comm]

/-- invariant of the cycles -/
def Inv (A At : E →ₗ[ℂ] E) (st : TSt E) : Prop :=
  st.nc ≤ st.p ∧ (Decomp A st.nc st.p st.R ∧ Decomp At st.nc st.p st.L ∧ GramOk st.p st.R.V st.L.V st.M) ∧ Below st.nc st.p st.R.H ∧ Below st.nc st.p st.L.H

/-- both factorizations after the first half of a cycle -/
theorem mid_spec {st : TSt E} (hi : Inv A At st) {nv : ℕ} (hp : st.p < nv) :
    ArnSpec A st.nc st.p (nv - st.p) st.R (rightOut A nv st) ∧ ArnSpec At st.nc st.p ((rightOut A nv st).m - st.p) st.L (leftOut A At nv st) ∧
      GramOk (lenOut A At nv st) (rightOut A nv st).s.V (leftOut A At nv st).s.V (gramOut A At nv st) ∧ lenOut A At nv st = (leftOut A At nv st).m := by
  obtain ⟨h1, ⟨h2, h3, h4⟩, h5, h6⟩ := hi
  have a1 := arnoldi_spec (A := A) (nv - st.p) st.p st.R h1 (by omega) h2 h5
  have hlo : st.p < (rightOut A nv st).m := a1.lo
  have a2 := arnoldi_spec (A := At) ((rightOut A nv st).m - st.p) st.p st.L h1 (by omega) h3 h6
  refine ⟨a1, a2, ?_, ?_⟩
  · intro i hi j hj
    unfold gramOut project
    by_cases e : st.p ≤ i ∨ st.p ≤ j
    · rw [if_pos ⟨hi, hj, e⟩]
    · rw [if_neg (fun h => e h.2.2), h4 i (by omega) j (by omega), ← a1.keep j (by omega), ← a2.keep i (by omega)]; rfl
  · have : (leftOut A At nv st).m ≤ st.p + ((rightOut A nv st).m - st.p) := a2.hi
    unfold lenOut; omega

theorem reach_inv {st : TSt E} (h : Reach A At st) : Inv A At st := by
  induction h with
  | init V W M hV hW =>
    have ho : ∀ {V : ℕ → E}, ‖V 0‖ = 1 → OrthoN V (0 + 1) := by
      intro V hV i hi j hj
      have : i = 0 := by omega
      have : j = 0 := by omega
      subst i; subst j
      rw [if_pos rfl, inner_self_eq_norm_sq_to_K, hV]; norm_num
    exact ⟨le_refl _, ⟨⟨ho hV, fun c _ h => absurd h (by simp)⟩, ⟨ho hW, fun c _ h => absurd h (by simp)⟩, fun i h => absurd h (by simp)⟩, fun _ _ _ _ _ => rfl, fun _ _ _ _ _ => rfl⟩
  | step st nv x _ hp hsol hbd hds hlt ih =>
    obtain ⟨a1, a2, hg, hlen⟩ := mid_spec ih hp
    have hb : (rightOut A nv st).bd = false ∧ (leftOut A At nv st).bd = false := by
      have : ((rightOut A nv st).bd || (leftOut A At nv st).bd) = false := hbd
      simpa using this
    have e1 := (a1.full hb.1).2
    have e2 := (a2.full hb.2).2
    have a1lo := a1.lo
    have hR : lenOut A At nv st = (rightOut A nv st).m := by rw [hlen]; omega
    have f1 : Fixed A st.nc (lenOut A At nv st) (rightOut A nv st).beta (mid A At nv x.w x.y st).R := by
      have := fix_spec a1 x.w; rw [← hR] at this; exact this
    have f2 : Fixed At st.nc (lenOut A At nv st) (leftOut A At nv st).beta (mid A At nv x.w x.y st).L := by
      have := fix_spec a2 x.y; rw [← hlen] at this; exact this
    have o1 := (a1.full hb.1).1; rw [← hR] at o1
    have o2 := (a2.full hb.2).1; rw [← hlen] at o2
    have d1 := restart_decomp f1 hds.right hlt hds.lo hds.kn hds.cutR (resid_ne hds.right hlt o1 x.w)
    have d2 := restart_decomp f2 hds.left hlt hds.lo hds.kn hds.cutL (resid_ne hds.left hlt o2 x.y)
    refine ⟨hds.kn, ⟨d1.1, d2.1, ?_⟩, d1.2, d2.2⟩
    have hgm : GramOk (lenOut A At nv st) (mid A At nv x.w x.y st).R.V (mid A At nv x.w x.y st).L.V (gramOut A At nv st) := by
      intro i hi j hj
      have q1 : (mid A At nv x.w x.y st).R.V j = (rightOut A nv st).s.V j := Function.update_of_ne (by omega) _ _
      have q2 : (mid A At nv x.w x.y st).L.V i = (leftOut A At nv st).s.V i := Function.update_of_ne (by omega) _ _
      rw [q1, q2]; exact hg i hi j hj
    have hr := rq2M_ok hds.right hds.left hlt hgm
    intro i hi j hj
    have hi : i < x.n := hi
    have hj : j < x.n := hj
    have q1 : (tnext x st.nc (mid A At nv x.w x.y st)).R.V j = multIP st.nc (lenOut A At nv st) x.n x.Q (mid A At nv x.w x.y st).R.V j := by
      show rq2V (copyCol _ _ _) x.n j = _
      unfold rq2V copyCol
      rw [Function.update_of_ne (by omega), Function.update_of_ne (by omega)]; rfl
    have q2 : (tnext x st.nc (mid A At nv x.w x.y st)).L.V i = multIP st.nc (lenOut A At nv st) x.n x.Z (mid A At nv x.w x.y st).L.V i := by
      show rq2V (copyCol _ _ _) x.n i = _
      unfold rq2V copyCol
      rw [Function.update_of_ne (by omega), Function.update_of_ne (by omega)]; rfl
    rw [q1, q2]; exact hr i hi j hj

/-- **C168** (partial: exact arithmetic, restarts keeping fewer columns than computed, no breakdown). After any number of cycles both bases are orthonormal, the active columns of both
projected matrices give Krylov decompositions of the operator and of its adjoint, and `M` holds the inner products. -/
theorem C168_partial {st : TSt E} (h : Reach A At st) : Decomp A st.nc st.p st.R ∧ Decomp At st.nc st.p st.L ∧ GramOk st.p st.R.V st.L.V st.M := (reach_inv h).2.1

/-- Columns locked in a restart: the relation holds up to the entry of the extra row, which is dropped. -/
theorem C168_locked {nc nv k n : ℕ} {beta : ℝ} {H1 Q : ℕ → ℕ → ℂ} {s : Half E} (hf : Fixed A nc nv beta s) (hs : Schur nc nv s.H H1 Q) (hn : n < nv) (hk : nc ≤ k) (hkn : k ≤ n)
    (hcut : ∀ i < nv, k ≤ i → ∀ j < k, H1 i j = 0) (hcut2 : ∀ i < nv, n ≤ i → ∀ j < n, H1 i j = 0) {j : ℕ} (hj : nc ≤ j) (hjk : j < k) :
    A ((restart nc nv k n Q H1 s).V j) - ∑ i ∈ range k, (restart nc nv k n Q H1 s).H i j • (restart nc nv k n Q H1 s).V i = (beta * Q (nv - 1) j) • s.V nv := by
  have hRV : ∀ i < n, (restart nc nv k n Q H1 s).V i = multIP nc nv n Q s.V i := fun i hi => by
    show rq2V (copyCol _ _ _) n i = _
    unfold rq2V copyCol
    rw [Function.update_of_ne (by omega), Function.update_of_ne (by omega)]
  have t2 : truncH nv k n (dsOut nv s.H H1 Q) n j = 0 := by
    unfold truncH dsOut
    rw [if_neg (by omega), if_neg (by omega), if_pos (by omega)]
    exact hcut n hn hkn j hjk
  have hRH : ∀ i < n, (restart nc nv k n Q H1 s).H i j = H1 i j := by
    intro i hi
    show rq2H _ _ nc n i j = _
    unfold rq2H
    rw [if_pos (by omega), if_pos hi, t2, mul_zero, add_zero]
    unfold truncH dsOut
    rw [if_neg (by omega), if_neg (by omega), if_pos (by omega)]
  rw [hRV j (by omega), rot_rel hf hs hn hcut2 hj (by omega)]
  have e : ∑ i ∈ range n, H1 i j • multIP nc nv n Q s.V i = ∑ i ∈ range k, (restart nc nv k n Q H1 s).H i j • (restart nc nv k n Q H1 s).V i := by
    rw [← sum_subset (range_subset_range.mpr hkn : range k ⊆ range n) (fun i hi hi2 => by
      rw [hcut i (by have := mem_range.mp hi; omega) (by by_contra hh; exact hi2 (mem_range.mpr (by omega))) j hjk, zero_smul])]
    exact sum_congr rfl fun i hi => by
      have hi := mem_range.mp hi
      rw [hRH i (by omega), hRV i (by omega)]
  have e2 : ∑ p ∈ range nv, s.H nv p * Q p j = beta * Q (nv - 1) j := by
    rw [sum_eq_single (nv - 1), hf.last]
    · intro p hp hne
      have hp := mem_range.mp hp
      by_cases h : p < nc
      · rw [hs.lead p hp j (by omega) (Or.inl h), if_neg (by omega), mul_zero]
      · rw [hf.row p (by omega) (by omega), zero_mul]
    · intro h; exact absurd (mem_range.mpr (by omega)) h
  rw [e, e2, add_sub_cancel_left]

/-- **C168 is false** when the size kept is the current size (complex scalars, one active pair left after locking: `l = max(1,(nv-k)*keep) = 1` and `k+l = nv`): DSTruncate cleans the extra
row it has just copied onto itself, and the relation of every active column loses its last term. -/
theorem C168_full_false {nc nv k : ℕ} {beta : ℝ} {H1 Q : ℕ → ℕ → ℂ} {s : Half E} (hf : Fixed A nc nv beta s) (hs : Schur nc nv s.H H1 Q) (hk : nc ≤ k)
    {c : ℕ} (hc : k ≤ c) (hcn : c < nv) (hb : (∑ p ∈ range nv, s.H nv p * Q p c) ≠ 0) (hu : s.V nv ≠ 0) :
    A ((restart nc nv k nv Q H1 s).V c) ≠ ∑ i ∈ range (nv + 1), (restart nc nv k nv Q H1 s).H i c • (restart nc nv k nv Q H1 s).V i := by
  have hm : ∀ i < nv, multIP nc nv nv Q s.V i = ∑ r ∈ range nv, Q r i • s.V r := by
    intro j hj
    unfold multIP
    by_cases h : nc ≤ j
    · rw [if_pos ⟨h, hj⟩]
      refine sum_subset (fun r hr => mem_range.mpr (mem_Ico.mp hr).2) fun r hr hr2 => ?_
      have hr := mem_range.mp hr
      have hr2 : r < nc := by by_contra hh; exact hr2 (mem_Ico.mpr ⟨by omega, hr⟩)
      rw [hs.lead r hr j (by omega) (Or.inl hr2), if_neg (by omega), zero_smul]
    · rw [if_neg (by omega), sum_eq_single j]
      · rw [hs.lead j (by omega) j (by omega) (Or.inl (by omega)), if_pos rfl, one_smul]
      · intro r hr hne
        rw [hs.lead r (mem_range.mp hr) j (by omega) (Or.inr (by omega)), if_neg hne, zero_smul]
      · intro h2; exact absurd (mem_range.mpr (by omega)) h2
  have hRV : ∀ i < nv, (restart nc nv k nv Q H1 s).V i = ∑ r ∈ range nv, Q r i • s.V r := fun i hi => by
    show rq2V (copyCol _ _ _) nv i = _
    unfold rq2V copyCol
    rw [Function.update_of_ne (by omega), Function.update_of_ne (by omega), hm i hi]
  have t2 : truncH nv k nv (dsOut nv s.H H1 Q) nv c = 0 := by
    unfold truncH; rw [if_pos ⟨rfl, hc, hcn⟩]
  have hRH : ∀ i < nv, (restart nc nv k nv Q H1 s).H i c = H1 i c := by
    intro i hi
    show rq2H _ _ nc nv i c = _
    unfold rq2H
    rw [if_pos (by omega), if_pos hi, t2, mul_zero, add_zero]
    unfold truncH dsOut
    rw [if_neg (by omega), if_neg (by omega), if_pos (by omega)]
  have hRn : (restart nc nv k nv Q H1 s).H nv c = 0 := by
    show rq2H _ _ nc nv nv c = _
    unfold rq2H
    rw [if_pos (by omega), if_neg (by omega), if_pos rfl, t2, zero_mul]
  have hQ : ∀ r < nv, r < nc → Q r c = 0 := fun r hr h => by rw [hs.lead r hr c (by omega) (Or.inl h), if_neg (by omega)]
  have e1 : A ((restart nc nv k nv Q H1 s).V c) = ∑ r ∈ range nv, Q r c • (∑ i ∈ range nv, s.H i r • s.V i + s.H nv r • s.V nv) := by
    rw [hRV c hcn, map_sum]
    refine sum_congr rfl fun r hr => ?_
    have hr := mem_range.mp hr
    rw [map_smul]
    by_cases h : r < nc
    · rw [hQ r hr h, zero_smul, zero_smul]
    · rw [hf.rel r (by omega) hr]
  have e3 : ∑ i ∈ range nv, H1 i c • ∑ r ∈ range nv, Q r i • s.V r = ∑ r ∈ range nv, (∑ p ∈ range nv, s.H r p * Q p c) • s.V r := by
    simp_rw [smul_sum]
    rw [sum_comm]
    refine sum_congr rfl fun r hr => ?_
    rw [hs.eq r (mem_range.mp hr) c (by omega), sum_smul]
    exact sum_congr rfl fun i _ => by rw [smul_smul, mul_comm]
  have e4 : ∑ r ∈ range nv, Q r c • (∑ i ∈ range nv, s.H i r • s.V i + s.H nv r • s.V nv) =
      ∑ r ∈ range nv, (∑ p ∈ range nv, s.H r p * Q p c) • s.V r + (∑ p ∈ range nv, s.H nv p * Q p c) • s.V nv := by
    simp_rw [smul_add, sum_add_distrib]
    congr 1
    · simp_rw [smul_sum, sum_smul]
      rw [sum_comm]
      exact sum_congr rfl fun r _ => sum_congr rfl fun p _ => by rw [smul_smul, mul_comm]
    · rw [sum_smul]
      exact sum_congr rfl fun p _ => by rw [smul_smul, mul_comm]
  have e5 : ∑ i ∈ range (nv + 1), (restart nc nv k nv Q H1 s).H i c • (restart nc nv k nv Q H1 s).V i = ∑ i ∈ range nv, H1 i c • ∑ r ∈ range nv, Q r i • s.V r := by
    rw [sum_range_succ, hRn, zero_smul, add_zero]
    exact sum_congr rfl fun i hi => by rw [hRH i (mem_range.mp hi), hRV i (mem_range.mp hi)]
  rw [e1, e4, e5, e3]
  intro h
  exact smul_ne_zero hb hu (by simpa using h)

end Verif.Ts
