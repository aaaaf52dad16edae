import Verif.Lan.DelayModel
import Verif.Iter.Two

/-! # C159: delayed Arnoldi -/
set_option linter.all false

namespace Verif.Lan

open Finset Verif.Iter

variable {E : Type} [NormedAddCommGroup E] [InnerProductSpace ℂ E]

/-- Column `p` of the Arnoldi relation. -/
def Arn (A : E →ₗ[ℂ] E) (V : ℕ → E) (H : ℕ → ℕ → ℂ) (p : ℕ) : Prop :=
  A (V p) = ∑ i ∈ range (p + 1), H p i • V i + H p (p + 1) • V (p + 1)

/-- The last column, with the residual vector `f`. -/
def ArnLast (A : E →ₗ[ℂ] E) (V : ℕ → E) (H : ℕ → ℕ → ℂ) (p : ℕ) (f : E) : Prop :=
  A (V p) = ∑ i ∈ range (p + 1), H p i • V i + f

theorem arnLast_congr {A : E →ₗ[ℂ] E} {V V' : ℕ → E} {H H' : ℕ → ℕ → ℂ} {p : ℕ} {f f' : E}
    (hV : ∀ i, i ≤ p → V' i = V i) (hH : ∀ i, i ≤ p → H' p i = H p i) (hf : f' = f)
    (h : ArnLast A V H p f) : ArnLast A V' H' p f' := by
  unfold ArnLast at h ⊢
  rw [hV p (le_refl _), h, hf]
  congr 1
  exact sum_congr rfl fun i hi => by
    have := mem_range.mp hi
    rw [hV i (by omega), hH i (by omega)]

/-- Normalized columns with an orthogonal, unnormalized column `j`. -/
structure AInv (A : E →ₗ[ℂ] E) (k : ℕ) (V0 V : ℕ → E) (H : ℕ → ℕ → ℂ) (j : ℕ) : Prop where
  kj : k < j
  ortho : OrthoN V j
  perp : ∀ i, i < j → inner ℂ (V i) (V j) = (0 : ℂ)
  last : ArnLast A V H (j - 1) (V j)
  old : ∀ i, i ≤ k → V i = V0 i

theorem resid_perp {V : ℕ → E} {n : ℕ} (hV : OrthoN V n) (w : E) (i : ℕ) (hi : i < n) :
    inner ℂ (V i) (w - ∑ p ∈ range n, inner ℂ (V p) w • V p) = (0 : ℂ) := by
  rw [inner_sub_right, inner_sum, sum_eq_single i]
  · rw [inner_smul_right, hV i hi i hi, if_pos rfl, mul_one, sub_self]
  · intro p hp hne
    have hp := mem_range.mp hp
    rw [inner_smul_right, hV i hi p hp, if_neg (Ne.symm hne), mul_zero]
  · intro hn; exact absurd (mem_range.mpr hi) hn

/-- First pass. -/
theorem first_inv (A : E →ₗ[ℂ] E) (k : ℕ) (V : ℕ → E) (hV : OrthoN V (k + 1)) (H : ℕ → ℕ → ℂ)
    (hH : ∀ i, i ≤ k → H k i = hcol k V (A (V k)) k i) : AInv A k V (vcol A k V k) H (k + 1) := by
  have h0 : ∀ i, hcol k V (A (V k)) k i = inner ℂ (V i) (A (V k)) := fun i => if_neg (by omega)
  have hu : Function.update V k ((1 : ℂ) • V k) = V := by rw [one_smul]; exact Function.update_eq_self k V
  have e : vcol A k V k = Function.update V (k + 1) (A (V k) - ∑ i ∈ range (k + 1), inner ℂ (V i) (A (V k)) • V i) := by
    unfold vcol
    simp only [if_neg (by omega : ¬ k < k), hu, h0, one_smul]
    rw [Function.update_eq_self]
  have hold : ∀ i, i ≤ k → vcol A k V k i = V i := fun i hi => by rw [e, Function.update_of_ne (by omega)]
  have hnew : vcol A k V k (k + 1) = A (V k) - ∑ i ∈ range (k + 1), inner ℂ (V i) (A (V k)) • V i := by
    rw [e, Function.update_self]
  refine ⟨by omega, fun i hi j hj => ?_, fun i hi => ?_, ?_, fun i hi => hold i hi⟩
  · rw [hold i (by omega), hold j (by omega)]; exact hV i hi j hj
  · rw [hold i (by omega), hnew]; exact resid_perp hV _ i hi
  · show ArnLast A (vcol A k V k) H k _
    unfold ArnLast
    rw [hold k (le_refl _), hnew]
    have : ∑ i ∈ range (k + 1), H k i • vcol A k V k i = ∑ i ∈ range (k + 1), inner ℂ (V i) (A (V k)) • V i :=
      sum_congr rfl fun i hi => by
        have := mem_range.mp hi
        rw [hold i (by omega), hH i (by omega), h0]
    rw [this]; abel

/-- Further passes. -/
theorem next_inv {A : E →ₗ[ℂ] E} {k j : ℕ} {V0 V : ℕ → E} {H H' : ℕ → ℕ → ℂ} (h : AInv A k V0 V H j)
    (h0 : V j ≠ 0) (hH : ∀ i, i ≤ j → H' j i = hcol k V (A (V j)) j i) :
    AInv A k V0 (vcol A k V j) H' (j + 1) ∧ (∀ i, i < j → vcol A k V j i = V i) ∧
      ((‖V j‖ : ℝ) : ℂ) • vcol A k V j j = V j := by
  have hkj := h.kj
  have hn : ‖V j‖ ≠ 0 := norm_ne_zero_iff.2 h0
  have hnc : ((‖V j‖ : ℝ) : ℂ) ≠ 0 := by exact_mod_cast hn
  set q : E := ((1 / ‖V j‖ : ℝ) : ℂ) • V j with hq
  set V2 := Function.update V j q with hV2
  have o2 : ∀ i, i < j → V2 i = V i := fun i hi => by rw [hV2, Function.update_of_ne (by omega)]
  have o2j : V2 j = q := by rw [hV2, Function.update_self]
  have qq : inner ℂ q q = (1 : ℂ) := by
    rw [hq, inner_smul_left, inner_smul_right, inner_self_eq_norm_sq_to_K, Complex.conj_ofReal]
    push_cast
    field_simp
    rfl
  have ho : OrthoN V2 (j + 1) := by
    intro a ha b hb
    by_cases ea : a = j
    · by_cases eb : b = j
      · rw [ea, eb, o2j, if_pos rfl]; exact qq
      · rw [ea, o2j, o2 b (by omega), if_neg (by omega), ← inner_conj_symm, hq, inner_smul_right, h.perp b (by omega), mul_zero, map_zero]
    · by_cases eb : b = j
      · rw [eb, o2j, o2 a (by omega), if_neg (by omega), hq, inner_smul_right, h.perp a (by omega), mul_zero]
      · rw [o2 a (by omega), o2 b (by omega)]; exact h.ortho a (by omega) b (by omega)
  have hA : A q = ((1 / ‖V j‖ : ℝ) : ℂ) • A (V j) := by rw [hq, map_smul]
  have hc : ∀ i, i ≤ j → hcol k V (A (V j)) j i = inner ℂ (V2 i) (A q) := fun i hi => by
    unfold hcol
    rw [if_pos hkj, hA, inner_smul_right]
    by_cases e : i = j
    · rw [if_pos e, e, o2j, hq, inner_smul_left, Complex.conj_ofReal]
      push_cast
      field_simp
    · rw [if_neg e, o2 i (by omega)]
      push_cast
      field_simp
  have e : vcol A k V j = Function.update V2 (j + 1) (A q - ∑ i ∈ range (j + 1), inner ℂ (V2 i) (A q) • V2 i) := by
    unfold vcol
    rw [if_pos hkj]
    show Function.update V2 (j + 1) (((1 / ‖V j‖ : ℝ) : ℂ) • A (V j) - ∑ i ∈ range (j + 1), hcol k V (A (V j)) j i • V2 i) = _
    rw [hA]
    congr 2
    exact sum_congr rfl fun i hi => by
      have := mem_range.mp hi
      rw [hc i (by omega), hA]
  have hold : ∀ i, i ≤ j → vcol A k V j i = V2 i := fun i hi => by rw [e, Function.update_of_ne (by omega)]
  have hnew : vcol A k V j (j + 1) = A q - ∑ i ∈ range (j + 1), inner ℂ (V2 i) (A q) • V2 i := by
    rw [e, Function.update_self]
  refine ⟨⟨by omega, fun a ha b hb => ?_, fun i hi => ?_, ?_, fun i hi => ?_⟩, fun i hi => ?_, ?_⟩
  · rw [hold a (by omega), hold b (by omega)]; exact ho a ha b hb
  · rw [hold i (by omega), hnew]; exact resid_perp ho _ i hi
  · show ArnLast A (vcol A k V j) H' j _
    unfold ArnLast
    rw [hold j (le_refl _), hnew, o2j]
    have : ∑ i ∈ range (j + 1), H' j i • vcol A k V j i = ∑ i ∈ range (j + 1), inner ℂ (V2 i) (A q) • V2 i :=
      sum_congr rfl fun i hi => by
        have := mem_range.mp hi
        rw [hold i (by omega), hH i (by omega), hc i (by omega)]
    rw [this]; abel
  · rw [hold i (by omega), o2 i (by omega)]; exact h.old i hi
  · rw [hold i (by omega), o2 i hi]
  · rw [hold j (le_refl _), o2j, hq, smul_smul]
    have : ((‖V j‖ : ℝ) : ℂ) * ((1 / ‖V j‖ : ℝ) : ℂ) = 1 := by push_cast; field_simp
    rw [this, one_smul]

/-- What an Arnoldi factorization with `k` given columns and `m` columns is. -/
structure Arnoldi (A : E →ₗ[ℂ] E) (k m : ℕ) (V0 V : ℕ → E) (H : ℕ → ℕ → ℂ) (beta : ℝ) : Prop where
  ortho : OrthoN V (m + 1)
  rel : ∀ p, k ≤ p → p + 1 < m → Arn A V H p ∧ ∃ r : ℝ, 0 < r ∧ H p (p + 1) = r
  last : ArnLast A V H (m - 1) ((beta : ℂ) • V m)
  pos : 0 < beta
  old : ∀ i, i ≤ k → V i = V0 i

/-- The Krylov space is exhausted within `m` steps: a factorization whose last residual is zero. -/
def Exhausted (A : E →ₗ[ℂ] E) (k m : ℕ) (V0 : ℕ → E) : Prop :=
  ∃ j, k ≤ j ∧ j < m ∧ ∃ (W : ℕ → E) (H : ℕ → ℕ → ℂ), OrthoN W (j + 1) ∧ (∀ i, i ≤ k → W i = V0 i) ∧
    (∀ p, k ≤ p → p < j → Arn A W H p) ∧ ArnLast A W H j 0

/-- Invariant of EPSDelayedArnoldi before pass `j`. -/
structure DInv (A : E →ₗ[ℂ] E) (k m : ℕ) (V0 : ℕ → E) (s : DSt E) (j : ℕ) : Prop where
  a : AInv A k V0 s.V s.H j
  rel : ∀ p, k ≤ p → p + 2 < j → Arn A s.V s.H p ∧ ∃ r : ℝ, 0 < r ∧ s.H p (p + 1) = r
  t : k + 1 < j → ∃ n : ℝ, 0 < n ∧ s.t = some ((n : ℂ) • s.V (j - 1)) ∧ ArnLast A s.V s.H (j - 2) ((n : ℂ) • s.V (j - 1))
  tn : j = k + 1 → s.t = none
  u : k + 1 < j → j < m → s.u = s.t

theorem norm_of_ortho {V : ℕ → E} {n i : ℕ} (h : OrthoN V n) (hi : i < n) : ‖V i‖ = 1 := by
  have h1 := h i hi i hi
  rw [if_pos rfl, inner_self_eq_norm_sq_to_K] at h1
  have h2 : ((‖V i‖ ^ 2 : ℝ) : ℂ) = ((1 : ℝ) : ℂ) := by push_cast; exact h1
  have h3 := Complex.ofReal_injective h2
  have := norm_nonneg (V i)
  nlinarith

theorem dinv_rel {A : E →ₗ[ℂ] E} {k m j : ℕ} {V0 : ℕ → E} {s : DSt E} (h : DInv A k m V0 s j) :
    ∃ H : ℕ → ℕ → ℂ, (∀ p, k ≤ p → p < j - 1 → Arn A s.V H p) ∧ (∀ i, H (j - 1) i = s.H (j - 1) i) := by
  have hkj := h.a.kj
  by_cases hk : k + 1 < j
  · obtain ⟨n, n0, nt, nl⟩ := h.t hk
    refine ⟨fun c i => if c + 2 = j ∧ i + 1 = j then (n : ℂ) else s.H c i, fun p h1 h2 => ?_, fun i => if_neg (by omega)⟩
    unfold Arn
    by_cases e : p + 2 = j
    · have hp : p = j - 2 := by omega
      have : ∑ i ∈ range (p + 1), (if p + 2 = j ∧ i + 1 = j then (n : ℂ) else s.H p i) • s.V i = ∑ i ∈ range (p + 1), s.H p i • s.V i :=
        sum_congr rfl fun i hi => by
          have := mem_range.mp hi
          rw [if_neg (by omega)]
      show _ = _ + (if p + 2 = j ∧ p + 1 + 1 = j then (n : ℂ) else s.H p (p + 1)) • s.V (p + 1)
      rw [this, if_pos ⟨e, by omega⟩]
      rw [← hp, show j - 1 = p + 1 by omega] at nl
      exact nl
    · have hr := (h.rel p h1 (by omega)).1
      unfold Arn at hr
      have : ∑ i ∈ range (p + 1), (if p + 2 = j ∧ i + 1 = j then (n : ℂ) else s.H p i) • s.V i = ∑ i ∈ range (p + 1), s.H p i • s.V i :=
        sum_congr rfl fun i hi => by rw [if_neg (by omega)]
      show _ = _ + (if p + 2 = j ∧ p + 1 + 1 = j then (n : ℂ) else s.H p (p + 1)) • s.V (p + 1)
      rw [this, if_neg (by omega)]
      exact hr
  · exact ⟨s.H, fun p h1 h2 => by omega, fun _ => rfl⟩

theorem dstep_spec {A : E →ₗ[ℂ] E} {k m j : ℕ} {V0 : ℕ → E} {s : DSt E} (h : DInv A k m V0 s j) (hj : j < m) :
    (∃ s', dstep A k m s j = some s' ∧ DInv A k m V0 s' (j + 1)) ∨ (dstep A k m s j = none ∧ Exhausted A k m V0) := by
  have hkj := h.a.kj
  by_cases h0 : s.V j = 0
  · right
    refine ⟨by unfold dstep; rw [if_pos ⟨hkj, h0⟩], j - 1, by omega, by omega, ?_⟩
    obtain ⟨H, hH, hH'⟩ := dinv_rel h
    refine ⟨s.V, H, fun a ha b hb => h.a.ortho a (by omega) b (by omega), h.a.old, fun p h1 h2 => hH p h1 h2, ?_⟩
    exact arnLast_congr (fun _ _ => rfl) (fun i _ => hH' i) h0.symm h.a.last
  · left
    have hc1 : ¬ (k < j ∧ s.V j = 0) := fun hh => h0 hh.2
    -- the norm of u
    have hn2 : ∀ n2 : ℝ, n2 = ‖s.u.getD 0‖ → k + 1 < j →
        0 < n2 ∧ s.t = some ((n2 : ℂ) • s.V (j - 1)) ∧ ArnLast A s.V s.H (j - 2) ((n2 : ℂ) • s.V (j - 1)) := by
      intro n2 e hk
      obtain ⟨n, n0, nt, nl⟩ := h.t hk
      have hu := h.u hk hj
      rw [nt] at hu
      rw [hu] at e
      have : n2 = n := by
        rw [e]
        show ‖(n : ℂ) • s.V (j - 1)‖ = n
        rw [norm_smul, norm_of_ortho h.a.ortho (by omega), mul_one, Complex.norm_real, Real.norm_eq_abs, abs_of_pos n0]
      rw [this]; exact ⟨n0, nt, nl⟩
    have hlhh : ∀ i, i < j → inner ℂ (s.V i) (s.V j) = (0 : ℂ) := h.a.perp
    have ht' : s.V j - ∑ i ∈ range j, inner ℂ (s.V i) (s.V j) • s.V i = s.V j := by
      rw [sum_eq_zero, sub_zero]
      intro i hi
      rw [hlhh i (mem_range.mp hi), zero_smul]
    obtain ⟨n2, en2⟩ : ∃ n2 : ℝ, n2 = ‖s.u.getD 0‖ := ⟨_, rfl⟩
    obtain ⟨u, eu⟩ : ∃ u : E, u = s.u.getD 0 := ⟨_, rfl⟩
    have hc2 : ¬ (k + 1 < j ∧ n2 = 0) := fun hh => by
      have := (hn2 n2 en2 hh.1).1
      rw [hh.2] at this
      exact lt_irrefl _ this
    set H' : ℕ → ℕ → ℂ := fun c i =>
        if c = j then (if i ≤ j then hcol k s.V (A (s.V j)) j i else s.H c i)
        else if c + 1 = j ∧ k < j ∧ i < j then s.H c i + inner ℂ (s.V i) (s.V j)
        else if c + 2 = j ∧ k + 1 < j ∧ i + 1 = j then (n2 : ℂ)
        else s.H c i with hH'
    obtain ⟨x1, x2, x3⟩ := next_inv (H' := H') h.a h0 (fun i hi => by
      show (if j = j then (if i ≤ j then hcol k s.V (A (s.V j)) j i else s.H j i) else _) = _
      rw [if_pos rfl, if_pos hi])
    have hu1 : k + 1 < j → u = (n2 : ℂ) • s.V (j - 1) := fun hk => by
      have hu := h.u hk hj
      rw [(hn2 n2 en2 hk).2.1] at hu
      rw [hu] at eu
      exact eu
    have hV : (if k + 1 < j then Function.update (vcol A k s.V j) (j - 1) (((1 / n2 : ℝ) : ℂ) • u) else vcol A k s.V j) = vcol A k s.V j := by
      by_cases hk : k + 1 < j
      · rw [if_pos hk, hu1 hk, smul_smul]
        have hn0 := (hn2 n2 en2 hk).1
        have hne : (n2 : ℂ) ≠ 0 := by exact_mod_cast hn0.ne'
        have : ((1 / n2 : ℝ) : ℂ) * (n2 : ℂ) = 1 := by push_cast; field_simp
        rw [this, one_smul, ← x2 (j - 1) (by omega)]
        exact Function.update_eq_self _ _
      · rw [if_neg hk]
    refine ⟨{ V := vcol A k s.V j, H := H', t := some (s.V j), u := if j + 1 < m then some (s.V j) else s.u }, ?_, ?_⟩
    · unfold dstep
      simp only
      rw [if_neg hc1, ← en2, if_neg hc2, ← eu, hV, if_pos hkj, ht']
    · have hsame : ∀ p i, p + 2 < j → H' p i = s.H p i := fun p i hp => by
        show (if p = j then _ else _) = _
        rw [if_neg (by omega), if_neg (by omega), if_neg (by omega)]
      have hn0 : (0 : ℝ) < ‖s.V j‖ := norm_pos_iff.2 h0
      refine ⟨x1, fun p h1 h2 => ?_, fun hk => ⟨‖s.V j‖, hn0, ?_, ?_⟩, fun hk => by omega, fun hk hm => ?_⟩
      · by_cases e : p + 2 = j
        · obtain ⟨a1, a2, a3⟩ := hn2 n2 en2 (by omega)
          have e2 : H' p (p + 1) = (n2 : ℂ) := by
            show (if p = j then _ else _) = _
            rw [if_neg (by omega), if_neg (by omega), if_pos (by omega)]
          refine ⟨?_, n2, a1, e2⟩
          have hp : p = j - 2 := by omega
          rw [← hp, show j - 1 = p + 1 by omega] at a3
          unfold Arn
          unfold ArnLast at a3
          show A (vcol A k s.V j p) = ∑ i ∈ range (p + 1), H' p i • vcol A k s.V j i + H' p (p + 1) • vcol A k s.V j (p + 1)
          rw [x2 p (by omega), x2 (p + 1) (by omega), e2, a3]
          congr 1
          refine sum_congr rfl fun i hi => ?_
          have hi := mem_range.mp hi
          rw [x2 i (by omega)]
          congr 1
          show _ = (if p = j then _ else _)
          rw [if_neg (by omega), if_neg (by omega), if_neg (by omega)]
        · obtain ⟨r1, r, r2, r3⟩ := h.rel p h1 (by omega)
          refine ⟨?_, r, r2, by rw [← r3]; exact hsame p _ (by omega)⟩
          unfold Arn at r1 ⊢
          show A (vcol A k s.V j p) = ∑ i ∈ range (p + 1), H' p i • vcol A k s.V j i + H' p (p + 1) • vcol A k s.V j (p + 1)
          rw [x2 p (by omega), x2 (p + 1) (by omega), r1, hsame p _ (by omega)]
          congr 1
          refine sum_congr rfl fun i hi => ?_
          have hi := mem_range.mp hi
          rw [x2 i (by omega), hsame p _ (by omega)]
      · show some (s.V j) = some (((‖s.V j‖ : ℝ) : ℂ) • vcol A k s.V j j)
        rw [x3]
      · show ArnLast A (vcol A k s.V j) H' (j - 1) (((‖s.V j‖ : ℝ) : ℂ) • vcol A k s.V j j)
        refine arnLast_congr (fun i hi => x2 i (by omega)) (fun i hi => ?_) x3 h.a.last
        show (if j - 1 = j then _ else _) = _
        rw [if_neg (by omega), if_pos (by omega), hlhh i (by omega), add_zero]
      · show (if j + 1 < m then some (s.V j) else s.u) = some (s.V j)
        rw [if_pos hm]

theorem dfirst {A : E →ₗ[ℂ] E} {k m : ℕ} {V : ℕ → E} (hV : OrthoN V (k + 1)) (H : ℕ → ℕ → ℂ) :
    ∃ s', dstep A k m { V := V, H := H, t := none, u := none } k = some s' ∧ DInv A k m V s' (k + 1) := by
  set H' : ℕ → ℕ → ℂ := fun c i =>
        if c = k then (if i ≤ k then hcol k V (A (V k)) k i else H c i)
        else if c + 1 = k ∧ k < k ∧ i < k then H c i + inner ℂ (V i) (V k)
        else if c + 2 = k ∧ k + 1 < k ∧ i + 1 = k then ((‖(none : Option E).getD 0‖ : ℝ) : ℂ)
        else H c i with hH'
  refine ⟨{ V := vcol A k V k, H := H', t := none, u := if k + 1 < m then none else none }, ?_, ?_⟩
  · unfold dstep
    simp only
    rw [if_neg (by omega), if_neg (by omega), if_neg (by omega), if_neg (by omega)]
  · refine ⟨first_inv A k V hV H' (fun i hi => ?_), fun p h1 h2 => by omega, fun hk => by omega, fun _ => rfl, fun hk => by omega⟩
    show (if k = k then (if i ≤ k then hcol k V (A (V k)) k i else H k i) else _) = _
    rw [if_pos rfl, if_pos hi]

theorem dloop_spec {A : E →ₗ[ℂ] E} {k m : ℕ} {V0 : ℕ → E} : ∀ (g j : ℕ) (s : DSt E), j + g = m → DInv A k m V0 s j →
    (∃ s', dloop A k m g j s = some s' ∧ DInv A k m V0 s' m) ∨ (dloop A k m g j s = none ∧ Exhausted A k m V0)
  | 0, j, s, h, hi => Or.inl ⟨s, rfl, by rw [show m = j by omega] at hi ⊢; exact hi⟩
  | g + 1, j, s, h, hi => by
    rw [dloop]
    rcases dstep_spec hi (by omega) with ⟨s', e, i'⟩ | ⟨e, ex⟩
    · rw [e]; exact dloop_spec g (j + 1) s' (by omega) i'
    · rw [e]; exact Or.inr ⟨rfl, ex⟩

/-- **C159.** With at least two new columns EPSDelayedArnoldi returns an Arnoldi factorization, unless the
Krylov space is exhausted, in which case it divides by zero (it has no test for breakdown). -/
theorem C159_delayed_partial (A : E →ₗ[ℂ] E) (k m : ℕ) (hm : k + 2 ≤ m) (V : ℕ → E) (hV : OrthoN V (k + 1)) (H : ℕ → ℕ → ℂ) :
    (∃ W G beta, delayed A k m V H = .ok W G beta ∧ Arnoldi A k m V W G beta) ∨ (delayed A k m V H = .div0 ∧ Exhausted A k m V) := by
  obtain ⟨s1, e1, i1⟩ := dfirst (A := A) (m := m) hV H
  have hl : dloop A k m (m - k) k { V := V, H := H, t := none, u := none } = dloop A k m (m - k - 1) (k + 1) s1 := by
    obtain ⟨g, hg⟩ : ∃ g, m - k = g + 1 := ⟨m - k - 1, by omega⟩
    rw [hg, dloop, e1]; rfl
  unfold delayed
  rw [hl]
  rcases dloop_spec (m - k - 1) (k + 1) s1 (by omega) i1 with ⟨s, es, i⟩ | ⟨es, ex⟩
  · obtain ⟨n, n0, nt, nl⟩ := i.t (by omega)
    have hkm := i.a.kj
    have hnorm : ‖(n : ℂ) • s.V (m - 1)‖ = n := by
      rw [norm_smul, norm_of_ortho i.a.ortho (by omega), mul_one, Complex.norm_real, Real.norm_eq_abs, abs_of_pos n0]
    have hV1 : Function.update s.V (m - 1) (((1 / n : ℝ) : ℂ) • (n : ℂ) • s.V (m - 1)) = s.V := by
      have hne : (n : ℂ) ≠ 0 := by exact_mod_cast n0.ne'
      have : ((1 / n : ℝ) : ℂ) * (n : ℂ) = 1 := by push_cast; field_simp
      rw [smul_smul, this, one_smul]
      exact Function.update_eq_self _ _
    have hf : s.V m - ∑ x ∈ range m, inner ℂ (s.V x) (s.V m) • s.V x = s.V m := by
      rw [sum_eq_zero, sub_zero]
      intro i' hi
      rw [i.a.perp i' (mem_range.mp hi), zero_smul]
    rw [es]
    simp only [nt]
    rw [hnorm, hV1, if_neg n0.ne']
    unfold dfinal
    simp only
    by_cases h0 : s.V m = 0
    · right
      rw [if_pos (hf.trans h0)]
      refine ⟨rfl, m - 1, by omega, by omega, ?_⟩
      obtain ⟨G, hG, hG'⟩ := dinv_rel i
      refine ⟨s.V, G, fun a ha b hb => i.a.ortho a (by omega) b (by omega), i.a.old, fun p h1 h2 => hG p h1 h2, ?_⟩
      exact arnLast_congr (fun _ _ => rfl) (fun i _ => hG' i) h0.symm i.a.last
    · left
      rw [if_neg (fun hh => h0 (hf.symm.trans hh)), hf]
      refine ⟨_, _, _, rfl, ?_⟩
      have hnV : ‖s.V m‖ ≠ 0 := norm_ne_zero_iff.2 h0
      have hnc : ((‖s.V m‖ : ℝ) : ℂ) ≠ 0 := by exact_mod_cast hnV
      set W := Function.update s.V m (((1 / ‖s.V m‖ : ℝ) : ℂ) • s.V m) with hW
      have hold : ∀ i, i < m → W i = s.V i := fun i hi => by rw [hW, Function.update_of_ne (by omega)]
      have hnew : W m = ((1 / ‖s.V m‖ : ℝ) : ℂ) • s.V m := by rw [hW, Function.update_self]
      refine ⟨fun a ha b hb => ?_, fun p h1 h2 => ?_, ?_, norm_pos_iff.2 h0, fun i' hi => by rw [hold i' (by omega)]; exact i.a.old i' hi⟩
      · by_cases ea : a = m
        · by_cases eb : b = m
          · rw [ea, eb, if_pos rfl, hnew, inner_smul_left, inner_smul_right, inner_self_eq_norm_sq_to_K, Complex.conj_ofReal]
            push_cast
            field_simp
            rfl
          · rw [ea, hnew, hold b (by omega), if_neg (by omega), ← inner_conj_symm, inner_smul_right, i.a.perp b (by omega), mul_zero, map_zero]
        · by_cases eb : b = m
          · rw [eb, hnew, hold a (by omega), if_neg (by omega), inner_smul_right, i.a.perp a (by omega), mul_zero]
          · rw [hold a (by omega), hold b (by omega)]; exact i.a.ortho a (by omega) b (by omega)
      · unfold Arn
        rw [hold p (by omega), hold (p + 1) h2]
        by_cases e : p + 2 = m
        · refine ⟨?_, n, n0, by rw [if_pos (by omega)]⟩
          beta_reduce
          rw [if_pos (by omega)]
          have hp : p = m - 2 := by omega
          rw [← hp, show m - 1 = p + 1 by omega] at nl
          unfold ArnLast at nl
          rw [nl]
          congr 1
          refine sum_congr rfl fun i' hi => ?_
          have hi := mem_range.mp hi
          rw [hold i' (by omega), if_neg (by omega), if_neg (by omega)]
        · obtain ⟨r1, r, r2, r3⟩ := i.rel p h1 (by omega)
          refine ⟨?_, r, r2, by rw [if_neg (by omega), if_neg (by omega)]; exact r3⟩
          beta_reduce
          rw [if_neg (by omega), if_neg (by omega)]
          unfold Arn at r1
          rw [r1]
          congr 1
          refine sum_congr rfl fun i' hi => ?_
          have hi := mem_range.mp hi
          rw [hold i' (by omega), if_neg (by omega), if_neg (by omega)]
      · refine arnLast_congr (fun i' hi => hold i' (by omega)) (fun i' hi => ?_) ?_ i.a.last
        · rw [if_neg (by omega), if_pos (by omega), i.a.perp i' (by omega), add_zero]
        · rw [hnew, smul_smul]
          have : ((‖s.V m‖ : ℝ) : ℂ) * ((1 / ‖s.V m‖ : ℝ) : ℂ) = 1 := by push_cast; field_simp
          rw [this, one_smul]
  · rw [es]; exact Or.inr ⟨rfl, ex⟩

/-- **C159 is false with a single new column.** The work vector that replaces the last column is never
assigned in that case, for every operator. -/
theorem C159_single_false (A : E →ₗ[ℂ] E) (k : ℕ) (V : ℕ → E) (hV : OrthoN V (k + 1)) (H : ℕ → ℕ → ℂ) :
    delayed A k (k + 1) V H = .uninit := by
  obtain ⟨s1, e1, i1⟩ := dfirst (A := A) (m := k + 1) hV H
  unfold delayed
  have hl : dloop A k (k + 1) (k + 1 - k) k { V := V, H := H, t := none, u := none } = some s1 := by
    rw [show k + 1 - k = 0 + 1 by omega, dloop, e1]; rfl
  rw [hl]
  simp only [i1.tn rfl]

/-! ### The variant without reorthogonalization -/

structure D1Inv (A : E →ₗ[ℂ] E) (k : ℕ) (V0 : ℕ → E) (s : D1St E) (j : ℕ) : Prop where
  a : AInv A k V0 s.V s.H j
  rel : ∀ p, k ≤ p → p + 1 < j → Arn A s.V s.H p ∧ ∃ r : ℝ, 0 < r ∧ s.H p (p + 1) = r
  beta : k + 1 < j → ∃ b : ℝ, s.beta = some b ∧ s.H (j - 2) (j - 1) = b
  betan : j = k + 1 → s.beta = none

theorem d1step_spec {A : E →ₗ[ℂ] E} {k j : ℕ} {V0 : ℕ → E} {s s' : D1St E} (h : D1Inv A k V0 s j)
    (hs : d1step A k s j = some s') : D1Inv A k V0 s' (j + 1) := by
  have hkj := h.a.kj
  unfold d1step at hs
  by_cases h0 : s.V j = 0
  · rw [if_pos ⟨hkj, h0⟩] at hs; simp at hs
  · rw [if_neg (fun hh => h0 hh.2)] at hs
    set H' : ℕ → ℕ → ℂ := fun c i =>
        if c = j then (if i ≤ j then hcol k s.V (A (s.V j)) j i else s.H c i)
        else if c + 1 = j ∧ k < j ∧ i = j then (‖s.V j‖ : ℂ)
        else s.H c i with hH'
    obtain ⟨x1, x2, x3⟩ := next_inv (H' := H') h.a h0 (fun i hi => by
      show (if j = j then (if i ≤ j then hcol k s.V (A (s.V j)) j i else s.H j i) else _) = _
      rw [if_pos rfl, if_pos hi])
    have hs' := Option.some.inj hs
    subst hs'
    rw [if_pos hkj]
    have hlast : H' (j - 1) j = (‖s.V j‖ : ℂ) := by
      show (if j - 1 = j then _ else _) = _
      rw [if_neg (by omega), if_pos (by omega)]
    refine ⟨x1, fun p h1 h2 => ?_, fun hk => ⟨‖s.V j‖, rfl, hlast⟩, fun hk => by omega⟩
    have hsum : ∑ i ∈ range (p + 1), H' p i • vcol A k s.V j i = ∑ i ∈ range (p + 1), s.H p i • s.V i :=
      sum_congr rfl fun i hi => by
        have hi := mem_range.mp hi
        rw [x2 i (by omega)]
        congr 1
        show (if p = j then _ else _) = _
        rw [if_neg (by omega), if_neg (by omega)]
    unfold Arn
    show A (vcol A k s.V j p) = ∑ i ∈ range (p + 1), H' p i • vcol A k s.V j i + H' p (p + 1) • vcol A k s.V j (p + 1) ∧ ∃ r : ℝ, 0 < r ∧ H' p (p + 1) = r
    rw [hsum, x2 p (by omega)]
    by_cases e : p + 1 = j
    · have hp : j - 1 = p := by omega
      rw [hp] at hlast
      rw [e, hlast, x3]
      have := h.a.last
      rw [hp] at this
      unfold ArnLast at this
      rw [e] at this
      exact ⟨this, _, norm_pos_iff.2 h0, rfl⟩
    · obtain ⟨r1, r, r2, r3⟩ := h.rel p h1 (by omega)
      have e2 : H' p (p + 1) = s.H p (p + 1) := by
        show (if p = j then _ else _) = _
        rw [if_neg (by omega), if_neg (by omega)]
      rw [x2 (p + 1) (by omega), e2]
      exact ⟨r1, r, r2, r3⟩

theorem d1first {A : E →ₗ[ℂ] E} {k : ℕ} {V : ℕ → E} (hV : OrthoN V (k + 1)) (H : ℕ → ℕ → ℂ) {s' : D1St E}
    (hs : d1step A k { V := V, H := H, beta := none } k = some s') : D1Inv A k V s' (k + 1) := by
  unfold d1step at hs
  rw [if_neg (by omega)] at hs
  have hs' := Option.some.inj hs
  subst hs'
  rw [if_neg (by omega : ¬ k < k)]
  refine ⟨first_inv A k V hV _ (fun i hi => ?_), fun p h1 h2 => by omega, fun hk => by omega, fun _ => rfl⟩
  show (if k = k then (if i ≤ k then hcol k V (A (V k)) k i else H k i) else _) = _
  rw [if_pos rfl, if_pos hi]

theorem d1loop_spec {A : E →ₗ[ℂ] E} {k : ℕ} {V0 : ℕ → E} : ∀ (g j : ℕ) (s s' : D1St E), D1Inv A k V0 s j →
    d1loop A k g j s = some s' → D1Inv A k V0 s' (j + g)
  | 0, j, s, s', hi, h => by
    have := Option.some.inj h
    subst this
    exact hi
  | g + 1, j, s, s', hi, h => by
    rw [d1loop] at h
    cases e : d1step A k s j with
    | none => rw [e] at h; simp at h
    | some s1 =>
      rw [e] at h
      have := d1loop_spec g (j + 1) s1 s' (d1step_spec hi e) h
      rw [show j + 1 + g = j + (g + 1) by omega] at this
      exact this

/-- **C159, variant without reorthogonalization.** The columns before the last are those of an Arnoldi
factorization; the last column is the residual vector, which is not normalized.  The value returned as
residual norm is the subdiagonal entry of the column before, and is not assigned with a single new column. -/
theorem C159_delayed1_partial (A : E →ₗ[ℂ] E) (k m : ℕ) (hm : k < m) (V : ℕ → E) (hV : OrthoN V (k + 1)) (H : ℕ → ℕ → ℂ)
    (s : D1St E) (hs : delayed1 A k m V H = some s) :
    OrthoN s.V m ∧ (∀ i, i < m → inner ℂ (s.V i) (s.V m) = (0 : ℂ)) ∧
    (∀ p, k ≤ p → p + 1 < m → Arn A s.V s.H p ∧ ∃ r : ℝ, 0 < r ∧ s.H p (p + 1) = r) ∧
    ArnLast A s.V s.H (m - 1) (s.V m) ∧ (∀ i, i ≤ k → s.V i = V i) ∧
    (k + 1 < m → ∃ b : ℝ, s.beta = some b ∧ s.H (m - 2) (m - 1) = b) ∧ (m = k + 1 → s.beta = none) := by
  unfold delayed1 at hs
  obtain ⟨g, hg⟩ : ∃ g, m - k = g + 1 := ⟨m - k - 1, by omega⟩
  rw [hg, d1loop] at hs
  cases e : d1step A k { V := V, H := H, beta := none } k with
  | none => rw [e] at hs; simp at hs
  | some s1 =>
    rw [e] at hs
    have i := d1loop_spec g (k + 1) s1 s (d1first hV H e) hs
    rw [show k + 1 + g = m by omega] at i
    exact ⟨i.a.ortho, i.a.perp, i.rel, i.a.last, i.a.old, i.beta, i.betan⟩

end Verif.Lan
