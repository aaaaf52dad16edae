import Verif.Ts.Model
import Verif.Iter.RsvdThm

/-!
# Two-sided Krylov-Schur: lemmas on the Arnoldi extension
-/
set_option linter.all false

namespace Verif.Ts

open Finset Verif.Iter

variable {E : Type} [NormedAddCommGroup E] [InnerProductSpace ℂ E] {A : E →ₗ[ℂ] E}

/-- Specification: columns `nc` to `p-1` of a Krylov decomposition with `p+1` orthonormal vectors. -/
def Decomp (A : E →ₗ[ℂ] E) (nc p : ℕ) (s : Half E) : Prop :=
  OrthoN s.V (p + 1) ∧ ∀ c, nc ≤ c → c < p → A (s.V c) = ∑ i ∈ range (p + 1), s.H i c • s.V i

/-- entries below the band are zero -/
def Below (nc p : ℕ) (H : ℕ → ℕ → ℂ) : Prop := ∀ c, nc ≤ c → ∀ i, c + 1 < i → p < i → H i c = 0

theorem orthoN_snoc {V : ℕ → E} {m : ℕ} (h : OrthoN V m) {x : E} (hx : ‖x‖ = 1) (ho : ∀ j < m, inner ℂ (V j) x = (0 : ℂ)) : OrthoN (Function.update V m x) (m + 1) := by
  intro i hi j hj
  have hxx : inner ℂ x x = (1 : ℂ) := by rw [inner_self_eq_norm_sq_to_K, hx]; norm_num
  by_cases hi' : i = m <;> by_cases hj' : j = m
  · subst hi'; subst hj'; rw [Function.update_self, if_pos rfl, hxx]
  · subst hi'
    rw [Function.update_self, Function.update_of_ne hj', if_neg (Ne.symm hj'), ← inner_conj_symm, ho j (by omega), map_zero]
  · subst hj'
    rw [Function.update_self, Function.update_of_ne hi', if_neg hi', ho i (by omega)]
  · rw [Function.update_of_ne hi', Function.update_of_ne hj']
    exact h i (by omega) j (by omega)

theorem orthoN_mono {V : ℕ → E} {m n : ℕ} (h : OrthoN V m) (e : n ≤ m) : OrthoN V n := fun i hi j hj => h i (by omega) j (by omega)

theorem orthoN_congr {V W : ℕ → E} {m : ℕ} (h : OrthoN V m) (e : ∀ j < m, W j = V j) : OrthoN W m := by
  intro i hi j hj; rw [e i hi, e j hj]; exact h i hi j hj

theorem orthoN_norm {V : ℕ → E} {m : ℕ} (h : OrthoN V m) {i : ℕ} (hi : i < m) : ‖V i‖ = 1 := by
  have := h i hi i hi
  rw [if_pos rfl, inner_self_eq_norm_sq_to_K] at this
  have h2 : ‖V i‖ ^ 2 = 1 := by
    have := congrArg Complex.re this
    simpa [← Complex.ofReal_pow] using this
  nlinarith [norm_nonneg (V i), sq_nonneg (‖V i‖ - 1)]

/-- relation of the new column -/
theorem arn_rel (s : Half E) (j : ℕ) : A (s.V j) = ∑ i ∈ range (j + 2), (arnStep A s j).H i j • (arnStep A s j).V i := by
  rw [sum_range_succ]
  have h1 : ∑ i ∈ range (j + 1), (arnStep A s j).H i j • (arnStep A s j).V i = ∑ i ∈ range (j + 1), inner ℂ (s.V i) (A (s.V j)) • s.V i := by
    refine sum_congr rfl fun i hi => ?_
    have hi := mem_range.mp hi
    simp only [arnStep]
    rw [if_pos trivial, if_pos (by omega), Function.update_of_ne (by omega)]
  have h2 : (arnStep A s j).H (j + 1) j • (arnStep A s j).V (j + 1) = arnVec A s j := by
    simp only [arnStep]
    rw [if_pos trivial, if_neg (by omega), if_pos trivial, Function.update_self, smul_smul]
    by_cases h0 : arnVec A s j = 0
    · rw [h0]; simp
    · rw [mul_inv_cancel₀ (by exact_mod_cast norm_ne_zero_iff.mpr h0), one_smul]
  rw [h1, h2]; unfold arnVec gsCol; abel

theorem arn_rel_old {s : Half E} {nc j : ℕ} (hr : ∀ c, nc ≤ c → c < j → A (s.V c) = ∑ i ∈ range (j + 1), s.H i c • s.V i) (hz : Below nc j s.H) :
    ∀ c, nc ≤ c → c < j + 1 → A ((arnStep A s j).V c) = ∑ i ∈ range (j + 2), (arnStep A s j).H i c • (arnStep A s j).V i := by
  intro c hc hcj
  have hV : (arnStep A s j).V c = s.V c := Function.update_of_ne (by omega) _ _
  by_cases e : c = j
  · subst e; rw [hV]; exact arn_rel s c
  · rw [hV, hr c hc (by omega), sum_range_succ _ (j + 1)]
    have h0 : (arnStep A s j).H (j + 1) c = 0 := by
      simp only [arnStep]; rw [if_neg e]; exact hz c hc _ (by omega) (by omega)
    rw [h0, zero_smul, add_zero]
    refine sum_congr rfl fun i hi => ?_
    have hi := mem_range.mp hi
    simp only [arnStep]
    rw [if_neg e, Function.update_of_ne (by omega)]

theorem arn_below {s : Half E} {nc j : ℕ} (hz : Below nc j s.H) : ∀ c, nc ≤ c → ∀ i, c + 1 < i → j < i → (arnStep A s j).H i c = 0 := by
  intro c hc i h1 h2
  simp only [arnStep]
  by_cases e : c = j
  · rw [if_pos e, if_neg (by omega), if_neg (by omega)]; exact hz c hc i h1 h2
  · rw [if_neg e]; exact hz c hc i h1 h2

theorem arn_ortho {s : Half E} {j : ℕ} (ho : OrthoN s.V (j + 1)) (h0 : arnVec A s j ≠ 0) : OrthoN (arnStep A s j).V (j + 2) := by
  have hn : (‖arnVec A s j‖ : ℂ) ≠ 0 := by exact_mod_cast norm_ne_zero_iff.mpr h0
  refine orthoN_snoc ho ?_ ?_
  · rw [norm_smul, norm_inv, Complex.norm_real, norm_norm, inv_mul_cancel₀ (norm_ne_zero_iff.mpr h0)]
  · intro i hi
    rw [inner_smul_right]; unfold arnVec
    rw [gsCol_inner ho _ hi, mul_zero]

/-- contract of BVMatArnoldi -/
structure ArnSpec (A : E →ₗ[ℂ] E) (nc j n : ℕ) (s : Half E) (o : ArnOut E) : Prop where
  lo : j < o.m
  hi : o.m ≤ j + n
  ortho : OrthoN o.s.V o.m
  full : o.bd = false → OrthoN o.s.V (o.m + 1) ∧ o.m = j + n
  stop : o.bd = true → o.beta = 0 ∧ o.s.V o.m = 0
  rel : ∀ c, nc ≤ c → c < o.m → A (o.s.V c) = ∑ i ∈ range (o.m + 1), o.s.H i c • o.s.V i
  row : ∀ c, nc ≤ c → c + 1 < o.m → o.s.H o.m c = 0
  last : o.s.H o.m (o.m - 1) = o.beta
  below : ∀ c, nc ≤ c → ∀ i, c + 1 < i → o.m ≤ i → o.s.H i c = 0
  keep : ∀ i ≤ j, o.s.V i = s.V i
  nonneg : 0 ≤ o.beta

theorem arnoldi_spec {nc : ℕ} : ∀ (n j : ℕ) (s : Half E), nc ≤ j → 0 < n → Decomp A nc j s → Below nc j s.H → ArnSpec A nc j n s (arnoldi A n j s) := by
  intro n
  induction n with
  | zero => intro j s _ h; omega
  | succ n ih =>
    intro j s hnc _ hd hz
    have hrel := arn_rel_old (A := A) hd.2 hz
    have hbel := arn_below (A := A) hz
    have hlast : (arnStep A s j).H (j + 1) j = (‖arnVec A s j‖ : ℂ) := by
      simp only [arnStep]; rw [if_pos trivial, if_neg (by omega), if_pos trivial]
    have hkeep : ∀ i ≤ j, (arnStep A s j).V i = s.V i := fun i hi => Function.update_of_ne (by omega) _ _
    by_cases h0 : arnVec A s j = 0
    · have he : arnoldi A (n + 1) j s = ⟨arnStep A s j, j + 1, 0, true⟩ := by rw [arnoldi, if_pos h0]
      rw [he]
      refine ⟨by show j < j + 1; omega, by show j + 1 ≤ j + (n + 1); omega, orthoN_congr hd.1 (fun i hi => hkeep i (by have : i < j + 1 := hi; omega)), fun h => (by cases h), fun _ => ⟨rfl, ?_⟩, hrel, ?_, ?_, ?_, hkeep, le_refl _⟩
      · show (arnStep A s j).V (j + 1) = 0
        simp only [arnStep]; rw [Function.update_self, h0, smul_zero]
      · intro c hc h; exact hbel c hc _ h (by show j < j + 1; omega)
      · show (arnStep A s j).H (j + 1) (j + 1 - 1) = ((0 : ℝ) : ℂ)
        rw [Nat.add_sub_cancel, hlast, h0, norm_zero]
      · intro c hc i h1 h2; exact hbel c hc i h1 h2
    · have hort := arn_ortho (A := A) hd.1 h0
      by_cases hn : n = 0
      · have he : arnoldi A (n + 1) j s = ⟨arnStep A s j, j + 1, ‖arnVec A s j‖, false⟩ := by rw [arnoldi, if_neg h0, if_pos hn]
        rw [he]
        refine ⟨by show j < j + 1; omega, by show j + 1 ≤ j + (n + 1); omega, orthoN_mono hort (by show j + 1 ≤ j + 2; omega), fun _ => ⟨hort, by show j + 1 = j + (n + 1); omega⟩, fun h => (by cases h), hrel, ?_, ?_, ?_, hkeep, norm_nonneg _⟩
        · intro c hc h; exact hbel c hc _ h (by show j < j + 1; omega)
        · show (arnStep A s j).H (j + 1) (j + 1 - 1) = _
          rw [Nat.add_sub_cancel, hlast]
        · intro c hc i h1 h2; exact hbel c hc i h1 h2
      · have he : arnoldi A (n + 1) j s = arnoldi A n (j + 1) (arnStep A s j) := by rw [arnoldi, if_neg h0, if_neg hn]
        rw [he]
        have := ih (j + 1) (arnStep A s j) (by omega) (by omega) ⟨hort, hrel⟩ (fun c hc i h1 h2 => hbel c hc i h1 (by omega))
        refine ⟨by have := this.lo; omega, by have := this.hi; omega, this.ortho, fun h => ⟨(this.full h).1, by have := (this.full h).2; omega⟩, this.stop, this.rel, this.row, this.last, this.below, ?_, this.nonneg⟩
        intro i hi; rw [this.keep i (by omega), hkeep i hi]

end Verif.Ts
