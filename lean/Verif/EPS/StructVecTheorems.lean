import Verif.EPS.StructModel
import Mathlib.LinearAlgebra.Span.Basic
import Mathlib.LinearAlgebra.Matrix.ToLin
import Mathlib.Tactic.Linarith
import Mathlib.Tactic.Module
import Mathlib.Tactic.NormNum
import Mathlib.Tactic.FieldSimp
import Mathlib.Tactic.LinearCombination

/-!
# C63, C64, C67: eigenvectors of structured problems
-/
set_option linter.all false

namespace Verif.EPS

open Classical

section ham
variable {V : Type*} [NormedAddCommGroup V] [NormedSpace ℝ V]

/-- `x + i y` satisfies the eigenvalue equation for `a + i b`, in real arithmetic. -/
def IsPair (H : V →ₗ[ℝ] V) (z : ℝ × ℝ) (x y : V) : Prop :=
  H x = z.1 • x - z.2 • y ∧ H y = z.2 • x + z.1 • y

/-- Position `j` starts a quadruple: it and the next hold a conjugate pair, and the two columns span, with their images,
an invariant subspace on which the square of `H` has the eigenvalue `(er + i ei)²`. -/
structure QuadLead (H : V →ₗ[ℝ] V) (s : Store V) (j : Nat) : Prop where
  er0 : s.er (s.perm j) ≠ 0
  ei0 : s.ei (s.perm j) ≠ 0
  next : s.perm (j + 1) = s.perm j + 1
  erc : s.er (s.perm (j + 1)) = s.er (s.perm j)
  eic : s.ei (s.perm (j + 1)) = -s.ei (s.perm j)
  apart : 0 < j → ¬ (s.er (s.perm j) = s.er (s.perm (j - 1)) ∧ s.ei (s.perm j) = -s.ei (s.perm (j - 1)))
  h0 : H (s.col (s.perm j)) = second s (s.perm j)
  h1 : H (s.col (s.perm j + 1)) = second s (s.perm j + 1)
  h2 : H (second s (s.perm j)) = (s.er (s.perm j) ^ 2 - s.ei (s.perm j) ^ 2) • s.col (s.perm j)
        - (2 * s.er (s.perm j) * s.ei (s.perm j)) • s.col (s.perm j + 1)
  h3 : H (second s (s.perm j + 1)) = (2 * s.er (s.perm j) * s.ei (s.perm j)) • s.col (s.perm j)
        + (s.er (s.perm j) ^ 2 - s.ei (s.perm j) ^ 2) • s.col (s.perm j + 1)
  ind : second s (s.perm j) ∉ Submodule.span ℝ {s.col (s.perm j), s.col (s.perm j + 1)}

/-- What the solver leaves at position `j`: the column spans with its image an invariant subspace. -/
inductive HamStored (H : V →ₗ[ℝ] V) (s : Store V) (j : Nat) : Prop
  | real : s.ei (s.perm j) = 0 → H (s.col (s.perm j)) = second s (s.perm j) →
      H (second s (s.perm j)) = (s.er (s.perm j) ^ 2) • s.col (s.perm j) →
      second s (s.perm j) ∉ Submodule.span ℝ {s.col (s.perm j)} → HamStored H s j
  | imag : s.ei (s.perm j) ≠ 0 → s.er (s.perm j) = 0 → H (s.col (s.perm j)) = second s (s.perm j) →
      H (second s (s.perm j)) = (-(s.ei (s.perm j) ^ 2)) • s.col (s.perm j) →
      second s (s.perm j) ≠ 0 → HamStored H s j
  | lead : QuadLead H s j → HamStored H s j
  | trail : 0 < j → QuadLead H s (j - 1) → HamStored H s j

theorem IsPair.smul {H : V →ₗ[ℝ] V} {z x y} (h : IsPair H z x y) (c : ℝ) : IsPair H z (c • x) (c • y) := by
  constructor
  · rw [map_smul, h.1]; module
  · rw [map_smul, h.2]; module

theorem iquad_eq (s : Store V) (i j : Nat) (hi : i / 2 = j) : iquad s i = i % 2 +
    (if 0 < j ∧ s.er (s.perm j) = s.er (s.perm (j - 1)) ∧ s.ei (s.perm j) = -s.ei (s.perm (j - 1)) then 2 else 0) := by
  unfold iquad
  have e : (i - 2) / 2 = j - 1 := by omega
  have e2 : 1 < i ↔ 0 < j := by omega
  rw [hi, e]
  simp only [e2]
  by_cases h : 0 < j ∧ s.er (s.perm j) = s.er (s.perm (j - 1)) ∧ s.ei (s.perm j) = -s.ei (s.perm (j - 1))
  · rw [if_pos h, if_pos h]
  · rw [if_neg h, if_neg h]; rfl

theorem raw_pair (H : V →ₗ[ℝ] V) (s : Store V) (i : Nat) (h : HamStored H s (i / 2)) :
    IsPair H (hamEig s i) (hamRaw s i).1 (hamRaw s i).2 ∧ ((hamRaw s i).1 ≠ 0) := by
  generalize hj : i / 2 = j at h
  have hmod : i % 2 = 0 ∨ i % 2 = 1 := by omega
  cases h with
  | real a b c d =>
    constructor
    · unfold hamEig hamRaw
      simp only [hj, a, if_true]
      rcases hmod with e | e
      · simp only [e, Nat.zero_ne_one, if_false]
        constructor
        · rw [map_add, map_smul, b, c]; module
        · simp
      · simp only [e, if_true]
        constructor
        · rw [map_add, map_smul, b, c]; module
        · simp
    · intro h0
      apply d
      unfold hamRaw at h0
      simp only [hj, a, if_true] at h0
      rw [Submodule.mem_span_singleton]
      exact ⟨_, by rw [eq_neg_of_add_eq_zero_left h0, neg_smul]⟩
  | imag a b c d e =>
    constructor
    · unfold hamEig hamRaw
      simp only [hj, a, b, if_true, if_false]
      rcases hmod with f | f
      · simp only [f, Nat.zero_ne_one, if_false]
        constructor
        · rw [d]; module
        · rw [map_smul, c]; module
      · simp only [f, if_true]
        constructor
        · rw [d]; module
        · rw [map_smul, c]; module
    · unfold hamRaw
      simp only [hj, a, b, if_true, if_false]
      exact e
  | lead l =>
    have hq : iquad s i = i % 2 := by
      rw [iquad_eq s i j hj, if_neg (fun t => l.apart t.1 t.2)]; rfl
    have lt : i % 2 < 2 := by omega
    constructor
    · unfold hamEig hamRaw
      simp only [hj, l.ei0, l.er0, if_false, hq, lt, if_true]
      rcases hmod with f | f
      · simp only [f, Nat.zero_mod, Nat.zero_ne_one, if_false, if_true]
        constructor
        · simp only [map_add, map_smul, l.h0, l.h1, l.h2, l.h3]; module
        · simp only [map_add, map_smul, l.h0, l.h1, l.h2, l.h3]; module
      · simp only [f, show 1 % 3 = 1 from rfl, show 1 % 2 = 1 from rfl, one_ne_zero, if_false, if_true]
        constructor
        · simp only [map_add, map_smul, l.h0, l.h1, l.h2, l.h3]; module
        · simp only [map_add, map_smul, l.h0, l.h1, l.h2, l.h3]; module
    · intro h0
      apply l.ind
      unfold hamRaw at h0
      simp only [hj, l.ei0, l.er0, if_false, hq, lt, if_true] at h0
      rw [Submodule.mem_span_pair]
      refine ⟨s.er (s.perm j), -s.ei (s.perm j), ?_⟩
      rw [eq_neg_of_add_eq_zero_right h0]
      module
  | trail p l =>
    have ej : j - 1 + 1 = j := by omega
    have e1 : s.er (s.perm j) = s.er (s.perm (j - 1)) := by have := l.erc; rwa [ej] at this
    have e2 : s.ei (s.perm j) = -s.ei (s.perm (j - 1)) := by have := l.eic; rwa [ej] at this
    have e3 : s.perm j = s.perm (j - 1) + 1 := by have := l.next; rwa [ej] at this
    have hq : iquad s i = i % 2 + 2 := by
      rw [iquad_eq s i j hj, if_pos ⟨p, e1, e2⟩]
    have lt : ¬ (i % 2 + 2 < 2) := by omega
    have hr : s.er (s.perm j) ≠ 0 := by rw [e1]; exact l.er0
    have hi : s.ei (s.perm j) ≠ 0 := by rw [e2]; exact neg_ne_zero.2 l.ei0
    have e : (i - 2) / 2 = j - 1 := by omega
    constructor
    · unfold hamEig hamRaw
      simp only [hj, hi, hr, if_false, hq, lt, e]
      simp only [e1, e2]
      rcases hmod with f | f
      · simp only [f, show (0 + 2) % 3 = 2 from rfl, show (0 + 2) % 2 = 0 from rfl, OfNat.ofNat_ne_zero, Nat.zero_ne_one, if_false]
        constructor
        · simp only [map_add, map_smul, l.h0, l.h1, l.h2, l.h3]; module
        · simp only [map_add, map_smul, l.h0, l.h1, l.h2, l.h3]; module
      · simp only [f, show (1 + 2) % 3 = 0 from rfl, show (1 + 2) % 2 = 1 from rfl, if_true]
        constructor
        · simp only [map_add, map_smul, l.h0, l.h1, l.h2, l.h3]; module
        · simp only [map_add, map_smul, l.h0, l.h1, l.h2, l.h3]; module
    · intro h0
      apply l.ind
      unfold hamRaw at h0
      simp only [hj, hi, hr, if_false, hq, lt, e] at h0
      rw [Submodule.mem_span_pair]
      refine ⟨-s.er (s.perm (j - 1)), s.ei (s.perm (j - 1)), ?_⟩
      rw [eq_neg_of_add_eq_zero_right h0]
      module

/-- **C63, Hamiltonian problems (real arithmetic, magnitude criteria).** For every index, the vectors returned when both
parts are requested satisfy the eigenvalue equation with the eigenvalue returned for that index, and are normalised. -/
theorem C63_hamilt_partial (H : V →ₗ[ℝ] V) (s : Store V) (i : Nat) (hn : 0 < s.nconv) (h : HamStored H s (i / 2)) :
    ∃ x y, hamVec s true true i = (some x, some y) ∧ IsPair H (hamGetEigenvalue s true i) x y ∧ ‖x‖ ^ 2 + ‖y‖ ^ 2 = 1 := by
  obtain ⟨hp, hne⟩ := raw_pair H s i h
  have he : hamGetEigenvalue s true i = hamEig s i := by
    unfold hamGetEigenvalue actualConverged
    rw [if_pos rfl, if_neg (by omega)]
  rw [he]
  refine ⟨_, _, rfl, hp.smul _, ?_⟩
  have hx : 0 < ‖(hamRaw s i).1‖ := norm_pos_iff.2 hne
  rw [norm_smul, norm_smul, mul_pow, mul_pow, ← mul_add, norm_div, norm_one]
  by_cases c : s.ei (s.perm (i / 2)) = 0
  · have hy : (hamRaw s i).2 = 0 := by unfold hamRaw; simp only [c, if_true]
    simp only [c, if_true, hy, norm_zero, norm_norm]
    field_simp
    simp
  · simp only [c, if_true, if_false]
    rw [Real.norm_of_nonneg (Real.sqrt_nonneg _), div_pow, Real.sq_sqrt (by positivity)]
    have : 0 < ‖(hamRaw s i).1‖ ^ 2 + ‖(hamRaw s i).2‖ ^ 2 := by positivity
    field_simp

/-- H = [0 1; 1 0] with stored eigenvalue 1, column e₁ and its image e₂ -/
noncomputable def swapStore : Store (ℝ × ℝ) :=
  ⟨2, 6, fun _ => 1, fun _ => 0, id, fun k => if k < 4 then (1, 0) else (0, 1)⟩

/-- H = [0 1; 1 0]. -/
def swapMap : (ℝ × ℝ) →ₗ[ℝ] (ℝ × ℝ) := (LinearMap.snd ℝ ℝ ℝ).prod (LinearMap.fst ℝ ℝ ℝ)

theorem swapStored (j : Nat) (hj : j < 2) : HamStored swapMap swapStore j := by
  have h4 : j < 4 := by omega
  have h5 : ¬ (j + 3 + 1 < 4) := by omega
  apply HamStored.real
  · rfl
  · simp [swapMap, swapStore, second, h4]
  · simp [swapMap, swapStore, second, h4, h5]
  · rw [Submodule.mem_span_singleton]
    rintro ⟨a, ha⟩
    simp [swapStore, second, h4, h5] at ha

/-- the hypotheses of `C63_hamilt_partial` are met by this matrix -/
example : 0 < swapStore.nconv ∧ HamStored swapMap swapStore (1 / 2) := ⟨by decide, swapStored 0 (by decide)⟩

/-- **C63 fails for Hamiltonian problems when the criterion is not a magnitude one**: the eigenvalue is the one stored at the
index, the eigenvector that of half the index. -/
theorem C63_hamilt_false : ¬ ∀ (s : Store (ℝ × ℝ)) (H : (ℝ × ℝ) →ₗ[ℝ] (ℝ × ℝ)) (mag : Bool) (i : Nat),
    (∀ j, j < s.nconv → HamStored H s j) → i < actualConverged s mag →
    ∃ x y, hamVec s true true i = (some x, some y) ∧ IsPair H (hamGetEigenvalue s mag i) x y := by
  intro h
  obtain ⟨x, y, hv, hp⟩ := h swapStore swapMap false 1 swapStored (by decide)
  have e : hamGetEigenvalue swapStore false 1 = (1, 0) := by
    unfold hamGetEigenvalue actualConverged; simp [swapStore]
  have er : hamRaw swapStore 1 = ((-1, 1), 0) := by
    simp [hamRaw, swapStore, second]
  unfold hamVec at hv
  rw [er] at hv
  have nx : ‖((-1 : ℝ), (1 : ℝ))‖ = 1 := by simp [Prod.norm_def]
  simp [swapStore, nx] at hv
  rw [e] at hp
  have := hp.1
  rw [← hv.1] at this
  simp [swapMap] at this
  norm_num at this

/-- **C67 fails for Hamiltonian problems**: the real part returned depends on whether the imaginary part is requested. -/
theorem C67_hamilt_false : ¬ ∀ (s : Store ℝ) (i : Nat), (hamVec s true true i).1 = (hamVec s true false i).1 := by
  intro h
  have := h ⟨1, 6, fun _ => 0, fun _ => 1, id, fun _ => 1⟩ 0
  simp [hamVec, hamRaw, second] at this

end ham

section plain
variable {V : Type*} [NormedAddCommGroup V] [NormedSpace ℝ V]

/-- **C67, unstructured problems.** Each part is the same whether or not the other one is requested. -/
theorem C67_bv (s : Store V) (k : Nat) (wr wi : Bool) :
    bvVec s k wr wi = (if wr then (bvVec s k true true).1 else none, if wi then (bvVec s k true true).2 else none) := by
  unfold bvVec
  split_ifs <;> simp_all

/-- **C68, returned vectors.** For a real value, and for both positions of a conjugate pair stored with the positive imaginary part first, the
vectors returned for a position belong to the eigenvalue of that position. -/
theorem C68_vectors (H : V →ₗ[ℝ] V) (s : Store V) (k : Nat) :
    (s.ei k = 0 → H (s.col k) = s.er k • s.col k →
      ∃ x y, bvVec s k true true = (some x, some y) ∧ IsPair H (s.er k, s.ei k) x y) ∧
    (0 < s.ei k → s.ei (k + 1) = -s.ei k → s.er (k + 1) = s.er k → IsPair H (s.er k, s.ei k) (s.col k) (s.col (k + 1)) →
      (∃ x y, bvVec s k true true = (some x, some y) ∧ IsPair H (s.er k, s.ei k) x y) ∧
      (∃ x y, bvVec s (k + 1) true true = (some x, some y) ∧ IsPair H (s.er (k + 1), s.ei (k + 1)) x y)) := by
  constructor
  · intro h0 h
    refine ⟨s.col k, 0, by simp [bvVec, h0], ?_⟩
    rw [h0]
    exact ⟨by simp [h], by simp⟩
  · intro hp hc hr h
    refine ⟨⟨s.col k, s.col (k + 1), by simp [bvVec, hp], h⟩, ⟨s.col k, -s.col (k + 1), ?_, ?_⟩⟩
    · unfold bvVec
      rw [if_neg (by rw [hc]; linarith), if_pos (by rw [hc]; linarith)]
      simp
    · rw [hc, hr]
      constructor
      · rw [h.1]; module
      · rw [map_neg, h.2]; module

end plain

section blocks
variable {n : Type*} [Fintype n] {𝕜 : Type*} [RCLike 𝕜]

/-- **C67, Bethe-Salpeter problems.** -/
theorem C67_bse (s : Store (Blk n ℝ)) (wr wi : Bool) (i : Nat) :
    bseVec s wr wi i = (if wr then (bseVec s true true i).1 else none, if wi then (bseVec s true true i).2 else none) := by
  unfold bseVec
  dsimp only
  by_cases h : i % 2 = 1
  · simp only [h, if_true]
    rw [C67_bv s _ wr false, C67_bv s _ false wi, C67_bv s _ true false, C67_bv s _ false true]
    cases wr <;> cases wi <;> simp
  · simp only [h, if_false]
    exact C67_bv s _ wr wi

/-- **C67 fails for linear response problems in reduced form**: with an odd index, requesting only the imaginary part
dereferences a null vector. -/
theorem C67_lrep_false : ¬ ∀ (s : Store (Blk (Fin 1) ℝ)) (wr wi : Bool) (i : Nat), lrepVec s wr wi i ≠ none := by
  intro h
  apply h ⟨1, 2, fun _ => 1, fun _ => 0, id, fun _ => 0⟩ false true 1
  simp [lrepVec, bvVec]

/-- The eigenvalue equation in real arithmetic for block vectors. -/
def IsPairBlk (H : Blk n ℝ → Blk n ℝ) (z : ℝ × ℝ) (x y : Blk n ℝ) : Prop :=
  H x = z.1 • x - z.2 • y ∧ H y = z.2 • x + z.1 • y

theorem star_mulVec' (M : Matrix n n 𝕜) (v : n → 𝕜) :
    (fun j => star ((M.mulVec v) j)) = (M.map star).mulVec (fun j => star (v j)) := by
  funext j
  simp [Matrix.mulVec, dotProduct]

theorem bse_odd (R C : Matrix n n 𝕜) (hR : R.conjTranspose = R) (hC : C.transpose = C) (x : Blk n 𝕜) :
    bseMul R C (bseOdd x) = -bseOdd (bseMul R C x) := by
  have r1 : R.map star = R.transpose := by
    conv_lhs => rw [← hR]
    ext a b; simp [Matrix.conjTranspose]
  have r2 : C.map star = C.conjTranspose := by
    conv_lhs => rw [← hC]
    rfl
  have r3 : R.transpose.map star = R := by
    conv_rhs => rw [← hR]
    rfl
  have r4 : C.conjTranspose.map star = C := by
    rw [← r2]; ext a b; simp
  unfold bseMul bseOdd
  apply Prod.ext
  · simp only [Prod.fst_neg]
    have e1 := star_mulVec' C.conjTranspose x.1
    have e2 := star_mulVec' R.transpose x.2
    rw [r4] at e1
    rw [r3] at e2
    rw [← e1, ← e2]
    funext j
    simp [sub_eq_add_neg, add_comm]
  · simp only [Prod.snd_neg]
    have e1 := star_mulVec' R x.1
    have e2 := star_mulVec' C x.2
    rw [r1] at e1
    rw [r2] at e2
    rw [← e1, ← e2]
    funext j
    simp
    ring

/-- **C63, Bethe-Salpeter problems, any arithmetic.** For R Hermitian and C symmetric, and a real eigenvalue λ, the vector
derived for odd indices is an eigenvector for −λ. -/
theorem C63_bse (R C : Matrix n n 𝕜) (hR : R.conjTranspose = R) (hC : C.transpose = C) (l : ℝ) (x : Blk n 𝕜)
    (hx : bseMul R C x = (l : 𝕜) • x) : bseMul R C (bseOdd x) = ((-l : ℝ) : 𝕜) • bseOdd x ∧ (x ≠ 0 → bseOdd x ≠ 0) := by
  constructor
  · rw [bse_odd R C hR hC, hx]
    unfold bseOdd
    apply Prod.ext
    · funext j; simp
    · funext j; simp
  · intro h0 h1
    apply h0
    have a := congrArg Prod.fst h1
    have b := congrArg Prod.snd h1
    apply Prod.ext
    · funext j; have := congrFun b j; simpa [bseOdd] using this
    · funext j; have := congrFun a j; simpa [bseOdd] using this

theorem bseOdd_lin (x y : Blk n ℝ) (a b : ℝ) : bseOdd (a • x + b • y) = a • bseOdd x + b • bseOdd y := by
  unfold bseOdd
  apply Prod.ext <;> funext j <;> simp

/-- **C63, Bethe-Salpeter problems in real arithmetic**: if the solver's stored vectors satisfy the eigenvalue equation, so do those
returned for every index, with the eigenvalue returned for that index. -/
theorem C63_bse_real (R C : Matrix n n ℝ) (hR : R.transpose = R) (hC : C.transpose = C) (s : Store (Blk n ℝ)) (i : Nat)
    (hs : ∀ x y, bvVec s (s.perm (i / 2)) true true = (some x, some y) →
      IsPairBlk (bseMul R C) (s.er (s.perm (i / 2)), s.ei (s.perm (i / 2))) x y) :
    ∃ x y, bseVec s true true i = (some x, some y) ∧ IsPairBlk (bseMul R C) (pmEig s i) x y := by
  have hb : ∃ x y, bvVec s (s.perm (i / 2)) true true = (some x, some y) := by
    unfold bvVec
    simp only [if_true]
    split_ifs <;> exact ⟨_, _, rfl⟩
  obtain ⟨x, y, hxy⟩ := hb
  have hp := hs x y hxy
  by_cases h : i % 2 = 1
  · refine ⟨bseOdd x, bseOdd (-y), ?_, ?_⟩
    · unfold bseVec
      dsimp only
      rw [if_pos h, C67_bv s _ true false, C67_bv s _ false true, hxy]
      rfl
    · have hR' : R.conjTranspose = R := by rw [← hR]; ext a b; simp [Matrix.conjTranspose]; rw [← Matrix.transpose_apply R, hR]
      have ny : bseOdd (-y) = -bseOdd y := by have := bseOdd_lin y 0 (-1) 0; simpa using this
      have e : pmEig s i = (-s.er (s.perm (i / 2)), s.ei (s.perm (i / 2))) := by unfold pmEig; rw [if_pos h]
      rw [e]
      constructor
      · rw [bse_odd R C hR' hC, hp.1, ny, show s.er (s.perm (i / 2)) • x - s.ei (s.perm (i / 2)) • y
          = s.er (s.perm (i / 2)) • x + (-s.ei (s.perm (i / 2))) • y by module, bseOdd_lin]
        module
      · rw [bse_odd R C hR' hC, ny, show bseMul R C (-y) = -bseMul R C y by
            unfold bseMul; apply Prod.ext <;> simp [Matrix.mulVec_neg] <;> abel, hp.2,
          show -(s.ei (s.perm (i / 2)) • x + s.er (s.perm (i / 2)) • y)
            = (-s.ei (s.perm (i / 2))) • x + (-s.er (s.perm (i / 2))) • y by module, bseOdd_lin]
        module
  · refine ⟨x, y, ?_, ?_⟩
    · unfold bseVec
      dsimp only
      rw [if_neg h, hxy]
    · have e : pmEig s i = (s.er (s.perm (i / 2)), s.ei (s.perm (i / 2))) := by unfold pmEig; rw [if_neg h]
      rw [e]; exact hp

/-- R = (2), C = (0) with the eigenvector (1,0) for 2 -/
example : (bseMul (!![2] : Matrix (Fin 1) (Fin 1) ℝ) !![0]) (fun _ => 1, fun _ => 0) = (2 : ℝ) • (fun _ => 1, fun _ => 0) := by
  apply Prod.ext <;> funext j <;> simp [bseMul, Matrix.mulVec, dotProduct]

/-- Linear response in unreduced form is the case of real symmetric blocks. -/
theorem lrep_bse (A B : Matrix n n ℝ) (hA : A.transpose = A) (hB : B.transpose = B) : lrepMul A B = bseMul A B := by
  funext x
  unfold lrepMul bseMul
  have : B.conjTranspose = B := by rw [← hB]; ext a b; simp [Matrix.conjTranspose]; rw [← Matrix.transpose_apply B, hB]
  rw [this, hA]

/-- **C63, linear response in unreduced form.** -/
theorem C63_lrep (A B : Matrix n n ℝ) (hA : A.transpose = A) (hB : B.transpose = B) (s : Store (Blk n ℝ)) (i : Nat)
    (hs : ∀ x y, bvVec s (s.perm (i / 2)) true true = (some x, some y) →
      IsPairBlk (lrepMul A B) (s.er (s.perm (i / 2)), s.ei (s.perm (i / 2))) x y) :
    ∃ x y, bseVec s true true i = (some x, some y) ∧ IsPairBlk (lrepMul A B) (pmEig s i) x y := by
  rw [lrep_bse A B hA hB] at hs ⊢
  exact C63_bse_real A B hA hB s i hs

/-- **C63, linear response in reduced form**, real eigenvalues. -/
theorem C63_lrep_reduced (K M : Matrix n n ℝ) (s : Store (Blk n ℝ)) (i : Nat) (h0 : s.ei (s.perm (i / 2)) = 0)
    (hs : lrepRedMul K M (s.col (s.perm (i / 2))) = s.er (s.perm (i / 2)) • s.col (s.perm (i / 2))) :
    ∃ x y, lrepVec s true true i = some (some x, some y) ∧ y = 0 ∧ lrepRedMul K M x = (pmEig s i).1 • x ∧ (pmEig s i).2 = 0 := by
  have hb : bvVec s (s.perm (i / 2)) true true = (some (s.col (s.perm (i / 2))), some 0) := by
    unfold bvVec; simp [h0]
  unfold lrepVec pmEig
  dsimp only
  rw [hb]
  by_cases h : i % 2 = 1
  · refine ⟨negBottom (s.col (s.perm (i / 2))), 0, ?_, rfl, ?_, h0⟩
    · rw [if_pos h]; rfl
    · rw [if_pos h]
      generalize s.col (s.perm (i / 2)) = x at *
      have a := congrArg Prod.fst hs
      have b := congrArg Prod.snd hs
      unfold lrepRedMul negBottom at *
      apply Prod.ext
      · simp only [Matrix.mulVec_neg, Prod.smul_fst] at *; rw [a]; module
      · simp only [Matrix.mulVec_neg, Prod.smul_snd] at *; rw [b]; module
  · refine ⟨s.col (s.perm (i / 2)), 0, ?_, rfl, ?_, h0⟩
    · rw [if_neg h]
    · rw [if_neg h]; exact hs

/-- K = M = (3): eigenvector (1,1) for 3 -/
example : lrepRedMul (!![3] : Matrix (Fin 1) (Fin 1) ℝ) !![3] (fun _ => 1, fun _ => 1) = (3 : ℝ) • (fun _ => 1, fun _ => 1) := by
  apply Prod.ext <;> funext j <;> simp [lrepRedMul, Matrix.mulVec, dotProduct]

/-- `y` is a left eigenvector: y^* H = λ y^*. -/
def IsLeft (H : Blk n 𝕜 → Blk n 𝕜) (l : 𝕜) (y : Blk n 𝕜) : Prop :=
  ∀ z, dotProduct (star y.1) (H z).1 + dotProduct (star y.2) (H z).2 = l * (dotProduct (star y.1) z.1 + dotProduct (star y.2) z.2)

theorem dot_adj (M : Matrix n n 𝕜) (x z : n → 𝕜) : dotProduct (star x) (M.mulVec z) = dotProduct (star (M.conjTranspose.mulVec x)) z := by
  rw [Matrix.dotProduct_mulVec, Matrix.star_mulVec, Matrix.conjTranspose_conjTranspose]

theorem left_bse (R C : Matrix n n 𝕜) (hR : R.conjTranspose = R) (hC : C.transpose = C) (l : ℝ) (x : Blk n 𝕜)
    (hx : bseMul R C x = (l : 𝕜) • x) : IsLeft (bseMul R C) l (negBottom x) := by
  intro z
  have a := congrArg Prod.fst hx
  have b := congrArg Prod.snd hx
  unfold bseMul at a b
  simp only [Prod.smul_fst, Prod.smul_snd] at a b
  have hRt : R.transpose.conjTranspose = R.transpose := by
    ext a b
    have := congrFun (congrFun hR b) a
    simpa [Matrix.conjTranspose] using this
  unfold negBottom bseMul
  simp only
  have e1 : dotProduct (star x.1) (R.mulVec z.1) = dotProduct (star (R.mulVec x.1)) z.1 := by rw [dot_adj, hR]
  have e2 : dotProduct (star x.1) (C.mulVec z.2) = dotProduct (star (C.conjTranspose.mulVec x.1)) z.2 := dot_adj _ _ _
  have e3 : dotProduct (star x.2) (C.conjTranspose.mulVec z.1) = dotProduct (star (C.mulVec x.2)) z.1 := by
    rw [dot_adj, Matrix.conjTranspose_conjTranspose]
  have e4 : dotProduct (star x.2) (R.transpose.mulVec z.2) = dotProduct (star (R.transpose.mulVec x.2)) z.2 := by
    rw [dot_adj, hRt]
  have f1 : dotProduct (star (R.mulVec x.1)) z.1 + dotProduct (star (C.mulVec x.2)) z.1 = l * dotProduct (star x.1) z.1 := by
    rw [← add_dotProduct, ← star_add, a]; simp [RCLike.real_smul_eq_coe_mul]
  have f2 : dotProduct (star (C.conjTranspose.mulVec x.1)) z.2 + dotProduct (star (R.transpose.mulVec x.2)) z.2 = -(l * dotProduct (star x.2) z.2) := by
    rw [← add_dotProduct, ← star_add, show C.conjTranspose.mulVec x.1 + R.transpose.mulVec x.2 = -((l : 𝕜) • x.2) by rw [← b]; abel]
    simp [RCLike.real_smul_eq_coe_mul]
  rw [dotProduct_add, star_neg, neg_dotProduct, neg_dotProduct, dotProduct_sub, dotProduct_neg, e1, e2, e3, e4]
  linear_combination f1 + f2

/-- **C64, Bethe-Salpeter problems**: for a real eigenvalue the returned vector is a left eigenvector. -/
theorem C64_bse (R C : Matrix n n 𝕜) (hR : R.conjTranspose = R) (hC : C.transpose = C) (l : ℝ) (x : Blk n 𝕜) (h0 : x ≠ 0)
    (hx : bseMul R C x = (l : 𝕜) • x) : leftVec .bse x ≠ 0 ∧ IsLeft (bseMul R C) l (leftVec .bse x) := by
  have e : leftVec TrivialType.bse x = negBottom x := by unfold leftVec; simp
  rw [e]
  refine ⟨?_, left_bse R C hR hC l x hx⟩
  intro h
  apply h0
  have a := congrArg Prod.fst h
  have b := congrArg Prod.snd h
  unfold negBottom at a b
  exact Prod.ext a (neg_eq_zero.1 b)

/-- **C64, linear response, unreduced and reduced forms.** -/
theorem C64_lrep (A B : Matrix n n ℝ) (hA : A.transpose = A) (hB : B.transpose = B) (reduced : Bool) (l : ℝ) (x : Blk n ℝ) (h0 : x ≠ 0)
    (hx : (if reduced then lrepRedMul A B else lrepMul A B) x = l • x) :
    leftVec (.lrep reduced) x ≠ 0 ∧ IsLeft (if reduced then lrepRedMul A B else lrepMul A B) l (leftVec (.lrep reduced) x) := by
  have ct : ∀ M : Matrix n n ℝ, M.transpose = M → M.conjTranspose = M := by
    intro M hM
    conv_rhs => rw [← hM]
    ext a b; simp [Matrix.conjTranspose]
  cases reduced with
  | false =>
    simp only [Bool.false_eq_true, if_false] at *
    rw [lrep_bse A B hA hB] at *
    exact C64_bse A B (ct A hA) hB l x h0 hx
  | true =>
    simp only [if_true] at *
    have e : leftVec (TrivialType.lrep true) x = swapHalves x := by unfold leftVec; simp
    rw [e]
    constructor
    · intro h
      apply h0
      have a := congrArg Prod.fst h
      have b := congrArg Prod.snd h
      unfold swapHalves at a b
      exact Prod.ext b a
    · intro z
      have a := congrArg Prod.fst hx
      have b := congrArg Prod.snd hx
      unfold lrepRedMul at a b
      simp only [Prod.smul_fst, Prod.smul_snd] at a b
      unfold swapHalves lrepRedMul
      simp only
      rw [dot_adj, dot_adj, ct A hA, ct B hB, a, b]
      simp
      ring

/-- **C64 fails for Hermitian problems**: with a nested matrix the sign of half of the vector is changed -/
theorem C64_hep_false : ¬ ∀ (K M : Matrix (Fin 1) (Fin 1) ℝ) (l : ℝ) (x : Blk (Fin 1) ℝ), K = M → K.transpose = K →
    lrepRedMul K M x = l • x → IsLeft (lrepRedMul K M) l (leftVec .hep x) := by
  intro h
  have := h !![1] !![1] 1 (fun _ => 1, fun _ => 1) rfl (by ext a b; simp [Subsingleton.elim a b])
    (by apply Prod.ext <;> funext j <;> simp [lrepRedMul, Matrix.mulVec, dotProduct]) (fun _ => 1, fun _ => 0)
  simp [leftVec, negBottom, lrepRedMul, Matrix.mulVec, dotProduct] at this
  norm_num at this

/-- and with any other matrix the call is an error. -/
theorem C64_hep_error {W : Type*} (x : W) : leftVecPlain .hep x = none ∧ leftVecPlain .ghep x = none := by
  unfold leftVecPlain; simp

end blocks
end Verif.EPS
