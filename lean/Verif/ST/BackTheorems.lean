import Verif.ST.BackModel
import Mathlib.Tactic.FieldSimp
import Mathlib.Tactic.Ring
import Mathlib.Tactic.LinearCombination
import Mathlib.Analysis.Complex.Basic
/-!
# Properties C07 and C08: back-transformation of eigenvalues
-/
set_option linter.all false
namespace Verif.ST
open Matrix

variable {K : Type} [Field K] {n : Type} [Fintype n] [DecidableEq n]

/-- The values of `theta` that are images of finite eigenvalues. -/
def Finite (k : Kind) (theta : K) : Prop :=
  match k with
  | .shift => True
  | .sinvert => theta ≠ 0
  | .cayley => theta ≠ 1

/-- The eigenvalue that the transformation cannot represent (the pole). -/
def IsPole (k : Kind) (sigma lambda : K) : Prop :=
  match k with
  | .shift => False
  | .sinvert => lambda = sigma
  | .cayley => lambda = sigma

theorem solve_iff (P : Matrix n n K) (hP : IsUnit P.det) (b y : n → K) :
    P⁻¹ *ᵥ b = y ↔ b = P *ᵥ y := by
  constructor
  · rintro rfl; rw [mulVec_mulVec, mul_nonsing_inv _ hP, one_mulVec]
  · rintro rfl; rw [mulVec_mulVec, nonsing_inv_mul _ hP, one_mulVec]

/-- **C07** (correspondence). When the solver matrix is nonsingular (and, for Cayley, the antishift
is not minus the shift, which the code enforces), a vector is an eigenvector of the applied operator
for a finite `theta` exactly when it satisfies `A x = lambda B x` with `lambda` the back-transformed
value. -/
theorem C07_eigenpairs (k : Kind) (sigma nu theta : K) (A B : Matrix n n K) (x : n → K)
    (hP : IsUnit (opP k sigma A B).det) (hnu : k = .cayley → nu ≠ -sigma)
    (hfin : Finite k theta) :
    stApply k sigma nu A B x = theta • x ↔ A *ᵥ x = back k sigma nu theta • (B *ᵥ x) := by
  unfold stApply
  rw [solve_iff _ hP]
  cases k with
  | shift =>
    simp only [opM, opP, back, sub_mulVec, smul_mulVec, mulVec_smul]
    rw [sub_eq_iff_eq_add, add_smul]
  | sinvert =>
    simp only [Finite] at hfin
    simp only [opM, opP, back, sub_mulVec, smul_mulVec, mulVec_smul]
    rw [smul_sub, smul_smul]
    constructor
    · intro h
      funext i
      have hi := congrFun h i
      simp only [Pi.sub_apply, Pi.smul_apply, smul_eq_mul] at hi ⊢
      field_simp
      linear_combination -hi
    · intro h
      funext i
      have hi := congrFun h i
      simp only [Pi.sub_apply, Pi.smul_apply, smul_eq_mul] at hi ⊢
      rw [hi]; field_simp; ring
  | cayley =>
    simp only [Finite] at hfin
    have h1 : theta - 1 ≠ 0 := sub_ne_zero.2 hfin
    simp only [opM, opP, back, sub_mulVec, add_mulVec, smul_mulVec, mulVec_smul]
    rw [smul_sub, smul_smul]
    constructor
    · intro h
      funext i
      have hi := congrFun h i
      simp only [Pi.sub_apply, Pi.add_apply, Pi.smul_apply, smul_eq_mul] at hi ⊢
      field_simp
      linear_combination -hi
    · intro h
      funext i
      have hi := congrFun h i
      simp only [Pi.sub_apply, Pi.add_apply, Pi.smul_apply, smul_eq_mul] at hi ⊢
      rw [hi]; field_simp; ring

/-- **C07** (bijection of eigenvalues). Every value other than the pole is the back-transform of
exactly one finite `theta`, and no finite `theta` is mapped to the pole. -/
theorem C07_values (k : Kind) (sigma nu : K) (hnu : k = .cayley → nu ≠ -sigma) :
    (∀ lambda, ¬ IsPole k sigma lambda →
      ∃! theta, Finite k theta ∧ back k sigma nu theta = lambda) ∧
    (∀ theta, Finite k theta → ¬ IsPole k sigma (back k sigma nu theta)) := by
  cases k with
  | shift =>
    refine ⟨fun l _ => ⟨l - sigma, ⟨trivial, by simp [back]⟩, ?_⟩, fun t _ => id⟩
    rintro t ⟨_, h⟩
    simp only [back] at h
    rw [← h]; ring
  | sinvert =>
    refine ⟨fun l hl => ⟨1 / (l - sigma), ⟨?_, ?_⟩, ?_⟩, fun t ht h => ?_⟩
    · have : l - sigma ≠ 0 := sub_ne_zero.2 hl
      simp only [Finite]; exact one_div_ne_zero this
    · simp [back]
    · rintro t ⟨ht, h⟩
      simp only [Finite] at ht
      simp only [back] at h
      rw [← h]; simp
    · simp only [Finite] at ht
      simp only [IsPole, back] at h
      simp at h; exact ht h
  | cayley =>
    have hs : nu + sigma ≠ 0 := by
      intro h; exact hnu rfl (eq_neg_of_add_eq_zero_left h)
    refine ⟨fun l hl => ⟨(l + nu) / (l - sigma), ⟨?_, ?_⟩, ?_⟩, fun t ht h => ?_⟩
    · have h1 : l - sigma ≠ 0 := sub_ne_zero.2 hl
      simp only [Finite]
      intro h
      rw [div_eq_one_iff_eq h1] at h
      exact hs (by linear_combination h)
    · have h1 : l - sigma ≠ 0 := sub_ne_zero.2 hl
      simp only [back]
      have h2 : (l + nu) / (l - sigma) - 1 = (nu + sigma) / (l - sigma) := by field_simp; ring
      rw [h2]
      field_simp
      ring
    · rintro t ⟨ht, h⟩
      simp only [Finite] at ht
      have h1 : l - sigma ≠ 0 := sub_ne_zero.2 hl
      have h2 : t - 1 ≠ 0 := sub_ne_zero.2 ht
      simp only [back] at h
      rw [div_eq_iff h2] at h
      rw [eq_div_iff h1]
      linear_combination -h
    · simp only [Finite] at ht
      have h2 : t - 1 ≠ 0 := sub_ne_zero.2 ht
      simp only [IsPole, back] at h
      rw [div_eq_iff h2] at h
      exact hs (by linear_combination h)

-- hypotheses of C07 are satisfiable: a 2x2 diagonal problem with sigma = 1
example : IsUnit (opP .cayley (1 : ℚ) !![3, 0; 0, 5] !![1, 0; 0, 2]).det ∧
    (Kind.cayley = .cayley → (2 : ℚ) ≠ -1) ∧ Finite .cayley (5 / 2 : ℚ) := by
  refine ⟨?_, fun _ => by norm_num, by simp only [Finite]; norm_num⟩
  rw [isUnit_iff_ne_zero]
  simp [opP, det_fin_two]; norm_num

/-- The full claim C08 for one transformation: real arithmetic on (real, imaginary) parts agrees with
the complex formula. -/
def PairAgrees (k : Kind) (sigma nu er ei : ℝ) : Prop :=
  (⟨(backPair k sigma nu er ei).1, (backPair k sigma nu er ei).2⟩ : ℂ)
    = back k (sigma : ℂ) (nu : ℂ) ⟨er, ei⟩

/-- **C08**, proved part: shift and shift-and-invert on all values, Cayley on real values.  The
full claim also has Cayley with a nonzero imaginary part, which is false of the code, see
`C08_cayley_complex_false`. -/
theorem C08_backPair_partial (k : Kind) (sigma nu er ei : ℝ) (hk : k = .cayley → ei = 0) :
    PairAgrees k sigma nu er ei := by
  unfold PairAgrees
  cases k with
  | shift =>
    simp only [back, backPair]
    apply Complex.ext <;> simp
  | sinvert =>
    simp only [back, backPair]
    split_ifs with h
    · subst h
      have : (⟨er, 0⟩ : ℂ) = (er : ℂ) := rfl
      rw [this, ← Complex.ofReal_one, ← Complex.ofReal_div, ← Complex.ofReal_add]
      rfl
    · apply Complex.ext
      · simp [Complex.normSq_mk]
      · simp [Complex.normSq_mk]
  | cayley =>
    have h := hk rfl
    subst h
    simp only [back, backPair, if_true]
    have : (⟨er, 0⟩ : ℂ) = (er : ℂ) := rfl
    rw [this]
    rw [← Complex.ofReal_one, ← Complex.ofReal_mul, ← Complex.ofReal_add, ← Complex.ofReal_sub,
      ← Complex.ofReal_div]
    rfl

/-- **C08 is false for Cayley**: with shift 1, antishift 1 and theta = 2i the code returns
`3/20 - i/5` whereas the complex formula gives `3/5 - 4i/5`.  The cause is that line 100 of
`cayley.c` uses the already overwritten `r` and `i`. -/
theorem C08_cayley_complex_false : ¬ PairAgrees .cayley 1 1 0 2 := by
  unfold PairAgrees
  simp only [back, backPair]
  rw [if_neg (by norm_num)]
  intro h
  have hne : (⟨0, 2⟩ : ℂ) - 1 ≠ 0 := by
    intro h0
    have := congrArg Complex.im h0
    simp at this
  rw [eq_div_iff hne] at h
  have := congrArg Complex.re h
  simp at this
  norm_num at this

/-- What the formula of `cayley.c` computes once the denominator is taken from the *original* parts:
the intended complex value.  So the only defect is the order of the assignments. -/
theorem cayley_intended (sigma nu er ei : ℝ) (h : ei ≠ 0) :
    let t := ei * ei + er * (er - 2) + 1
    (⟨(sigma * (er * er + ei * ei - er) + nu * (er - 1)) / t, (- sigma * ei - nu * ei) / t⟩ : ℂ)
      = back .cayley (sigma : ℂ) (nu : ℂ) ⟨er, ei⟩ := by
  intro t
  have ht : t ≠ 0 := by
    have : t = ei ^ 2 + (er - 1) ^ 2 := by simp only [t]; ring
    rw [this]
    have := sq_nonneg (er - 1)
    have := pow_pos (lt_of_le_of_ne (abs_nonneg ei) (Ne.symm (abs_ne_zero.2 h))) 2
    rw [sq_abs] at this
    positivity
  simp only [back]
  have hne : (⟨er, ei⟩ : ℂ) - 1 ≠ 0 := by
    intro h0
    have := congrArg Complex.im h0
    simp at this
    exact h this
  rw [eq_div_iff hne]
  apply Complex.ext
  · simp; field_simp; simp only [t]; ring
  · simp; field_simp; simp only [t]; ring

example : PairAgrees .sinvert 2 0 3 4 := C08_backPair_partial _ _ _ _ _ (by simp)

end Verif.ST
