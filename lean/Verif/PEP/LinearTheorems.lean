import Verif.PEP.LinearModel
import Verif.PEP.BasisLemmas
import Mathlib.Tactic.Module
import Mathlib.Tactic.LinearCombination
import Mathlib.Tactic.NormNum
import Mathlib.LinearAlgebra.Matrix.Notation
import Mathlib.Analysis.Complex.Basic

/-! # C39: explicit linearizations of the quadratic eigenproblem -/
set_option linter.all false

namespace Verif.PEP

open Matrix

variable {F n : Type*} [Field F] [DecidableEq F] [DecidableEq n] [Fintype n]

/-! Specification -/

/-- `(K + λ C + λ² M) v`. -/
def quad (K C M : Matrix n n F) (lam : F) (v : n → F) : n → F := K *ᵥ v + lam • (C *ᵥ v) + lam ^ 2 • (M *ᵥ v)

/-- `(λ, v)` is an eigenpair of the quadratic problem. -/
def IsQuadPair (K C M : Matrix n n F) (lam : F) (v : n → F) : Prop := v ≠ 0 ∧ quad K C M lam v = 0

/-- `(θ, z)` is an eigenpair of the pencil `A - θ B`. -/
def IsPencilPair (p : Matrix (n ⊕ n) (n ⊕ n) F × Matrix (n ⊕ n) (n ⊕ n) F) (theta : F) (z : n ⊕ n → F) : Prop :=
  z ≠ 0 ∧ p.1 *ᵥ z = theta • (p.2 *ᵥ z)

/-- The stacked vector `[u; v]`. -/
def stack (u v : n → F) : n ⊕ n → F := Sum.elim u v

/-- The matrix whose regularity makes the linearization strong: it depends on the type and on `(α,β)`. For the default `(1,0)` it is the
identity (non-symmetric) or a multiple of `K` (symmetric, Hamiltonian). -/
def admissible (t : ProblemType) (x : LinCtx F n) : Matrix n n F :=
  let a := x.alpha; let b := x.beta; let s := x.sfactor; let d := x.dsfactor
  match t with
  | .general => (a^2 - b^2) • (1 : Matrix n n F) + (a * b * d * s) • x.C
  | .hermitian | .hyperbolic => (a^2 * d) • x.K - (a * b * d * s) • x.C + (b^2 * d * s^2) • x.M
  | .gyroscopic => (a^2 * d) • x.K + (a * b * d * s) • x.C + (b^2 * d * s^2) • x.M

/-- The vector of the pencil that corresponds to `v`: `[v; θ v]`, but `[θ v; v]` for the Hamiltonian form. -/
def lift (t : ProblemType) (theta : F) (v : n → F) : n ⊕ n → F :=
  match t with
  | .gyroscopic => stack (theta • v) v
  | _ => stack v (theta • v)

/-! Normal forms of the blocks -/

theorem linNA_eq (x : LinCtx F n) : linNA x = fromBlocks ((-x.beta * x.dsfactor) • x.K) (x.alpha • 1)
    ((-x.dsfactor * x.alpha) • x.K) ((-x.alpha * x.dsfactor * x.sfactor) • x.C + x.beta • 1) := by
  unfold linNA tile
  by_cases ha : x.alpha = 0
  · simp [ha]
  · by_cases hb : x.beta = 0 <;> simp [ha, hb]

theorem linNB_eq (x : LinCtx F n) : linNB x = fromBlocks ((x.beta * x.dsfactor * x.sfactor) • x.C + x.alpha • 1)
    ((x.beta * x.dsfactor * x.sfactor * x.sfactor) • x.M) (x.beta • 1) ((x.alpha * x.sfactor * x.sfactor * x.dsfactor) • x.M) := by
  unfold linNB tile
  by_cases hb : x.beta = 0
  · simp [hb]
  · by_cases ha : x.alpha = 0 <;> simp [ha, hb]

theorem linSA_eq (x : LinCtx F n) : linSA x = fromBlocks ((x.beta * x.dsfactor) • x.K) ((x.alpha * x.dsfactor) • x.K)
    ((x.alpha * x.dsfactor) • x.K)
    ((x.alpha * x.dsfactor * x.sfactor) • x.C + (-x.beta * x.dsfactor * x.sfactor * x.sfactor) • x.M) := by
  unfold linSA tile
  by_cases ha : x.alpha = 0
  · simp [ha]
  · by_cases hb : x.beta = 0 <;> simp [ha, hb]

theorem linSB_eq (x : LinCtx F n) : linSB x =
    fromBlocks ((-x.beta * x.dsfactor * x.sfactor) • x.C + (x.alpha * x.dsfactor) • x.K)
      ((-x.beta * x.dsfactor * x.sfactor * x.sfactor) • x.M) ((-x.beta * x.dsfactor * x.sfactor * x.sfactor) • x.M)
      ((-x.alpha * x.dsfactor * x.sfactor * x.sfactor) • x.M) := by
  unfold linSB tile
  by_cases hb : x.beta = 0
  · simp [hb]
  · by_cases ha : x.alpha = 0 <;> simp [ha, hb]

theorem linHA_eq (x : LinCtx F n) : linHA x = fromBlocks ((x.alpha * x.dsfactor) • x.K) ((-x.beta * x.dsfactor) • x.K)
    ((x.alpha * x.dsfactor * x.sfactor) • x.C + (x.beta * x.dsfactor * x.sfactor * x.sfactor) • x.M)
    ((x.alpha * x.dsfactor) • x.K) := by
  unfold linHA tile
  by_cases ha : x.alpha = 0
  · simp [ha]
  · by_cases hb : x.beta = 0 <;> simp [ha, hb]

theorem linHB_eq (x : LinCtx F n) : linHB x = fromBlocks ((x.beta * x.dsfactor * x.sfactor * x.sfactor) • x.M)
    ((x.beta * x.dsfactor * x.sfactor) • x.C + (x.alpha * x.dsfactor) • x.K)
    ((-x.alpha * x.dsfactor * x.sfactor * x.sfactor) • x.M) ((x.beta * x.dsfactor * x.sfactor * x.sfactor) • x.M) := by
  unfold linHB tile
  by_cases hb : x.beta = 0
  · simp [hb]
  · by_cases ha : x.alpha = 0 <;> simp [ha, hb]

theorem stack_eq_zero (u v : n → F) : stack u v = 0 ↔ u = 0 ∧ v = 0 := by
  constructor
  · intro h
    exact ⟨funext fun i => congrFun h (Sum.inl i), funext fun i => congrFun h (Sum.inr i)⟩
  · rintro ⟨rfl, rfl⟩; funext i; cases i <;> rfl

theorem stack_inj (u v u' v' : n → F) : stack u v = stack u' v' ↔ u = u' ∧ v = v' := by
  constructor
  · intro h
    exact ⟨funext fun i => congrFun h (Sum.inl i), funext fun i => congrFun h (Sum.inr i)⟩
  · rintro ⟨rfl, rfl⟩; rfl

theorem smul_stack (c : F) (u v : n → F) : c • stack u v = stack (c • u) (c • v) := by
  funext i; cases i <;> rfl

theorem fromBlocks_mulVec_stack (A B C D : Matrix n n F) (u v : n → F) :
    fromBlocks A B C D *ᵥ stack u v = stack (A *ᵥ u + B *ᵥ v) (C *ᵥ u + D *ᵥ v) := by
  unfold stack
  rw [fromBlocks_mulVec]
  rfl

theorem exists_stack (z : n ⊕ n → F) : ∃ u v, z = stack u v :=
  ⟨fun i => z (Sum.inl i), fun i => z (Sum.inr i), by funext i; cases i <;> rfl⟩

/-- C39 (forward): an eigenpair `(λ, v)` of the quadratic problem, `λ = s θ`, gives the eigenpair `(θ, [v; θ v])` (`[θ v; v]` for
gyroscopic problems) of the pencil, for all matrices, all `(α,β)` and all scaling factors. -/
theorem C39_forward (t : ProblemType) (x : LinCtx F n) (theta : F) (v : n → F)
    (h : IsQuadPair x.K x.C x.M (x.sfactor * theta) v) : IsPencilPair (explicitPencil t x) theta (lift t theta v) := by
  obtain ⟨hv, h⟩ := h
  constructor
  · intro h0
    cases t <;> simp only [lift] at h0 <;> rw [stack_eq_zero] at h0 <;> first | exact hv h0.1 | exact hv h0.2
  · have hK : x.K *ᵥ v = - ((x.sfactor * theta) • (x.C *ᵥ v) + (x.sfactor * theta) ^ 2 • (x.M *ᵥ v)) := by
      unfold quad at h
      rw [add_assoc] at h
      exact eq_neg_of_add_eq_zero_left h
    cases t <;> simp only [explicitPencil, lift, linNA_eq, linNB_eq, linSA_eq, linSB_eq, linHA_eq, linHB_eq,
      fromBlocks_mulVec_stack, smul_stack, stack_inj, add_mulVec, smul_mulVec, mulVec_smul, one_mulVec, hK] <;>
      constructor <;> module

/-- C39 (converse, with the regularity condition of the linearization): every eigenpair of the pencil comes from an eigenpair of the
quadratic problem. Missing: the documentation allows any `(α,β)`; without the regularity hypothesis the converse is false
(`C39_converse_false`). -/
theorem C39_converse_partial (t : ProblemType) (x : LinCtx F n) (hab : x.alpha ≠ 0 ∨ x.beta ≠ 0) (hd : x.dsfactor ≠ 0)
    (hreg : ∀ w, admissible t x *ᵥ w = 0 → w = 0) (theta : F) (z : n ⊕ n → F)
    (h : IsPencilPair (explicitPencil t x) theta z) :
    ∃ v, z = lift t theta v ∧ IsQuadPair x.K x.C x.M (x.sfactor * theta) v := by
  obtain ⟨hz, h⟩ := h
  obtain ⟨u, v, rfl⟩ := exists_stack z
  cases t with
  | general =>
    simp only [explicitPencil, linNA_eq, linNB_eq, fromBlocks_mulVec_stack, smul_stack, stack_inj, add_mulVec,
      smul_mulVec, one_mulVec] at h
    obtain ⟨h1, h2⟩ := h
    have hw : v - theta • u = 0 := by
      apply hreg
      simp only [admissible, add_mulVec, smul_mulVec, one_mulVec, mulVec_sub, mulVec_smul]
      linear_combination (norm := module) x.alpha • h1 - x.beta • h2
    have hv : v = theta • u := sub_eq_zero.1 hw
    subst hv
    simp only [mulVec_smul] at h1 h2
    refine ⟨u, rfl, ?_, ?_⟩
    · intro h0; apply hz; rw [stack_eq_zero]; exact ⟨h0, by rw [h0, smul_zero]⟩
    · rcases hab with ha | hb
      · have : (x.alpha * x.dsfactor) • quad x.K x.C x.M (x.sfactor * theta) u = 0 := by
          unfold quad; linear_combination (norm := module) (-1 : F) • h2
        exact (smul_eq_zero.1 this).resolve_left (mul_ne_zero ha hd)
      · have : (x.beta * x.dsfactor) • quad x.K x.C x.M (x.sfactor * theta) u = 0 := by
          unfold quad; linear_combination (norm := module) (-1 : F) • h1
        exact (smul_eq_zero.1 this).resolve_left (mul_ne_zero hb hd)
  | gyroscopic =>
    simp only [explicitPencil, linHA_eq, linHB_eq, fromBlocks_mulVec_stack, smul_stack, stack_inj, add_mulVec,
      smul_mulVec, one_mulVec] at h
    obtain ⟨h1, h2⟩ := h
    have hw : u - theta • v = 0 := by
      apply hreg
      simp only [admissible, add_mulVec, smul_mulVec, one_mulVec, mulVec_sub, mulVec_smul]
      linear_combination (norm := module) x.alpha • h1 + x.beta • h2
    have hv : u = theta • v := sub_eq_zero.1 hw
    subst hv
    simp only [mulVec_smul] at h1 h2
    refine ⟨v, rfl, ?_, ?_⟩
    · intro h0; apply hz; rw [stack_eq_zero]; exact ⟨by rw [h0, smul_zero], h0⟩
    · rcases hab with ha | hb
      · have : (x.alpha * x.dsfactor) • quad x.K x.C x.M (x.sfactor * theta) v = 0 := by
          unfold quad; linear_combination (norm := module) h2
        exact (smul_eq_zero.1 this).resolve_left (mul_ne_zero ha hd)
      · have : (x.beta * x.dsfactor) • quad x.K x.C x.M (x.sfactor * theta) v = 0 := by
          unfold quad; linear_combination (norm := module) (-1 : F) • h1
        exact (smul_eq_zero.1 this).resolve_left (mul_ne_zero hb hd)
  | hermitian =>
    simp only [explicitPencil, linSA_eq, linSB_eq, fromBlocks_mulVec_stack, smul_stack, stack_inj, add_mulVec,
      smul_mulVec, one_mulVec] at h
    obtain ⟨h1, h2⟩ := h
    have hw : v - theta • u = 0 := by
      apply hreg
      simp only [admissible, add_mulVec, sub_mulVec, smul_mulVec, one_mulVec, mulVec_sub, mulVec_smul]
      linear_combination (norm := module) x.alpha • h1 - x.beta • h2
    have hv : v = theta • u := sub_eq_zero.1 hw
    subst hv
    simp only [mulVec_smul] at h1 h2
    refine ⟨u, rfl, ?_, ?_⟩
    · intro h0; apply hz; rw [stack_eq_zero]; exact ⟨h0, by rw [h0, smul_zero]⟩
    · rcases hab with ha | hb
      · have : (x.alpha * x.dsfactor) • quad x.K x.C x.M (x.sfactor * theta) u = 0 := by
          unfold quad; linear_combination (norm := module) h2
        exact (smul_eq_zero.1 this).resolve_left (mul_ne_zero ha hd)
      · have : (x.beta * x.dsfactor) • quad x.K x.C x.M (x.sfactor * theta) u = 0 := by
          unfold quad; linear_combination (norm := module) h1
        exact (smul_eq_zero.1 this).resolve_left (mul_ne_zero hb hd)
  | hyperbolic =>
    simp only [explicitPencil, linSA_eq, linSB_eq, fromBlocks_mulVec_stack, smul_stack, stack_inj, add_mulVec,
      smul_mulVec, one_mulVec] at h
    obtain ⟨h1, h2⟩ := h
    have hw : v - theta • u = 0 := by
      apply hreg
      simp only [admissible, add_mulVec, sub_mulVec, smul_mulVec, one_mulVec, mulVec_sub, mulVec_smul]
      linear_combination (norm := module) x.alpha • h1 - x.beta • h2
    have hv : v = theta • u := sub_eq_zero.1 hw
    subst hv
    simp only [mulVec_smul] at h1 h2
    refine ⟨u, rfl, ?_, ?_⟩
    · intro h0; apply hz; rw [stack_eq_zero]; exact ⟨h0, by rw [h0, smul_zero]⟩
    · rcases hab with ha | hb
      · have : (x.alpha * x.dsfactor) • quad x.K x.C x.M (x.sfactor * theta) u = 0 := by
          unfold quad; linear_combination (norm := module) h2
        exact (smul_eq_zero.1 this).resolve_left (mul_ne_zero ha hd)
      · have : (x.beta * x.dsfactor) • quad x.K x.C x.M (x.sfactor * theta) u = 0 := by
          unfold quad; linear_combination (norm := module) h1
        exact (smul_eq_zero.1 this).resolve_left (mul_ne_zero hb hd)

/-- For general problems with the default parameters `(1,0)` (and with `(0,1)`) the regularity condition holds for all matrices. -/
theorem C39_general_default (x : LinCtx F n) (hab : (x.alpha ≠ 0 ∧ x.beta = 0) ∨ (x.alpha = 0 ∧ x.beta ≠ 0))
    (w : n → F) (h : admissible .general x *ᵥ w = 0) : w = 0 := by
  rcases hab with ⟨ha, hb⟩ | ⟨ha, hb⟩
  · simp only [admissible, hb, add_mulVec, smul_mulVec, one_mulVec] at h
    have : (x.alpha ^ 2) • w = 0 := by rw [← h]; module
    exact (smul_eq_zero.1 this).resolve_left (pow_ne_zero _ ha)
  · simp only [admissible, ha, add_mulVec, smul_mulVec, one_mulVec] at h
    have : (-(x.beta ^ 2)) • w = 0 := by rw [← h]; module
    exact (smul_eq_zero.1 this).resolve_left (neg_ne_zero.2 (pow_ne_zero _ hb))

/-- C39 in full for general problems with `(α,β) = (1,0)`, the default, or `(0,1)`. -/
theorem C39_general (x : LinCtx F n) (hab : (x.alpha ≠ 0 ∧ x.beta = 0) ∨ (x.alpha = 0 ∧ x.beta ≠ 0)) (hd : x.dsfactor ≠ 0)
    (theta : F) (z : n ⊕ n → F) : IsPencilPair (explicitPencil .general x) theta z ↔
      ∃ v, z = stack v (theta • v) ∧ IsQuadPair x.K x.C x.M (x.sfactor * theta) v := by
  constructor
  · exact C39_converse_partial .general x (by rcases hab with h | h; exact Or.inl h.1; exact Or.inr h.2) hd
      (C39_general_default x hab) theta z
  · rintro ⟨v, rfl, hv⟩; exact C39_forward .general x theta v hv

/-- The data of the counterexamples: order one, `K=k`, `C=c`, `M=1`, no scaling. -/
def ctx1 (a b k c : ℚ) : LinCtx ℚ (Fin 1) := ⟨a, b, 1, 1, Matrix.of fun _ _ => k, Matrix.of fun _ _ => c, Matrix.of fun _ _ => 1⟩

/-- The converse of C39 is false without the regularity condition: (general problems, `α=β=1`, `λ²+1`) the pencil has the eigenvalue
`0`; (Hermitian and gyroscopic problems, default `α=1, β=0`, `λ²+λ`, singular `K`) every number is an eigenvalue of the pencil. -/
theorem C39_converse_false :
    (IsPencilPair (explicitPencil .general (ctx1 1 1 1 0)) 0 (stack (fun _ => 1) (fun _ => 1)) ∧
      ¬ ∃ v, IsQuadPair (ctx1 1 1 1 0).K (ctx1 1 1 1 0).C (ctx1 1 1 1 0).M 0 v) ∧
    (∀ theta, IsPencilPair (explicitPencil .hermitian (ctx1 1 0 0 1)) theta (stack (fun _ => 1) (fun _ => 0))) ∧
    (∀ theta, IsPencilPair (explicitPencil .gyroscopic (ctx1 1 0 0 1)) theta (stack (fun _ => 0) (fun _ => 1))) ∧
    (¬ ∃ v, IsQuadPair (ctx1 1 0 0 1).K (ctx1 1 0 0 1).C (ctx1 1 0 0 1).M 5 v) := by
  have hne : ∀ (u v : Fin 1 → ℚ), (u ≠ 0 ∨ v ≠ 0) → stack u v ≠ 0 := by
    intro u v h h0; rw [stack_eq_zero] at h0; rcases h with h | h; exact h h0.1; exact h h0.2
  have h1 : (fun _ => 1 : Fin 1 → ℚ) ≠ 0 := fun h => by have := congrFun h 0; norm_num at this
  refine ⟨⟨⟨hne _ _ (Or.inl h1), ?_⟩, ?_⟩, fun theta => ⟨hne _ _ (Or.inl h1), ?_⟩, fun theta => ⟨hne _ _ (Or.inr h1), ?_⟩, ?_⟩
  · simp only [explicitPencil, linNA_eq, linNB_eq, fromBlocks_mulVec_stack, smul_stack, stack_inj]
    constructor <;> funext i <;> simp [ctx1, mulVec, dotProduct, Matrix.add_apply, Matrix.one_apply, Subsingleton.elim i 0]
  · rintro ⟨v, hv, h⟩
    apply hv
    funext i
    have := congrFun h i
    simpa [quad, ctx1, mulVec, dotProduct, Subsingleton.elim i 0] using this
  · simp only [explicitPencil, linSA_eq, linSB_eq, fromBlocks_mulVec_stack, smul_stack, stack_inj]
    constructor <;> funext i <;> simp [ctx1, mulVec, dotProduct]
  · simp only [explicitPencil, linHA_eq, linHB_eq, fromBlocks_mulVec_stack, smul_stack, stack_inj]
    constructor <;> funext i <;> simp [ctx1, mulVec, dotProduct]
  · rintro ⟨v, hv, h⟩
    apply hv
    funext i
    have := congrFun h i
    simp [quad, ctx1, mulVec, dotProduct, Subsingleton.elim i 0] at this
    rw [Subsingleton.elim i 0]
    have h30 : 30 * v 0 = 0 := by linarith
    simpa using h30

/-- `PEPLinearSetLinearization` accepts exactly the parameters that are not both zero. -/
theorem C39_parameters (x : LinCtx F n) (a b : F) :
    (setLinearization x a b = none ↔ a = 0 ∧ b = 0) ∧
    (∀ y, setLinearization x a b = some y → y = { x with alpha := a, beta := b }) := by
  unfold setLinearization
  by_cases h : b ≠ 0 ∨ a ≠ 0
  · rw [if_pos h]
    refine ⟨⟨fun h => (by cases h), fun h0 => ?_⟩, fun y hy => (Option.some.inj hy).symm⟩
    rcases h with h | h
    · exact absurd h0.2 h
    · exact absurd h0.1 h
  · rw [if_neg h]
    push Not at h
    exact ⟨⟨fun _ => ⟨h.2, h.1⟩, fun _ => rfl⟩, fun y hy => (by cases hy)⟩

/-- The hypotheses of `C39_forward` and `C39_general` are met: `λ²-3λ+2`, `λ=2`. -/
example : IsQuadPair (ctx1 1 0 2 (-3)).K (ctx1 1 0 2 (-3)).C (ctx1 1 0 2 (-3)).M ((ctx1 1 0 2 (-3)).sfactor * 2) (fun _ => 1) ∧
    ((ctx1 1 0 2 (-3)).alpha ≠ 0 ∧ (ctx1 1 0 2 (-3)).beta = 0) ∧ (ctx1 1 0 2 (-3)).dsfactor ≠ 0 := by
  refine ⟨⟨fun h => by have := congrFun h 0; norm_num at this, ?_⟩, by simp [ctx1], by simp [ctx1]⟩
  funext i
  simp [quad, ctx1, mulVec, dotProduct]
  norm_num

/-! ## C69: eigenvector extraction -/

section extraction
variable {m : Type*} [DecidableEq m] [Fintype m]

/-- The blocks of a vector of the pencil. -/
def blocks (z : m ⊕ m → ℂ) : ℕ → m → ℂ
  | 0 => fun i => z (Sum.inl i)
  | _ => fun i => z (Sum.inr i)

theorem quad_smul (K C M : Matrix m m ℂ) (lam c : ℂ) (v : m → ℂ) : quad K C M lam (c • v) = c • quad K C M lam v := by
  unfold quad; simp only [mulVec_smul]; module

/-- C69: the vector taken from the eigenvector of the pencil of a quadratic problem, by the first-block rule or by the rule that looks
at the modulus, is an eigenvector of the quadratic problem. Missing: gyroscopic problems with the eigenvalue `0`, for which a zero
vector is returned (`C69_gyroscopic_false`). -/
theorem C69_extraction_partial (t : ProblemType) (K C M : Matrix m m ℂ) (s theta : ℂ) (hs : s ≠ 0) (v : m → ℂ)
    (h : IsQuadPair K C M (s * theta) v) (ht : t = .gyroscopic → theta ≠ 0) :
    IsQuadPair K C M (s * theta) (extractNone (blocks (lift t theta v))) ∧
    IsQuadPair K C M (s * theta) (extractNorm 3 (s * theta) (blocks (lift t theta v))) := by
  have hsc : theta ≠ 0 → IsQuadPair K C M (s * theta) (theta • v) := by
    intro h0
    refine ⟨fun hz => ?_, by rw [quad_smul, h.2, smul_zero]⟩
    rcases smul_eq_zero.1 hz with h1 | h1
    · exact h0 h1
    · exact h.1 h1
  have hbig : ‖s * theta‖ > 1 → theta ≠ 0 := by
    rintro hb rfl; simp at hb; exact absurd hb (by norm_num)
  have key : ∀ (t : ProblemType) (k : ℕ), (t ≠ .gyroscopic → k ≠ 0 → theta ≠ 0) → (t = .gyroscopic → theta ≠ 0) →
      IsQuadPair K C M (s * theta) (blocks (lift t theta v) k) := by
    intro t k h1 h2
    cases t <;> cases k <;> simp only [lift, blocks, stack, Sum.elim_inl, Sum.elim_inr] <;>
      first | exact h | exact hsc (h2 rfl) | exact hsc (h1 (by intro hh; cases hh) (by omega))
  refine ⟨key t 0 (fun _ h0 => absurd rfl h0) ht, ?_⟩
  unfold extractNorm
  by_cases hb : ‖s * theta‖ > 1
  · rw [if_pos hb]; exact key t _ (fun _ _ => hbig hb) ht
  · rw [if_neg hb]; exact key t _ (fun _ h0 => absurd rfl h0) ht

/-- C69 is false for gyroscopic problems: for the eigenvalue `0` both rules return the zero vector, although the pencil has the right
eigenvector (in its second block). -/
theorem C69_gyroscopic_false (x : LinCtx ℂ m) (v : m → ℂ) (h : IsQuadPair x.K x.C x.M 0 v) :
    IsPencilPair (explicitPencil .gyroscopic x) 0 (stack 0 v) ∧
    extractNone (blocks (stack 0 v)) = 0 ∧ extractNorm 3 0 (blocks (stack 0 v)) = 0 := by
  have h1 := C39_forward .gyroscopic x 0 v (by rw [mul_zero]; exact h)
  simp only [lift, zero_smul] at h1
  refine ⟨h1, rfl, ?_⟩
  unfold extractNorm
  rw [if_neg (by simp)]
  rfl

/-- A gyroscopic problem with the eigenvalue `0`: `K = 0`, `C = [0 1; -1 0]`, `M = I`. -/
example : IsQuadPair (0 : Matrix (Fin 2) (Fin 2) ℂ) !![0, 1; -1, 0] 1 0 ![1, 0] := by
  refine ⟨fun h => by have := congrFun h 0; simp at this, ?_⟩
  unfold quad; simp

/-- C69, residual rule: the vector stored is one of the normalized blocks, the recorded number is its residual, and no other block
has a smaller one. -/
theorem C69_residual_rule {V R : Type*} [LinearOrder R] (normalize : V → V) (resid : V → R) (nmat : ℕ)
    (hn : 3 ≤ nmat) (z : ℕ → V) :
    (∃ k < nmat - 1, (extractResidual normalize resid nmat z).1 = normalize (z k)) ∧
    (extractResidual normalize resid nmat z).2 = resid (extractResidual normalize resid nmat z).1 ∧
    ∀ k < nmat - 1, resid (extractResidual normalize resid nmat z).1 ≤ resid (normalize (z k)) := by
  have h := forUp_inv (fun m (s : V × R) => (∃ k < m, s.1 = normalize (z k)) ∧ s.2 = resid s.1 ∧
      ∀ k < m, resid s.1 ≤ resid (normalize (z k))) (show 1 ≤ nmat - 1 by omega)
    (fun k (s : V × R) => if s.2 > resid (normalize (z k)) then (normalize (z k), resid (normalize (z k))) else s)
    (normalize (z 0), resid (normalize (z 0)))
    ⟨⟨0, by omega, rfl⟩, rfl, fun k hk => by rw [show k = 0 by omega]⟩ ?_
  · exact h
  · intro k s h1 h2 ⟨⟨j, hj, e⟩, hr, hm⟩
    by_cases hc : s.2 > resid (normalize (z k))
    · rw [if_pos hc]
      refine ⟨⟨k, by omega, rfl⟩, rfl, fun i hi => ?_⟩
      by_cases hik : i = k
      · rw [hik]
      · exact le_trans (le_of_lt (by rw [← hr]; exact hc)) (hm i (by omega))
    · rw [if_neg hc]
      refine ⟨⟨j, by omega, e⟩, hr, fun i hi => ?_⟩
      by_cases hik : i = k
      · rw [hik, ← hr]; exact not_lt.1 hc
      · exact hm i (by omega)

end extraction

end Verif.PEP
