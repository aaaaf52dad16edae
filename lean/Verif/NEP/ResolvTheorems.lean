import Verif.NEP.ResolvModel
import Mathlib.LinearAlgebra.Eigenspace.Basic
import Mathlib.LinearAlgebra.Matrix.NonsingularInverse
import Mathlib.LinearAlgebra.FiniteDimensional.Lemmas
import Mathlib.LinearAlgebra.Matrix.DotProduct
import Mathlib.Tactic

/-! The resolvent (C99). -/
set_option linter.all false
noncomputable section
open Classical Matrix ComplexOrder

namespace Verif.NEP.Resolv

variable {K : Type} [Field K] [StarRing K] {ι : Type} [Fintype ι]

/-! ### Specification -/

/-- The documented sum over the eigenvalues inside the region. -/
def resolventSum (S : Solved K ι) (omega : K) (ins : ℕ → Prop) (v : ι → K) : ι → K :=
  ∑ i ∈ (Finset.range S.nconv).filter ins,
    ((star (S.y i) ⬝ᵥ v) / ((omega - S.eigr i) * (star (S.y i) ⬝ᵥ (S.jac (S.eigr i) *ᵥ S.x i)))) • S.x i

/-! ### Lemmas -/

theorem resolventSum_all {S : Solved K ι} {omega : K} {ins : ℕ → Prop} (h : ∀ i, ins i) {v : ι → K} : resolventSum S omega ins v =
    ∑ i ∈ Finset.range S.nconv, ((star (S.y i) ⬝ᵥ v) / ((omega - S.eigr i) * (star (S.y i) ⬝ᵥ (S.jac (S.eigr i) *ᵥ S.x i)))) • S.x i := by
  unfold resolventSum
  rw [Finset.filter_true_of_mem (fun i _ => h i)]


/-- Everything stored in the context is right. -/
structure Good (S : Solved K ι) (content : ℕ → ℕ → ι → K) (c : Ctx K) : Prop where
  nf : ∀ i n, c.nfactor i = some n → n = vecDot (S.jac (S.eigr i) *ᵥ S.x i) (S.y i)
  dt : ∀ i d, c.dots i = some d → d = vecDot (content c.vid c.vstate) (S.y i)

theorem check_good {S : Solved K ι} {content : ℕ → ℕ → ι → K} {c : Ctx K} (h : Good S content c) (id state : ℕ) :
    Good S content (check c id state) ∧ (check c id state).vid = id ∧ (check c id state).vstate = state := by
  unfold check
  by_cases hc : id ≠ c.vid ∨ state ≠ c.vstate
  · rw [if_pos hc]; exact ⟨⟨h.nf, fun i d hd => by cases hd⟩, rfl, rfl⟩
  · rw [if_neg hc]
    push Not at hc
    exact ⟨h, hc.1.symm, hc.2.symm⟩

theorem body_good {S : Solved K ι} {content : ℕ → ℕ → ι → K} (omega : K) (inside : ℕ → Int) {st : Ctx K × (ι → K)} (h : Good S content st.1) (i : ℕ) :
    Good S content (body S omega inside (content st.1.vid st.1.vstate) st i).1 ∧
    (body S omega inside (content st.1.vid st.1.vstate) st i).1.vid = st.1.vid ∧
    (body S omega inside (content st.1.vid st.1.vstate) st i).1.vstate = st.1.vstate ∧
    (body S omega inside (content st.1.vid st.1.vstate) st i).2 = st.2 +
      if 0 ≤ inside i then (vecDot (content st.1.vid st.1.vstate) (S.y i) / (vecDot (S.jac (S.eigr i) *ᵥ S.x i) (S.y i) * (omega - S.eigr i))) • S.x i else 0 := by
  unfold body
  by_cases hi : 0 ≤ inside i
  · rw [if_pos hi, if_pos hi]
    dsimp only
    have hn : (st.1.nfactor i).getD (vecDot (S.jac (S.eigr i) *ᵥ S.x i) (S.y i)) = vecDot (S.jac (S.eigr i) *ᵥ S.x i) (S.y i) := by
      cases e : st.1.nfactor i with
      | none => rfl
      | some n => exact h.nf i n e
    have hd : (st.1.dots i).getD (vecDot (content st.1.vid st.1.vstate) (S.y i)) = vecDot (content st.1.vid st.1.vstate) (S.y i) := by
      cases e : st.1.dots i with
      | none => rfl
      | some n => exact h.dt i n e
    rw [hn, hd]
    refine ⟨⟨?_, ?_⟩, rfl, rfl, rfl⟩
    · intro j n hj
      dsimp only at hj
      by_cases e : j = i
      · subst e; rw [Function.update_self] at hj; exact (Option.some.inj hj).symm
      · rw [Function.update_of_ne e] at hj; exact h.nf j n hj
    · intro j n hj
      dsimp only at hj
      by_cases e : j = i
      · subst e; rw [Function.update_self] at hj; exact (Option.some.inj hj).symm
      · rw [Function.update_of_ne e] at hj; exact h.dt j n hj
  · rw [if_neg hi, if_neg hi, add_zero]; exact ⟨h, rfl, rfl, rfl⟩

theorem loop_good {S : Solved K ι} {content : ℕ → ℕ → ι → K} (omega : K) (inside : ℕ → Int) {c : Ctx K} (h : Good S content c) (id state : ℕ)
    (hid : c.vid = id) (hst : c.vstate = state) (n : ℕ) :
    Good S content ((List.range n).foldl (body S omega inside (content id state)) (c, 0)).1 ∧
    ((List.range n).foldl (body S omega inside (content id state)) (c, 0)).1.vid = id ∧
    ((List.range n).foldl (body S omega inside (content id state)) (c, 0)).1.vstate = state ∧
    ((List.range n).foldl (body S omega inside (content id state)) (c, 0)).2 =
      ∑ i ∈ Finset.range n, if 0 ≤ inside i then (vecDot (content id state) (S.y i) / (vecDot (S.jac (S.eigr i) *ᵥ S.x i) (S.y i) * (omega - S.eigr i))) • S.x i else 0 := by
  induction n with
  | zero => exact ⟨h, hid, hst, rfl⟩
  | succ n ih =>
    obtain ⟨h1, h2, h3, h4⟩ := ih
    rw [List.range_succ, List.foldl_append, List.foldl_cons, List.foldl_nil, Finset.sum_range_succ]
    obtain ⟨g1, g2, g3, g4⟩ := body_good omega inside h1 n
    rw [h2, h3] at g1 g2 g3 g4
    exact ⟨g1, g2, g3, by rw [g4, h4]⟩

theorem after_good (S : Solved K ι) (content : ℕ → ℕ → ι → K) (l : List (Call K)) : Good S content (after S content l) := by
  induction l with
  | nil => exact ⟨fun i n h => (by cases h), fun i n h => (by cases h)⟩
  | cons k l ih =>
    obtain ⟨h1, h2, h3⟩ := check_good ih k.id k.state
    exact (loop_good k.omega k.inside h1 k.id k.state h2 h3 S.nconv).1

/-! ### C99 -/

/-- C99 (sum): whatever the earlier calls, the result is the documented sum. -/
theorem C99_sum (S : Solved K ι) (content : ℕ → ℕ → ι → K) (l : List (Call K)) (k : Call K) :
    result S content l k = resolventSum S k.omega (fun i => 0 ≤ k.inside i) (content k.id k.state) := by
  obtain ⟨h1, h2, h3⟩ := check_good (after_good S content l) k.id k.state
  unfold result matMult
  rw [(loop_good k.omega k.inside h1 k.id k.state h2 h3 S.nconv).2.2.2]
  unfold resolventSum
  rw [Finset.sum_filter]
  refine Finset.sum_congr rfl fun i _ => ?_
  by_cases hi : 0 ≤ k.inside i
  · rw [if_pos hi, if_pos hi, mul_comm]
    rfl
  · rw [if_neg hi, if_neg hi]

/-- C99 (inverse): for a linear problem `T(z) = A - z B` with `B` nonsingular and a complete set of eigenpairs with different eigenvalues, without
region, the result is the solution of `T(omega) r = v`. -/
theorem C99_inverse (S : Solved ℂ ι) (A B : Matrix ι ι ℂ) (hB : IsUnit B.det) (hjac : ∀ z, S.jac z = -B) (hcard : S.nconv = Fintype.card ι)
    (hx : ∀ i < S.nconv, A *ᵥ S.x i = S.eigr i • (B *ᵥ S.x i) ∧ S.x i ≠ 0)
    (hy : ∀ i < S.nconv, star (S.y i) ᵥ* A = S.eigr i • (star (S.y i) ᵥ* B) ∧ S.y i ≠ 0)
    (hdist : ∀ i < S.nconv, ∀ j < S.nconv, S.eigr i = S.eigr j → i = j)
    (content : ℕ → ℕ → ι → ℂ) (l : List (Call ℂ)) (k : Call ℂ) (hk : ∀ i, 0 ≤ k.inside i) (hom : ∀ i < S.nconv, k.omega ≠ S.eigr i) :
    (A - k.omega • B) *ᵥ result S content l k = content k.id k.state := by
  rw [C99_sum]
  generalize content k.id k.state = v
  -- biorthogonality
  have hbi : ∀ i < S.nconv, ∀ j < S.nconv, i ≠ j → star (S.y i) ⬝ᵥ (B *ᵥ S.x j) = 0 := by
    intro i hi j hj hij
    have h1 : star (S.y i) ⬝ᵥ (A *ᵥ S.x j) = S.eigr j * (star (S.y i) ⬝ᵥ (B *ᵥ S.x j)) := by
      rw [(hx j hj).1, dotProduct_smul, smul_eq_mul]
    have h2 : star (S.y i) ⬝ᵥ (A *ᵥ S.x j) = S.eigr i * (star (S.y i) ⬝ᵥ (B *ᵥ S.x j)) := by
      rw [dotProduct_mulVec, (hy i hi).1, smul_dotProduct, smul_eq_mul, dotProduct_mulVec]
    have h3 : (S.eigr i - S.eigr j) * (star (S.y i) ⬝ᵥ (B *ᵥ S.x j)) = 0 := by rw [sub_mul, ← h1, ← h2, sub_self]
    exact (mul_eq_zero.1 h3).resolve_left (sub_ne_zero.2 fun h => hij (hdist i hi j hj h))
  -- the images of the eigenvectors are a basis
  have hli : LinearIndependent ℂ fun i : Fin S.nconv => S.x i := by
    have hev : ∀ i : Fin S.nconv, Module.End.HasEigenvector (Matrix.toLin' (B⁻¹ * A)) (S.eigr i) (S.x i) := by
      intro i
      refine ⟨Module.End.mem_eigenspace_iff.2 ?_, (hx i i.2).2⟩
      rw [Matrix.toLin'_apply, ← Matrix.mulVec_mulVec, (hx i i.2).1, Matrix.mulVec_smul, Matrix.mulVec_mulVec, Matrix.nonsing_inv_mul _ hB, Matrix.one_mulVec]
    exact Module.End.eigenvectors_linearIndependent' _ (fun i : Fin S.nconv => S.eigr i) (fun i j h => Fin.ext (hdist i i.2 j j.2 h)) _ hev
  have hinj : Function.Injective (Matrix.toLin' B) := by
    rw [Matrix.toLin'_apply']
    exact Matrix.mulVec_injective_of_isUnit ((Matrix.isUnit_iff_isUnit_det B).2 hB)
  have hli2 : LinearIndependent ℂ fun i : Fin S.nconv => B *ᵥ S.x i := by
    have := hli.map' (Matrix.toLin' B) (LinearMap.ker_eq_bot.2 hinj)
    exact this
  have hspan : ∀ u : ι → ℂ, ∃ c : Fin S.nconv → ℂ, u = ∑ i, c i • (B *ᵥ S.x i) := by
    intro u
    have htop : Submodule.span ℂ (Set.range fun i : Fin S.nconv => B *ᵥ S.x i) = ⊤ := by
      apply hli2.span_eq_top_of_card_eq_finrank'
      rw [Fintype.card_fin, hcard, Module.finrank_fintype_fun_eq_card]
    obtain ⟨c, hc⟩ := (Submodule.mem_span_range_iff_exists_fun ℂ).1 (htop ▸ Submodule.mem_top : u ∈ Submodule.span ℂ (Set.range fun i : Fin S.nconv => B *ᵥ S.x i))
    exact ⟨c, hc.symm⟩
  have hdot : ∀ (i : Fin S.nconv) (c : Fin S.nconv → ℂ), star (S.y i) ⬝ᵥ (∑ j, c j • (B *ᵥ S.x j)) = c i * (star (S.y i) ⬝ᵥ (B *ᵥ S.x i)) := by
    intro i c
    rw [dotProduct_sum, Finset.sum_eq_single i]
    · rw [dotProduct_smul, smul_eq_mul]
    · intro j _ hj
      rw [dotProduct_smul, hbi i i.2 j j.2 (fun h => hj (Fin.ext h.symm)), smul_zero]
    · intro h; exact absurd (Finset.mem_univ _) h
  have hne : ∀ i : Fin S.nconv, star (S.y i) ⬝ᵥ (B *ᵥ S.x i) ≠ 0 := by
    intro i h0
    apply (hy i i.2).2
    obtain ⟨c, hc⟩ := hspan (S.y i)
    have h1 := hdot i c
    rw [← hc, h0, mul_zero] at h1
    exact dotProduct_star_self_eq_zero.1 h1
  obtain ⟨c, hc⟩ := hspan v
  rw [resolventSum_all hk, Matrix.mulVec_sum, ← Fin.sum_univ_eq_sum_range
    (fun i => (A - k.omega • B) *ᵥ (((star (S.y i) ⬝ᵥ v) / ((k.omega - S.eigr i) * (star (S.y i) ⬝ᵥ (S.jac (S.eigr i) *ᵥ S.x i)))) • S.x i)) S.nconv]
  conv_rhs => rw [hc]
  refine Finset.sum_congr rfl fun i _ => ?_
  have hv : star (S.y i) ⬝ᵥ v = c i * (star (S.y i) ⬝ᵥ (B *ᵥ S.x i)) := by conv_lhs => rw [hc]; exact hdot i c
  rw [hv, hjac, Matrix.mulVec_smul, Matrix.sub_mulVec, (hx i i.2).1, Matrix.smul_mulVec, ← sub_smul, smul_smul, Matrix.neg_mulVec, dotProduct_neg]
  congr 1
  have h1 := hne i
  have h2 : k.omega - S.eigr i ≠ 0 := sub_ne_zero.2 (hom i i.2)
  have h3 : S.eigr i - k.omega = -(k.omega - S.eigr i) := by ring
  rw [h3]
  field_simp

/-- Real problem with a complex pair: `T(z) = A - z I` with `A` a rotation. Eigenvalues `±i`; the columns are the real and imaginary parts. -/
def pairS : Solved ℝ (Fin 2) := ⟨2, fun _ => 0, fun i => if i = 0 then ![1, 0] else ![0, 1], fun i => if i = 0 then ![1, 0] else ![0, 1], fun _ => -1⟩

/-- C99 fails with real scalars and complex conjugate eigenvalues: only the real part of the eigenvalue is used, the result is not the solution. -/
theorem C99_false_real (content : ℕ → ℕ → Fin 2 → ℝ) (l : List (Call ℝ)) (k : Call ℝ) (hk : ∀ i, 0 ≤ k.inside i) (h1 : k.omega = 1) (hv : content k.id k.state = ![1, 0]) :
    ((!![0, 1; -1, 0] : Matrix (Fin 2) (Fin 2) ℝ) - k.omega • 1) *ᵥ result pairS content l k ≠ content k.id k.state := by
  rw [C99_sum, hv]
  have : resolventSum pairS k.omega (fun i => 0 ≤ k.inside i) ![1, 0] = ![-1, 0] := by
    rw [resolventSum_all hk, h1]
    show ∑ i ∈ Finset.range 2, _ = _
    rw [Finset.sum_range_succ, Finset.sum_range_one]
    ext i
    fin_cases i <;> simp [pairS, dotProduct, Matrix.mulVec, Fin.sum_univ_two]
  rw [this, h1]
  intro h
  have := congrFun h 1
  simp [Matrix.mulVec, dotProduct, Fin.sum_univ_two] at this

/-- The columns of `pairS` are the real and imaginary parts of an exact right and left eigenvector with eigenvalue `i`. -/
example : (!![0, 1; -1, 0] : Matrix (Fin 2) (Fin 2) ℂ) *ᵥ ![1, Complex.I] = Complex.I • ![1, Complex.I] ∧
    star (![1, Complex.I] : Fin 2 → ℂ) ᵥ* (!![0, 1; -1, 0] : Matrix (Fin 2) (Fin 2) ℂ) = Complex.I • star (![1, Complex.I] : Fin 2 → ℂ) := by
  constructor <;> (ext i; fin_cases i <;> simp [Matrix.mulVec, Matrix.vecMul, dotProduct, Fin.sum_univ_two])

/-- A complete system with different eigenvalues. -/
example : ∃ (S : Solved ℂ (Fin 2)) (A B : Matrix (Fin 2) (Fin 2) ℂ), IsUnit B.det ∧ (∀ z, S.jac z = -B) ∧ S.nconv = Fintype.card (Fin 2) ∧
    (∀ i < S.nconv, A *ᵥ S.x i = S.eigr i • (B *ᵥ S.x i) ∧ S.x i ≠ 0) ∧
    (∀ i < S.nconv, star (S.y i) ᵥ* A = S.eigr i • (star (S.y i) ᵥ* B) ∧ S.y i ≠ 0) ∧ (∀ i < S.nconv, ∀ j < S.nconv, S.eigr i = S.eigr j → i = j) := by
  refine ⟨⟨2, fun i => i, fun i => if i = 0 then ![1, 0] else ![0, 1], fun i => if i = 0 then ![1, 0] else ![0, 1], fun _ => -1⟩, !![0, 0; 0, 1], 1, by simp, fun _ => rfl, rfl, ?_, ?_, ?_⟩
  · intro i hi
    have : i = 0 ∨ i = 1 := by dsimp only at hi; omega
    rcases this with rfl | rfl
    · refine ⟨?_, ?_⟩
      · ext k; fin_cases k <;> simp [Matrix.mulVec, dotProduct, Fin.sum_univ_two]
      · intro h; have := congrFun h 0; simp at this
    · refine ⟨?_, ?_⟩
      · ext k; fin_cases k <;> simp [Matrix.mulVec, dotProduct, Fin.sum_univ_two]
      · intro h; have := congrFun h 1; simp at this
  · intro i hi
    have : i = 0 ∨ i = 1 := by dsimp only at hi; omega
    rcases this with rfl | rfl
    · refine ⟨?_, ?_⟩
      · ext k; fin_cases k <;> simp [Matrix.vecMul, dotProduct, Fin.sum_univ_two]
      · intro h; have := congrFun h 0; simp at this
    · refine ⟨?_, ?_⟩
      · ext k; fin_cases k <;> simp [Matrix.vecMul, dotProduct, Fin.sum_univ_two]
      · intro h; have := congrFun h 1; simp at this
  · intro i hi j hj h; dsimp only at h; exact_mod_cast h

end Verif.NEP.Resolv
