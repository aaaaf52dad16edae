import Verif.BVB.Project
import Mathlib.Data.Complex.Basic
/-!
C120: the projection of a matrix.
-/
set_option linter.all false
namespace Verif.BVB
variable {𝕜 : Type} [Field 𝕜] [StarRing 𝕜] {N : Type} [Fintype N]

/-- Specification: `M'` has the entries `y_i^* A x_j` in the active part outside the leading block, and is otherwise as before. -/
def IsProjection (d : Dim) (X : ℕ → N → 𝕜) (A : Option (Matrix N N 𝕜)) (Y : ℕ → N → 𝕜) (M M' : ℕ → 𝕜) : Prop :=
  ∀ i j, i < d.ldm → M' (i + j * d.ldm) =
    if (i < d.ky ∧ j < d.kx) ∧ ¬ (i < d.ly ∧ j < d.lx) then
      dotProduct (star (Y i)) (match A with | some A => A.mulVec (X j) | none => X j)
    else M (i + j * d.ldm)

/-- The symmetric variant of the second block method. -/
theorem proj2_symm (d : Dim) (X : ℕ → N → 𝕜) (A : Matrix N N 𝕜) (M : ℕ → 𝕜) (hA : A.IsHermitian) (hx : d.lx ≤ d.kx) (hky : d.ky ≤ d.ldm)
    (hl : d.ly = d.lx) (hk : d.ky = d.kx) : ∃ M', projMatMult2 d X A X true M = .ok M' ∧ IsProjection d X (some A) X M M' := by
  have hr := projRight_addr d X A X M hx hky
  unfold projMatMult2
  obtain ⟨M1, hM1⟩ : ∃ M1, M1 = projRight d X A X M := ⟨_, rfl⟩
  simp only
  rw [← hM1] at hr ⊢
  by_cases h : 0 < d.lx ∧ d.ly < d.ky
  · rw [if_pos h]
    simp only [if_true]
    refine ⟨_, rfl, ?_⟩
    intro i j hi
    refine (forR_inv (fun n (u : ℕ → 𝕜) => ∀ i < d.ldm, ∀ j, u (i + j * d.ldm) =
      if (d.ly ≤ i ∧ i < n) ∧ j < d.lx then ip (X i) (A.mulVec (X j)) else M1 (i + j * d.ldm)) (le_of_lt h.2)
      (fun i hi j => by rw [if_neg (by omega)]) (fun I h1 h2 u hu => ?_) i hi j).trans ?_
    · have inner := forN_inv (f := fun j a => wr a (I + j * d.ldm) (star (a (j + I * d.ldm)))) (s := u)
        (fun n (t : ℕ → 𝕜) => ∀ i < d.ldm, ∀ j, t (i + j * d.ldm) = if i = I ∧ j < n then ip (X i) (A.mulVec (X j)) else u (i + j * d.ldm)) d.lx
        (fun i hi j => by rw [if_neg (by omega)])
        (fun J hJ t ht i hi j => by
          rw [wr_addr j J t _ hi (by omega)]
          by_cases h : i = I ∧ j = J
          · rw [if_pos h, if_pos (by omega), ht J (by omega) I, if_neg (by omega), hu J (by omega) I, if_neg (by omega), hr J I (by omega),
              if_pos (by omega), h.1, h.2]
            have := star_ip_adj A (X I) (X J)
            rwa [hA.eq] at this
          · rw [if_neg h, ht i hi j]
            by_cases h2 : i = I ∧ j < J
            · rw [if_pos h2, if_pos (by omega)]
            · rw [if_neg h2, if_neg (by omega)])
      intro i hi j
      rw [inner i hi j, hu i hi j]
      by_cases hA : i = I ∧ j < d.lx
      · rw [if_pos hA, if_pos (by omega)]
      rw [if_neg hA]
      by_cases hB : (d.ly ≤ i ∧ i < I) ∧ j < d.lx
      · rw [if_pos hB, if_pos (by omega)]
      · rw [if_neg hB, if_neg (by omega)]
    · rw [hr i j hi]
      by_cases hA : (d.ly ≤ i ∧ i < d.ky) ∧ j < d.lx
      · rw [if_pos hA, if_pos (by omega)]; rfl
      rw [if_neg hA]
      by_cases hB : i < d.ky ∧ d.lx ≤ j ∧ j < d.kx
      · rw [if_pos hB, if_pos (by omega)]; rfl
      · rw [if_neg hB, if_neg (by omega)]
  · rw [if_neg h]
    refine ⟨_, rfl, fun i j hi => ?_⟩
    rw [hr i j hi]
    by_cases hB : i < d.ky ∧ d.lx ≤ j ∧ j < d.kx
    · rw [if_pos hB, if_pos (by omega)]; rfl
    · rw [if_neg hB, if_neg (by omega)]

/-- The general variant of the second block method, when the address of line 994 is the right one: `lx = ky-ly`, or a single row. -/
theorem proj2_gen (d : Dim) (X : ℕ → N → 𝕜) (A : Matrix N N 𝕜) (Y : ℕ → N → 𝕜) (M : ℕ → 𝕜) (hx : d.lx ≤ d.kx) (hy : d.ly ≤ d.ky) (hky : d.ky ≤ d.ldm)
    (hok : d.lx = 0 ∨ d.ly = d.ky ∨ (d.ky - d.ly ≤ d.kx - d.lx ∧ (d.lx = d.ky - d.ly ∨ d.ky - d.ly = 1))) :
    ∃ M', projMatMult2 d X A Y false M = .ok M' ∧ IsProjection d X (some A) Y M M' := by
  have hr := projRight_addr d X A Y M hx hky
  unfold projMatMult2
  obtain ⟨M1, hM1⟩ : ∃ M1, M1 = projRight d X A Y M := ⟨_, rfl⟩
  simp only
  rw [← hM1] at hr ⊢
  by_cases h : 0 < d.lx ∧ d.ly < d.ky
  · rw [if_pos h]
    simp only [Bool.false_eq_true, if_false]
    have hok' : d.ky - d.ly ≤ d.kx - d.lx ∧ (d.lx = d.ky - d.ly ∨ d.ky - d.ly = 1) := by
      rcases hok with h1 | h1 | h1
      · omega
      · omega
      · exact h1
    obtain ⟨hle, hcase⟩ := hok'
    rw [if_neg (by omega)]
    obtain ⟨e, he⟩ : ∃ e, e = d.ky - d.ly := ⟨_, rfl⟩
    rw [← he] at hcase hle ⊢
    have haddr : ∀ i < e, ∀ j, j + i * e = j + i * d.lx := by
      intro i hi j
      rcases hcase with h1 | h1
      · rw [h1]
      · have : i = 0 := by omega
        rw [this]; simp
    have hsz : (d.lx - 1) + (e - 1) * e < d.lx * e := by
      rcases hcase with h1 | h1
      · rw [h1]
        have : 0 < e := by omega
        obtain ⟨f, rfl⟩ : ∃ f, e = f + 1 := ⟨e - 1, by omega⟩
        simp only [Nat.add_sub_cancel]
        nlinarith
      · rw [h1]; omega
    rw [if_pos hsz]
    refine ⟨_, rfl, fun i j hi => ?_⟩
    obtain ⟨W, hW⟩ : ∃ W : ℕ → N → 𝕜, W = fun i => A.conjTranspose.mulVec (Y (d.ly + i)) := ⟨_, rfl⟩
    rw [← hW]
    have hcell : ∀ I < e, ∀ J < d.lx, star (dotH W 0 e X 0 d.lx d.lx (J + I * e)) = ip (Y (d.ly + I)) (A.mulVec (X J)) := by
      intro I hI J hJ
      rw [haddr I hI J, dotH_addr (by omega) (by omega) (le_refl _) (by omega) hJ (by omega) hI, hW]
      exact star_ip_adj A _ _
    have h2 := forN_inv (f := fun i a => forN d.lx (fun j a => wr a (i + j * d.ldm + d.ly) (star (dotH W 0 e X 0 d.lx d.lx (j + i * e)))) a) (s := M1)
      (fun n (u : ℕ → 𝕜) => ∀ i < d.ldm, ∀ j, u (i + j * d.ldm) = if (d.ly ≤ i ∧ i < d.ly + n) ∧ j < d.lx then ip (Y i) (A.mulVec (X j)) else M1 (i + j * d.ldm)) e
      (fun i hi j => by rw [if_neg (by omega)])
      (fun I hI u hu => by
        have inner := forN_inv (f := fun j a => wr a (I + j * d.ldm + d.ly) (star (dotH W 0 e X 0 d.lx d.lx (j + I * e)))) (s := u)
          (fun n (t : ℕ → 𝕜) => ∀ i < d.ldm, ∀ j, t (i + j * d.ldm) = if i = d.ly + I ∧ j < n then ip (Y i) (A.mulVec (X j)) else u (i + j * d.ldm)) d.lx
          (fun i hi j => by rw [if_neg (by omega)])
          (fun J hJ t ht i hi j => by
            have h3 : I + J * d.ldm + d.ly = (d.ly + I) + J * d.ldm := by ring
            rw [h3, wr_addr j J t _ hi (by omega), hcell I hI J hJ]
            by_cases h : i = d.ly + I ∧ j = J
            · rw [if_pos h, if_pos (by omega), h.1, h.2]
            · rw [if_neg h, ht i hi j]
              by_cases h2 : i = d.ly + I ∧ j < J
              · rw [if_pos h2, if_pos (by omega)]
              · rw [if_neg h2, if_neg (by omega)])
        intro i hi j
        rw [inner i hi j, hu i hi j]
        by_cases hA : i = d.ly + I ∧ j < d.lx
        · rw [if_pos hA, if_pos (by omega)]
        rw [if_neg hA]
        by_cases hB : (d.ly ≤ i ∧ i < d.ly + I) ∧ j < d.lx
        · rw [if_pos hB, if_pos (by omega)]
        · rw [if_neg hB, if_neg (by omega)])
    rw [h2 i hi j, hr i j hi]
    by_cases hA : (d.ly ≤ i ∧ i < d.ly + e) ∧ j < d.lx
    · rw [if_pos hA, if_pos (by omega)]; rfl
    rw [if_neg hA]
    by_cases hB : i < d.ky ∧ d.lx ≤ j ∧ j < d.kx
    · rw [if_pos hB, if_pos (by omega)]; rfl
    · rw [if_neg hB, if_neg (by omega)]
  · rw [if_neg h]
    refine ⟨_, rfl, fun i j hi => ?_⟩
    rw [hr i j hi]
    by_cases hB : i < d.ky ∧ d.lx ≤ j ∧ j < d.kx
    · rw [if_pos hB, if_pos (by omega)]; rfl
    · rw [if_neg hB, if_neg (by omega)]

/-- **C120.** `BVMatProject` computes every entry outside the leading block, and changes no other.

Full property: without `hvec` and `h2`.  `hvec` asks, for the products column by column, that the work array of `Y` is large enough (see `vec_overflow`);
`h2` excludes the sizes for which the second block method (chosen when half of the columns or more are leading ones, and the matrix is not known to be Hermitian)
reads wrong addresses (`second_wrong`), reads beyond an array (`second_oob`) or stops with an error (`second_err`). -/
theorem matproject_partial (d : Dim) (same herm vmmVecs hasT : Bool) (X : ℕ → N → 𝕜) (A : Option (Matrix N N 𝕜)) (Y : ℕ → N → 𝕜) (M : ℕ → 𝕜)
    (hx : d.lx ≤ d.kx) (hy : d.ly ≤ d.ky) (hky : d.ky ≤ d.ldm)
    (hsame : same = true → X = Y ∧ d.lx = d.ly ∧ d.kx = d.ky) (hherm : herm = true → ∀ a, A = some a → a.IsHermitian)
    (hvec : A.isSome = true → vmmVecs = true → (same && herm) = false → d.kx ≤ d.hsize)
    (h2 : A.isSome = true → vmmVecs = false → (same && herm) = false → hasT = true → d.kx / 2 ≤ d.lx → d.ky / 2 ≤ d.ly →
      d.lx = 0 ∨ d.ly = d.ky ∨ (d.ky - d.ly ≤ d.kx - d.lx ∧ (d.lx = d.ky - d.ly ∨ d.ky - d.ly = 1))) :
    ∃ M', matProject d same herm vmmVecs hasT X A Y M = .ok M' ∧ IsProjection d X A Y M M' := by
  unfold matProject
  cases A with
  | none =>
    classical
    refine ⟨_, rfl, fun i j hi => ?_⟩
    rw [projDot_eq, projMatMult_addr d X 1 Y M hx hy hky i j hi, Matrix.one_mulVec]
    rfl
  | some A =>
    simp only
    by_cases hv : vmmVecs = true
    · rw [if_pos hv]
      unfold projVec
      by_cases hs : (same && herm) = true
      · have hs' := hs
        rw [Bool.and_eq_true] at hs'
        obtain ⟨h1, h3, h4⟩ := hsame hs'.1
        subst h1
        rw [hs]
        simp only [if_true]
        refine ⟨_, rfl, fun i j hi => ?_⟩
        rw [projVec1_symm d X A M (hherm hs'.2 A rfl) hx hky h3.symm h4.symm i j hi]
        rfl
      · rw [Bool.not_eq_true] at hs
        rw [hs]
        simp only [Bool.false_eq_true, if_false]
        have hh := hvec rfl hv hs
        rw [if_pos (fun j _ _ => by omega)]
        refine ⟨_, rfl, fun i j hi => ?_⟩
        rw [projVec2_addr d X A Y _ hy hky i j hi, projVec1_addr d X A Y M hx hky i j hi]
        by_cases hA : (d.ly ≤ i ∧ i < d.ky) ∧ j < d.kx ∧ j < d.lx + (i - d.ly)
        · rw [if_pos hA, if_pos (by omega)]; rfl
        rw [if_neg hA]
        by_cases hB : (d.lx ≤ j ∧ j < d.kx) ∧ i < d.ky ∧ i ≤ d.ly + (j - d.lx)
        · rw [if_pos hB, if_pos (by omega)]; rfl
        · rw [if_neg hB, if_neg (by omega)]
    · rw [if_neg hv]
      rw [Bool.not_eq_true] at hv
      by_cases hs : (same && herm) = true
      · have hs' := hs
        rw [Bool.and_eq_true] at hs'
        obtain ⟨h1, h3, h4⟩ := hsame hs'.1
        subst h1
        rw [hs, Bool.true_or, if_pos rfl]
        exact proj2_symm d X A M (hherm hs'.2 A rfl) hx hky h3.symm h4.symm
      · rw [Bool.not_eq_true] at hs
        rw [hs, Bool.false_or]
        by_cases hc : (hasT && decide (d.kx / 2 ≤ d.lx) && decide (d.ky / 2 ≤ d.ly)) = true
        · rw [if_pos hc]
          simp only [Bool.and_eq_true, decide_eq_true_eq] at hc
          exact proj2_gen d X A Y M hx hy hky (h2 rfl hv hs hc.1.1 hc.1.2 hc.2)
        · rw [if_neg hc]
          refine ⟨_, rfl, fun i j hi => ?_⟩
          rw [projMatMult_addr d X A Y M hx hy hky i j hi]
          rfl

/-- The hypotheses are met by a non-symmetric projection with three leading and three new columns, by blocks. -/
example (A : Matrix (Fin 4) (Fin 4) ℂ) (X Y : ℕ → Fin 4 → ℂ) (M : ℕ → ℂ) :
    ∃ M', matProject ⟨3, 6, 3, 6, 8, 6⟩ false false false true X (some A) Y M = .ok M' ∧ IsProjection ⟨3, 6, 3, 6, 8, 6⟩ X (some A) Y M M' :=
  matproject_partial _ _ _ _ _ X (some A) Y M (by decide) (by decide) (by decide) (fun h => by cases h) (fun h => by cases h) (fun _ h => by cases h)
    (fun _ _ _ _ _ _ => Or.inr (Or.inr ⟨by decide, Or.inl rfl⟩))

/-- With a matrix known to be Hermitian, or when fewer than half of the columns are leading ones in `X` or `Y`, or without the transposed product, the projection
by blocks is right for all sizes. -/
theorem matproject_blocks (d : Dim) (same herm hasT : Bool) (X : ℕ → N → 𝕜) (A : Option (Matrix N N 𝕜)) (Y : ℕ → N → 𝕜) (M : ℕ → 𝕜)
    (hx : d.lx ≤ d.kx) (hy : d.ly ≤ d.ky) (hky : d.ky ≤ d.ldm)
    (hsame : same = true → X = Y ∧ d.lx = d.ly ∧ d.kx = d.ky) (hherm : herm = true → ∀ a, A = some a → a.IsHermitian)
    (h : A = none ∨ (same = true ∧ herm = true) ∨ hasT = false ∨ d.lx < d.kx / 2 ∨ d.ly < d.ky / 2) :
    ∃ M', matProject d same herm false hasT X A Y M = .ok M' ∧ IsProjection d X A Y M M' := by
  refine matproject_partial d same herm false hasT X A Y M hx hy hky hsame hherm (fun _ h => by cases h) (fun h1 _ h3 h4 h5 h6 => ?_)
  rcases h with rfl | ⟨rfl, rfl⟩ | rfl | h | h
  · cases h1
  · cases h3
  · cases h4
  · omega
  · omega

/-- **Not C120** (bvglobal.c:994): with the default block products, a matrix not known to be Hermitian, and three leading columns of five, an entry of the result
is wrong. -/
theorem second_wrong : ∃ (X : ℕ → Fin 1 → ℝ) (A : Matrix (Fin 1) (Fin 1) ℝ) (M' : ℕ → ℝ),
    matProject ⟨3, 5, 3, 5, 5, 5⟩ true false false true X (some A) X (fun _ => 0) = .ok M' ∧
    M' (4 + 0 * 5) = 2 ∧ dotProduct (star (X 4)) (A.mulVec (X 0)) = 1 := by
  refine ⟨fun j _ => if j = 2 then 2 else 1, 1, _, rfl, ?_, ?_⟩
  · simp [projRight, dotH, grid, wr, ip, forR, cpy, dotProduct]
  · simp [dotProduct]

/-- **Not C120**: if `X` has as many new columns as `Y` and both have fewer leading columns than new ones (at least one), which the second block method admits for
`l` of `2l+1` columns, entries beyond the end of an array are read. -/
theorem second_oob (d : Dim) (X : ℕ → N → 𝕜) (A : Matrix N N 𝕜) (Y : ℕ → N → 𝕜) (M : ℕ → 𝕜) (same herm : Bool) (hs : (same && herm) = false)
    (hl : 0 < d.lx) (hx : d.kx = 2 * d.lx + 1) (hyl : d.ly = d.lx) (hy : d.ky = d.kx) :
    matProject d same herm false true X (some A) Y M = .oob := by
  unfold matProject projMatMult2
  simp only [hs, Bool.false_or, Bool.true_and, Bool.false_eq_true, if_false]
  rw [if_pos (by simp only [Bool.and_eq_true, decide_eq_true_eq]; omega), if_pos (by omega), if_neg (by omega), if_neg]
  have e1 : d.ky - d.ly = d.lx + 1 := by omega
  rw [e1, Nat.add_sub_cancel]
  nlinarith

/-- **Not C120**: if `Y` has more new columns than `X`, the second block method stops with an error about sizes that the user cannot influence. -/
theorem second_err (d : Dim) (X : ℕ → N → 𝕜) (A : Matrix N N 𝕜) (Y : ℕ → N → 𝕜) (M : ℕ → 𝕜) (same herm : Bool) (hs : (same && herm) = false)
    (hl : 0 < d.lx) (hx : d.kx / 2 ≤ d.lx) (hy : d.ky / 2 ≤ d.ly) (h : d.kx - d.lx < d.ky - d.ly) :
    matProject d same herm false true X (some A) Y M = .err := by
  unfold matProject projMatMult2
  simp only [hs, Bool.false_or, Bool.true_and, Bool.false_eq_true, if_false]
  rw [if_pos (by simp only [Bool.and_eq_true, decide_eq_true_eq]; omega), if_pos (by omega), if_pos (by omega)]

/-- The sizes of `second_err` exist: `X` with 2 of 3 leading columns, `Y` with 2 of 4. -/
example : (0 < (⟨2, 3, 2, 4, 4, 4⟩ : Dim).lx) ∧ (3 / 2 ≤ 2) ∧ (4 / 2 ≤ 2) ∧ 3 - 2 < 4 - 2 := by decide

/-- **Not C120** (bvglobal.c:878-885): column by column, the work array of `Y` is overrun when `X` has more active columns than `Y` has columns. -/
theorem vec_overflow (X : ℕ → N → 𝕜) (A : Matrix N N 𝕜) (Y : ℕ → N → 𝕜) (M : ℕ → 𝕜) :
    matProject ⟨3, 5, 1, 2, 2, 2⟩ false false true true X (some A) Y M = .oob := by
  unfold matProject projVec
  simp only [Bool.false_and, if_true, Bool.false_eq_true, if_false]
  rw [if_neg]
  intro h
  have := h 1 (by decide) (by decide)
  simp at this

end Verif.BVB
