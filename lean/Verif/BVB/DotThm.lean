import Verif.BVB.Dot
import Mathlib.Data.Complex.Basic
/-!
C119: the matrix of inner products.
-/
set_option linter.all false
namespace Verif.BVB
variable {𝕜 : Type} [Field 𝕜] [StarRing 𝕜] {P : Type} [Fintype P] {n : P → ℕ}

theorem ipSpec_some (B : Matrix (Σ p, Fin (n p)) (Σ p, Fin (n p)) 𝕜) (X Y : Blk 𝕜 n) (i j : ℕ) : vdot Y (ipMult B X) i j = ipSpec (some B) X Y i j := by
  rw [vdot_eq, col_ipMult]; rfl

/-- **C119.** `BVDot` sets exactly the entries with row in the active range of `Y` and column in that of `X` to the inner products, on every process, and the active
range of `Y` is the same on return.  `same` says that `X` and `Y` are the same object.

Full property: also for a matrix `M` whose leading dimension is not its number of rows when the products are done column by column (`colwise_lda`), and for
a sequential BV without rows (`empty_untouched`). -/
theorem bvdot_partial (vecs vmmVecs same : Bool) (B : Option (Matrix (Σ p, Fin (n p)) (Σ p, Fin (n p)) 𝕜)) (X Y : Blk 𝕜 n) (x y : Act)
    (rows ldm : ℕ) (w M : P → ℕ → 𝕜)
    (hx : x.l ≤ x.k) (hy : y.l ≤ y.k) (hrows : y.k ≤ rows) (hld : rows ≤ ldm)
    (hsame : same = true → X = Y ∧ x = y) (hB : ∀ b, B = some b → b.IsHermitian)
    (hlda : B.isSome = true → vmmVecs = true → rows = ldm)
    (hn : vecs = true ∨ 1 < Fintype.card P ∨ ∀ p, n p ≠ 0) :
    (bvDot vecs vmmVecs same B X x Y y rows ldm w M).2 = y ∧
    ∀ p i j, i < ldm → (bvDot vecs vmmVecs same B X x Y y rows ldm w M).1 p (i + j * ldm) =
      if (y.l ≤ i ∧ i < y.k) ∧ (x.l ≤ j ∧ j < x.k) then ipSpec B X Y i j else M p (i + j * ldm) := by
  unfold bvDot
  by_cases he : x.l = x.k ∨ y.l = y.k
  · rw [if_pos he]
    refine ⟨rfl, fun p i j hi => ?_⟩
    rw [if_neg (by omega)]
  rw [if_neg he]
  cases B with
  | none =>
    refine ⟨rfl, fun p i j hi => ?_⟩
    simp only
    rw [opDot_addr vecs X x Y y ldm w M p hn hx hy (by omega) i j hi, vdot_eq]
    rfl
  | some B =>
    simp only
    by_cases hv : vmmVecs = true
    · rw [if_pos hv]
      have hl := hlda rfl hv
      subst hl
      by_cases hs : same = true
      · obtain ⟨h1, h2⟩ := hsame hs
        subst h1; subst h2
        rw [hs]
        have := dotPrivate_symm_addr (ipMult B X) x X rows M (by omega) (by omega) (fun i j => by
          rw [ipSpec_some, ipSpec_some]
          have := ip_adj B (col X i) (col X j)
          rw [(hB B rfl).eq] at this
          exact this)
        refine ⟨this.1, fun p i j hi => ?_⟩
        rw [this.2 p i j hi, ipSpec_some]
      · rw [Bool.not_eq_true] at hs
        rw [hs, dotPrivate_addr _ x Y y rows M hx hy hrows]
        refine ⟨rfl, fun p i j hi => ?_⟩
        simp only
        rw [dotVecs_addr _ x Y y rows M p hx hy hrows i j hi, ipSpec_some]
    · rw [if_neg hv]
      refine ⟨rfl, fun p i j hi => ?_⟩
      simp only
      rw [opDot_addr vecs _ x Y y ldm w M p hn hx hy (by omega) i j hi, ipSpec_some]

/-- The hypotheses are met: two processes with two and no rows, complex scalars, the same object with two active columns of three, in a matrix of three
rows. -/
example : (bvDot (𝕜 := ℂ) (P := Bool) (n := fun b => if b then 2 else 0) false true true (some 1) (fun p j r => (j : ℂ)) ⟨1, 3⟩ (fun p j r => (j : ℂ)) ⟨1, 3⟩ 3 3
    (fun _ _ => 0) (fun _ _ => 7)).2 = ⟨1, 3⟩ :=
  (bvdot_partial false true true (some 1) _ _ ⟨1, 3⟩ ⟨1, 3⟩ 3 3 _ _ (by decide) (by decide) (by decide) (by decide) (fun _ => ⟨rfl, rfl⟩)
    (fun b hb => by cases hb; exact Matrix.isHermitian_one) (fun _ _ => rfl) (Or.inr (Or.inl (by decide)))).1

/-- The result of `BVDot` does not depend on the distribution of the rows: two distributions of the same global vectors give the same entries.
(The global rows are matched by `e`.) -/
theorem bvdot_distribution_partial {P' : Type} [Fintype P'] {n' : P' → ℕ} (e : (Σ p, Fin (n p)) ≃ (Σ p, Fin (n' p)))
    (vecs vmmVecs same : Bool) (B : Option (Matrix (Σ p, Fin (n p)) (Σ p, Fin (n p)) 𝕜)) (X Y : Blk 𝕜 n) (X' Y' : Blk 𝕜 n') (x y : Act)
    (rows ldm : ℕ) (w M : P → ℕ → 𝕜) (w' M' : P' → ℕ → 𝕜)
    (hX : ∀ j s, col X' j (e s) = col X j s) (hY : ∀ j s, col Y' j (e s) = col Y j s)
    (hx : x.l ≤ x.k) (hy : y.l ≤ y.k) (hrows : y.k ≤ rows) (hld : rows ≤ ldm)
    (hsame : same = true → X = Y ∧ X' = Y' ∧ x = y) (hB : ∀ b, B = some b → b.IsHermitian)
    (hlda : B.isSome = true → vmmVecs = true → rows = ldm)
    (hn : vecs = true ∨ 1 < Fintype.card P ∨ ∀ p, n p ≠ 0) (hn' : vecs = true ∨ 1 < Fintype.card P' ∨ ∀ p, n' p ≠ 0)
    (p : P) (p' : P') (i j : ℕ) (hi : y.l ≤ i) (hi' : i < y.k) (hj : x.l ≤ j) (hj' : j < x.k) :
    (bvDot vecs vmmVecs same B X x Y y rows ldm w M).1 p (i + j * ldm) =
    (bvDot vecs vmmVecs same (B.map (fun b => b.submatrix e.symm e.symm)) X' x Y' y rows ldm w' M').1 p' (i + j * ldm) := by
  have hlt : i < ldm := by omega
  rw [(bvdot_partial vecs vmmVecs same B X Y x y rows ldm w M hx hy hrows hld (fun h => ⟨(hsame h).1, (hsame h).2.2⟩) hB hlda hn).2 p i j hlt,
    (bvdot_partial vecs vmmVecs same (B.map _) X' Y' x y rows ldm w' M' hx hy hrows hld (fun h => ⟨(hsame h).2.1, (hsame h).2.2⟩)
      (fun b hb => by
        cases B with
        | none => simp at hb
        | some b0 => simp at hb; rw [← hb]; exact (hB b0 rfl).submatrix _) (by simpa using hlda) hn').2 p' i j hlt,
    if_pos ⟨⟨hi, hi'⟩, hj, hj'⟩, if_pos ⟨⟨hi, hi'⟩, hj, hj'⟩]
  have hXe : col X' j = col X j ∘ e.symm := by funext s; simpa using hX j (e.symm s)
  have hYe : col Y' i = col Y i ∘ e.symm := by funext s; simpa using hY i (e.symm s)
  cases B with
  | none =>
    simp only [ipSpec, Option.map_none, hXe, hYe]
    have : star (col Y i ∘ e.symm) = star (col Y i) ∘ e.symm := rfl
    rw [this, comp_equiv_dotProduct_comp_equiv]
  | some b =>
    simp only [ipSpec, Option.map_some, hXe, hYe]
    have : star (col Y i ∘ e.symm) = star (col Y i) ∘ e.symm := rfl
    rw [this, Matrix.submatrix_mulVec_equiv, Equiv.symm_symm, Function.comp_assoc, Equiv.symm_comp_self, Function.comp_id, comp_equiv_dotProduct_comp_equiv]

/-- **Not C119**: a sequential BV (contiguous storage) without rows leaves `M` as it was, although the inner products are zero. -/
theorem empty_untouched (X Y : Blk ℝ (fun _ : Unit => 0)) (M : Unit → ℕ → ℝ) (w : Unit → ℕ → ℝ) :
    (bvDot false false false none X ⟨0, 1⟩ Y ⟨0, 1⟩ 1 1 w M).1 () 0 = M () 0 ∧ ipSpec none X Y 0 0 = 0 := by
  constructor
  · simp [bvDot, opDot, dotSvec, dotBlas]
  · show ∑ s : (Σ _ : Unit, Fin 0), star (col Y 0) s * col X 0 s = 0
    refine Finset.sum_eq_zero ?_
    rintro ⟨_, r⟩ _
    exact r.elim0

/-- **Not C119**: with products column by column the number of rows of `M` is used as its leading dimension.  For a matrix with one row inside an array of
leading dimension 2, the second inner product goes to another place: the entry `(0,1)` keeps its value. -/
theorem colwise_lda : ∃ (X Y : Blk ℝ (fun _ : Unit => 1)) (B : Matrix (Σ _ : Unit, Fin 1) (Σ _ : Unit, Fin 1) ℝ), B.IsHermitian ∧
    (bvDot false true false (some B) X ⟨0, 2⟩ Y ⟨0, 1⟩ 1 2 (fun _ _ => 0) (fun _ _ => 0)).1 () (0 + 1 * 2) = 0 ∧ ipSpec (some B) X Y 0 1 = 1 := by
  refine ⟨fun _ _ _ => 1, fun _ _ _ => 1, 1, Matrix.isHermitian_one, ?_, ?_⟩
  · simp [bvDot, dotPrivate, forR, wr]
  · simp [ipSpec, dotProduct, col]

end Verif.BVB
