import Verif.BVB.Insert
/-! Theorems about BVInsertVecs and BVInsertConstraints (C117). -/
set_option linter.all false
namespace Verif.BVB.Insert
open Verif.BV
variable {𝕜 E : Type} [RCLike 𝕜] [NormedAddCommGroup E] [InnerProductSpace 𝕜 E]

/-- **C117 (BVInsertVecs).**  Let the constraints and the first `s` columns be orthonormal and let there be room for `m` vectors.  Then BVInsertVecs with
orthogonalization succeeds and returns `m' ≤ m` such that the constraints and the first `s+m'` columns are orthonormal and span what constraints, previous columns and
given vectors span; the dimension grows exactly by `m'`; constraints, previous columns and the columns from `s+m` on are unchanged. -/
theorem insertVecs_orth (o : Opts) (he : o.eta ≤ 1) (b : Bv E) (s m : ℕ) (W : ℕ → E) (hs : s < b.m) (hm : s + m ≤ b.m)
    (hon : ON 𝕜 b.col (b.nc + s)) :
    ∃ b' m', insertVecs 𝕜 o true b s m W = some (b', m') ∧ m' ≤ m ∧ b'.nc = b.nc ∧ b'.m = b.m ∧
      ON 𝕜 b'.col (b.nc + s + m') ∧
      Biorth.spanOf 𝕜 b'.col (b.nc + s + m') = Biorth.spanOf 𝕜 b.col (b.nc + s) ⊔ Biorth.spanOf 𝕜 W m ∧
      Module.finrank 𝕜 (Biorth.spanOf 𝕜 b.col (b.nc + s) ⊔ Biorth.spanOf 𝕜 W m : Submodule 𝕜 E) = b.nc + s + m' ∧
      (∀ p < b.nc + s, b'.col p = b.col p) ∧ (∀ p, b.nc + s + m ≤ p → b'.col p = b.col p) := by
  have key : ∃ st : Bv E × ℕ, insertVecs 𝕜 o true b s m W = some (st.1, m - st.2) ∧ Inv (𝕜 := 𝕜) b s W m st := by
    have h0 : Inv (𝕜 := 𝕜) b s W 0 (b, 0) := by
      refine ⟨le_rfl, rfl, rfl, by simpa using hon, ?_, fun _ _ => rfl, fun _ _ => rfl⟩
      have : Biorth.spanOf 𝕜 W 0 = ⊥ := by
        unfold Biorth.spanOf
        rw [Submodule.span_eq_bot]
        rintro x ⟨i, hi, _⟩; omega
      rw [this, sup_bot_eq]; simp
    by_cases hm0 : m = 0
    · subst hm0
      exact ⟨(b, 0), by simp [insertVecs], h0⟩
    · refine ⟨_, ?_, forN_inv (Inv (𝕜 := 𝕜) b s W) m h0 (fun i _ st hst => inv_step o he b s W i st hst)⟩
      unfold insertVecs
      rw [if_neg hm0, if_neg (not_not.mpr ⟨hs, hm⟩)]
  obtain ⟨st, h1, hi⟩ := key
  have e : b.nc + (s + m - st.2) = b.nc + s + (m - st.2) := by have := hi.le; omega
  have hon' := hi.on
  have hsp := hi.span
  rw [e] at hon' hsp
  refine ⟨_, _, h1, Nat.sub_le _ _, hi.nc, hi.m, hon', hsp, ?_, hi.low, hi.high⟩
  rw [← hsp]
  exact finrank_on hon'

/-- BVInsertVecs without orthogonalization just copies the vectors. -/
theorem insertVecs_copy (o : Opts) (b : Bv E) (s m : ℕ) (W : ℕ → E) (hs : s < b.m) (hm : s + m ≤ b.m) :
    ∃ b', insertVecs 𝕜 o false b s m W = some (b', m) ∧ ∀ p, b'.col p = if b.nc + s ≤ p ∧ p < b.nc + s + m then W (p - (b.nc + s)) else b.col p := by
  by_cases hm0 : m = 0
  · subst hm0
    refine ⟨b, by simp [insertVecs], ?_⟩
    intro p
    rw [if_neg (by omega)]
  · have hinv := forN_inv (f := fun i st => insBody 𝕜 o false s i (W i) st) (s := ((b, 0) : Bv E × ℕ))
      (fun (i : ℕ) (st : Bv E × ℕ) => st.2 = 0 ∧ st.1.nc = b.nc ∧ ∀ p, st.1.col p = if b.nc + s ≤ p ∧ p < b.nc + s + i then W (p - (b.nc + s)) else b.col p) m
      ⟨rfl, rfl, fun p => by rw [if_neg (by omega)]⟩
      (by
        rintro i hi ⟨st, nd⟩ ⟨h0, h1, h2⟩
        dsimp only at h0 h1 h2
        subst h0
        refine ⟨rfl, h1, ?_⟩
        intro p
        show wr st.col (st.nc + (s + i - 0)) (W i) p = _
        by_cases hp : p = b.nc + s + i
        · rw [if_pos (by omega)]
          have : st.nc + (s + i - 0) = p := by omega
          rw [this, Biorth.wr_same]
          congr 1; omega
        · rw [Biorth.wr_other _ _ _ (by omega), h2 p]
          by_cases hq : b.nc + s ≤ p ∧ p < b.nc + s + i
          · rw [if_pos hq, if_pos (by omega)]
          · rw [if_neg hq, if_neg (by omega)])
    refine ⟨_, ?_, hinv.2.2⟩
    unfold insertVecs
    rw [if_neg hm0, if_neg (not_not.mpr ⟨hs, hm⟩)]
    dsimp only
    rw [hinv.1]; rfl

/-- **C117 (BVInsertConstraints).**  For a BV without constraints BVInsertConstraints succeeds for any vectors, returns the dimension of their span, the
constraints stored are an orthonormal basis of it, and the number of columns is the same as before. -/
theorem insertConstraints_ok (o : Opts) (he : o.eta ≤ 1) (b : Bv E) (nc : ℕ) (C fresh : ℕ → E) (hb : b.nc = 0) (hm : 0 < b.m) (hnc : 0 < nc) :
    ∃ b' nc', insertConstraints 𝕜 o b nc C fresh = some (b', nc') ∧ b'.nc = nc' ∧ b'.m = b.m ∧ nc' ≤ nc ∧
      ON 𝕜 b'.col nc' ∧ Biorth.spanOf 𝕜 b'.col nc' = Biorth.spanOf 𝕜 C nc ∧ Module.finrank 𝕜 (Biorth.spanOf 𝕜 C nc) = nc' := by
  obtain ⟨b1, m1, h1, h2, h3, h4, h5, h6, h7, _⟩ := insertVecs_orth (𝕜 := 𝕜) o he { b with m := nc + b.m, col := fresh } 0 nc C (by dsimp only; omega) (by dsimp only; omega)
    (by intro i hi; dsimp only at hi; omega)
  have hbot : Biorth.spanOf 𝕜 fresh (b.nc + 0) = ⊥ := by
    unfold Biorth.spanOf
    rw [Submodule.span_eq_bot]
    rintro x ⟨i, hi, _⟩; omega
  dsimp only at h5 h6 h7
  rw [hbot, bot_sup_eq] at h6 h7
  have e : b.nc + 0 + m1 = m1 := by omega
  rw [e] at h5 h6 h7
  refine ⟨{ b1 with nc := m1, m := b.m }, m1, ?_, rfl, rfl, h2, h5, h6, h7⟩
  unfold insertConstraints
  rw [if_neg (by omega), if_neg (by rw [hb]; simp), h1]

/-- **C117 (use of constraints).**  After BVInsertConstraints a vector orthogonalized with BVOrthogonalizeVec against any `k` columns that are orthonormal together with the
constraints is orthogonal to all the given constraint vectors, also to those found dependent. -/
theorem constraints_respected (o : Opts) (he : o.eta ≤ 1) (b : Bv E) (nc : ℕ) (C fresh : ℕ → E) (hb : b.nc = 0) (hm : 0 < b.m) (hnc : 0 < nc)
    (b' : Bv E) (nc' : ℕ) (h : insertConstraints 𝕜 o b nc C fresh = some (b', nc'))
    (b2 : Bv E) (h2n : b2.nc = b'.nc) (h2c : ∀ p < b'.nc, b2.col p = b'.col p) (k : ℕ) (hon : ON 𝕜 b2.col (b2.nc + k)) (v : E) :
    ∀ i < nc, inner 𝕜 (C i) (orthVec 𝕜 o b2 k v) = 0 := by
  obtain ⟨b1, n1, g1, g2, _, _, _, g6, _⟩ := insertConstraints_ok (𝕜 := 𝕜) o he b nc C fresh hb hm hnc
  rw [h] at g1
  have e1 : b' = b1 := congrArg Prod.fst (Option.some.inj g1)
  subst e1
  intro i hi
  obtain ⟨f1, _⟩ := gs_facts o he b2 k hon v
  have hC : C i ∈ Biorth.spanOf 𝕜 b2.col b2.nc := by
    have : C i ∈ Biorth.spanOf 𝕜 b'.col n1 := by rw [g6]; exact Biorth.mem_spanOf hi
    rw [h2n, Biorth.spanOf_congr h2c, g2]; exact this
  unfold Biorth.spanOf at hC
  refine Submodule.span_induction (p := fun x _ => inner 𝕜 x (orthVec 𝕜 o b2 k v) = 0) ?_ ?_ ?_ ?_ hC
  · rintro x ⟨p, hp, rfl⟩
    exact f1 p (by omega)
  · exact inner_zero_left _
  · intro x y _ _ hx hy
    rw [inner_add_left, hx, hy, add_zero]
  · intro a x _ hx
    rw [inner_smul_left, hx, mul_zero]

/-- A case with a dependent vector in the plane: the vectors `e₁, 2e₁, e₁+e₂` inserted in an empty BV with 5 columns; the theorem applies and two columns remain. -/
example (o : Opts) (he : o.eta ≤ 1) :
    ∃ b', insertVecs ℝ o true ⟨0, 5, fun _ => 0⟩ 0 3 (fun i => if i = 0 then EuclideanSpace.single (0 : Fin 2) (1:ℝ) else if i = 1 then (2:ℝ) • EuclideanSpace.single (0 : Fin 2) (1:ℝ)
      else EuclideanSpace.single (0 : Fin 2) (1:ℝ) + EuclideanSpace.single (1 : Fin 2) (1:ℝ)) = some (b', 2) := by
  obtain ⟨W, hW⟩ : ∃ W : ℕ → EuclideanSpace ℝ (Fin 2), W = (fun i => if i = 0 then EuclideanSpace.single (0 : Fin 2) (1:ℝ) else if i = 1 then (2:ℝ) • EuclideanSpace.single (0 : Fin 2) (1:ℝ)
      else EuclideanSpace.single (0 : Fin 2) (1:ℝ) + EuclideanSpace.single (1 : Fin 2) (1:ℝ)) := ⟨_, rfl⟩
  rw [← hW]
  obtain ⟨b', m', h1, _, _, _, _, _, h7, _⟩ := insertVecs_orth (𝕜 := ℝ) o he (⟨0, 5, fun _ => 0⟩ : Bv (EuclideanSpace ℝ (Fin 2))) 0 3 W (by norm_num) (by norm_num) (fun i hi => absurd hi (by simp))
  refine ⟨b', ?_⟩
  rw [h1]
  have htop : (Biorth.spanOf ℝ (fun _ => (0 : EuclideanSpace ℝ (Fin 2))) (0 + 0) ⊔ Biorth.spanOf ℝ W 3 : Submodule ℝ (EuclideanSpace ℝ (Fin 2))) = ⊤ := by
    rw [eq_top_iff]
    intro x _
    refine Submodule.mem_sup_right ?_
    have h0 := Biorth.mem_spanOf (𝕜 := ℝ) (V := W) (k := 3) (i := 0) (by norm_num)
    have h2 := Biorth.mem_spanOf (𝕜 := ℝ) (V := W) (k := 3) (i := 2) (by norm_num)
    have hx : x = (x 0 - x 1) • W 0 + x 1 • W 2 := by
      ext t
      fin_cases t <;> simp [hW]
    rw [hx]
    exact Submodule.add_mem _ (Submodule.smul_mem _ _ h0) (Submodule.smul_mem _ _ h2)
  dsimp only at h7
  rw [htop, finrank_top, finrank_euclideanSpace_fin] at h7
  have : m' = 2 := by omega
  rw [this]

end Verif.BVB.Insert
