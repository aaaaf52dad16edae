import Verif.BVB.Biorth
import Verif.BV.OrthoTheorems
import Mathlib.Analysis.InnerProductSpace.Orthonormal
import Mathlib.LinearAlgebra.Dimension.Constructions
import Mathlib.LinearAlgebra.FiniteDimensional.Lemmas
/-!
Model of BVInsertVecs and BVInsertConstraints (`src/sys/classes/bv/interface/bvfunc.c:338-446`), on top of the model of Gram-Schmidt orthogonalization of
`Verif.BV` (bvorthog.c).  The inner product is definite; the coefficient arrays start clean.
-/
set_option linter.all false
namespace Verif.BVB.Insert
open Verif.BV

/-- The part of a BV object used here: the number of constraints `nc`, of columns `m`, and the stored vectors; column `j` is stored at `nc+j`. -/
structure Bv (E : Type) where
  nc : ℕ
  m : ℕ
  col : ℕ → E

/-- The options of the orthogonalization (bvimpl.h: orthog_type, orthog_ref, orthog_eta). -/
structure Opts where
  mgs : Bool
  ref : Refine
  eta : ℝ

variable {𝕜 E : Type} [RCLike 𝕜] [NormedAddCommGroup E] [InnerProductSpace 𝕜 E]

variable (𝕜) in
/-- The constraints and the first `j` columns as seen by the orthogonalization. -/
noncomputable def slots (b : Bv E) (j : ℕ) : List (Slot 𝕜 E) := (List.range (b.nc + j)).map fun p => mkSlot (b.col p) 1

variable (𝕜) in
/-- bvorthog.c:314-347 BVOrthogonalizeColumn: column `j` against constraints and previous columns; gives back norm and linear dependence. -/
noncomputable def orthCol (o : Opts) (b : Bv E) (j : ℕ) : Bv E × ℝ × Bool :=
  let r := gs (ipForm 𝕜 E) false o.mgs o.eta o.ref (slots 𝕜 b j) (b.col (b.nc + j))
  ({ b with col := wr b.col (b.nc + j) r.w }, r.nrm, r.lindep)

variable (𝕜) in
/-- The body of the loop, bvfunc.c:367-376. -/
noncomputable def insBody (o : Opts) (orth : Bool) (s i : ℕ) (w : E) (st : Bv E × ℕ) : Bv E × ℕ :=
  let b := { st.1 with col := wr st.1.col (st.1.nc + (s + i - st.2)) w }
  if orth then
    let r := orthCol 𝕜 o b (s + i - st.2)
    if r.2.1 = 0 ∨ r.2.2 = true then (r.1, st.2 + 1)
    else ({ r.1 with col := wr r.1.col (r.1.nc + (s + i - st.2)) (((1 / r.2.1 : ℝ) : 𝕜) • r.1.col (r.1.nc + (s + i - st.2))) }, st.2)
  else (b, st.2)

variable (𝕜) in
/-- bvfunc.c:338-381 BVInsertVecs: the vectors `W[0..m-1]` in the columns from `s` on.  `none` stands for the errors of lines 362-363; the result is
the object and the number returned in `m`. -/
noncomputable def insertVecs (o : Opts) (orth : Bool) (b : Bv E) (s m : ℕ) (W : ℕ → E) : Option (Bv E × ℕ) :=
  if m = 0 then some (b, 0)
  else if ¬ (s < b.m ∧ s + m ≤ b.m) then none
  else
    let r := forN m (fun i st => insBody 𝕜 o orth s i (W i) st) (b, 0)
    some (r.1, m - r.2)

variable (𝕜) in
/-- bvfunc.c:418-446 BVInsertConstraints: room for the vectors is made by BVResize without copy (`fresh` is the content of the new storage), the vectors are inserted
in the first columns, and then these are declared constraints.  `none` stands for the error of line 434. -/
noncomputable def insertConstraints (o : Opts) (b : Bv E) (nc : ℕ) (C : ℕ → E) (fresh : ℕ → E) : Option (Bv E × ℕ) :=
  if nc = 0 then some (b, 0)
  else if b.nc ≠ 0 then none
  else
    match insertVecs 𝕜 o true { b with m := nc + b.m, col := fresh } 0 nc C with
    | none => none
    | some (b', nc') => some ({ b' with nc := nc', m := b.m }, nc')

variable (𝕜) in
/-- bvorthog.c:249-273 BVOrthogonalizeVec with `k` active columns: the vector after orthogonalization. -/
noncomputable def orthVec (o : Opts) (b : Bv E) (k : ℕ) (v : E) : E := (gs (ipForm 𝕜 E) false o.mgs o.eta o.ref (slots 𝕜 b k) v).w

/-! ### Specification -/

variable (𝕜) in
/-- The stored vectors `0..n-1` are orthonormal. -/
def ON (col : ℕ → E) (n : ℕ) : Prop := ∀ i < n, ∀ j < n, inner 𝕜 (col i) (col j) = if i = j then (1 : 𝕜) else 0

/-! ### Lemmas -/

theorem slots_holds (b : Bv E) (j : ℕ) : Holds (slots 𝕜 b j) ((List.range (b.nc + j)).map b.col) := by
  refine ⟨?_, ?_, ?_⟩
  · unfold slots; rw [List.map_map]; rfl
  · intro s hs
    obtain ⟨p, _, rfl⟩ := List.mem_map.mp hs
    rfl
  · intro s hs
    obtain ⟨p, _, rfl⟩ := List.mem_map.mp hs
    rfl

theorem on_list {col : ℕ → E} {n : ℕ} (h : ON 𝕜 col n) : ONList 𝕜 ((List.range n).map col) := by
  refine ⟨?_, ?_⟩
  · intro v hv
    obtain ⟨p, hp, rfl⟩ := List.mem_map.mp hv
    have hp' := List.mem_range.mp hp
    have h1 := h p hp' p hp'
    rw [if_pos rfl, inner_self_eq_norm_sq_to_K] at h1
    have h2 : ‖col p‖ ^ 2 = 1 := by exact_mod_cast h1
    nlinarith [norm_nonneg (col p)]
  · rw [List.pairwise_map]
    refine List.Pairwise.imp_of_mem ?_ (List.pairwise_lt_range (n := n))
    intro a b ha hb hab
    have := h a (List.mem_range.mp ha) b (List.mem_range.mp hb)
    rwa [if_neg (by omega)] at this

theorem span_list (col : ℕ → E) (n : ℕ) : Submodule.span 𝕜 {v | v ∈ (List.range n).map col} = Biorth.spanOf 𝕜 col n := by
  unfold Biorth.spanOf
  congr 1
  ext x
  simp only [Set.mem_setOf_eq, List.mem_map, List.mem_range]
  constructor
  · rintro ⟨i, hi, rfl⟩; exact ⟨i, hi, rfl⟩
  · rintro ⟨i, hi, rfl⟩; exact ⟨i, hi, rfl⟩

/-- What BVOrthogonalizeColumn does, in terms of stored vectors. -/
theorem gs_facts (o : Opts) (he : o.eta ≤ 1) (b : Bv E) (j : ℕ) (h : ON 𝕜 b.col (b.nc + j)) (w : E) :
    let r := gs (ipForm 𝕜 E) false o.mgs o.eta o.ref (slots 𝕜 b j) w
    (∀ p < b.nc + j, inner 𝕜 (b.col p) r.w = 0) ∧ (∃ u ∈ Biorth.spanOf 𝕜 b.col (b.nc + j), w = u + r.w) ∧ r.nrm = ‖r.w‖ ∧
    (r.lindep = true ↔ w ∈ Biorth.spanOf 𝕜 b.col (b.nc + j)) := by
  obtain ⟨_, h2, h3, h4, h5⟩ := C31_column (𝕜 := 𝕜) o.mgs o.eta he o.ref _ _ (slots_holds b j) (on_list h) w
  refine ⟨?_, ?_, h4, ?_⟩
  · intro p hp
    exact h2 _ (List.mem_map.mpr ⟨p, List.mem_range.mpr hp, rfl⟩)
  · refine ⟨_, ?_, h3⟩
    rw [← span_list]
    exact lincomb_mem _ _
  · rw [← span_list]; exact h5

theorem spanOf_mono {col : ℕ → E} {k n : ℕ} (h : k ≤ n) : Biorth.spanOf 𝕜 col k ≤ Biorth.spanOf 𝕜 col n := by
  refine Submodule.span_mono ?_
  rintro x ⟨i, hi, rfl⟩; exact ⟨i, by omega, rfl⟩

/-- Enlarging an orthonormal set by a unit vector orthogonal to it. -/
theorem on_step {col : ℕ → E} {n : ℕ} (h : ON 𝕜 col n) {x : E} (ho : ∀ p < n, inner 𝕜 (col p) x = 0) (hn : ‖x‖ = 1) : ON 𝕜 (wr col n x) (n + 1) := by
  intro i hi j hj
  by_cases h1 : i = n
  · subst h1
    rw [Biorth.wr_same]
    by_cases h2 : j = i
    · subst h2; rw [Biorth.wr_same, if_pos rfl, inner_self_eq_norm_sq_to_K, hn]; simp
    · rw [Biorth.wr_other _ _ _ h2, if_neg (fun e => h2 e.symm), ← inner_conj_symm, ho j (by omega), map_zero]
  · rw [Biorth.wr_other _ _ _ h1]
    by_cases h2 : j = n
    · subst h2; rw [Biorth.wr_same, if_neg h1]; exact ho i (by omega)
    · rw [Biorth.wr_other _ _ _ h2]; exact h i (by omega) j (by omega)

/-- The span after enlarging. -/
theorem span_add {col : ℕ → E} {n : ℕ} {w r u : E} {a : 𝕜} (ha : a ≠ 0) (hu : u ∈ Biorth.spanOf 𝕜 col n) (hw : w = u + r) :
    Biorth.spanOf 𝕜 (wr col n (a • r)) (n + 1) = Biorth.spanOf 𝕜 col n ⊔ Submodule.span 𝕜 {w} := by
  have hcol : Biorth.spanOf 𝕜 (wr col n (a • r)) n = Biorth.spanOf 𝕜 col n := Biorth.spanOf_congr fun i hi => Biorth.wr_other _ _ _ (by omega)
  apply le_antisymm
  · refine Submodule.span_le.mpr ?_
    rintro x ⟨i, hi, rfl⟩
    by_cases h1 : i = n
    · subst h1
      rw [Biorth.wr_same]
      have : r = w - u := by rw [hw]; simp
      rw [this]
      exact Submodule.smul_mem _ _ (Submodule.sub_mem _ (Submodule.mem_sup_right (Submodule.mem_span_singleton_self w)) (Submodule.mem_sup_left hu))
    · rw [Biorth.wr_other _ _ _ h1]
      exact Submodule.mem_sup_left (Biorth.mem_spanOf (by omega))
  · refine sup_le ?_ ?_
    · rw [← hcol]; exact spanOf_mono (by omega)
    · rw [Submodule.span_singleton_le_iff_mem, hw]
      refine Submodule.add_mem _ ?_ ?_
      · have := spanOf_mono (𝕜 := 𝕜) (col := wr col n (a • r)) (k := n) (n := n + 1) (by omega)
        rw [hcol] at this; exact this hu
      · have h1 := Biorth.mem_spanOf (𝕜 := 𝕜) (V := wr col n (a • r)) (k := n + 1) (i := n) (by omega)
        rw [Biorth.wr_same] at h1
        have h2 := Submodule.smul_mem _ a⁻¹ h1
        rwa [smul_smul, inv_mul_cancel₀ ha, one_smul] at h2

/-- The dimension of the span of orthonormal vectors. -/
theorem finrank_on {col : ℕ → E} {n : ℕ} (h : ON 𝕜 col n) : Module.finrank 𝕜 (Biorth.spanOf 𝕜 col n) = n := by
  have ho : Orthonormal 𝕜 (fun i : Fin n => col i) := by
    rw [orthonormal_iff_ite]
    intro i j
    have := h i i.2 j j.2
    rw [this]
    by_cases hij : i = j
    · subst hij; simp
    · rw [if_neg hij, if_neg (fun e => hij (Fin.ext e))]
  have hr : Biorth.spanOf 𝕜 col n = Submodule.span 𝕜 (Set.range fun i : Fin n => col i) := by
    unfold Biorth.spanOf
    congr 1
    ext x
    constructor
    · rintro ⟨i, hi, rfl⟩; exact ⟨⟨i, hi⟩, rfl⟩
    · rintro ⟨i, rfl⟩; exact ⟨i, i.2, rfl⟩
  rw [hr, finrank_span_eq_card ho.linearIndependent, Fintype.card_fin]

/-- The invariant of the loop. -/
structure Inv (b : Bv E) (s : ℕ) (W : ℕ → E) (i : ℕ) (st : Bv E × ℕ) : Prop where
  le : st.2 ≤ i
  nc : st.1.nc = b.nc
  m : st.1.m = b.m
  on : ON 𝕜 st.1.col (b.nc + (s + i - st.2))
  span : Biorth.spanOf 𝕜 st.1.col (b.nc + (s + i - st.2)) = Biorth.spanOf 𝕜 b.col (b.nc + s) ⊔ Biorth.spanOf 𝕜 W i
  low : ∀ p < b.nc + s, st.1.col p = b.col p
  high : ∀ p, b.nc + s + i ≤ p → st.1.col p = b.col p

theorem spanOf_succ (W : ℕ → E) (i : ℕ) : Biorth.spanOf 𝕜 W (i + 1) = Biorth.spanOf 𝕜 W i ⊔ Submodule.span 𝕜 {W i} := by
  apply le_antisymm
  · refine Submodule.span_le.mpr ?_
    rintro x ⟨t, ht, rfl⟩
    by_cases h : t = i
    · subst h; exact Submodule.mem_sup_right (Submodule.mem_span_singleton_self _)
    · exact Submodule.mem_sup_left (Biorth.mem_spanOf (by omega))
  · exact sup_le (spanOf_mono (by omega)) ((Submodule.span_singleton_le_iff_mem _ _).mpr (Biorth.mem_spanOf (by omega)))

theorem inv_step (o : Opts) (he : o.eta ≤ 1) (b : Bv E) (s : ℕ) (W : ℕ → E) (i : ℕ) (st : Bv E × ℕ) (h : Inv (𝕜 := 𝕜) b s W i st) :
    Inv (𝕜 := 𝕜) b s W (i + 1) (insBody 𝕜 o true s i (W i) st) := by
  obtain ⟨st1, nd⟩ := st
  obtain ⟨hle, hnc, hm, hon, hspan, hlow, hhigh⟩ := h
  dsimp only at hle hnc hm hon hspan hlow hhigh
  obtain ⟨j, hj⟩ : ∃ j, j = s + i - nd := ⟨_, rfl⟩
  have hsj : s ≤ j ∧ j ≤ s + i ∧ s + (i + 1) - nd = j + 1 ∧ s + (i + 1) - (nd + 1) = j := by omega
  rw [← hj] at hon hspan
  obtain ⟨b0, hb0⟩ : ∃ b0 : Bv E, b0 = { st1 with col := wr st1.col (st1.nc + j) (W i) } := ⟨_, rfl⟩
  have hbnc : b0.nc = b.nc := by rw [hb0]; exact hnc
  have hcolw : b0.col (b0.nc + j) = W i := by rw [hb0]; exact Biorth.wr_same _ _ _
  have hcol : ∀ p, p ≠ b.nc + j → b0.col p = st1.col p := fun p hp => by rw [hb0]; exact Biorth.wr_other _ _ _ (by rw [hnc]; exact hp)
  have hon0 : ON 𝕜 b0.col (b0.nc + j) := by
    intro x hx y hy
    rw [hbnc] at hx hy
    rw [hcol x (by omega), hcol y (by omega)]
    exact hon x hx y hy
  have hsp0 : Biorth.spanOf 𝕜 b0.col (b0.nc + j) = Biorth.spanOf 𝕜 st1.col (b.nc + j) := by
    rw [hbnc]; exact Biorth.spanOf_congr fun p hp => hcol p (by omega)
  obtain ⟨f1, ⟨u, hu, f2⟩, f3, f4⟩ := gs_facts o he b0 j hon0 (W i)
  obtain ⟨r, hr⟩ : ∃ r, r = gs (ipForm 𝕜 E) false o.mgs o.eta o.ref (slots 𝕜 b0 j) (W i) := ⟨_, rfl⟩
  rw [← hr] at f1 f2 f3 f4
  have hoc : orthCol 𝕜 o b0 j = ({ b0 with col := wr b0.col (b0.nc + j) r.w }, r.nrm, r.lindep) := by
    unfold orthCol; rw [hcolw, hr]
  have hbody : insBody 𝕜 o true s i (W i) (st1, nd) = if r.nrm = 0 ∨ r.lindep = true then ({ b0 with col := wr b0.col (b0.nc + j) r.w }, nd + 1)
      else ({ b0 with col := wr (wr b0.col (b0.nc + j) r.w) (b0.nc + j) (((1 / r.nrm : ℝ) : 𝕜) • wr b0.col (b0.nc + j) r.w (b0.nc + j)) }, nd) := by
    unfold insBody
    dsimp only
    rw [if_pos rfl, ← hj, ← hb0, hoc]
  rw [hbody]
  have hdep : (r.nrm = 0 ∨ r.lindep = true) ↔ W i ∈ Biorth.spanOf 𝕜 st1.col (b.nc + j) := by
    rw [← hsp0]
    constructor
    · rintro (h0 | h0)
      · have : r.w = 0 := by rw [f3] at h0; exact norm_eq_zero.mp h0
        rw [f2, this, add_zero]; exact hu
      · exact f4.mp h0
    · intro h; exact Or.inr (f4.mpr h)
  by_cases hd : r.nrm = 0 ∨ r.lindep = true
  · rw [if_pos hd]
    refine ⟨by dsimp only; omega, hbnc, by show b0.m = b.m; rw [hb0]; exact hm, ?_, ?_, ?_, ?_⟩
    · show ON 𝕜 (wr b0.col (b0.nc + j) r.w) (b.nc + (s + (i + 1) - (nd + 1)))
      rw [hsj.2.2.2]
      intro x hx y hy
      rw [Biorth.wr_other _ _ _ (by omega), Biorth.wr_other _ _ _ (by omega)]
      rw [← hbnc] at hx hy
      exact hon0 x hx y hy
    · show Biorth.spanOf 𝕜 (wr b0.col (b0.nc + j) r.w) (b.nc + (s + (i + 1) - (nd + 1))) = _
      rw [hsj.2.2.2, Biorth.spanOf_congr (V' := st1.col) (fun p hp => by rw [Biorth.wr_other _ _ _ (by omega), hcol p (by omega)]), spanOf_succ, ← sup_assoc, ← hspan]
      symm
      rw [sup_eq_left, Submodule.span_singleton_le_iff_mem]
      exact hdep.mp hd
    · intro p hp
      show wr b0.col (b0.nc + j) r.w p = _
      rw [Biorth.wr_other _ _ _ (by omega), hcol p (by omega)]
      exact hlow p hp
    · intro p hp
      show wr b0.col (b0.nc + j) r.w p = _
      rw [Biorth.wr_other _ _ _ (by omega), hcol p (by omega)]
      exact hhigh p (by omega)
  · rw [if_neg hd]
    have hn0 : r.nrm ≠ 0 := fun e => hd (Or.inl e)
    have hww : wr (wr b0.col (b0.nc + j) r.w) (b0.nc + j) (((1 / r.nrm : ℝ) : 𝕜) • wr b0.col (b0.nc + j) r.w (b0.nc + j)) = wr b0.col (b0.nc + j) (((1 / r.nrm : ℝ) : 𝕜) • r.w) := by
      funext p
      by_cases hp : p = b0.nc + j
      · subst hp; rw [Biorth.wr_same, Biorth.wr_same, Biorth.wr_same]
      · rw [Biorth.wr_other _ _ _ hp, Biorth.wr_other _ _ _ hp, Biorth.wr_other _ _ _ hp]
    rw [hww]
    have hsc : ((1 / r.nrm : ℝ) : 𝕜) ≠ 0 := by rw [Ne, RCLike.ofReal_eq_zero]; exact one_div_ne_zero hn0
    have hnorm : ‖((1 / r.nrm : ℝ) : 𝕜) • r.w‖ = 1 := by
      rw [norm_smul, RCLike.norm_ofReal, f3, abs_of_nonneg (by positivity)]
      rw [f3] at hn0
      field_simp
    refine ⟨by dsimp only; omega, hbnc, by show b0.m = b.m; rw [hb0]; exact hm, ?_, ?_, ?_, ?_⟩
    · show ON 𝕜 (wr b0.col (b0.nc + j) _) (b.nc + (s + (i + 1) - nd))
      rw [hsj.2.2.1, ← add_assoc, ← hbnc]
      refine on_step hon0 ?_ hnorm
      intro p hp
      rw [inner_smul_right, f1 p hp, mul_zero]
    · show Biorth.spanOf 𝕜 (wr b0.col (b0.nc + j) _) (b.nc + (s + (i + 1) - nd)) = _
      rw [hsj.2.2.1, ← add_assoc, ← hbnc, span_add hsc hu f2, hsp0, hspan, spanOf_succ, sup_assoc, hbnc]
    · intro p hp
      show wr b0.col (b0.nc + j) _ p = _
      rw [Biorth.wr_other _ _ _ (by omega), hcol p (by omega)]
      exact hlow p hp
    · intro p hp
      show wr b0.col (b0.nc + j) _ p = _
      rw [Biorth.wr_other _ _ _ (by omega), hcol p (by omega)]
      exact hhigh p (by omega)

end Verif.BVB.Insert
