import Verif.BVB.Base
/-!
Model of the projection of a matrix, `BVMatProject` (src/sys/classes/bv/interface/bvglobal.c:855-1160), in exact arithmetic.

Vectors are global (`N` is the set of rows); the products `MatMult`, `MatMultHermitianTranspose`, and the block products `BVMatMult`,
`BVMatMultHermitianTranspose` are exact.  `BVDot` is the grid of inner products of C119, in the standard inner product (line 1128).
-/
set_option linter.all false
namespace Verif.BVB
variable {𝕜 : Type} [Field 𝕜] [StarRing 𝕜] {N : Type} [Fintype N]

/-- Outcomes: normal, an error raised by `PetscCheck`, an access outside an allocated array. -/
inductive PR (𝕜 : Type) where
  | ok : (ℕ → 𝕜) → PR 𝕜
  | err : PR 𝕜
  | oob : PR 𝕜

/-- `u^H v`. -/
def ip (u v : N → 𝕜) : 𝕜 := dotProduct (star u) v

/-- Sizes: leading and active columns of `X` and `Y`, leading dimension of `M`, and the number of entries of `Y->h` (`Y->nc+Y->m`). -/
structure Dim where
  lx : ℕ
  kx : ℕ
  ly : ℕ
  ky : ℕ
  ldm : ℕ
  hsize : ℕ

/-- The operation `dotvec` on columns 0 to `k-1`, writing from address `base`. -/
def dotvec (Y : ℕ → N → 𝕜) (k : ℕ) (f : N → 𝕜) (base : ℕ) (a : ℕ → 𝕜) : ℕ → 𝕜 :=
  forN k (fun i a => wr a (base + i) (ip (Y i) f)) a

/-- First loop of `BVMatProject_Vec`, lines 865-875. -/
def projVec1 (d : Dim) (X : ℕ → N → 𝕜) (A : Matrix N N 𝕜) (Y : ℕ → N → 𝕜) (symm : Bool) (M : ℕ → 𝕜) : ℕ → 𝕜 :=
  forR d.lx d.kx (fun j a =>
    let f := A.mulVec (X j)
    let ulim := min (d.ly + (j - d.lx) + 1) d.ky
    let a := dotvec Y ulim f (j * d.ldm) a
    if symm then forN j (fun i a => wr a (j + i * d.ldm) (star (a (i + j * d.ldm)))) a else a) M

/-- Second loop of `BVMatProject_Vec`, lines 879-887. -/
def projVec2 (d : Dim) (X : ℕ → N → 𝕜) (A : Matrix N N 𝕜) (Y : ℕ → N → 𝕜) (M : ℕ → 𝕜) : ℕ → 𝕜 :=
  forR d.ly d.ky (fun j a =>
    let f := A.conjTranspose.mulVec (Y j)
    let ulim := min (d.lx + (j - d.ly)) d.kx
    let h := dotvec X ulim f 0 (fun _ => 0)
    forN ulim (fun i a => wr a (j + i * d.ldm) (star (h i))) a) M

/-- `BVMatProject_Vec`, bvglobal.c:855-893.  The second loop writes `ulim` entries of `Y->h` in each pass (line 885). -/
def projVec (d : Dim) (X : ℕ → N → 𝕜) (A : Matrix N N 𝕜) (Y : ℕ → N → 𝕜) (symm : Bool) (M : ℕ → 𝕜) : PR 𝕜 :=
  let M1 := projVec1 d X A Y symm M
  if symm then .ok M1
  else if ∀ j < d.ky, d.ly ≤ j → min (d.lx + (j - d.ly)) d.kx ≤ d.hsize then .ok (projVec2 d X A Y M1)
  else .oob

/-- `BVDot(W,Y,H)` on a dense matrix of leading dimension `ld`, filled with zeros when created: the entries with row in `[yl,yk)` and column in `[wl,wk)`. -/
def dotH (W : ℕ → N → 𝕜) (wl wk : ℕ) (Y : ℕ → N → 𝕜) (yl yk ld : ℕ) : ℕ → 𝕜 :=
  grid (yl + wl * ld) ld (yk - yl) (wk - wl) (fun i j => ip (Y (yl + i)) (W (wl + j))) (fun _ => 0)

/-- `BVMatProject_Dot`, bvglobal.c:1013-1049: `X` contains `A*X`. -/
def projDot (d : Dim) (X Y : ℕ → N → 𝕜) (M : ℕ → 𝕜) : ℕ → 𝕜 :=
  let M1 := if 0 < d.ly ∧ d.lx < d.kx then
      let h := dotH X d.lx d.kx Y 0 d.ly d.ly
      forR d.lx d.kx (fun j a => cpy a (j * d.ldm) h (j * d.ly) d.ly) M
    else M
  if 0 < d.kx ∧ d.ly < d.ky then
    let h := dotH X 0 d.kx Y d.ly d.ky d.ky
    forN d.kx (fun j a => cpy a (j * d.ldm + d.ly) h (j * d.ky + d.ly) (d.ky - d.ly)) M1
  else M1

/-- `BVMatProject_MatMult`, bvglobal.c:902-944: the same with `W = A*X`. -/
def projMatMult (d : Dim) (X : ℕ → N → 𝕜) (A : Matrix N N 𝕜) (Y : ℕ → N → 𝕜) (M : ℕ → 𝕜) : ℕ → 𝕜 :=
  let W := fun j => A.mulVec (X j)
  let M1 := if 0 < d.ly ∧ d.lx < d.kx then
      let h := dotH W d.lx d.kx Y 0 d.ly d.ly
      forR d.lx d.kx (fun j a => cpy a (j * d.ldm) h (j * d.ly) d.ly) M
    else M
  if 0 < d.kx ∧ d.ly < d.ky then
    let h := dotH W 0 d.kx Y d.ly d.ky d.ky
    forN d.kx (fun j a => cpy a (j * d.ldm + d.ly) h (j * d.ky + d.ly) (d.ky - d.ly)) M1
  else M1

/-- Right part of `BVMatProject_MatMult_2`, lines 965-975; `W` has `kx-lx` columns. -/
def projRight (d : Dim) (X : ℕ → N → 𝕜) (A : Matrix N N 𝕜) (Y : ℕ → N → 𝕜) (M : ℕ → 𝕜) : ℕ → 𝕜 :=
  if 0 < d.ky ∧ d.lx < d.kx then
    let W := fun j => A.mulVec (X (d.lx + j))
    let h := dotH W 0 (d.kx - d.lx) Y 0 d.ky d.ky
    forR d.lx d.kx (fun j a => cpy a (j * d.ldm) h ((j - d.lx) * d.ky) d.ky) M
  else M

/-- `BVMatProject_MatMult_2`, bvglobal.c:953-1005.  After `BVResize(W,ky-ly,PETSC_FALSE)` the number of active columns of `W` is the minimum of the old and
the new size (bvbasic.c:405), and `BVMatMultHermitianTranspose` checks that it is `ky-ly` (bvops.c:830).  The matrix `H` has `lx*(ky-ly)` entries;
line 994 reads at `j+i*(ky-ly)`. -/
def projMatMult2 (d : Dim) (X : ℕ → N → 𝕜) (A : Matrix N N 𝕜) (Y : ℕ → N → 𝕜) (symm : Bool) (M : ℕ → 𝕜) : PR 𝕜 :=
  let M1 := projRight d X A Y M
  if 0 < d.lx ∧ d.ly < d.ky then
    if symm then
      .ok (forR d.ly d.ky (fun i a => forN d.lx (fun j a => wr a (i + j * d.ldm) (star (a (j + i * d.ldm)))) a) M1)
    else if min (d.kx - d.lx) (d.ky - d.ly) ≠ d.ky - d.ly then .err
    else
      let W := fun i => A.conjTranspose.mulVec (Y (d.ly + i))
      let h := dotH W 0 (d.ky - d.ly) X 0 d.lx d.lx
      if (d.lx - 1) + (d.ky - d.ly - 1) * (d.ky - d.ly) < d.lx * (d.ky - d.ly) then
        .ok (forN (d.ky - d.ly) (fun i a => forN d.lx (fun j a => wr a (i + j * d.ldm + d.ly) (star (h (j + i * (d.ky - d.ly))))) a) M1)
      else .oob
  else .ok M1

/-- `BVMatProject`, bvglobal.c:1093-1160, after the checks.  `A = none`: `X` contains the product.  `same`: `X` and `Y` are the same object;
`herm`: the matrix is known to be Hermitian; `vmmVecs`: `BV_MATMULT_VECS`; `hasT`: the matrix has `MATOP_MULT_TRANSPOSE`. -/
def matProject (d : Dim) (same herm vmmVecs hasT : Bool) (X : ℕ → N → 𝕜) (A : Option (Matrix N N 𝕜)) (Y : ℕ → N → 𝕜) (M : ℕ → 𝕜) : PR 𝕜 :=
  match A with
  | none => .ok (projDot d X Y M)
  | some A =>
    let symm := same && herm
    if vmmVecs then projVec d X A Y symm M
    else if symm || (hasT && decide (d.kx / 2 ≤ d.lx) && decide (d.ky / 2 ≤ d.ly)) then projMatMult2 d X A Y symm M
    else .ok (projMatMult d X A Y M)

/-! ### Lemmas -/

theorem dotvec_addr {ld i : ℕ} (Y : ℕ → N → 𝕜) (k : ℕ) (f : N → 𝕜) (J j : ℕ) (a : ℕ → 𝕜) (hk : k ≤ ld) (hi : i < ld) :
    dotvec Y k f (J * ld) a (i + j * ld) = if i < k ∧ j = J then ip (Y i) f else a (i + j * ld) := by
  unfold dotvec
  refine forN_inv (fun n (u : ℕ → 𝕜) => ∀ i < ld, u (i + j * ld) = if i < n ∧ j = J then ip (Y i) f else a (i + j * ld)) k
    (fun i hi => by rw [if_neg (by omega)]) (fun I hI u hu i hi => ?_) i hi
  have he : J * ld + I = I + J * ld := by ring
  rw [he, wr_addr j J u _ hi (by omega)]
  by_cases h : i = I ∧ j = J
  · rw [if_pos h, if_pos (by omega), h.1]
  · rw [if_neg h, hu i hi]
    by_cases h2 : i < I ∧ j = J
    · rw [if_pos h2, if_pos (by omega)]
    · rw [if_neg h2, if_neg (by omega)]

theorem dotvec_zero (X : ℕ → N → 𝕜) (k i : ℕ) (f : N → 𝕜) (a : ℕ → 𝕜) (hi : i < k) : dotvec X k f 0 a i = ip (X i) f := by
  have := dotvec_addr (ld := k) (i := i) X k f 0 0 a (le_refl _) hi
  simp only [Nat.zero_mul, Nat.add_zero, and_true] at this
  rw [this, if_pos hi]

theorem dotH_addr {W : ℕ → N → 𝕜} {wl wk : ℕ} {Y : ℕ → N → 𝕜} {yl yk ld i j : ℕ} (hw : wl ≤ wk) (hy : yl ≤ yk) (hld : yk ≤ ld)
    (hi : yl ≤ i) (hi' : i < yk) (hj : wl ≤ j) (hj' : j < wk) : dotH W wl wk Y yl yk ld (i + j * ld) = ip (Y i) (W j) := by
  unfold dotH
  rw [grid_addr j _ _ (by omega) (by omega), if_pos (by omega), Nat.add_sub_cancel' hi, Nat.add_sub_cancel' hj]

/-- The first loop without symmetry. -/
theorem projVec1_addr (d : Dim) (X : ℕ → N → 𝕜) (A : Matrix N N 𝕜) (Y : ℕ → N → 𝕜) (M : ℕ → 𝕜) (hx : d.lx ≤ d.kx) (hky : d.ky ≤ d.ldm)
    (i j : ℕ) (hi : i < d.ldm) :
    projVec1 d X A Y false M (i + j * d.ldm) =
      if (d.lx ≤ j ∧ j < d.kx) ∧ i < d.ky ∧ i ≤ d.ly + (j - d.lx) then ip (Y i) (A.mulVec (X j)) else M (i + j * d.ldm) := by
  unfold projVec1
  refine forR_inv (fun n (u : ℕ → 𝕜) => ∀ i < d.ldm, ∀ j, u (i + j * d.ldm) =
    if (d.lx ≤ j ∧ j < n) ∧ i < d.ky ∧ i ≤ d.ly + (j - d.lx) then ip (Y i) (A.mulVec (X j)) else M (i + j * d.ldm)) hx
    (fun i hi j => by rw [if_neg (by omega)]) (fun J h1 h2 u hu i hi j => ?_) i hi j
  simp only [Bool.false_eq_true, if_false]
  rw [dotvec_addr Y _ _ J j u (by omega) hi, hu i hi j]
  by_cases h : i < min (d.ly + (J - d.lx) + 1) d.ky ∧ j = J
  · rw [if_pos h, if_pos (by rw [h.2]; omega), h.2]
  · rw [if_neg h]
    by_cases h2 : (d.lx ≤ j ∧ j < J) ∧ i < d.ky ∧ i ≤ d.ly + (j - d.lx)
    · rw [if_pos h2, if_pos (by omega)]
    · rw [if_neg h2, if_neg]
      rintro ⟨⟨g1, g2⟩, g3, g4⟩
      by_cases hjJ : j = J
      · subst hjJ; exact h (by omega)
      · exact h2 (by omega)

theorem star_ip_adj (A : Matrix N N 𝕜) (u v : N → 𝕜) : star (ip v (A.conjTranspose.mulVec u)) = ip u (A.mulVec v) := by
  unfold ip
  rw [ip_adj, Matrix.conjTranspose_conjTranspose]

/-- The second loop. -/
theorem projVec2_addr (d : Dim) (X : ℕ → N → 𝕜) (A : Matrix N N 𝕜) (Y : ℕ → N → 𝕜) (M : ℕ → 𝕜) (hy : d.ly ≤ d.ky) (hky : d.ky ≤ d.ldm)
    (i j : ℕ) (hi : i < d.ldm) :
    projVec2 d X A Y M (i + j * d.ldm) =
      if (d.ly ≤ i ∧ i < d.ky) ∧ j < d.kx ∧ j < d.lx + (i - d.ly) then ip (Y i) (A.mulVec (X j)) else M (i + j * d.ldm) := by
  unfold projVec2
  refine forR_inv (fun n (u : ℕ → 𝕜) => ∀ i < d.ldm, ∀ j, u (i + j * d.ldm) =
    if (d.ly ≤ i ∧ i < n) ∧ j < d.kx ∧ j < d.lx + (i - d.ly) then ip (Y i) (A.mulVec (X j)) else M (i + j * d.ldm)) hy
    (fun i hi j => by rw [if_neg (by omega)]) (fun J h1 h2 u hu => ?_) i hi j
  have inner := forN_inv (f := fun i a => wr a (J + i * d.ldm)
      (star (dotvec X (min (d.lx + (J - d.ly)) d.kx) (A.conjTranspose.mulVec (Y J)) 0 (fun _ => 0) i))) (s := u)
    (fun n (t : ℕ → 𝕜) => ∀ i < d.ldm, ∀ j, t (i + j * d.ldm) = if i = J ∧ j < n then ip (Y i) (A.mulVec (X j)) else u (i + j * d.ldm))
    (min (d.lx + (J - d.ly)) d.kx)
    (fun i hi j => by rw [if_neg (by omega)])
    (fun I hI t ht i hi j => by
      rw [wr_addr j I t _ hi (by omega)]
      by_cases h : i = J ∧ j = I
      · rw [if_pos h, if_pos (by omega), dotvec_zero _ _ _ _ _ hI, star_ip_adj, h.1, h.2]
      · rw [if_neg h, ht i hi j]
        by_cases h2 : i = J ∧ j < I
        · rw [if_pos h2, if_pos (by omega)]
        · rw [if_neg h2, if_neg (by omega)])
  intro i hi j
  rw [inner i hi j, hu i hi j]
  by_cases h : i = J ∧ j < min (d.lx + (J - d.ly)) d.kx
  · rw [if_pos h, if_pos (by rw [h.1]; omega)]
  · rw [if_neg h]
    by_cases h2 : (d.ly ≤ i ∧ i < J) ∧ j < d.kx ∧ j < d.lx + (i - d.ly)
    · rw [if_pos h2, if_pos (by omega)]
    · rw [if_neg h2, if_neg]
      rintro ⟨⟨g1, g2⟩, g3, g4⟩
      by_cases hjJ : i = J
      · subst hjJ; exact h (by omega)
      · exact h2 (by omega)

/-- The loop with symmetry: the same object, Hermitian matrix. -/
theorem projVec1_symm (d : Dim) (X : ℕ → N → 𝕜) (A : Matrix N N 𝕜) (M : ℕ → 𝕜) (hA : A.IsHermitian) (hx : d.lx ≤ d.kx) (hky : d.ky ≤ d.ldm)
    (hl : d.ly = d.lx) (hk : d.ky = d.kx) (i j : ℕ) (hi : i < d.ldm) :
    projVec1 d X A X true M (i + j * d.ldm) =
      if (i < d.ky ∧ j < d.kx) ∧ ¬ (i < d.ly ∧ j < d.lx) then ip (X i) (A.mulVec (X j)) else M (i + j * d.ldm) := by
  unfold projVec1
  rw [hl, hk]
  rw [hk] at hky
  refine forR_inv (fun n (u : ℕ → 𝕜) => ∀ i < d.ldm, ∀ j, u (i + j * d.ldm) =
    if (i < n ∧ j < n) ∧ ¬ (i < d.lx ∧ j < d.lx) then ip (X i) (A.mulVec (X j)) else M (i + j * d.ldm)) hx
    (fun i hi j => by rw [if_neg (by omega)]) (fun J h1 h2 u hu => ?_) i hi j
  simp only [if_true]
  have hul : min (d.lx + (J - d.lx) + 1) d.kx = J + 1 := by omega
  rw [hul]
  have hcol := fun i (hi : i < d.ldm) j => dotvec_addr X (J + 1) (A.mulVec (X J)) J j u (by omega) hi
  obtain ⟨u0, hu0⟩ : ∃ u0, u0 = dotvec X (J + 1) (A.mulVec (X J)) (J * d.ldm) u := ⟨_, rfl⟩
  rw [← hu0] at hcol ⊢
  have row := forN_inv (f := fun i a => wr a (J + i * d.ldm) (star (a (i + J * d.ldm)))) (s := u0)
    (fun n (t : ℕ → 𝕜) => ∀ i < d.ldm, ∀ j, t (i + j * d.ldm) = if i = J ∧ j < n then ip (X i) (A.mulVec (X j)) else u0 (i + j * d.ldm)) J
    (fun i hi j => by rw [if_neg (by omega)])
    (fun I hI t ht i hi j => by
      rw [wr_addr j I t _ hi (by omega)]
      by_cases h : i = J ∧ j = I
      · rw [if_pos h, if_pos (by omega), ht I (by omega) J, if_neg (by omega), hcol I (by omega) J, if_pos (by omega), h.1, h.2]
        have := star_ip_adj A (X J) (X I)
        rwa [hA.eq] at this
      · rw [if_neg h, ht i hi j]
        by_cases h2 : i = J ∧ j < I
        · rw [if_pos h2, if_pos (by omega)]
        · rw [if_neg h2, if_neg (by omega)])
  intro i hi j
  rw [row i hi j, hcol i hi j, hu i hi j]
  by_cases hA : i = J ∧ j < J
  · rw [if_pos hA, if_pos (by omega)]
  rw [if_neg hA]
  by_cases hB : i < J + 1 ∧ j = J
  · rw [if_pos hB, if_pos (by omega), hB.2]
  rw [if_neg hB]
  by_cases hC : (i < J ∧ j < J) ∧ ¬ (i < d.lx ∧ j < d.lx)
  · rw [if_pos hC, if_pos (by omega)]
  · rw [if_neg hC, if_neg (by omega)]

/-- Top right and bottom parts. -/
theorem projMatMult_addr (d : Dim) (X : ℕ → N → 𝕜) (A : Matrix N N 𝕜) (Y : ℕ → N → 𝕜) (M : ℕ → 𝕜)
    (hx : d.lx ≤ d.kx) (hy : d.ly ≤ d.ky) (hky : d.ky ≤ d.ldm) (i j : ℕ) (hi : i < d.ldm) :
    projMatMult d X A Y M (i + j * d.ldm) =
      if (i < d.ky ∧ j < d.kx) ∧ ¬ (i < d.ly ∧ j < d.lx) then ip (Y i) (A.mulVec (X j)) else M (i + j * d.ldm) := by
  unfold projMatMult
  simp only
  obtain ⟨W, hW⟩ : ∃ W : ℕ → N → 𝕜, W = fun j => A.mulVec (X j) := ⟨_, rfl⟩
  have hWj : ∀ j, W j = A.mulVec (X j) := fun j => by rw [hW]
  rw [← hW, ← hWj]
  obtain ⟨M1, hM1⟩ : ∃ M1, M1 = (if 0 < d.ly ∧ d.lx < d.kx then forR d.lx d.kx (fun j a => cpy a (j * d.ldm) (dotH W d.lx d.kx Y 0 d.ly d.ly) (j * d.ly) d.ly) M else M) := ⟨_, rfl⟩
  rw [← hM1]
  have h1 : ∀ i < d.ldm, ∀ j, M1 (i + j * d.ldm) = if i < d.ly ∧ d.lx ≤ j ∧ j < d.kx then ip (Y i) (W j) else M (i + j * d.ldm) := by
    rw [hM1]
    by_cases h : 0 < d.ly ∧ d.lx < d.kx
    · rw [if_pos h]
      refine forR_inv (fun n (u : ℕ → 𝕜) => ∀ i < d.ldm, ∀ j, u (i + j * d.ldm) = if i < d.ly ∧ d.lx ≤ j ∧ j < n then ip (Y i) (W j) else M (i + j * d.ldm)) hx
        (fun i hi j => by rw [if_neg (by omega)]) (fun J h1 h2 u hu i hi j => ?_)
      have := cpy_addr (r0 := 0) j J d.ly (J * d.ly) u (dotH W d.lx d.kx Y 0 d.ly d.ly) hi (by omega)
      simp only [Nat.zero_add, Nat.zero_le, true_and, Nat.sub_zero] at this
      rw [this, hu i hi j]
      by_cases h : j = J ∧ i < d.ly
      · rw [if_pos h, if_pos (by omega), Nat.add_comm, dotH_addr hx (by omega) (le_refl _) (by omega) h.2 h1 h2, h.1]
      · rw [if_neg h]
        by_cases h2 : i < d.ly ∧ d.lx ≤ j ∧ j < J
        · rw [if_pos h2, if_pos (by omega)]
        · rw [if_neg h2, if_neg (by omega)]
    · rw [if_neg h]
      intro i hi j
      rw [if_neg (by omega)]
  by_cases h : 0 < d.kx ∧ d.ly < d.ky
  · rw [if_pos h]
    have h2 := forN_inv (f := fun j a => cpy a (j * d.ldm + d.ly) (dotH W 0 d.kx Y d.ly d.ky d.ky) (j * d.ky + d.ly) (d.ky - d.ly)) (s := M1)
      (fun n (u : ℕ → 𝕜) => ∀ i < d.ldm, ∀ j, u (i + j * d.ldm) = if (d.ly ≤ i ∧ i < d.ky) ∧ j < n then ip (Y i) (W j) else M1 (i + j * d.ldm)) d.kx
      (fun i hi j => by rw [if_neg (by omega)])
      (fun J hJ u hu i hi j => by
        rw [Nat.add_comm (J * d.ldm), cpy_addr j J d.ly (d.ky - d.ly) _ u _ hi (by omega), hu i hi j]
        by_cases h : j = J ∧ d.ly ≤ i ∧ i < d.ly + (d.ky - d.ly)
        · rw [if_pos h, if_pos (by omega)]
          have he : J * d.ky + d.ly + (i - d.ly) = i + J * d.ky := by omega
          rw [he, dotH_addr (by omega) hy (le_refl _) h.2.1 (by omega) (by omega) hJ, h.1]
        · rw [if_neg h]
          by_cases h2 : (d.ly ≤ i ∧ i < d.ky) ∧ j < J
          · rw [if_pos h2, if_pos (by omega)]
          · rw [if_neg h2, if_neg (by omega)])
    rw [h2 i hi j, h1 i hi j]
    by_cases hA : (d.ly ≤ i ∧ i < d.ky) ∧ j < d.kx
    · rw [if_pos hA, if_pos (by omega)]
    rw [if_neg hA]
    by_cases hB : i < d.ly ∧ d.lx ≤ j ∧ j < d.kx
    · rw [if_pos hB, if_pos (by omega)]
    · rw [if_neg hB, if_neg (by omega)]
  · rw [if_neg h, h1 i hi j]
    by_cases hB : i < d.ly ∧ d.lx ≤ j ∧ j < d.kx
    · rw [if_pos hB, if_pos (by omega)]
    · rw [if_neg hB, if_neg (by omega)]

theorem projDot_eq [DecidableEq N] (d : Dim) (X Y : ℕ → N → 𝕜) (M : ℕ → 𝕜) : projDot d X Y M = projMatMult d X 1 Y M := by
  unfold projDot projMatMult
  simp only [Matrix.one_mulVec]

theorem projRight_addr (d : Dim) (X : ℕ → N → 𝕜) (A : Matrix N N 𝕜) (Y : ℕ → N → 𝕜) (M : ℕ → 𝕜)
    (hx : d.lx ≤ d.kx) (hky : d.ky ≤ d.ldm) (i j : ℕ) (hi : i < d.ldm) :
    projRight d X A Y M (i + j * d.ldm) = if i < d.ky ∧ d.lx ≤ j ∧ j < d.kx then ip (Y i) (A.mulVec (X j)) else M (i + j * d.ldm) := by
  unfold projRight
  by_cases h : 0 < d.ky ∧ d.lx < d.kx
  · rw [if_pos h]
    refine forR_inv (fun n (u : ℕ → 𝕜) => ∀ i < d.ldm, ∀ j, u (i + j * d.ldm) = if i < d.ky ∧ d.lx ≤ j ∧ j < n then ip (Y i) (A.mulVec (X j)) else M (i + j * d.ldm)) hx
      (fun i hi j => by rw [if_neg (by omega)]) (fun J h1 h2 u hu i hi j => ?_) i hi j
    have := cpy_addr (r0 := 0) j J d.ky ((J - d.lx) * d.ky) u (dotH (fun j => A.mulVec (X (d.lx + j))) 0 (d.kx - d.lx) Y 0 d.ky d.ky) hi (by omega)
    simp only [Nat.zero_add, Nat.zero_le, true_and, Nat.sub_zero] at this
    rw [this, hu i hi j]
    by_cases h : j = J ∧ i < d.ky
    · rw [if_pos h, if_pos (by omega), Nat.add_comm, dotH_addr (by omega) (by omega) (le_refl _) (by omega) h.2 (by omega) (by omega), h.1,
        Nat.add_sub_cancel' h1]
    · rw [if_neg h]
      by_cases h2 : i < d.ky ∧ d.lx ≤ j ∧ j < J
      · rw [if_pos h2, if_pos (by omega)]
      · rw [if_neg h2, if_neg (by omega)]
  · rw [if_neg h, if_neg (by omega)]

end Verif.BVB
