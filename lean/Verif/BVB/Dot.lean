import Verif.BVB.Base
/-!
Model of block inner products, `BVDot` (src/sys/classes/bv/interface/bvglobal.c:20-120), with `BVDot_BLAS_Private` (bvblas.c:199-233),
`BVDot_Svec` (impls/svec/svec.c:90-107) and `BVDot_Vecs` (impls/vecs/vecs.c:156-168), in exact arithmetic.

`P` is the set of processes, process `p` has `n p` rows; a block of vectors gives for every process, column number and local row a scalar.
The result is a dense matrix, replicated on all processes; each process has its own copy.
-/
set_option linter.all false
namespace Verif.BVB
variable {𝕜 : Type} [Field 𝕜] [StarRing 𝕜] {P : Type} [Fintype P] {n : P → ℕ}

/-- A distributed block of vectors: process, column, local row. -/
abbrev Blk (𝕜 : Type) {P : Type} (n : P → ℕ) := (p : P) → ℕ → Fin (n p) → 𝕜

/-- An entry of `A^H*B` for the local rows of a process: `BLASgemm("C","N",...)`. -/
def gemmCN {k : ℕ} (A B : ℕ → Fin k → 𝕜) (i j : ℕ) : 𝕜 := ∑ r, star (A i r) * B j r

/-- The inner product of two distributed vectors, `VecDot(x,y)` = y^H x: the sum over the processes of the local products
(in `VecMDot`, an `MPI_Allreduce`). -/
def vdot (A B : Blk 𝕜 n) (i j : ℕ) : 𝕜 := ∑ p, ∑ r, star (A p i r) * B p j r

/-- The array `bv->work` of a process before the reduction, lines 215-216 and 222-223. -/
def dotWork (m q ldw : ℕ) {k : ℕ} (A B : ℕ → Fin k → 𝕜) (w : ℕ → 𝕜) : ℕ → 𝕜 :=
  if k ≠ 0 then grid 0 ldw m q (gemmCN A B) w else fun x => if x < m * q then 0 else w x

/-- `BVDot_BLAS_Private`, bvblas.c:199-233: `C := A'*B`, where `A` has `m` columns and `B` has `q` columns (in the code `n`), stored from address `c0` of the
array with leading dimension `ldc`.  `w` is the previous content of `bv->work`. -/
def dotBlas (mpi : Bool) (m q : ℕ) (A B : Blk 𝕜 n) (c0 ldc : ℕ) (w : P → ℕ → 𝕜) (C : P → ℕ → 𝕜) : P → ℕ → 𝕜 :=
  if mpi then
    if ldc = m then fun p => cpy (C p) c0 (fun x => ∑ s, dotWork m q ldc (A s) (B s) (w s) x) 0 (m * q)
    else fun p => forN q (fun j c => cpy c (c0 + j * ldc) (fun x => ∑ s, dotWork m q m (A s) (B s) (w s) x) (j * m) m) (C p)
  else fun p => if n p ≠ 0 then grid c0 ldc m q (gemmCN (A p) (B p)) (C p) else C p

/-- The columns of a block from column `l` on. -/
def Blk.from (X : Blk 𝕜 n) (l : ℕ) : Blk 𝕜 n := fun p j => X p (l + j)

/-- A range of active columns, `bv->l` and `bv->k`. -/
structure Act where
  l : ℕ
  k : ℕ

/-- `BVDot_Svec`, svec.c:90-107 (`BVDot_Mat` and `BVDot_Contiguous` are the same). `x->mpi` says that there is more than one process. -/
def dotSvec (X : Blk 𝕜 n) (x : Act) (Y : Blk 𝕜 n) (y : Act) (ldm : ℕ) (w : P → ℕ → 𝕜) (M : P → ℕ → 𝕜) : P → ℕ → 𝕜 :=
  dotBlas (decide (1 < Fintype.card P)) (y.k - y.l) (x.k - x.l) (Y.from y.l) (X.from x.l) (y.l + x.l * ldm) ldm w M

/-- `BVDot_Vecs`, vecs.c:156-168; `VecMDot` gives the inner products with the columns of `Y`. -/
def dotVecs (X : Blk 𝕜 n) (x : Act) (Y : Blk 𝕜 n) (y : Act) (ldm : ℕ) (M : P → ℕ → 𝕜) : P → ℕ → 𝕜 :=
  fun p => forR x.l x.k (fun j a => forN (y.k - y.l) (fun i a => wr a (j * ldm + y.l + i) (vdot Y X (y.l + i) j)) a) (M p)

/-- The operation `dot` of the type of the BV. -/
def opDot (vecs : Bool) (X : Blk 𝕜 n) (x : Act) (Y : Blk 𝕜 n) (y : Act) (ldm : ℕ) (w : P → ℕ → 𝕜) (M : P → ℕ → 𝕜) : P → ℕ → 𝕜 :=
  if vecs then dotVecs X x Y y ldm M else dotSvec X x Y y ldm w M

/-- `BVDot_Private`, bvglobal.c:20-52.  `BX` is the cached product with the matrix of the inner product; `rows` the number of rows of `M` (`m` in the code);
`symm` that `X` and `Y` are the same object.  The active range of `Y` is part of the state of the loop (line 40). -/
def dotPrivate (symm : Bool) (BX : Blk 𝕜 n) (x : Act) (Y : Blk 𝕜 n) (y : Act) (rows : ℕ) (M : P → ℕ → 𝕜) : (P → ℕ → 𝕜) × Act :=
  forR x.l x.k (fun j st =>
    let y' : Act := if symm then ⟨st.2.l, j + 1⟩ else st.2
    (fun p =>
      let a := forN (y'.k - y'.l) (fun i a => wr a (j * rows + y'.l + i) (vdot Y BX (y'.l + i) j)) (st.1 p)
      if symm then forR x.l j (fun i a => wr a (j + i * rows) (star (a (i + j * rows)))) a else a, y')) (M, y)

/-- The product with the matrix of the inner product, `BV_IPMatMultBV` (bvimpl.h:163-174).  The check whether the cached block is up to date is
not modelled here. -/
def ipMult (B : Matrix (Σ p, Fin (n p)) (Σ p, Fin (n p)) 𝕜) (X : Blk 𝕜 n) : Blk 𝕜 n := fun p j r => ∑ s, B ⟨p, r⟩ s * X s.1 j s.2

/-- `BVDot`, bvglobal.c:86-120, after the checks: result and active range of `Y` on return. `vmmVecs`: `BV_MATMULT_VECS`. -/
def bvDot (vecs vmmVecs symm : Bool) (B : Option (Matrix (Σ p, Fin (n p)) (Σ p, Fin (n p)) 𝕜)) (X : Blk 𝕜 n) (x : Act) (Y : Blk 𝕜 n) (y : Act)
    (rows ldm : ℕ) (w : P → ℕ → 𝕜) (M : P → ℕ → 𝕜) : (P → ℕ → 𝕜) × Act :=
  if x.l = x.k ∨ y.l = y.k then (M, y)
  else match B with
    | some B => if vmmVecs then dotPrivate symm (ipMult B X) x Y y rows M else (opDot vecs (ipMult B X) x Y y ldm w M, y)
    | none => (opDot vecs X x Y y ldm w M, y)

/-- The global vector of a column. -/
def col (X : Blk 𝕜 n) (j : ℕ) : (Σ p, Fin (n p)) → 𝕜 := fun s => X s.1 j s.2

/-- Specification: the inner product `y_i^* B x_j`. -/
def ipSpec (B : Option (Matrix (Σ p, Fin (n p)) (Σ p, Fin (n p)) 𝕜)) (X Y : Blk 𝕜 n) (i j : ℕ) : 𝕜 :=
  match B with
  | some B => dotProduct (star (col Y i)) (B.mulVec (col X j))
  | none => dotProduct (star (col Y i)) (col X j)

/-! ### Lemmas -/

theorem vdot_eq (A B : Blk 𝕜 n) (i j : ℕ) : vdot A B i j = dotProduct (star (col A i)) (col B j) := by
  unfold vdot dotProduct
  rw [Fintype.sum_sigma]
  rfl

theorem col_ipMult (B : Matrix (Σ p, Fin (n p)) (Σ p, Fin (n p)) 𝕜) (X : Blk 𝕜 n) (j : ℕ) : col (ipMult B X) j = B.mulVec (col X j) := by
  funext s
  rfl

theorem sum_dotWork {m q ldw i j : ℕ} (A B : Blk 𝕜 n) (w : P → ℕ → 𝕜) (hl : m = ldw) (hi : i < m) (hj : j < q) :
    ∑ s, dotWork m q ldw (A s) (B s) (w s) (i + j * ldw) = vdot A B i j := by
  unfold vdot
  refine Finset.sum_congr rfl (fun s _ => ?_)
  unfold dotWork
  subst hl
  by_cases h : n s ≠ 0
  · rw [if_pos h]
    have := grid_addr (r0 := 0) (q0 := 0) (ld := m) (m := m) (n := q) j (gemmCN (A s) (B s)) (w s) hi (by omega)
    simp only [Nat.zero_mul, Nat.add_zero, Nat.zero_add, Nat.zero_le, true_and, Nat.sub_zero] at this
    rw [this, if_pos ⟨hi, hj⟩]
    rfl
  · rw [if_neg h]
    push Not at h
    have hlt : i + j * m < m * q := by
      have : (j + 1) * m ≤ q * m := Nat.mul_le_mul_right m hj
      nlinarith
    rw [if_pos hlt]
    symm
    apply Finset.sum_eq_zero
    intro r
    exact absurd r.2 (by omega)

theorem from_apply (X : Blk 𝕜 n) (l i j : ℕ) (Y : Blk 𝕜 n) (l' : ℕ) : vdot (X.from l) (Y.from l') i j = vdot X Y (l + i) (l' + j) := rfl

/-- The product of blocks gives the inner products, on each process. -/
theorem dotSvec_addr (X : Blk 𝕜 n) (x : Act) (Y : Blk 𝕜 n) (y : Act) (ldm : ℕ) (w M : P → ℕ → 𝕜) (p : P)
    (hn : 1 < Fintype.card P ∨ ∀ p, n p ≠ 0) (hx : x.l ≤ x.k) (hy : y.l ≤ y.k) (hld : y.k ≤ ldm) (i j : ℕ) (hi : i < ldm) :
    dotSvec X x Y y ldm w M p (i + j * ldm) =
      if (y.l ≤ i ∧ i < y.k) ∧ (x.l ≤ j ∧ j < x.k) then vdot Y X i j else M p (i + j * ldm) := by
  unfold dotSvec dotBlas
  by_cases hmpi : 1 < Fintype.card P
  · rw [if_pos (by simpa using hmpi)]
    by_cases hl : ldm = y.k - y.l
    · rw [if_pos hl]
      have hyl : y.l = 0 ∨ ldm = 0 := by omega
      have hyl : y.l = 0 := by omega
      have hyk : y.k = ldm := by omega
      unfold cpy
      by_cases h : (y.l ≤ i ∧ i < y.k) ∧ (x.l ≤ j ∧ j < x.k)
      · rw [if_pos h, if_pos]
        · obtain ⟨⟨h1, h2⟩, h3, h4⟩ := h
          have he : 0 + (i + j * ldm - (y.l + x.l * ldm)) = i + (j - x.l) * ldm := by
            obtain ⟨d, rfl⟩ := Nat.exists_eq_add_of_le h3
            rw [hyl, Nat.add_sub_cancel_left, Nat.add_mul]
            omega
          rw [he]
          show ∑ s, _ = _
          rw [sum_dotWork _ _ w (by omega) (by omega) (by omega), from_apply, hyl, Nat.zero_add, Nat.add_sub_cancel' h3]
        · obtain ⟨⟨h1, h2⟩, h3, h4⟩ := h
          obtain ⟨d, rfl⟩ := Nat.exists_eq_add_of_le h3
          rw [hyl, hyk, Nat.sub_zero, Nat.add_mul]
          constructor
          · omega
          · have : (d + 1) * ldm ≤ (x.k - x.l) * ldm := Nat.mul_le_mul_right _ (by omega)
            nlinarith
      · rw [if_neg h, if_neg]
        rintro ⟨ha, hb⟩
        apply h
        rw [hyl, hyk, Nat.sub_zero] at hb
        rw [hyl] at ha
        refine ⟨⟨by omega, by omega⟩, ?_, ?_⟩
        · by_contra hc
          push Not at hc
          have : (j + 1) * ldm ≤ x.l * ldm := Nat.mul_le_mul_right _ hc
          nlinarith
        · by_contra hc
          push Not at hc
          have : x.k * ldm ≤ j * ldm := Nat.mul_le_mul_right _ hc
          have h2 : x.l * ldm + ldm * (x.k - x.l) = x.k * ldm := by
            obtain ⟨d, hd⟩ := Nat.exists_eq_add_of_le hx
            rw [hd, Nat.add_sub_cancel_left]; ring
          omega
    · rw [if_neg hl]
      have key := forN_inv (f := fun J c => cpy c (y.l + x.l * ldm + J * ldm)
          (fun x_1 => ∑ s, dotWork (y.k - y.l) (x.k - x.l) (y.k - y.l) (Y.from y.l s) (X.from x.l s) (w s) x_1) (J * (y.k - y.l)) (y.k - y.l)) (s := M p)
        (fun N t => ∀ i < ldm, ∀ j, t (i + j * ldm) = if (y.l ≤ i ∧ i < y.k) ∧ (x.l ≤ j ∧ j < x.l + N) then vdot Y X i j else M p (i + j * ldm)) (x.k - x.l)
        (fun i hi j => by rw [if_neg (by omega)])
        (fun J hJ t ht i hi j => by
          have he : y.l + x.l * ldm + J * ldm = y.l + (x.l + J) * ldm := by ring
          simp only [he]
          rw [cpy_addr j (x.l + J) y.l (y.k - y.l) _ t _ hi (by omega)]
          by_cases h : j = x.l + J ∧ y.l ≤ i ∧ i < y.l + (y.k - y.l)
          · rw [if_pos h, if_pos (by omega)]
            rw [Nat.add_comm (J * _), sum_dotWork _ _ w rfl (by omega) (by omega), from_apply, Nat.add_sub_cancel' (by omega), h.1]
          · rw [if_neg h, ht i hi j]
            by_cases h2 : (y.l ≤ i ∧ i < y.k) ∧ (x.l ≤ j ∧ j < x.l + J)
            · rw [if_pos h2, if_pos (by omega)]
            · rw [if_neg h2, if_neg (by omega)])
      have := key i hi j
      rw [Nat.add_sub_cancel' hx] at this
      exact this
  · rw [if_neg (by simpa using hmpi)]
    have hn' : n p ≠ 0 := (hn.resolve_left hmpi) p
    rw [if_pos hn', grid_addr j _ _ hi (by omega), Nat.add_sub_cancel' hx, Nat.add_sub_cancel' hy]
    by_cases h : (y.l ≤ i ∧ i < y.k) ∧ (x.l ≤ j ∧ j < x.k)
    · rw [if_pos h, if_pos h]
      have hs : ∀ f : P → 𝕜, ∑ q, f q = f p := by
        intro f
        have : Subsingleton P := Fintype.card_le_one_iff_subsingleton.mp (by omega)
        exact Fintype.sum_subsingleton f p
      unfold vdot gemmCN
      rw [hs]
      unfold Blk.from
      rw [Nat.add_sub_cancel' (by omega), Nat.add_sub_cancel' (by omega)]
    · rw [if_neg h, if_neg h]

/-- The loop over the vectors gives the inner products. -/
theorem dotVecs_addr (X : Blk 𝕜 n) (x : Act) (Y : Blk 𝕜 n) (y : Act) (ldm : ℕ) (M : P → ℕ → 𝕜) (p : P)
    (hx : x.l ≤ x.k) (hy : y.l ≤ y.k) (hld : y.k ≤ ldm) (i j : ℕ) (hi : i < ldm) :
    dotVecs X x Y y ldm M p (i + j * ldm) =
      if (y.l ≤ i ∧ i < y.k) ∧ (x.l ≤ j ∧ j < x.k) then vdot Y X i j else M p (i + j * ldm) := by
  unfold dotVecs
  refine forR_inv (fun N (t : ℕ → 𝕜) => ∀ i < ldm, ∀ j, t (i + j * ldm) = if (y.l ≤ i ∧ i < y.k) ∧ (x.l ≤ j ∧ j < N) then vdot Y X i j else M p (i + j * ldm)) hx
    (fun i hi j => by rw [if_neg (by omega)]) (fun J hJ1 hJ2 t ht => ?_) i hi j
  have inner := forN_inv (f := fun i a => wr a (J * ldm + y.l + i) (vdot Y X (y.l + i) J)) (s := t)
    (fun N u => ∀ i < ldm, ∀ j, u (i + j * ldm) = if (y.l ≤ i ∧ i < y.l + N) ∧ j = J then vdot Y X i j else t (i + j * ldm)) (y.k - y.l)
    (fun i hi j => by rw [if_neg (by omega)])
    (fun I hI u hu i hi j => by
      have he : J * ldm + y.l + I = (y.l + I) + J * ldm := by ring
      simp only [he]
      rw [wr_addr j J u _ hi (by omega)]
      by_cases h : i = y.l + I ∧ j = J
      · rw [if_pos h, if_pos (by omega), h.1, h.2]
      · rw [if_neg h, hu i hi j]
        by_cases h2 : (y.l ≤ i ∧ i < y.l + I) ∧ j = J
        · rw [if_pos h2, if_pos (by omega)]
        · rw [if_neg h2, if_neg (by omega)])
  intro i hi j
  rw [inner i hi j, ht i hi j, Nat.add_sub_cancel' hy]
  by_cases h : (y.l ≤ i ∧ i < y.k) ∧ j = J
  · rw [if_pos h, if_pos (by omega)]
  · rw [if_neg h]
    by_cases h2 : (y.l ≤ i ∧ i < y.k) ∧ (x.l ≤ j ∧ j < J)
    · rw [if_pos h2, if_pos (by omega)]
    · rw [if_neg h2, if_neg (by omega)]

theorem opDot_addr (vecs : Bool) (X : Blk 𝕜 n) (x : Act) (Y : Blk 𝕜 n) (y : Act) (ldm : ℕ) (w M : P → ℕ → 𝕜) (p : P)
    (hn : vecs = true ∨ 1 < Fintype.card P ∨ ∀ p, n p ≠ 0) (hx : x.l ≤ x.k) (hy : y.l ≤ y.k) (hld : y.k ≤ ldm) (i j : ℕ) (hi : i < ldm) :
    opDot vecs X x Y y ldm w M p (i + j * ldm) =
      if (y.l ≤ i ∧ i < y.k) ∧ (x.l ≤ j ∧ j < x.k) then vdot Y X i j else M p (i + j * ldm) := by
  unfold opDot
  by_cases hv : vecs = true
  · rw [if_pos hv]
    exact dotVecs_addr X x Y y ldm M p hx hy hld i j hi
  · rw [if_neg hv]
    exact dotSvec_addr X x Y y ldm w M p (hn.resolve_left hv) hx hy hld i j hi

/-- Column by column, different objects. -/
theorem dotPrivate_addr (BX : Blk 𝕜 n) (x : Act) (Y : Blk 𝕜 n) (y : Act) (rows : ℕ) (M : P → ℕ → 𝕜)
    (hx : x.l ≤ x.k) (hy : y.l ≤ y.k) (hld : y.k ≤ rows) :
    dotPrivate false BX x Y y rows M = (fun p => dotVecs BX x Y y rows M p, y) := by
  unfold dotPrivate dotVecs
  refine forR_inv (fun N (st : (P → ℕ → 𝕜) × Act) => st = (fun p => forR x.l N (fun j a => forN (y.k - y.l)
    (fun i a => wr a (j * rows + y.l + i) (vdot Y BX (y.l + i) j)) a) (M p), y)) hx ?_ ?_
  · simp [forR]
  · intro J h1 h2 st hst
    subst hst
    have hs : J + 1 - x.l = (J - x.l) + 1 := by omega
    simp only [forR, hs, forN_succ, Nat.add_sub_cancel' h1]
    rfl

/-- Column by column, the same object: all products by symmetry. -/
theorem dotPrivate_symm_addr (BX : Blk 𝕜 n) (x : Act) (Y : Blk 𝕜 n) (rows : ℕ) (M : P → ℕ → 𝕜)
    (hx : x.l < x.k) (hld : x.k ≤ rows) (hG : ∀ i j, star (vdot Y BX i j) = vdot Y BX j i) :
    (dotPrivate true BX x Y x rows M).2 = x ∧ ∀ p i j, i < rows → (dotPrivate true BX x Y x rows M).1 p (i + j * rows) =
      if (x.l ≤ i ∧ i < x.k) ∧ (x.l ≤ j ∧ j < x.k) then vdot Y BX i j else M p (i + j * rows) := by
  have key : (dotPrivate true BX x Y x rows M).2.l = x.l ∧ (x.l < x.k → (dotPrivate true BX x Y x rows M).2.k = x.k) ∧
      ∀ p i j, i < rows → (dotPrivate true BX x Y x rows M).1 p (i + j * rows) =
      if (x.l ≤ i ∧ i < x.k) ∧ (x.l ≤ j ∧ j < x.k) then vdot Y BX i j else M p (i + j * rows) := by
    unfold dotPrivate
    refine forR_inv (fun N (st : (P → ℕ → 𝕜) × Act) => st.2.l = x.l ∧ (x.l < N → st.2.k = N) ∧ ∀ p i j, i < rows → st.1 p (i + j * rows) =
      if (x.l ≤ i ∧ i < N) ∧ (x.l ≤ j ∧ j < N) then vdot Y BX i j else M p (i + j * rows)) (le_of_lt hx) ?_ ?_
    · refine ⟨rfl, fun h => absurd h (lt_irrefl _), fun p i j hi => ?_⟩
      rw [if_neg (by omega)]
    · rintro J h1 h2 ⟨T, yl, yk⟩ ⟨ha, hb, hc⟩
      dsimp only at ha hb hc
      subst ha
      simp only [if_true]
      refine ⟨trivial, fun _ => trivial, fun p i j hi => ?_⟩
      -- the column
      have inner := forN_inv (f := fun i a => wr a (J * rows + x.l + i) (vdot Y BX (x.l + i) J)) (s := T p)
        (fun N (u : ℕ → 𝕜) => ∀ i < rows, ∀ j, u (i + j * rows) = if (x.l ≤ i ∧ i < x.l + N) ∧ j = J then vdot Y BX i j else T p (i + j * rows)) (J + 1 - x.l)
        (fun i hi j => by rw [if_neg (by omega)])
        (fun I hI u hu i hi j => by
          have he : J * rows + x.l + I = (x.l + I) + J * rows := by ring
          simp only [he]
          rw [wr_addr j J u _ hi (by omega)]
          by_cases h : i = x.l + I ∧ j = J
          · rw [if_pos h, if_pos (by omega), h.1, h.2]
          · rw [if_neg h, hu i hi j]
            by_cases h2 : (x.l ≤ i ∧ i < x.l + I) ∧ j = J
            · rw [if_pos h2, if_pos (by omega)]
            · rw [if_neg h2, if_neg (by omega)])
      obtain ⟨u0, hu0⟩ : ∃ u0, u0 = forN (J + 1 - x.l) (fun i a => wr a (J * rows + x.l + i) (vdot Y BX (x.l + i) J)) (T p) := ⟨_, rfl⟩
      rw [← hu0] at inner ⊢
      -- the row
      have row := forR_inv (f := fun i a => wr a (J + i * rows) (star (a (i + J * rows)))) (s := u0)
        (fun N (u : ℕ → 𝕜) => ∀ i < rows, ∀ j, u (i + j * rows) = if i = J ∧ x.l ≤ j ∧ j < N then vdot Y BX i j else u0 (i + j * rows)) h1
        (fun i hi j => by rw [if_neg (by omega)])
        (fun I hI1 hI2 u hu i hi j => by
          rw [wr_addr j I u _ hi (by omega)]
          by_cases h : i = J ∧ j = I
          · rw [if_pos h, if_pos (by omega), hu I (by omega) J, if_neg (by omega), inner I (by omega) J, if_pos (by omega), hG, h.1, h.2]
          · rw [if_neg h, hu i hi j]
            by_cases h2 : i = J ∧ x.l ≤ j ∧ j < I
            · rw [if_pos h2, if_pos (by omega)]
            · rw [if_neg h2, if_neg (by omega)])
      rw [row i hi j, inner i hi j, hc p i j hi]
      by_cases hA : i = J ∧ x.l ≤ j ∧ j < J
      · rw [if_pos hA, if_pos (by omega)]
      rw [if_neg hA]
      by_cases hB : (x.l ≤ i ∧ i < x.l + (J + 1 - x.l)) ∧ j = J
      · rw [if_pos hB, if_pos (by omega)]
      rw [if_neg hB]
      by_cases hC : (x.l ≤ i ∧ i < J) ∧ (x.l ≤ j ∧ j < J)
      · rw [if_pos hC, if_pos (by omega)]
      · rw [if_neg hC, if_neg (by omega)]
  refine ⟨?_, key.2.2⟩
  obtain ⟨h1, h2, _⟩ := key
  cases hz : (dotPrivate true BX x Y x rows M).2 with
  | mk a b =>
    rw [hz] at h1 h2
    cases x
    simp_all

end Verif.BVB
