import Verif.BVB.Base
import Mathlib.Analysis.RCLike.Basic
import Mathlib.Analysis.Real.Sqrt
/-!
Model of the reduction operation of the TSQR factorization, `SlepcGivensPacked` and `BVOrthogonalize_LAPACK_TSQR_OnlyR`
(src/sys/classes/bv/interface/bvlapack.c:474-553), in exact arithmetic.

The plane rotations of LAPACK (`lartg`) and the local QR factorizations (`geqrf`) are parameters with their documented contract.  The reduction of MPI is a
binary tree with the contributions of the processes as leaves.
-/
set_option linter.all false
namespace Verif.BVB
variable {𝕜 : Type} [Field 𝕜] [StarRing 𝕜]

/-- Position of the entry `(i,j)` of a packed upper triangular matrix: `(2*n-i-1)*i/2+j`. -/
def pidx (n i j : ℕ) : ℕ := (2 * n - i - 1) * i / 2 + j

/-- Result of `lartg`: cosine, sine and the new first component. -/
structure Rot (𝕜 : Type) where
  c : 𝕜
  s : 𝕜
  v : 𝕜

/-- Contract of `lartg(f,g)`: a plane rotation that maps `(f,g)` to `(v,0)`. -/
structure IsLartg (lartg : 𝕜 → 𝕜 → Rot 𝕜) : Prop where
  real : ∀ f g, star (lartg f g).c = (lartg f g).c
  fst : ∀ f g, (lartg f g).c * f + (lartg f g).s * g = (lartg f g).v
  snd : ∀ f g, (lartg f g).c * g - star (lartg f g).s * f = 0
  unit : ∀ f g, (lartg f g).c * (lartg f g).c + (lartg f g).s * star (lartg f g).s = 1

/-- `BLASrot(k, R1+x0, R2+y0, c, s)`. -/
def rot (k x0 y0 : ℕ) (c s : 𝕜) (R : (ℕ → 𝕜) × (ℕ → 𝕜)) : (ℕ → 𝕜) × (ℕ → 𝕜) :=
  forN k (fun t R => (wr R.1 (x0 + t) (c * R.1 (x0 + t) + s * R.2 (y0 + t)), wr R.2 (y0 + t) (c * R.2 (y0 + t) - star s * R.1 (x0 + t)))) R

/-- Body of the loops of `SlepcGivensPacked`, lines 487-490, on `(R1,R2)`. -/
def givensStep (lartg : 𝕜 → 𝕜 → Rot 𝕜) (n j i : ℕ) (R : (ℕ → 𝕜) × (ℕ → 𝕜)) : (ℕ → 𝕜) × (ℕ → 𝕜) :=
  let g := lartg (R.1 (pidx n j j)) (R.2 (pidx n i j))
  let R1 := wr R.1 (pidx n j j) g.v
  if n - j - 1 ≠ 0 then rot (n - j - 1) (pidx n j j + 1) (pidx n i j + 1) g.c g.s (R1, R.2) else (R1, R.2)

/-- `SlepcGivensPacked`, bvlapack.c:474-494, for a datatype of `tsize` scalars: `n` from its size (line 484), result in `inout` (`R1`). -/
def givensPacked (lartg : 𝕜 → 𝕜 → Rot 𝕜) (tsize : ℕ) (R2 R1 : ℕ → 𝕜) : ℕ → 𝕜 :=
  let n := (Nat.sqrt (1 + 8 * tsize) - 1) / 2
  (forN n (fun j R => forN (j + 1) (fun i R => givensStep lartg n j i R) R) (R1, R2)).1

/-- The way in which MPI combines the contributions. -/
inductive Tree (P : Type) where
  | leaf : P → Tree P
  | node : Tree P → Tree P → Tree P

/-- The contributions of a tree. -/
def Tree.leaves {P : Type} : Tree P → List P
  | .leaf p => [p]
  | .node a b => a.leaves ++ b.leaves

/-- The result of `MPI_Allreduce` with the operation, for a tree: `a` is `in`, `b` is `inout`. -/
def Tree.reduce {P : Type} (lartg : 𝕜 → 𝕜 → Rot 𝕜) (tsize : ℕ) (R : P → ℕ → 𝕜) : Tree P → ℕ → 𝕜
  | .leaf p => R p
  | .node a b => givensPacked lartg tsize (a.reduce lartg tsize R) (b.reduce lartg tsize R)

/-- Packing of the local factor, lines 539-541: `A` is the array after `geqrf`, `m` the number of local rows. -/
def packR (n m ldq : ℕ) (A : ℕ → 𝕜) : ℕ → 𝕜 :=
  forN n (fun i R => forR i n (fun j R => wr R (pidx n i j) (if i < m then A (i + j * ldq) else 0)) R) (fun _ => 0)

/-- The upper triangular matrix of a packed array, as it is unpacked in lines 543-546. -/
def unpackR (n : ℕ) (R : ℕ → 𝕜) : Matrix (Fin n) (Fin n) 𝕜 := fun i j => if j.1 < i.1 then 0 else R (pidx n i j)

/-! ### Addresses -/

theorem off_succ {n i : ℕ} (h : i + 1 ≤ n) : (2 * n - (i + 1) - 1) * (i + 1) / 2 = (2 * n - i - 1) * i / 2 + (n - i - 1) := by
  obtain ⟨d, rfl⟩ := Nat.exists_eq_add_of_le h
  have e1 : 2 * (i + 1 + d) - (i + 1) - 1 = i + 2 * d := by omega
  have e2 : 2 * (i + 1 + d) - i - 1 = i + 1 + 2 * d := by omega
  have e3 : i + 1 + d - i - 1 = d := by omega
  rw [e1, e2, e3]
  have e4 : (i + 2 * d) * (i + 1) = (i + 1 + 2 * d) * i + d * 2 := by ring
  rw [e4, Nat.add_mul_div_right _ _ (by decide)]

/-- Rows follow each other in the packed array. -/
theorem pidx_row {n i i' j j' : ℕ} (hi : i < i') (hj : j < n) (hij' : i' ≤ j') (hj' : j' < n) : pidx n i j < pidx n i' j' := by
  induction i', hi using Nat.le_induction generalizing j' with
  | base =>
    unfold pidx
    have := off_succ (n := n) (i := i) (by omega)
    simp only [Nat.succ_eq_add_one] at this ⊢
    omega
  | succ m hm ih =>
    have h1 := ih (j' := n - 1) (by omega) (by omega)
    have h2 := off_succ (n := n) (i := m) (by omega)
    unfold pidx at h1 ⊢
    omega

theorem pidx_inj {n i i' j j' : ℕ} (hij : i ≤ j) (hj : j < n) (hij' : i' ≤ j') (hj' : j' < n) (h : pidx n i j = pidx n i' j') : i = i' ∧ j = j' := by
  rcases lt_trichotomy i i' with h1 | h1 | h1
  · have := pidx_row h1 hj hij' hj'; omega
  · subst h1
    unfold pidx at h
    exact ⟨rfl, by omega⟩
  · have := pidx_row h1 hj' hij hj; omega

theorem wr_pidx {n i i' j j' : ℕ} (R : ℕ → 𝕜) (v : 𝕜) (hij : i ≤ j) (hj : j < n) (hij' : i' ≤ j') (hj' : j' < n) :
    wr R (pidx n i' j') v (pidx n i j) = if i = i' ∧ j = j' then v else R (pidx n i j) := by
  unfold wr
  by_cases h : i = i' ∧ j = j'
  · rw [if_pos h, if_pos (by rw [h.1, h.2])]
  · rw [if_neg h, if_neg (fun he => h (pidx_inj hij hj hij' hj' he))]

/-- Line 484 recovers the number of columns from the length `n+n*(n-1)/2` of line 513. -/
theorem packed_size (n : ℕ) : (Nat.sqrt (1 + 8 * (n + n * (n - 1) / 2)) - 1) / 2 = n := by
  have h : 2 * (n * (n - 1) / 2) = n * (n - 1) := Nat.mul_div_cancel' (by
    cases n with
    | zero => simp
    | succ n => simpa [Nat.mul_comm] using (Nat.even_mul_succ_self n).two_dvd)
  have h2 : n * (n - 1) + n = n * n := by
    cases n with
    | zero => rfl
    | succ n => simp; ring
  have : 1 + 8 * (n + n * (n - 1) / 2) = (2 * n + 1) * (2 * n + 1) := by nlinarith
  rw [this, Nat.sqrt_eq]
  omega

/-! ### The Gram matrix -/

/-- Entry of the triangular matrix of a packed array. -/
def tri (n : ℕ) (R : ℕ → 𝕜) (i j : ℕ) : 𝕜 := if i ≤ j ∧ j < n then R (pidx n i j) else 0

/-- What is left of the second matrix before step `(J,I)`: the columns after `J`, and column `J` from row `I`. -/
def mask (n J I : ℕ) (R : ℕ → 𝕜) (i j : ℕ) : 𝕜 := if J < j ∨ (j = J ∧ I ≤ i) then tri n R i j else 0

/-- Entry of the Gram matrix. -/
def gram (n : ℕ) (f : ℕ → ℕ → 𝕜) (a b : ℕ) : 𝕜 := ∑ i ∈ Finset.range n, star (f i a) * f i b

theorem gram_upd {n I : ℕ} (f g : ℕ → ℕ → 𝕜) (hI : I < n) (h : ∀ i, i ≠ I → f i = g i) (a b : ℕ) :
    gram n f a b = gram n g a b + (star (f I a) * f I b - star (g I a) * g I b) := by
  unfold gram
  rw [← Finset.add_sum_erase _ _ (Finset.mem_range.mpr hI), ← Finset.add_sum_erase (Finset.range n) (fun i => star (g i a) * g i b) (Finset.mem_range.mpr hI)]
  have : ∑ x ∈ (Finset.range n).erase I, star (f x a) * f x b = ∑ x ∈ (Finset.range n).erase I, star (g x a) * g x b :=
    Finset.sum_congr rfl (fun i hi => by rw [h i (Finset.ne_of_mem_erase hi)])
  rw [this]
  ring

/-- Effect of the rotation of the rest of two rows. -/
theorem rot_apply {n J I : ℕ} (hIJ : I ≤ J) (hJ : J < n) (c s : 𝕜) (R : (ℕ → 𝕜) × (ℕ → 𝕜)) (i j : ℕ) (hij : i ≤ j) (hj : j < n) :
    (rot (n - J - 1) (pidx n J J + 1) (pidx n I J + 1) c s R).1 (pidx n i j) =
      (if i = J ∧ J < j then c * R.1 (pidx n J j) + s * R.2 (pidx n I j) else R.1 (pidx n i j)) ∧
    (rot (n - J - 1) (pidx n J J + 1) (pidx n I J + 1) c s R).2 (pidx n i j) =
      (if i = I ∧ J < j then c * R.2 (pidx n I j) - star s * R.1 (pidx n J j) else R.2 (pidx n i j)) := by
  unfold rot
  have key := forN_inv (f := fun t (R : (ℕ → 𝕜) × (ℕ → 𝕜)) => (wr R.1 (pidx n J J + 1 + t) (c * R.1 (pidx n J J + 1 + t) + s * R.2 (pidx n I J + 1 + t)),
      wr R.2 (pidx n I J + 1 + t) (c * R.2 (pidx n I J + 1 + t) - star s * R.1 (pidx n J J + 1 + t)))) (s := R)
    (fun t T => ∀ i j, i ≤ j → j < n →
      T.1 (pidx n i j) = (if i = J ∧ J < j ∧ j < J + 1 + t then c * R.1 (pidx n J j) + s * R.2 (pidx n I j) else R.1 (pidx n i j)) ∧
      T.2 (pidx n i j) = (if i = I ∧ J < j ∧ j < J + 1 + t then c * R.2 (pidx n I j) - star s * R.1 (pidx n J j) else R.2 (pidx n i j))) (n - J - 1)
    (fun i j _ _ => ⟨by rw [if_neg (by omega)], by rw [if_neg (by omega)]⟩)
    (fun t ht T hT i j hij hj => by
      have e1 : pidx n J J + 1 + t = pidx n J (J + 1 + t) := by unfold pidx; omega
      have e2 : pidx n I J + 1 + t = pidx n I (J + 1 + t) := by unfold pidx; omega
      have g1 := (hT J (J + 1 + t) (by omega) (by omega)).1
      have g2 := (hT I (J + 1 + t) (by omega) (by omega)).2
      rw [if_neg (by omega)] at g1 g2
      dsimp only
      rw [e1, e2, g1, g2, wr_pidx _ _ hij hj (by omega) (by omega), wr_pidx _ _ hij hj (by omega) (by omega)]
      obtain ⟨k1, k2⟩ := hT i j hij hj
      constructor
      · by_cases h : i = J ∧ j = J + 1 + t
        · rw [if_pos h, if_pos (by omega), h.2]
        · rw [if_neg h, k1]
          by_cases h2 : i = J ∧ J < j ∧ j < J + 1 + t
          · rw [if_pos h2, if_pos (by omega)]
          · rw [if_neg h2, if_neg (by omega)]
      · by_cases h : i = I ∧ j = J + 1 + t
        · rw [if_pos h, if_pos (by omega), h.2]
        · rw [if_neg h, k2]
          by_cases h2 : i = I ∧ J < j ∧ j < J + 1 + t
          · rw [if_pos h2, if_pos (by omega)]
          · rw [if_neg h2, if_neg (by omega)])
  obtain ⟨k1, k2⟩ := key i j hij hj
  have hc : ∀ P : Prop, (P ∧ J < j ∧ j < J + 1 + (n - J - 1)) = (P ∧ J < j) := fun P => propext ⟨fun h => ⟨h.1, h.2.1⟩, fun h => ⟨h.1, h.2, by omega⟩⟩
  simp only [hc] at k1 k2
  exact ⟨k1, k2⟩

/-- Effect of one step on the two triangular matrices. -/
theorem givensStep_apply {lartg : 𝕜 → 𝕜 → Rot 𝕜} {n J I : ℕ} (hIJ : I ≤ J) (hJ : J < n) (R : (ℕ → 𝕜) × (ℕ → 𝕜)) (i j : ℕ) (hij : i ≤ j) (hj : j < n) :
    (givensStep lartg n J I R).1 (pidx n i j) =
      (if i = J then (if j = J then (lartg (R.1 (pidx n J J)) (R.2 (pidx n I J))).v else
        (lartg (R.1 (pidx n J J)) (R.2 (pidx n I J))).c * R.1 (pidx n J j) + (lartg (R.1 (pidx n J J)) (R.2 (pidx n I J))).s * R.2 (pidx n I j))
       else R.1 (pidx n i j)) ∧
    (givensStep lartg n J I R).2 (pidx n i j) =
      (if i = I ∧ J < j then (lartg (R.1 (pidx n J J)) (R.2 (pidx n I J))).c * R.2 (pidx n I j) -
        star (lartg (R.1 (pidx n J J)) (R.2 (pidx n I J))).s * R.1 (pidx n J j) else R.2 (pidx n i j)) := by
  unfold givensStep
  simp only
  obtain ⟨g, hg⟩ : ∃ g, g = lartg (R.1 (pidx n J J)) (R.2 (pidx n I J)) := ⟨_, rfl⟩
  rw [← hg]
  have hw := fun j (h : J ≤ j) (hj : j < n) => wr_pidx R.1 g.v (i := J) (j := j) (i' := J) (j' := J) h hj (le_refl _) hJ
  have hw' := wr_pidx R.1 g.v hij hj (le_refl J) hJ
  by_cases h : n - J - 1 ≠ 0
  · rw [if_pos h]
    obtain ⟨k1, k2⟩ := rot_apply hIJ hJ g.c g.s (wr R.1 (pidx n J J) g.v, R.2) i j hij hj
    rw [k1, k2]
    dsimp only
    constructor
    · by_cases hi : i = J
      · rw [if_pos hi]
        by_cases hjJ : j = J
        · rw [if_neg (by omega), if_pos hjJ, hw', if_pos ⟨hi, hjJ⟩]
        · rw [if_pos (by omega), if_neg hjJ, hw j (by omega) hj, if_neg (by omega)]
      · rw [if_neg (by omega), if_neg hi, hw', if_neg (by omega)]
    · by_cases hi : i = I ∧ J < j
      · rw [if_pos hi, if_pos hi, hw j (by omega) hj, if_neg (by omega)]
      · rw [if_neg hi, if_neg hi]
  · rw [if_neg h]
    have hjn : J = n - 1 := by omega
    dsimp only
    constructor
    · by_cases hi : i = J
      · rw [if_pos hi, if_pos (by omega), hw', if_pos (by omega)]
      · rw [if_neg hi, hw', if_neg (by omega)]
    · rw [if_neg (by omega)]

/-- One step leaves the sum of the Gram matrices as it was. -/
theorem givensStep_gram {lartg : 𝕜 → 𝕜 → Rot 𝕜} (hL : IsLartg lartg) {n J I : ℕ} (hIJ : I ≤ J) (hJ : J < n) (R : (ℕ → 𝕜) × (ℕ → 𝕜)) (a b : ℕ) :
    gram n (tri n (givensStep lartg n J I R).1) a b + gram n (mask n J (I + 1) (givensStep lartg n J I R).2) a b =
      gram n (tri n R.1) a b + gram n (mask n J I R.2) a b := by
  obtain ⟨S, hS⟩ : ∃ S, S = givensStep lartg n J I R := ⟨_, rfl⟩
  have hap := fun i j hij hj => givensStep_apply (lartg := lartg) hIJ hJ R i j hij hj
  rw [← hS] at hap ⊢
  obtain ⟨g, hg⟩ : ∃ g, g = lartg (R.1 (pidx n J J)) (R.2 (pidx n I J)) := ⟨_, rfl⟩
  rw [← hg] at hap
  have hreal : star g.c = g.c := by rw [hg]; exact hL.real _ _
  have hfst : g.c * R.1 (pidx n J J) + g.s * R.2 (pidx n I J) = g.v := by rw [hg]; exact hL.fst _ _
  have hsnd : g.c * R.2 (pidx n I J) - star g.s * R.1 (pidx n J J) = 0 := by rw [hg]; exact hL.snd _ _
  have hunit : g.c * g.c + g.s * star g.s = 1 := by rw [hg]; exact hL.unit _ _
  -- rows
  have h1 : ∀ i, i ≠ J → tri n S.1 i = tri n R.1 i := by
    intro i hi
    funext j
    unfold tri
    by_cases h : i ≤ j ∧ j < n
    · rw [if_pos h, if_pos h, (hap i j h.1 h.2).1, if_neg hi]
    · rw [if_neg h, if_neg h]
  have h2 : ∀ i, i ≠ I → mask n J (I + 1) S.2 i = mask n J I R.2 i := by
    intro i hi
    funext j
    unfold mask
    by_cases h : J < j ∨ (j = J ∧ I ≤ i)
    · rw [if_pos h, if_pos (by omega)]
      unfold tri
      by_cases h' : i ≤ j ∧ j < n
      · rw [if_pos h', if_pos h', (hap i j h'.1 h'.2).2, if_neg (by omega)]
      · rw [if_neg h', if_neg h']
    · rw [if_neg h, if_neg (by omega)]
  -- the two rows
  have hx : ∀ j, tri n S.1 J j = g.c * tri n R.1 J j + g.s * mask n J I R.2 I j := by
    intro j
    unfold mask tri
    by_cases h : J ≤ j ∧ j < n
    · rw [if_pos h, if_pos h, if_pos (by omega), if_pos (by omega), (hap J j h.1 h.2).1, if_pos rfl]
      by_cases hj : j = J
      · rw [if_pos hj, hj, hfst]
      · rw [if_neg hj]
    · rw [if_neg h, if_neg h]
      by_cases h3 : J < j ∨ (j = J ∧ I ≤ I)
      · rw [if_pos h3, if_neg (by omega)]; ring
      · rw [if_neg h3]; ring
  have hy : ∀ j, mask n J (I + 1) S.2 I j = g.c * mask n J I R.2 I j - star g.s * tri n R.1 J j := by
    intro j
    by_cases h : J < j ∧ j < n
    · unfold mask tri
      rw [if_pos (by omega), if_pos (by omega), if_pos (by omega), if_pos (by omega), if_pos (by omega), (hap I j (by omega) h.2).2, if_pos (by omega)]
    · unfold mask
      by_cases hj : j = J
      · unfold tri
        rw [if_neg (by omega), if_pos (by omega), if_pos (by omega), if_pos (by omega), hj, hsnd]
      · unfold tri
        have z1 : (if J < j ∨ (j = J ∧ I + 1 ≤ I) then (if I ≤ j ∧ j < n then S.2 (pidx n I j) else 0) else 0) = 0 := by
          by_cases h4 : J < j
          · rw [if_pos (by omega), if_neg (by omega)]
          · rw [if_neg (by omega)]
        have z2 : (if J < j ∨ (j = J ∧ I ≤ I) then (if I ≤ j ∧ j < n then R.2 (pidx n I j) else 0) else 0) = 0 := by
          by_cases h4 : J < j
          · rw [if_pos (by omega), if_neg (by omega)]
          · rw [if_neg (by omega)]
        rw [z1, z2, if_neg (by omega)]
        ring
  rw [gram_upd _ _ hJ h1, gram_upd _ _ (by omega : I < n) h2, hx, hx, hy, hy]
  simp only [star_add, star_sub, star_mul', hreal, star_star]
  linear_combination (star (tri n R.1 J a) * tri n R.1 J b + star (mask n J I R.2 I a) * mask n J I R.2 I b) * hunit

/-- The operation adds Gram matrices. -/
theorem givensPacked_gram {lartg : 𝕜 → 𝕜 → Rot 𝕜} (hL : IsLartg lartg) (n : ℕ) (R2 R1 : ℕ → 𝕜) (a b : ℕ) (ha : a < n) (hb : b < n) :
    gram n (tri n (givensPacked lartg (n + n * (n - 1) / 2) R2 R1)) a b = gram n (tri n R1) a b + gram n (tri n R2) a b := by
  unfold givensPacked
  simp only
  rw [packed_size]
  have key := forN_inv (f := fun j R => forN (j + 1) (fun i R => givensStep lartg n j i R) R) (s := (R1, R2))
    (fun J R => gram n (tri n R.1) a b + gram n (mask n J 0 R.2) a b = gram n (tri n R1) a b + gram n (tri n R2) a b) n
    (by
      have hm : ∀ f : ℕ → 𝕜, mask n 0 0 f = tri n f := fun f => by
        funext i j
        unfold mask
        rw [if_pos (by omega)]
      rw [hm])
    (fun J hJ R hR => by
      have inner := forN_inv (f := fun i R => givensStep lartg n J i R) (s := R)
        (fun I T => gram n (tri n T.1) a b + gram n (mask n J I T.2) a b = gram n (tri n R1) a b + gram n (tri n R2) a b) (J + 1) hR
        (fun I hI T hT => by rw [givensStep_gram hL (by omega) hJ T a b, hT])
      have hm : ∀ f : ℕ → 𝕜, mask n (J + 1) 0 f = mask n J (J + 1) f := fun f => by
        funext i j
        unfold mask tri
        by_cases h1 : J < j
        · rw [if_pos (show J + 1 < j ∨ (j = J + 1 ∧ 0 ≤ i) by omega), if_pos (show J < j ∨ (j = J ∧ J + 1 ≤ i) by omega)]
        · rw [if_neg (by omega)]
          by_cases h2 : j = J ∧ J + 1 ≤ i
          · rw [if_pos (by omega), if_neg (by omega)]
          · rw [if_neg (by omega)]
      rw [hm]
      exact inner)
  obtain ⟨T, hT⟩ : ∃ T, T = forN n (fun j R => forN (j + 1) (fun i R => givensStep lartg n j i R) R) (R1, R2) := ⟨_, rfl⟩
  rw [← hT] at key ⊢
  have hz : gram n (mask n n 0 T.2) a b = 0 := by
    unfold gram
    refine Finset.sum_eq_zero (fun i _ => ?_)
    unfold mask
    rw [if_neg (by omega), star_zero, zero_mul]
  rw [hz, add_zero] at key
  exact key

theorem gram_unpack (n : ℕ) (R : ℕ → 𝕜) (a b : Fin n) : ((unpackR n R).conjTranspose * unpackR n R) a b = gram n (tri n R) a b := by
  unfold gram
  rw [Matrix.mul_apply, ← Fin.sum_univ_eq_sum_range (fun i => star (tri n R i a) * tri n R i b) n]
  refine Finset.sum_congr rfl (fun i _ => ?_)
  have h : ∀ c : Fin n, unpackR n R i c = tri n R i c := fun c => by
    unfold unpackR tri
    by_cases h : c.1 < i.1
    · rw [if_pos h, if_neg (by omega)]
    · rw [if_neg h, if_pos ⟨by omega, c.2⟩]
  rw [Matrix.conjTranspose_apply, h, h]

/-- Packing the local factor gives its upper triangle, without the rows that do not exist. -/
theorem unpack_pack (n m ldq : ℕ) (A : ℕ → 𝕜) (i j : Fin n) :
    unpackR n (packR n m ldq A) i j = if i.1 ≤ j.1 ∧ i.1 < m then A (i + j * ldq) else 0 := by
  have key := forN_inv (f := fun i R => forR i n (fun j R => wr R (pidx n i j) (if i < m then A (i + j * ldq) else 0)) R) (s := fun _ => (0 : 𝕜))
    (fun N (T : ℕ → 𝕜) => ∀ i j, i ≤ j → j < n → T (pidx n i j) = if i < N ∧ i < m then A (i + j * ldq) else 0) n
    (fun i j _ _ => by rw [if_neg (by omega)])
    (fun I hI T hT => by
      have inner := forR_inv (f := fun j R => wr R (pidx n I j) (if I < m then A (I + j * ldq) else 0)) (s := T)
        (fun N (U : ℕ → 𝕜) => ∀ i j, i ≤ j → j < n → U (pidx n i j) = if i = I ∧ j < N then (if I < m then A (I + j * ldq) else 0) else T (pidx n i j)) (le_of_lt hI)
        (fun i j _ _ => by rw [if_neg (by omega)])
        (fun J h1 h2 U hU i j hij hj => by
          rw [wr_pidx U _ hij hj h1 h2, hU i j hij hj]
          by_cases h : i = I ∧ j = J
          · rw [if_pos h, if_pos (show i = I ∧ j < J + 1 by omega), h.2]
          · rw [if_neg h]
            by_cases h2 : i = I ∧ j < J
            · rw [if_pos h2, if_pos (show i = I ∧ j < J + 1 by omega)]
            · rw [if_neg h2, if_neg (show ¬ (i = I ∧ j < J + 1) by omega)])
      intro i j hij hj
      rw [inner i j hij hj, hT i j hij hj]
      by_cases h : i = I ∧ j < n
      · rw [if_pos h, h.1]
        by_cases h2 : I < m
        · rw [if_pos h2, if_pos (by omega)]
        · rw [if_neg h2, if_neg (by omega)]
      · rw [if_neg h]
        by_cases h2 : i < I ∧ i < m
        · rw [if_pos h2, if_pos (by omega)]
        · rw [if_neg h2, if_neg (by omega)])
  unfold unpackR
  by_cases h : j.1 < i.1
  · rw [if_pos h, if_neg (by omega)]
  · rw [if_neg h]
    unfold packR
    rw [key i j (by omega) j.2]
    by_cases h2 : i.1 < m
    · rw [if_pos ⟨i.2, h2⟩, if_pos (by omega)]
    · rw [if_neg (by omega), if_neg (by omega)]

end Verif.BVB
