import Verif.Bse.RunModel
import Verif.Bse.GrModel

/-!
# Krylov-Schur for linear response problems

Models src/eps/impls/krylov/krylovschur/ks-lrep.c (variants TENG and ZHONG, assembly of eigenvectors), src/sys/mat/matstruct.c:197-258
(`MatCreateLREP`), src/sys/classes/st/impls/shift/shift.c:103-112. Real scalars, exact arithmetic; the square root of a negative number
(NaN in the code) is the outcome `none`. Stored matrices (`Bse.stored`, `Bse.bidi`) and the specifications of the dense solvers
(`Bse.Diag`, `Bse.Svd`) are those of the Bethe-Salpeter model. No locked columns.
-/
set_option linter.all false

namespace Verif.Lrep

open Finset Matrix Verif.Bse

/-- Real vectors of the length of one block. -/
abbrev Vr (n : ℕ) := Fin n → ℝ
/-- Real square matrices. -/
abbrev Mt (n : ℕ) := Matrix (Fin n) (Fin n) ℝ

variable {n : ℕ}

/-- matstruct.c:217-222: reduced form. -/
def Hred (K M : Mt n) : Matrix (Fin n ⊕ Fin n) (Fin n ⊕ Fin n) ℝ := Matrix.fromBlocks 0 K M 0

/-- matstruct.c:224-249: original form. -/
def Horig (A B : Mt n) : Matrix (Fin n ⊕ Fin n) (Fin n ⊕ Fin n) ℝ := Matrix.fromBlocks A B (-B) (-A)

/-- ks-lrep.c:406-414. -/
def redK (A B : Mt n) : Mt n := A - B
/-- ks-lrep.c:415-422. -/
def redM (A B : Mt n) : Mt n := A + B

/-! ## Variant TENG -/

/-- Bases and the arrays `alpha`, `beta`. -/
structure Tz (n : ℕ) where
  V : ℕ → Vr n
  U : ℕ → Vr n
  a : ℕ → ℝ
  b : ℕ → ℝ

/-- ks-lrep.c:57-60: coefficients of the local orthogonalization. -/
noncomputable def hT (beta : ℕ → ℝ) (k j : ℕ) (alpha : ℝ) (i : ℕ) : ℝ :=
  if (if j = k + 1 then 0 else j - 2) ≤ i ∧ i < j - 1 then beta i else if i = j - 1 then alpha else 0

/-- ks-lrep.c:56-63: local orthogonalization of `x` against `V`, `u` is column `j-1` of `U`. -/
noncomputable def locT (V : ℕ → Vr n) (u : Vr n) (beta : ℕ → ℝ) (k j : ℕ) (x : Vr n) : Vr n :=
  x - ∑ i ∈ Ico (if j = k + 1 then 0 else j - 2) j, hT beta k j (u ⬝ᵥ x) i • V i

/-- ks-lrep.c:30-44 Orthog_Teng: the vector. -/
noncomputable def orthogT (U V : ℕ → Vr n) (j : ℕ) (x : Vr n) : Vr n := x - ∑ i ∈ range j, (U i ⬝ᵥ x) • V i

/-- ks-lrep.c:108-109: next column of `V` before normalization. -/
noncomputable def newT (K : Mt n) (k j : ℕ) (s : Tz n) : Vr n :=
  orthogT s.U s.V (j + 1) (locT s.V (s.U j) s.b k (j + 1) (K *ᵥ s.U j))

/-- ks-lrep.c:42,110: coefficient of column `j`, sum of both passes. -/
noncomputable def newAT (K : Mt n) (k j : ℕ) (s : Tz n) : ℝ :=
  hT s.b k (j + 1) (s.U j ⬝ᵥ (K *ᵥ s.U j)) j + s.U j ⬝ᵥ locT s.V (s.U j) s.b k (j + 1) (K *ᵥ s.U j)

/-- ks-lrep.c:111-113: argument of the square root. -/
noncomputable def gamT (K M : Mt n) (k j : ℕ) (s : Tz n) : ℝ := (M *ᵥ newT K k j s) ⬝ᵥ newT K k j s

/-- ks-lrep.c:105-123: one pass (no scaling if the root is 0). -/
noncomputable def stepT (K M : Mt n) (k j : ℕ) (s : Tz n) : Tz n :=
  let be := Real.sqrt (gamT K M k j s)
  let sc : ℝ := if be = 0 then 1 else 1 / be
  { V := Function.update s.V (j + 1) (sc • newT K k j s)
    U := Function.update s.U (j + 1) (sc • M *ᵥ newT K k j s)
    a := Function.update s.a j (newAT K k j s)
    b := Function.update s.b j be }

/-- Result of a factorization: number of columns `*min`, breakdown flag. -/
structure OutT (n : ℕ) where
  s : Tz n
  m : ℕ
  bd : Bool

open Classical in
/-- ks-lrep.c:103-124. -/
noncomputable def lanczosT (K M : Mt n) (k : ℕ) : ℕ → ℕ → Tz n → Option (OutT n)
  | 0, j, s => some ⟨s, j, false⟩
  | t + 1, j, s =>
    if gamT K M k j s < 0 then none
    else if Real.sqrt (gamT K M k j s) = 0 then some ⟨stepT K M k j s, j + 1, true⟩
    else lanczosT K M k t (j + 1) (stepT K M k j s)

/-- ks-lrep.c:89-91. -/
noncomputable def gamT0 (M : Mt n) (s : Tz n) : ℝ := (M *ᵥ s.V 0) ⬝ᵥ s.V 0

/-- ks-lrep.c:96-97. -/
noncomputable def normT0 (M : Mt n) (s : Tz n) : Tz n :=
  { s with
    V := Function.update s.V 0 ((1 / Real.sqrt (gamT0 M s)) • s.V 0)
    U := Function.update s.U 0 ((1 / Real.sqrt (gamT0 M s)) • M *ᵥ s.V 0) }

open Classical in
/-- ks-lrep.c:84-127 EPSLREPLanczos_Teng with `k = 0`. -/
noncomputable def teng0 (K M : Mt n) (m : ℕ) (s : Tz n) : Option (OutT n) :=
  if gamT0 M s < 0 then none
  else if Real.sqrt (gamT0 M s) = 0 then some ⟨{ s with U := Function.update s.U 0 (M *ᵥ s.V 0) }, 1, true⟩
  else lanczosT K M 0 m 0 (normT0 M s)

/-- ks-lrep.c:474,493-503 with DSUpdateExtraRow_HEP and DSTruncate_HEP. -/
noncomputable def restartT (Q : ℕ → ℕ → ℝ) (th : ℕ → ℝ) (m p : ℕ) (s : Tz n) : Tz n where
  V := fun i => if i < p then ∑ r ∈ range m, Q r i • s.V r else if i = p then s.V m else s.V i
  U := fun i => if i < p then ∑ r ∈ range m, Q r i • s.U r else if i = p then s.U m else s.U i
  a := th
  b := fun i => s.b (m - 1) * Q (m - 1) i

/-- ks-lrep.c:456-516: states after complete factorizations of `m` columns, `k` kept by the last restart. -/
inductive RunT (K M : Mt n) (m : ℕ) (s0 : Tz n) : ℕ → Tz n → Prop
  | first (s : Tz n) : teng0 K M m s0 = some ⟨s, m, false⟩ → RunT K M m s0 0 s
  | next (k p : ℕ) (s s' : Tz n) (Q : ℕ → ℕ → ℝ) (th : ℕ → ℝ) : RunT K M m s0 k s → Diag (stored k s.a s.b) m Q th → 0 < p → p < m →
      lanczosT K M p (m - p) p (restartT Q th m p s) = some ⟨s', m, false⟩ → RunT K M m s0 p s'

/-! ## Variant ZHONG -/

/-- Bases and the arrays `alpha`, `beta`. -/
structure Zz (n : ℕ) where
  U : ℕ → Vr n
  V : ℕ → Vr n
  MU : ℕ → Vr n
  a : ℕ → ℝ
  b : ℕ → ℝ

/-- ks-lrep.c:129-142, 210-212: column `j` of `V` before normalization. -/
noncomputable def newZv (k j : ℕ) (s : Zz n) : Vr n :=
  s.MU j - ∑ i ∈ Ico (if j = k then 0 else j - 1) j, s.b i • s.V i

/-- ks-lrep.c:213-215. -/
noncomputable def gamZv (K : Mt n) (k j : ℕ) (s : Zz n) : ℝ := (K *ᵥ newZv k j s) ⬝ᵥ newZv k j s

/-- ks-lrep.c:207-224: first half of a pass; column `j+1` of `U` holds the product with `K`. -/
noncomputable def stepZv (K : Mt n) (k j : ℕ) (s : Zz n) : Zz n :=
  let be := Real.sqrt (gamZv K k j s)
  let sc : ℝ := if be = 0 then 1 else 1 / be
  { s with
    V := Function.update s.V j (sc • newZv k j s)
    U := Function.update s.U (j + 1) (sc • K *ᵥ newZv k j s)
    a := Function.update s.a j be }

/-- ks-lrep.c:157-170, 145-155: local step, then full pass against `U`. -/
noncomputable def newZu (j : ℕ) (s : Zz n) : Vr n :=
  let y := s.U (j + 1) - s.a j • s.U j
  y - ∑ i ∈ range (j + 1), (s.MU i ⬝ᵥ y) • s.U i

/-- ks-lrep.c:229-231. -/
noncomputable def gamZu (M : Mt n) (j : ℕ) (s : Zz n) : ℝ := (M *ᵥ newZu j s) ⬝ᵥ newZu j s

/-- ks-lrep.c:227-240: second half of a pass. -/
noncomputable def stepZu (M : Mt n) (j : ℕ) (s : Zz n) : Zz n :=
  let be := Real.sqrt (gamZu M j s)
  let sc : ℝ := if be = 0 then 1 else 1 / be
  { s with
    U := Function.update s.U (j + 1) (sc • newZu j s)
    MU := Function.update s.MU (j + 1) (sc • M *ᵥ newZu j s)
    b := Function.update s.b j be }

/-- Result of a factorization, `GEnd` as for the variant of Gruning (`zero1`: alpha, `zero2`: beta). -/
structure OutZ (n : ℕ) where
  s : Zz n
  m : ℕ
  e : GEnd

open Classical in
/-- ks-lrep.c:205-241. -/
noncomputable def lanczosZ (K M : Mt n) (k : ℕ) : ℕ → ℕ → Zz n → Option (OutZ n)
  | 0, j, s => some ⟨s, j, .full⟩
  | t + 1, j, s =>
    if gamZv K k j s < 0 then none
    else if Real.sqrt (gamZv K k j s) = 0 then some ⟨stepZv K k j s, j + 1, .zero1⟩
    else if gamZu M j (stepZv K k j s) < 0 then none
    else if Real.sqrt (gamZu M j (stepZv K k j s)) = 0 then some ⟨stepZu M j (stepZv K k j s), j + 1, .zero2⟩
    else lanczosZ K M k t (j + 1) (stepZu M j (stepZv K k j s))

/-- ks-lrep.c:191-193. -/
noncomputable def gamZ0 (M : Mt n) (s : Zz n) : ℝ := (M *ᵥ s.U 0) ⬝ᵥ s.U 0

/-- ks-lrep.c:198-199. -/
noncomputable def normZ0 (M : Mt n) (s : Zz n) : Zz n :=
  { s with
    U := Function.update s.U 0 ((1 / Real.sqrt (gamZ0 M s)) • s.U 0)
    MU := Function.update s.MU 0 ((1 / Real.sqrt (gamZ0 M s)) • M *ᵥ s.U 0) }

open Classical in
/-- ks-lrep.c:186-244 EPSLREPLanczos_Zhong with `k = 0`. -/
noncomputable def zhong0 (K M : Mt n) (m : ℕ) (s : Zz n) : Option (OutZ n) :=
  if gamZ0 M s < 0 then none
  else if Real.sqrt (gamZ0 M s) = 0 then some ⟨{ s with MU := Function.update s.MU 0 (M *ᵥ s.U 0) }, 1, .zero2⟩
  else lanczosZ K M 0 m 0 (normZ0 M s)

/-- ks-lrep.c:582,600-614 with DSUpdateExtraRow_SVD and DSTruncate_SVD: `W` is DS_MAT_V (for `U` and `MU`), `Z` is DS_MAT_U (for `V`). -/
noncomputable def restartZ (Z W : ℕ → ℕ → ℝ) (sg : ℕ → ℝ) (m p : ℕ) (s : Zz n) : Zz n where
  U := fun i => if i < p then ∑ r ∈ range m, W r i • s.U r else if i = p then s.U m else s.U i
  MU := fun i => if i < p then ∑ r ∈ range m, W r i • s.MU r else if i = p then s.MU m else s.MU i
  V := fun i => if i < p then ∑ r ∈ range m, Z r i • s.V r else s.V i
  a := sg
  b := fun i => s.b (m - 1) * Z (m - 1) i

/-- ks-lrep.c:562-629: states after complete factorizations. -/
inductive RunZ (K M : Mt n) (m : ℕ) (s0 : Zz n) : ℕ → Zz n → Prop
  | first (s : Zz n) : zhong0 K M m s0 = some ⟨s, m, .full⟩ → RunZ K M m s0 0 s
  | next (k p : ℕ) (s s' : Zz n) (Z W : ℕ → ℕ → ℝ) (sg : ℕ → ℝ) : RunZ K M m s0 k s → Svd (bidi k s.a s.b) m Z W sg → 0 < p → p < m →
      lanczosZ K M p (m - p) p (restartZ Z W sg m p s) = some ⟨s', m, .full⟩ → RunZ K M m s0 p s'

/-! ## Eigenvectors and eigenvalues -/

/-- ks-lrep.c:313-321: reduced form, variant TENG: top `lambda v`, bottom `u`. -/
def asmTeng (lambda : ℝ) (v u : Vr n) : Fin n ⊕ Fin n → ℝ := Sum.elim (lambda • v) u

/-- ks-lrep.c:340: reduced form, variant ZHONG. -/
def asmZhong (u v : Vr n) : Fin n ⊕ Fin n → ℝ := Sum.elim u v

/-- ks-lrep.c:288-291 EPSUnreduceVectors: w = v; v = u; u += w; v -= w. -/
def unred (x : Fin n ⊕ Fin n → ℝ) : Fin n ⊕ Fin n → ℝ :=
  let u := fun i => x (Sum.inl i)
  let w := fun i => x (Sum.inr i)
  Sum.elim (u + w) (u - w)

/-- shift.c:103-112 with EPSBackTransform_Default (called by EPSComputeValues, epssolve.c:40). -/
def backShift (sigma lambda : ℝ) : ℝ := lambda + sigma

/-- epssolve.c:493-500: value returned for index `i`, `val` are the computed values in the order of `perm`. -/
def getVal (val : ℕ → ℝ) (i : ℕ) : ℝ := if i % 2 = 1 then -val (i / 2) else val (i / 2)

/-- ks-lrep.c:478: eigenvalue from the eigenvalue of the projected matrix. -/
noncomputable def ritzT (th : ℕ → ℝ) (i : ℕ) : ℝ := Real.sqrt (th i)

/-- ks-lrep.c:498-499: column of the updated basis. -/
noncomputable def combT (m : ℕ) (Q : ℕ → ℕ → ℝ) (X : ℕ → Vr n) (i : ℕ) : Vr n := ∑ r ∈ range m, Q r i • X r

/-- epskrylov.c:213,223 with `corrf = 1` (called in ks-lrep.c:479): last component of the projected eigenvector times beta. -/
noncomputable def estT (s : Tz n) (m : ℕ) (Q : ℕ → ℕ → ℝ) (i : ℕ) : ℝ := |Q (m - 1) i| * s.b (m - 1)

/-- ks-lrep.c:452,481,490-491 with EPSStoppingBasic (epsdefault.c:286-298): `k` converged pairs, `nev` as given by the user. -/
def verdictL (bd : Bool) (k nev its maxit : ℕ) : Verdict :=
  if (nev + 1) / 2 ≤ k then .convergedTol else if maxit ≤ its then .divergedIts else if bd then .error else .iterate

end Verif.Lrep
