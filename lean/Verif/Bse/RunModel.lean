import Verif.Bse.Model

/-!
Restart cycles, assembly of eigenvectors and decision after a breakdown (ks-bse.c). The dense solver DSHEP is an input constrained by its
specification. Without locked columns (`nconv` is 0 between cycles, as in the non-locking variant).
-/
set_option linter.all false

namespace Verif.Bse

open Finset Matrix

variable {n : ℕ}

/-- Specification of DSSolve for DSHEP (ks-bse.c:763): orthonormal eigenvectors of the stored matrix. -/
structure Diag (T : ℕ → ℕ → ℝ) (m : ℕ) (Q : ℕ → ℕ → ℝ) (th : ℕ → ℝ) : Prop where
  ortho : ∀ i < m, ∀ l < m, ∑ r ∈ range m, Q r i * Q r l = if i = l then 1 else 0
  eig : ∀ i < m, ∀ r < m, ∑ c ∈ range m, T r c * Q c i = th i * Q r i

/-- dshep.c:50-76 (DSSwitchFormat_HEP, compact storage): the matrix represented by the arrays `a`, `b` with `ds->k = k`, diagonal, arrow in
row and column `k`, tridiagonal afterwards. -/
def stored (k : ℕ) (a b : ℕ → ℝ) (i j : ℕ) : ℝ :=
  if i = j then a i
  else if i < j then (if (i < k ∧ j = k) ∨ (k ≤ i ∧ j = i + 1) then b i else 0)
  else (if (j < k ∧ i = k) ∨ (k ≤ j ∧ i = j + 1) then b j else 0)

/-- ks-bse.c:747-807: states after complete factorizations of `m` columns, `k` columns were kept by the last restart. -/
inductive Run (app : ℝ → Vc n → Vc n) (m : ℕ) (s0 : Lz n) : ℕ → Lz n → Prop
  | first (s : Lz n) : shao0 app m s0 = some ⟨s, m, false⟩ → Run app m s0 0 s
  | next (k p : ℕ) (s s' : Lz n) (Q : ℕ → ℕ → ℝ) (th : ℕ → ℝ) : Run app m s0 k s → Diag (stored k s.a s.b) m Q th → 0 < p → p < m →
      lanczos app p (m - p) p (restart Q th m p s) = some ⟨s', m, false⟩ → Run app m s0 p s'

/-- ks-bse.c:204-206: VecAYPX(u1,lambda,v1), VecAYPX(v1,-2,u1), VecConjugate(v1). -/
def asmShao (lambda : ℂ) (u v : Vc n) : Fin n ⊕ Fin n → ℂ :=
  Sum.elim (v + lambda • u) (star ((v + lambda • u) + (-2 : ℂ) • v))

/-- ks-bse.c:422-425: VecAXPY(u1,1,v1), VecAYPX(v1,-2,u1), VecConjugate(v1). -/
def asmGruning (u v : Vc n) : Fin n ⊕ Fin n → ℂ := Sum.elim (u + v) (star ((u + v) + (-2 : ℂ) • v))

/-- ks-bse.c:643-654. -/
def asmProj (lambda : ℂ) (x y : Vc n) : Fin n ⊕ Fin n → ℂ :=
  Sum.elim ((lambda + 1) • x + (lambda - 1) • star y) ((lambda + 1) • y + (lambda - 1) • star x)

/-- ks-bse.c:769: eigenvalue from the eigenvalue of the projected matrix. -/
noncomputable def ritz (th : ℕ → ℝ) (i : ℕ) : ℝ := Real.sqrt (th i)

/-- ks-bse.c:789-790: column of the updated basis. -/
noncomputable def comb (m : ℕ) (Q : ℕ → ℕ → ℝ) (U : ℕ → Vc n) (i : ℕ) : Vc n := ∑ r ∈ range m, (Q r i : ℂ) • U r

/-- epskrylov.c:213,223 with `corrf = 1`: residual estimate (last component of the projected eigenvector times beta). -/
noncomputable def est (s : Lz n) (m : ℕ) (Q : ℕ → ℕ → ℝ) (i : ℕ) : ℝ := |Q (m - 1) i| * s.b (m - 1)

/-- sinvert.c:48-70 STBackTransform_Sinvert (real values). -/
noncomputable def backSinvert (sigma mu : ℝ) : ℝ := 1 / mu + sigma

/-- What a cycle leads to. -/
inductive Verdict
  | convergedTol | divergedIts | error | iterate
  deriving DecidableEq

/-- ks-bse.c:743,772,781-782 with EPSStoppingBasic (epsdefault.c:286-298): `k` converged pairs, `nev` as given by the user. -/
def verdict (bd : Bool) (k nev its maxit : ℕ) : Verdict :=
  if (nev + 1) / 2 ≤ k then .convergedTol else if maxit ≤ its then .divergedIts else if bd then .error else .iterate

/-- epskrylov.c:199-242 without trackall: first index, from `k` on, whose error estimate is not below the tolerance. -/
noncomputable def firstFail (err : ℕ → ℝ) (tol : ℝ) : ℕ → ℕ → ℕ
  | 0, k => k
  | t + 1, k => if tol ≤ err k then k else firstFail err tol t (k + 1)

end Verif.Bse
