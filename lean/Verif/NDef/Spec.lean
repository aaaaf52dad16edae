import Verif.NDef.Lem

/-!
# Specification for the deflation of nonlinear eigenproblems

What it means that a vector of the code represents a vector of the extended problem, the deflated operator as one matrix, and the
sequences of accepted solutions.
-/

set_option linter.all false

namespace Verif.NDef
open Matrix

variable {ι : Type} [Fintype ι] [DecidableEq ι] {q : ℕ}

/-- the vector of the code holds `x` and, on every process, the entries of `t` divided by the root of the number of processes; all
    other entries are zero -/
def Rep (n : ℕ) (u : EVec ι q) (x : ι → ℂ) (t : Fin n → ℂ) : Prop :=
  u.x = x ∧ (∀ p (k : Fin n), u.t p k = t k / rt q) ∧ ∀ p k, n ≤ k → u.t p k = 0

/-- the deflated operator as a matrix -/
noncomputable def deflMat (P : Prob ι) (e : Ext ι) (simpU : Bool) (l : ℂ) : Matrix (ι ⊕ Fin e.n) (ι ⊕ Fin e.n) ℂ :=
  let S := shell P e simpU false l
  defl S.T S.U (e.Xm e.n) S.A S.B

/-- `(x,t)` with `l` is an exact solution of the deflated problem, all functions are defined at `l`, and the formula for the coupling block
    is applicable -/
def Sol (P : Prob ι) (e : Ext ι) (simpU : Bool) (l : ℂ) (x : ι → ℂ) (t : Fin e.n → ℂ) : Prop :=
  InΩ P l ∧ (simpU = true → simpOk (e.Hm e.n) l) ∧ deflMat P e simpU l *ᵥ Sum.elim x t = 0

/-- the states reached when exact solutions of the deflated problem are accepted one after the other, either directly
    (rii.c:141, slp.c:188, narnoldi.c:135) or after extraction of the eigenpair (rii.c:135-146, slp.c:182-196); with the list of the accepted eigenvalues.  The vector of
    the dense eigensolver is an eigenvector of the extended triangular matrix with non-zero last entry (back substitution). -/
inductive Run (P : Prob ι) (q mm : ℕ) (tgt : ℂ) (simpU : Bool) : Ext ι → List ℂ → Prop
  | init (X : ℕ → ι → ℂ) (sz : ℕ) : Run P q mm tgt simpU (initExt X sz) []
  | accept {e e' : Ext ι} {ls : List ℂ} {u : EVec ι q} {l : ℂ} {x : ι → ℂ} {t : Fin e.n → ℂ} :
      Run P q mm tgt simpU e ls → e.n ≤ e.szd → Rep e.n u x t → Sol P e simpU l x t → lock mm tgt e u l = some e' →
      Run P q mm tgt simpU e' (ls ++ [l])
  | extracted {e e1 e' : Ext ι} {ls : List ℂ} {u u1 : EVec ι q} {l : ℂ} {x : ι → ℂ} {t : Fin e.n → ℂ} {z : ℕ → ℂ} :
      Run P q mm tgt simpU e ls → e.n ≤ e.szd → Rep e.n u x t → Sol P e simpU l x t → extract e u l e.n z = some (e1, u1) →
      e1.Hm (e.n + 1) *ᵥ (fun k => z k) = l • (fun k : Fin (e.n + 1) => z k) → z e.n ≠ 0 → lock mm tgt e1 u1 l = some e' →
      Run P q mm tgt simpU e' (ls ++ [l])

/-- `(l, x)` is an eigenpair of the original problem -/
def IsEig (P : Prob ι) (l : ℂ) (x : ι → ℂ) : Prop := x ≠ 0 ∧ P.T l *ᵥ x = 0

end Verif.NDef
