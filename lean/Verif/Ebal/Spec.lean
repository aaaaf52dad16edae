import Verif.Ebal.Model
/-!
Specification for balancing.
-/
set_option linter.all false
namespace Verif.Ebal
noncomputable section
open Classical

/-- `x` is an eigenvector of the operator `F`. -/
def RightEig {n : ℕ} (F : Vc n → Vc n) (lam : ℂ) (x : Vc n) : Prop := x ≠ 0 ∧ F x = lam • x

/-- `w` is a left eigenvector of the operator `F`: `w* F = lam w*`. -/
def LeftEig {n : ℕ} (F : Vc n → Vc n) (lam : ℂ) (w : Vc n) : Prop :=
  w ≠ 0 ∧ ∀ x, ∑ i, star (w i) * F x i = lam * ∑ i, star (w i) * x i

/-- The vectors are a basis of an invariant subspace of `F`. -/
def InvBasis {n k : ℕ} (F : Vc n → Vc n) (V : Fin k → Vc n) : Prop :=
  LinearIndependent ℂ V ∧ ∀ i, F (V i) ∈ Submodule.span ℂ (Set.range V)

/-- Orthogonalization keeps the span and gives independent vectors. -/
def OrthSpec {n k : ℕ} (orth : (Fin k → Vc n) → Fin k → Vc n) : Prop :=
  ∀ V, LinearIndependent ℂ V → LinearIndependent ℂ (orth V) ∧ Submodule.span ℂ (Set.range (orth V)) = Submodule.span ℂ (Set.range V)

/-- Positive real number. -/
def Pos (c : ℂ) : Prop := ∃ a : ℝ, 0 < a ∧ c = (a : ℂ)

/-- Every balancing matrix given by the user is set while the solver is not set up, and the method USER is not selected. -/
def Orderly {n : ℕ} : EPS n → List (Call n) → Prop
  | _, [] => True
  | s, c :: cs => (∀ D, c = .setUserD D → s.stage = .initial) ∧ (∀ i t, c ≠ .setBalance .user i t) ∧ Orderly (step s c) cs

/-- Product of row `i` of the balanced matrix `D S D⁻¹` with `z`. -/
def rowQty {n : ℕ} (S : Matrix (Fin n) (Fin n) ℂ) (D z : Vc n) (i : Fin n) : ℂ := ∑ k, (D i * S i k / D k) * z k

/-- Product of the conjugate of column `i` of the balanced matrix `D S D⁻¹`, for real `D`, with `z`. -/
def colQty {n : ℕ} (S : Matrix (Fin n) (Fin n) ℂ) (D z : Vc n) (i : Fin n) : ℂ := ∑ k, (D k * star (S k i) / D i) * z k

/-- Value of an argument of `EPSSetBalance`. -/
def argVal {α : Type} (p : Par α) (dflt cur : α) : α :=
  match p with
  | .determine => dflt
  | .current => cur
  | .val a => a

/-- What a set-up with the given settings should produce. -/
def wantedD {n : ℕ} (herm : Bool) (bal : Bal) (its : ℕ) (cutoff : ℝ) (S : Matrix (Fin n) (Fin n) ℂ) (z : ℕ → Vc n) : Option (Vc n) :=
  if herm = false ∧ (bal = .oneside ∨ bal = .twoside) then some (build bal its cutoff S z) else none

end
end Verif.Ebal
