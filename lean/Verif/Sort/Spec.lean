import Verif.Sort.Model
import Mathlib.Algebra.Group.Basic
/-!
# Specification vocabulary for the eigenvalue sort

`IsGroup` says what "a real eigenvalue" or "a complex conjugate pair in adjacent positions" is for a
given build; it mentions only the arrays of real and imaginary parts.
-/
namespace Verif.Sort

/-- One unit of the spectrum, as a list of indices into `eigr`/`eigi`.
* a single index, when scalars are complex, or its imaginary part is zero, or (for
  `SlepcSortEigenvaluesSpecial`, `flg = true`) it is purely imaginary;
* two indices `p, q` holding complex conjugate values, with real scalars. -/
def IsGroup {R : Type} [AddGroup R] (c : Cfg) (eigr eigi : List R) (b : List Nat) : Prop :=
  (∃ p r i, b = [p] ∧ eigr[p]? = some r ∧ eigi[p]? = some i ∧
      (c.cplx = true ∨ i = 0 ∨ (c.flg = true ∧ r = 0))) ∨
  (∃ p q r i, b = [p, q] ∧ c.cplx = false ∧ eigr[p]? = some r ∧ eigr[q]? = some r ∧
      eigi[p]? = some i ∧ eigi[q]? = some (-i) ∧ i ≠ 0 ∧ (r ≠ 0 ∨ c.flg = false))

/-- The criterion ranks value `a` at least as good as `b` (result code not positive). -/
def Ranks {R : Type} (cmp : Cmp R) (a b : R × R) : Prop := cmp a.1 a.2 b.1 b.2 ≤ 0

/-- A consistent criterion: any two values are comparable and ranking is transitive. -/
structure Consistent {R : Type} (cmp : Cmp R) : Prop where
  total : ∀ a b, Ranks cmp a b ∨ Ranks cmp b a
  trans : ∀ a b c, Ranks cmp a b → Ranks cmp b c → Ranks cmp a c

/-- The criterion does not distinguish a value from its conjugate. -/
def ConjInvariant {R : Type} [Neg R] (cmp : Cmp R) : Prop :=
  ∀ r i, Ranks cmp (r, i) (r, -i) ∧ Ranks cmp (r, -i) (r, i)

/-- The eigenvalue with index `p` (as stored in the two arrays). -/
def value {R : Type} [Zero R] (eigr eigi : List R) (p : Nat) : R × R :=
  (eigr[p]?.getD 0, eigi[p]?.getD 0)

end Verif.Sort
