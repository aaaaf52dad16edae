import Verif.DS.SortModel
/-! Specification vocabulary for the sorts of the DS object. -/
set_option linter.all false
namespace Verif.DS
variable {V : Type}

/-- One unit of the spectrum: an index whose value is not a member of a pair, or two indices whose
values both are (the second value being the conjugate of the first). -/
def IsGroup (pr : V → Bool) (conj : V → V) (val : List V) (b : List Nat) : Prop :=
  (∃ p v, b = [p] ∧ val[p]? = some v ∧ pr v = false) ∨
  (∃ p q v, b = [p, q] ∧ val[p]? = some v ∧ val[q]? = some (conj v) ∧ pr v = true ∧
    pr (conj v) = true)

/-- A consistent criterion: comparisons in the two orders agree, and ranking is transitive. -/
structure VConsistent (cmp : VCmp V) : Prop where
  anti : ∀ a b, cmp a b < 0 ↔ 0 < cmp b a
  trans : ∀ a b c, cmp a b ≤ 0 → cmp b c ≤ 0 → cmp a c ≤ 0

/-- The criterion does not distinguish a value from its conjugate. -/
def VConj (cmp : VCmp V) (pr : V → Bool) (conj : V → V) : Prop :=
  ∀ v, pr v = true → cmp v (conj v) = 0

/-- The value stored at `p` ranks at least as good as the one at `q`. -/
def RanksAt (cmp : VCmp V) (val : List V) (p q : Nat) : Prop :=
  ∃ v w, val[p]? = some v ∧ val[q]? = some w ∧ cmp v w ≤ 0

end Verif.DS
