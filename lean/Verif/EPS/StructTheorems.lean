import Verif.EPS.StructModel
import Mathlib.Tactic.Linarith
import Mathlib.Tactic.Module
import Mathlib.Tactic.NormNum
import Mathlib.Tactic.FieldSimp

/-!
# C34: structured spectra are returned in complete symmetric groups
-/
set_option linter.all false

namespace Verif.EPS

open Classical

variable {V : Type*}

theorem range_double {α : Type*} (g : Nat → α) (n : Nat) :
    (List.range (2 * n)).map g = (List.range n).flatMap fun j => [g (2 * j), g (2 * j + 1)] := by
  induction n with
  | zero => rfl
  | succ n ih =>
    rw [show 2 * (n + 1) = 2 * n + 1 + 1 by ring, List.range_succ, List.range_succ, List.range_succ]
    simp [ih]

/-- **C34, Bethe-Salpeter and linear response.** The list of all returned eigenvalues consists, for each
stored value λ (real), of λ followed by −λ. -/
theorem C34_pm (s : Store V) (h0 : ∀ j, j < s.nconv → s.ei (s.perm j) = 0) :
    (List.range (actualConverged s true)).map (pmEig s)
      = ((List.range s.nconv).map fun j => s.er (s.perm j)).flatMap fun r => [(r, 0), (-r, 0)] := by
  unfold actualConverged
  rw [if_pos rfl, range_double, List.flatMap_map]
  apply List.flatMap_congr
  intro j hj
  have hj' := List.mem_range.1 hj
  unfold pmEig
  have a : 2 * j / 2 = j := by omega
  have b : (2 * j + 1) / 2 = j := by omega
  have c : 2 * j % 2 = 0 := by omega
  have d : (2 * j + 1) % 2 = 1 := by omega
  simp [a, b, c, d, h0 j hj']

example : (List.range (actualConverged ⟨2, 5, fun _ => 3, fun _ => 0, id, fun _ => 0⟩ true : Nat)) = [0, 1, 2, 3] := by decide

/-- Symmetric groups of a real Hamiltonian matrix. -/
inductive Group
  | real (r : ℝ)
  | imag (m : ℝ)
  | quad (a b : ℝ)

/-- The eigenvalues of a group that the solver stores: one of a real or purely imaginary pair, and a conjugate
pair of a quadruple. -/
def Group.stored : Group → List (ℝ × ℝ)
  | .real r => [(r, 0)]
  | .imag m => [(0, m)]
  | .quad a b => [(a, b), (a, -b)]

/-- All eigenvalues of a group, in the order in which they are returned: λ, −λ for real and imaginary ones,
−conj λ, −λ, λ, conj λ for quadruples. -/
def Group.all : Group → List (ℝ × ℝ)
  | .real r => [(r, 0), (-r, 0)]
  | .imag m => [(0, m), (0, -m)]
  | .quad a b => [(-a, b), (-a, -b), (a, b), (a, -b)]

/-- Groups are given by their proper kind. -/
def Group.Proper : Group → Prop
  | .real _ => True
  | .imag m => m ≠ 0
  | .quad a b => a ≠ 0 ∧ b ≠ 0

/-- Two groups next to each other are not the same quadruple. -/
def Group.Apart : Group → Group → Prop
  | .quad a b, .quad a' b' => ¬ (a = a' ∧ b = b')
  | _, _ => True

/-- Value for one index from the stored value and the previous stored value. -/
noncomputable def hamVal (prev : Option (ℝ × ℝ)) (c : ℝ × ℝ) (odd : Bool) : ℝ × ℝ :=
  let q := (if odd then 1 else 0) + (match prev with
    | some p => if c.1 = p.1 ∧ c.2 = -p.2 then 2 else 0
    | none => 0)
  if c.2 = 0 then (if odd then -c.1 else c.1, 0)
  else if c.1 = 0 then (0, if odd then -c.2 else c.2)
  else (if q < 2 then -c.1 else c.1, if q % 3 = 0 then c.2 else -c.2)

noncomputable def hamGo : Option (ℝ × ℝ) → List (ℝ × ℝ) → List (ℝ × ℝ)
  | _, [] => []
  | p, c :: l => hamVal p c false :: hamVal p c true :: hamGo (some c) l

theorem hamGo_range (f : Nat → ℝ × ℝ) (p : Option (ℝ × ℝ)) (n : Nat) :
    (List.range n).flatMap (fun j => [hamVal (if j = 0 then p else some (f (j - 1))) (f j) false,
      hamVal (if j = 0 then p else some (f (j - 1))) (f j) true]) = hamGo p ((List.range n).map f) := by
  induction n generalizing f p with
  | zero => rfl
  | succ n ih =>
    rw [List.range_succ_eq_map]
    simp only [List.flatMap_cons, List.map_cons, if_true, hamGo, List.flatMap_map, List.map_map]
    have := ih (f ∘ Nat.succ) (some (f 0))
    simp only [List.cons_append, List.nil_append]
    congr 2
    rw [← this]
    apply List.flatMap_congr
    intro j hj
    rcases Nat.eq_zero_or_pos j with h | h
    · subst h; simp
    · have e : j - 1 + 1 = j := by omega
      simp [Function.comp, h.ne', e]

theorem hamEig_list (s : Store V) :
    (List.range (2 * s.nconv)).map (hamEig s) = hamGo none ((List.range s.nconv).map fun j => (s.er (s.perm j), s.ei (s.perm j))) := by
  rw [range_double, ← hamGo_range]
  apply List.flatMap_congr
  intro j hj
  have a : 2 * j / 2 = j := by omega
  have b : (2 * j + 1) / 2 = j := by omega
  have c : 2 * j % 2 = 0 := by omega
  have d : (2 * j + 1) % 2 = 1 := by omega
  rcases Nat.eq_zero_or_pos j with h | h
  · subst h
    simp [hamEig, hamVal, iquad]
  · have e : (2 * j - 2) / 2 = j - 1 := by omega
    have f : (2 * j + 1 - 2) / 2 = j - 1 := by omega
    have g : 1 < 2 * j := by omega
    have g' : 1 < 2 * j + 1 := by omega
    have t1 : iquad s (2 * j) = 0 + (if s.er (s.perm j) = s.er (s.perm (j - 1)) ∧ s.ei (s.perm j) = -s.ei (s.perm (j - 1)) then 2 else 0) := by
      unfold iquad
      simp only [a, c, e, g, true_and]
      split_ifs <;> rfl
    have t2 : iquad s (2 * j + 1) = 1 + (if s.er (s.perm j) = s.er (s.perm (j - 1)) ∧ s.ei (s.perm j) = -s.ei (s.perm (j - 1)) then 2 else 0) := by
      unfold iquad
      simp only [b, d, f, g', true_and]
      split_ifs <;> rfl
    unfold hamEig hamVal
    simp only [t1, t2, a, b, c, d, if_neg h.ne', if_true, if_false, Nat.zero_ne_one, Bool.false_eq_true]

theorem hamGo_groups (gs : List Group) (p : Option (ℝ × ℝ)) (hp : ∀ g ∈ gs, g.Proper)
    (hc : gs.IsChain Group.Apart)
    (hprev : ∀ q a b, p = some q → gs.head? = some (.quad a b) → ¬ (a = q.1 ∧ b = -q.2)) :
    hamGo p (gs.flatMap Group.stored) = gs.flatMap Group.all := by
  induction gs generalizing p with
  | nil => rfl
  | cons g gs ih =>
    have hp' : ∀ g ∈ gs, g.Proper := fun x hx => hp x (List.mem_cons_of_mem _ hx)
    have hg := hp g List.mem_cons_self
    have hc' : gs.IsChain Group.Apart := hc.tail
    rw [List.flatMap_cons, List.flatMap_cons]
    cases g with
    | real r =>
      simp only [Group.stored, Group.all, List.cons_append, List.nil_append, hamGo]
      rw [ih _ hp' hc' ?_]
      · simp [hamVal]
      · intro q a b hq hh
        have hx := hp' _ (List.mem_of_mem_head? hh)
        rintro ⟨_, h2⟩
        cases hq
        simp at h2
        exact hx.2 h2
    | imag m =>
      simp only [Group.stored, Group.all, List.cons_append, List.nil_append, hamGo]
      have hm : m ≠ 0 := hg
      rw [ih _ hp' hc' ?_]
      · simp [hamVal, hm]
      · intro q a b hq hh
        have hx := hp' _ (List.mem_of_mem_head? hh)
        rintro ⟨h1, _⟩
        cases hq
        exact hx.1 h1
    | quad a b =>
      obtain ⟨h1, h2⟩ : a ≠ 0 ∧ b ≠ 0 := hg
      simp only [Group.stored, Group.all, List.cons_append, List.nil_append, hamGo]
      rw [ih _ hp' hc' ?_]
      · have q1 : ∀ odd, hamVal p (a, b) odd = (-a, if odd then -b else b) := by
          intro odd
          unfold hamVal
          cases p with
          | none => cases odd <;> simp [h1, h2]
          | some q =>
            have := hprev q a b rfl rfl
            cases odd <;> simp [h1, h2, this]
        rw [q1, q1]
        have q2 : ∀ odd, hamVal (some (a, b)) (a, -b) odd = (a, if odd then -b else b) := by
          intro odd
          unfold hamVal
          cases odd <;> simp [h1, h2]
        rw [q2, q2]
        simp
      · intro q a' b' hq hh
        cases hq
        simp only [neg_neg]
        cases gs with
        | nil => simp at hh
        | cons x xs =>
          simp at hh
          subst hh
          have := hc.rel_head
          unfold Group.Apart at this
          rintro ⟨e1, e2⟩
          exact this ⟨e1.symm, e2.symm⟩

/-- **C34, Hamiltonian problems (real arithmetic).** If the stored eigenvalues are, in the order of the permutation,
those of a sequence of symmetric groups in which no quadruple is immediately repeated, then the list of all
returned eigenvalues consists of all members of the groups, each once. -/
theorem C34_hamilt_partial (s : Store V) (gs : List Group) (hp : ∀ g ∈ gs, g.Proper) (hc : gs.IsChain Group.Apart)
    (hs : (List.range s.nconv).map (fun j => (s.er (s.perm j), s.ei (s.perm j))) = gs.flatMap Group.stored) :
    (List.range (actualConverged s true)).map (hamEig s) = gs.flatMap Group.all := by
  unfold actualConverged
  rw [if_pos rfl, hamEig_list, hs]
  exact hamGo_groups gs none hp hc (fun q a b h => by cases h)

/-- a quadruple 1±2i followed by a real pair meets the hypotheses -/
example : (∀ g ∈ [Group.quad 1 2, Group.real 5], g.Proper) ∧ [Group.quad 1 2, Group.real 5].IsChain Group.Apart := by
  constructor
  · intro g hg
    simp at hg
    rcases hg with rfl | rfl <;> simp [Group.Proper]
  · simp [Group.Apart]

/-- **C34 fails for a repeated quadruple**: for two copies of 1±2i the values −1±2i are returned only once. -/
theorem C34_hamilt_false : ¬ ∀ (s : Store ℝ) (gs : List Group), (∀ g ∈ gs, g.Proper) →
    (List.range s.nconv).map (fun j => (s.er (s.perm j), s.ei (s.perm j))) = gs.flatMap Group.stored →
    ((List.range (actualConverged s true)).map (hamEig s)).Perm (gs.flatMap Group.all) := by
  intro h
  have := h ⟨4, 10, fun _ => 1, fun j => if j % 2 = 0 then 2 else -2, id, fun _ => 0⟩ [.quad 1 2, .quad 1 2]
    (by intro g hg; simp at hg; subst hg; norm_num [Group.Proper]) (by simp [List.range_succ, Group.stored])
  have h2 := this.countP_eq (fun z => decide (z.1 = -1))
  have e : ∀ i : Nat, 4 ≤ i → i < 8 → hamEig (⟨4, 10, fun _ => 1, fun j => if j % 2 = 0 then 2 else -2, id, fun _ => 0⟩ : Store ℝ) i
      = (1, if i = 4 ∨ i = 7 then -2 else 2) := by
    intro i h4 h8
    have : i = 4 ∨ i = 5 ∨ i = 6 ∨ i = 7 := by omega
    rcases this with rfl | rfl | rfl | rfl <;> norm_num [hamEig, iquad]
  have e' : ∀ i : Nat, i < 4 → (hamEig (⟨4, 10, fun _ => 1, fun j => if j % 2 = 0 then 2 else -2, id, fun _ => 0⟩ : Store ℝ) i).1
      = if i < 2 then -1 else 1 := by
    intro i h4
    have : i = 0 ∨ i = 1 ∨ i = 2 ∨ i = 3 := by omega
    rcases this with rfl | rfl | rfl | rfl <;> norm_num [hamEig, iquad]
  have n1 : ¬ ((1 : ℝ) = -1) := by norm_num
  simp [actualConverged, List.range_succ, Group.all, List.countP_cons, e, e', n1] at h2

end Verif.EPS
