import Verif.DS.SchurLemmas
/-!
C58: `DSSort` of a nonsymmetric projected problem sorts the diagonal blocks of the Schur form, keeps the
leading `l` rows as they are, never separates a complex conjugate pair and is stable.
C59: `DSSortWithPermutation` brings the blocks to the order the caller gives.
-/
set_option linter.all false
namespace Verif.DS
variable {B V : Type}

/-- **C58.** Let the Schur form have the diagonal blocks `locked ++ rest`, with `l` the number of rows of
`locked`, 2x2 blocks being exactly those with a complex eigenvalue. `DSSort` with a consistent criterion
leaves `locked` in place and rearranges `rest` in such a way that the eigenvalues come in the order of the
criterion, and blocks the criterion considers equal keep their relative order. -/
theorem C58_sort (cmp : VCmp V) (hc : VConsistent cmp) (pr : V → Bool) (two : B → Bool) (v : B → V)
    (conj : V → V) (hpr : ∀ c, pr (v c) = two c) (locked rest : List B) :
    ∃ rest', sortTotal cmp pr two v conj (size two locked) (locked ++ rest) = some (locked ++ rest') ∧
      rest'.Perm rest ∧ rest'.Pairwise (fun a b => cmp (v a) (v b) ≤ 0) ∧
      ∀ x : V, rest'.filter (fun c => decide (cmp (v c) x = 0)) =
        rest.filter (fun c => decide (cmp (v c) x = 0)) :=
  sortTotalLoop_spec cmp hc pr two v conj hpr rest.length rest locked _ rfl (by rw [size_append]; omega)

/-- First row of a block in a Schur form. -/
def startOf [DecidableEq B] (two : B → Bool) : List B → B → Nat
  | [], _ => 0
  | x :: xs, c => if x = c then 0 else sz two x + startOf two xs c

/-- The rows of a block, in increasing order. -/
def rowsOf [DecidableEq B] (two : B → Bool) (bs : List B) (c : B) : List Nat :=
  if two c then [startOf two bs c, startOf two bs c + 1] else [startOf two bs c]

theorem startOf_split [DecidableEq B] (two : B → Bool) (a : List B) (c : B) (b : List B) (h : c ∉ a) :
    startOf two (a ++ c :: b) c = size two a := by
  induction a with
  | nil => simp [startOf, size]
  | cons x a ih =>
    simp only [List.mem_cons, not_or] at h
    rw [List.cons_append, startOf, if_neg (fun e => h.1 e.symm), ih h.2, size]

theorem mapIdx_eq_map {α β : Type} (g : Nat → α → β) (f : α → β) (l : List α)
    (h : ∀ j q, j < l.length → g j q = f q) : l.mapIdx g = l.map f := by
  induction l generalizing g with
  | nil => rfl
  | cons x l ih =>
    rw [List.mapIdx_cons, List.map_cons, h 0 x (by simp), ih]
    intro j q hj
    exact h (j + 1) q (by simpa using hj)

theorem length_flatMap_rowsOf [DecidableEq B] (two : B → Bool) (bs τ : List B) :
    (τ.flatMap (rowsOf two bs)).length = size two τ := by
  induction τ with
  | nil => rfl
  | cons c τ ih =>
    rw [List.flatMap_cons, List.length_append, ih, size]
    congr 1
    unfold rowsOf sz
    cases two c <;> rfl

/-- Moving one block to the front of the unsorted part renumbers the rows of the others as the code
does. -/
theorem renumber [DecidableEq B] (two : B → Bool) (d a : List B) (c : B) (b : List B)
    (hn : (d ++ (a ++ c :: b)).Nodup) (τ : List B) (hτ : ∀ x ∈ τ, x ∈ a ++ b) :
    (τ.flatMap (rowsOf two (d ++ (a ++ c :: b)))).map (fun q =>
        if size two d ≤ q ∧ q < size two d + size two a then q + sz two c else q)
      = τ.flatMap (rowsOf two (d ++ (c :: (a ++ b)))) := by
  induction τ with
  | nil => rfl
  | cons x τ ih =>
    rw [List.flatMap_cons, List.flatMap_cons, List.map_append, ih (fun y hy => hτ y (List.mem_cons_of_mem _ hy))]
    congr 1
    have hx := hτ x List.mem_cons_self
    rw [List.nodup_append] at hn
    obtain ⟨hd, hr, hdis⟩ := hn
    rw [List.nodup_append] at hr
    obtain ⟨ha, hcb, hdis2⟩ := hr
    rw [List.nodup_cons] at hcb
    rcases List.mem_append.1 hx with hxa | hxb
    · obtain ⟨a1, a2, rfl⟩ := List.append_of_mem hxa
      have hx1 : x ∉ a1 := by
        intro h
        rw [List.nodup_append] at ha
        exact ha.2.2 x h x (by simp) rfl
      have hxd : x ∉ d := fun h => hdis x h x (by simp) rfl
      have hxc : x ≠ c := hdis2 x (by simp) c (by simp)
      have s1 : startOf two (d ++ ((a1 ++ x :: a2) ++ c :: b)) x = size two d + size two a1 := by
        rw [show d ++ ((a1 ++ x :: a2) ++ c :: b) = (d ++ a1) ++ x :: (a2 ++ c :: b) by simp,
          startOf_split two _ _ _ (by simp [hxd, hx1]), size_append]
      have s2 : startOf two (d ++ (c :: ((a1 ++ x :: a2) ++ b))) x = size two d + sz two c + size two a1 := by
        rw [show d ++ (c :: ((a1 ++ x :: a2) ++ b)) = (d ++ c :: a1) ++ x :: (a2 ++ b) by simp,
          startOf_split two _ _ _ (by simp [hxd, hx1, hxc]), size_append]
        simp only [size]; omega
      have e : size two (a1 ++ x :: a2) = size two a1 + (sz two x + size two a2) := by rw [size_append]; rfl
      unfold rowsOf
      rw [s1, s2, e]
      cases h : two x with
      | false =>
        have : sz two x = 1 := by simp [sz, h]
        simp only [Bool.false_eq_true, if_false, List.map_cons, List.map_nil]
        rw [if_pos (by omega)]
        congr 1; omega
      | true =>
        have : sz two x = 2 := by simp [sz, h]
        simp only [if_true, List.map_cons, List.map_nil]
        rw [if_pos (by omega), if_pos (by omega)]
        congr 1
        · omega
        · congr 1; omega
    · obtain ⟨b1, b2, rfl⟩ := List.append_of_mem hxb
      have hx1 : x ∉ b1 := by
        intro h
        have := hcb.2
        rw [List.nodup_append] at this
        exact this.2.2 x h x (by simp) rfl
      have hxd : x ∉ d := fun h => hdis x h x (by simp) rfl
      have hxa : x ∉ a := fun h => hdis2 x h x (by simp) rfl
      have hxc : x ≠ c := by rintro rfl; exact hcb.1 (by simp)
      have s1 : startOf two (d ++ (a ++ c :: (b1 ++ x :: b2))) x
          = size two d + size two a + sz two c + size two b1 := by
        rw [show d ++ (a ++ c :: (b1 ++ x :: b2)) = (d ++ a ++ c :: b1) ++ x :: b2 by simp,
          startOf_split two _ _ _ (by simp [hxd, hxa, hxc, hx1])]
        simp only [size_append, size]; omega
      have s2 : startOf two (d ++ (c :: (a ++ (b1 ++ x :: b2)))) x
          = size two d + size two a + sz two c + size two b1 := by
        rw [show d ++ (c :: (a ++ (b1 ++ x :: b2))) = (d ++ c :: (a ++ b1)) ++ x :: b2 by simp,
          startOf_split two _ _ _ (by simp [hxd, hxa, hxc, hx1])]
        simp only [size_append, size]; omega
      unfold rowsOf
      rw [s1, s2]
      cases h : two x with
      | false =>
        simp only [Bool.false_eq_true, if_false, List.map_cons, List.map_nil]
        rw [if_neg (by omega)]
      | true =>
        simp only [if_true, List.map_cons, List.map_nil]
        rw [if_neg (by omega), if_neg (by omega)]

theorem sortPermLoop_spec [DecidableEq B] (cplx : Bool) (two : B → Bool) (len : Nat) :
    ∀ (d rest τ : List B) (P : List Nat) (fuel : Nat), τ.length = len → rest.Perm τ → (d ++ rest).Nodup →
    (cplx = true → ∀ c ∈ rest, two c = false) → P.length = size two d → size two rest ≤ fuel →
    ∃ perm', sortPermLoop cplx two (size two (d ++ rest)) fuel (size two d)
      (P ++ τ.flatMap (rowsOf two (d ++ rest))) (d ++ rest) = some (some (perm', d ++ τ)) := by
  induction len with
  | zero =>
    intro d rest τ P fuel hl hp hn hcx hP hf
    have hτ : τ = [] := List.length_eq_zero_iff.1 hl
    subst hτ
    have hr := hp.eq_nil
    subst hr
    cases fuel with
    | zero => exact ⟨_, rfl⟩
    | succ fuel => rw [sortPermLoop, if_neg (by simp)]; exact ⟨_, rfl⟩
  | succ len ih =>
    intro d rest τ P fuel hl hp hn hcx hP hf
    obtain ⟨c, τ, rfl⟩ : ∃ c cs, τ = c :: cs := by
      cases τ with
      | nil => simp at hl
      | cons c cs => exact ⟨c, cs, rfl⟩
    have hlen : τ.length = len := by simpa using hl
    obtain ⟨a, b, rfl⟩ := List.append_of_mem (hp.mem_iff.2 List.mem_cons_self)
    have hp' : (a ++ b).Perm τ := by
      have := (List.perm_middle (a := c) (l₁ := a) (l₂ := b)).symm.trans hp
      exact this.cons_inv
    have hsz := sz_pos two c
    have hsize : size two (d ++ (a ++ c :: b)) = size two d + size two a + sz two c + size two b := by
      simp only [size_append, size]; omega
    have hsize2 : size two ((d ++ [c]) ++ (a ++ b)) = size two (d ++ (a ++ c :: b)) := by
      simp only [size_append, size]; omega
    have hf' : size two a + sz two c + size two b ≤ fuel := by
      rw [size_append] at hf; simp only [size] at hf; omega
    have hca : c ∉ a := by
      intro h
      rw [List.nodup_append, List.nodup_append] at hn
      exact hn.2.1.2.2 c h c (by simp) rfl
    have hcd : c ∉ d := by
      intro h
      rw [List.nodup_append] at hn
      exact hn.2.2 c h c (by simp) rfl
    have hst : startOf two (d ++ (a ++ c :: b)) c = size two d + size two a := by
      rw [← List.append_assoc, startOf_split two _ _ _ (by simp [hcd, hca]), size_append]
    have hnod : ((d ++ [c]) ++ (a ++ b)).Nodup := by
      refine (List.Perm.nodup_iff ?_).1 hn
      rw [List.append_assoc]
      exact (List.perm_middle (a := c) (l₁ := a) (l₂ := b)).append_left d
    cases fuel with
    | zero => omega
    | succ fuel =>
      by_cases hlast : size two d + 1 < size two (d ++ (a ++ c :: b))
      · have hsd : subdiag two (d ++ (a ++ c :: b)) (size two d + size two a) = false := by
          have := subdiag_start two (d ++ a) (c :: b)
          rwa [List.append_assoc, size_append] at this
        have hsd1 : subdiag two (d ++ (a ++ c :: b)) (size two d + size two a + 1) = two c := by
          have := subdiag_next two (d ++ a) c b
          rwa [List.append_assoc, size_append] at this
        have hinc : (if cplx = true then 1 else if size two d + size two a < size two (d ++ (a ++ c :: b)) - 1 ∧
            subdiag two (d ++ (a ++ c :: b)) (size two d + size two a + 1) = true then 2 else 1) = sz two c := by
          rw [hsd1]
          cases hcx' : cplx with
          | true =>
            have := hcx hcx' c (by simp)
            simp [sz, this]
          | false =>
            cases h2 : two c with
            | false => simp [sz, h2]
            | true =>
              have hs2 : sz two c = 2 := by simp [sz, h2]
              rw [hs2]
              simp only [Bool.false_eq_true, if_false, and_true]
              rw [if_pos (by omega)]
        have hP0 : (P ++ (c :: τ).flatMap (rowsOf two (d ++ (a ++ c :: b))))[size two d]?
            = some (size two d + size two a) := by
          rw [List.getElem?_append_right (by omega), hP, Nat.sub_self, List.flatMap_cons]
          unfold rowsOf
          rw [hst]
          cases two c <;> rfl
        have hlenp : (P ++ (c :: τ).flatMap (rowsOf two (d ++ (a ++ c :: b)))).length
            = size two (d ++ (a ++ c :: b)) := by
          rw [List.length_append, length_flatMap_rowsOf, hP, ← size_perm two hp, ← size_append]
        obtain ⟨p1, hP1⟩ : ∃ p1, (P ++ (c :: τ).flatMap (rowsOf two (d ++ (a ++ c :: b))))[size two d + 1]?
            = some p1 := ⟨_, List.getElem?_eq_getElem (by omega)⟩
        have hP1' : two c = true → p1 = size two d + size two a + 1 := by
          intro h2
          rw [List.getElem?_append_right (by omega), hP, List.flatMap_cons] at hP1
          unfold rowsOf at hP1
          rw [hst] at hP1
          simp [h2] at hP1
          exact hP1.symm
        have enext : (if sz two c = 2 then size two d + 2 else size two d + 1) = size two (d ++ [c]) := by
          rw [size_append]
          simp only [size, sz]
          by_cases h2 : two c = true <;> simp [h2]
        rw [sortPermLoop, if_pos hlast]
        simp only [hP0, hP1, Option.bind_eq_bind, Option.bind_some, hinc, enext]
        by_cases hpos : size two a = 0
        · have ha : a = [] := by
            have := size_le_of_mem two a
            exact List.length_eq_zero_iff.1 (by omega)
          subst ha
          rw [if_neg (by simp [size])]
          obtain ⟨perm', h⟩ := ih (d ++ [c]) b τ (P ++ rowsOf two (d ++ ([] ++ c :: b)) c) fuel hlen
            (by simpa using hp') (by simpa using hn) (fun h x hx => hcx h x (by simp [hx])) (by
              rw [List.length_append, hP, size_append]
              congr 1
              unfold rowsOf
              simp only [size, sz]
              cases two c <;> rfl) (by omega)
          refine ⟨perm', ?_⟩
          have e1 : (d ++ [c]) ++ b = d ++ ([] ++ c :: b) := by simp
          have e2 : d ++ [c] ++ τ = d ++ c :: τ := by simp
          rw [e1, e2] at h
          rw [List.append_assoc] at h
          rw [List.flatMap_cons]
          exact h
        · rw [if_pos (by omega), if_neg (by rintro ⟨_, h⟩; omega), if_pos (by
            cases hcx' : cplx with
            | true => exact Or.inl rfl
            | false =>
              refine Or.inr ⟨Or.inl hsd, ?_⟩
              cases h2 : two c with
              | false => exact Or.inr (Or.inl (by rw [hsd1, h2]))
              | true => exact Or.inr (Or.inr (hP1' h2)))]
          rw [trexc_spec]
          simp only [Option.bind_some]
          obtain ⟨perm', h⟩ := ih (d ++ [c]) (a ++ b) τ
            (P ++ (if two c then [size two d, size two d + 1] else [size two d])) fuel hlen
            hp' hnod (fun h x hx => hcx h x (by
              rcases List.mem_append.1 hx with hx | hx
              · exact List.mem_append_left _ hx
              · exact List.mem_append_right _ (List.mem_cons_of_mem _ hx))) (by
              rw [List.length_append, hP, size_append]
              congr 1
              simp only [size, sz]
              cases two c <;> rfl) (by rw [size_append]; omega)
          refine ⟨perm', ?_⟩
          have e1 : (d ++ [c]) ++ (a ++ b) = d ++ (c :: (a ++ b)) := by simp
          have e2 : d ++ [c] ++ τ = d ++ c :: τ := by simp
          rw [hsize2, e1, e2] at h
          rw [← h]
          congr 1
          -- the permutation array
          have hren := renumber two d a c b hn τ (fun x hx => hp'.mem_iff.2 hx)
          rw [← hren]
          have hfl := length_flatMap_rowsOf two (d ++ (a ++ c :: b)) τ
          have hszτ : size two τ = size two a + size two b := by
            rw [← size_perm two hp', size_append]
          have hmap : ∀ k : Nat, k = size two d + sz two c →
              (τ.flatMap (rowsOf two (d ++ (a ++ c :: b)))).mapIdx
                (fun j q => if size two d + 1 ≤ j + k ∧ j + k < size two (d ++ (a ++ c :: b)) ∧
                  size two d ≤ q ∧ q < size two d + size two a then q + sz two c else q) =
              (τ.flatMap (rowsOf two (d ++ (a ++ c :: b)))).map (fun q =>
                if size two d ≤ q ∧ q < size two d + size two a then q + sz two c else q) := by
            intro k hk
            apply mapIdx_eq_map
            intro j q hj
            have h1 : size two d + 1 ≤ j + k := by omega
            have h2 : j + k < size two (d ++ (a ++ c :: b)) := by omega
            simp only [h1, h2, true_and]
          have hmapP : P.mapIdx (fun j q => if size two d + 1 ≤ j ∧ j < size two (d ++ (a ++ c :: b)) ∧
                  size two d ≤ q ∧ q < size two d + size two a then q + sz two c else q) = P := by
            rw [mapIdx_eq_map _ id, List.map_id]
            intro j q hj
            rw [if_neg (by omega)]; rfl
          rw [List.flatMap_cons, List.mapIdx_append, List.mapIdx_append, hmapP]
          have hset : ∀ (x : Nat) (l : List Nat), (P ++ l).set (size two d) x = P ++ l.set 0 x := by
            intro x l; rw [List.set_append_right _ _ (by omega), hP, Nat.sub_self]
          have hset1 : ∀ (x : Nat) (l : List Nat), (P ++ l).set (size two d + 1) x = P ++ l.set 1 x := by
            intro x l
            rw [List.set_append_right _ _ (by omega), hP]
            congr 2; omega
          have hrc : rowsOf two (d ++ (a ++ c :: b)) c =
              if two c then [size two d + size two a, size two d + size two a + 1] else [size two d + size two a] := by
            unfold rowsOf; rw [hst]
          rw [hset, hset1, hrc]
          cases h2 : two c with
          | false =>
            have hs : sz two c = 1 := by simp [sz, h2]
            have := hmap (1 + P.length) (by omega)
            simp only [hs] at this ⊢
            simp only [Bool.false_eq_true, if_false, show (1:Nat) ≠ 2 by decide, List.mapIdx_cons, List.mapIdx_nil,
              List.singleton_append, List.set_cons_zero, List.length_singleton, List.append_assoc]
            simp only [← Nat.add_assoc] at this
            rw [this]
          | true =>
            have hs : sz two c = 2 := by simp [sz, h2]
            have := hmap (2 + P.length) (by omega)
            simp only [hs] at this ⊢
            simp only [if_true, List.mapIdx_cons, List.mapIdx_nil,
              List.cons_append, List.nil_append, List.set_cons_zero, List.set_cons_succ, List.length_cons,
              List.length_nil, List.append_assoc]
            simp only [← Nat.add_assoc] at this
            simp only [Nat.zero_add, Nat.reduceAdd]
            rw [this]
      · have hone : a = [] ∧ b = [] ∧ τ = [] := by
          have h1 := size_le_of_mem two a
          have h2 := size_le_of_mem two b
          have ha : a = [] := List.length_eq_zero_iff.1 (by omega)
          have hb : b = [] := List.length_eq_zero_iff.1 (by omega)
          refine ⟨ha, hb, ?_⟩
          subst ha hb
          exact hp'.symm.eq_nil
        obtain ⟨rfl, rfl, rfl⟩ := hone
        rw [sortPermLoop, if_neg hlast]
        exact ⟨_, rfl⟩

/-- **C59 (partial).** Let the Schur form have the distinct diagonal blocks `locked ++ rest` and let `τ` be
any rearrangement of `rest`. If the caller passes the rows of the blocks of `τ`, in that order and with the
two rows of a 2x2 block in increasing order (what is in the first `l` entries does not matter), then
`DSSortWithPermutation` succeeds and the Schur form has the blocks `locked ++ τ`.  In complex scalars all
blocks are 1x1.  Missing: a permutation that lists the rows of a pair in decreasing order, see
`C59_reversed_pair_false`. -/
theorem C59_permutation_partial [DecidableEq B] (cplx : Bool) (two : B → Bool) (locked rest τ : List B)
    (first : List Nat) (hfirst : first.length = size two locked) (hn : (locked ++ rest).Nodup)
    (hτ : τ.Perm rest) (hc : cplx = true → ∀ c ∈ rest, two c = false) :
    sortPerm cplx two (size two locked) (first ++ τ.flatMap (rowsOf two (locked ++ rest))) (locked ++ rest)
      = some (some (locked ++ τ)) := by
  obtain ⟨perm', h⟩ := sortPermLoop_spec cplx two τ.length locked rest τ first
    (size two (locked ++ rest)) rfl hτ.symm hn hc hfirst (by rw [size_append]; omega)
  rw [sortPerm, h]; rfl

/-- Blocks for the witnesses: name and whether the block is 2x2. -/
abbrev Blk := Nat × Bool

/-- **C59 fails** when a pair is listed in decreasing order of its rows, although the check of the code
lets it pass: the form has a real eigenvalue in row 0 and a pair in rows 1 and 2, the permutation
`[2,1,0]` (the pair first) is accepted and the form comes back in its original order. -/
theorem C59_reversed_pair_false :
    sortPerm false Prod.snd 0 [2, 1, 0] [((0, false) : Blk), (1, true)]
      = some (some [(0, false), (1, true)]) := by decide

/-- A permutation that would separate the rows of a pair is reported as an error. -/
theorem C59_split_pair_rejected :
    sortPerm false Prod.snd 0 [1, 0, 2] [((0, false) : Blk), (1, true)] = some none := by decide

/-- Non-vacuity of C58: three blocks, one of them a pair, sorted by decreasing real part behind a locked
one. -/
example : sortTotal (fun a b : Int × Int => if a.1 < b.1 then 1 else if a.1 = b.1 then 0 else -1)
      (fun a => a.2 ≠ 0) (fun a : Int × Int => a.2 ≠ 0) id (fun a => (a.1, -a.2)) 1
      [(-7, 0), (1, 0), (3, 2), (2, 0)] = some [(-7, 0), (3, 2), (2, 0), (1, 0)] := by decide

/-- The criterion of the previous example is consistent. -/
example : VConsistent (fun a b : Int × Int => if a.1 < b.1 then 1 else if a.1 = b.1 then 0 else -1) where
  anti := by intro a b; split_ifs <;> omega
  trans := by intro a b c; split_ifs <;> omega

/-- Non-vacuity of C59. -/
example : (first : List Nat) → first.length = 1 →
    sortPerm false Prod.snd 1 (first ++ [2, 3, 1]) [((0, false) : Blk), (1, false), (2, true)]
      = some (some [(0, false), (2, true), (1, false)]) := fun first h =>
  C59_permutation_partial false Prod.snd [((0, false) : Blk)] [(1, false), (2, true)] [(2, true), (1, false)]
    first h (by decide) (by decide) (by simp)

end Verif.DS
