import Verif.DS.SchurModel
import Verif.DS.SortSpec
import Mathlib.Data.List.Nodup
import Mathlib.Data.List.Perm.Basic
/-! Auxiliary lemmas about block lists. -/
set_option linter.all false
namespace Verif.DS
variable {B V : Type}

theorem sz_pos (two : B → Bool) (c : B) : 1 ≤ sz two c := by unfold sz; split <;> omega

theorem size_append (two : B → Bool) (a b : List B) : size two (a ++ b) = size two a + size two b := by
  induction a with
  | nil => simp [size]
  | cons c a ih => simp only [List.cons_append, size, ih]; omega

theorem size_le_of_mem (two : B → Bool) (a : List B) : a.length ≤ size two a := by
  induction a with
  | nil => simp [size]
  | cons c a ih => have := sz_pos two c; simp only [List.length_cons, size]; omega

theorem size_perm (two : B → Bool) {a b : List B} (h : a.Perm b) : size two a = size two b := by
  induction h with
  | nil => rfl
  | cons c _ ih => simp only [size, ih]
  | swap c d l => simp only [size]; omega
  | trans _ _ h1 h2 => rw [h1, h2]

theorem rows_append (two : B → Bool) (a b : List B) : rows two (a ++ b) = rows two a ++ rows two b := by
  induction a with
  | nil => rfl
  | cons c a ih => simp only [List.cons_append, rows, ih, List.append_assoc]

theorem length_rows (two : B → Bool) (a : List B) : (rows two a).length = size two a := by
  induction a with
  | nil => rfl
  | cons c a ih =>
    simp only [rows, List.length_append, ih, size, sz]
    split <;> rfl

theorem rows_at (two : B → Bool) (a : List B) (c : B) (b : List B) :
    (rows two (a ++ c :: b))[size two a]? = some (c, false) := by
  rw [rows_append, ← length_rows, List.getElem?_append_right (Nat.le_refl _), Nat.sub_self, rows]
  cases two c <;> rfl

theorem rowVal_at (two : B → Bool) (v : B → V) (conj : V → V) (a : List B) (c : B) (b : List B) :
    rowVal two v conj (a ++ c :: b) (size two a) = some (v c) := by
  simp [rowVal, rows_at]

theorem subdiag_start (two : B → Bool) (a b : List B) : subdiag two (a ++ b) (size two a) = false := by
  cases b with
  | nil =>
    unfold subdiag
    rw [List.append_nil, List.getElem?_eq_none (by rw [length_rows]; exact Nat.le_refl _)]
    rfl
  | cons c b => simp [subdiag, rows_at]

theorem subdiag_next (two : B → Bool) (a : List B) (c : B) (b : List B) :
    subdiag two (a ++ c :: b) (size two a + 1) = two c := by
  cases h : two c with
  | false =>
    have := subdiag_start two (a ++ [c]) b
    rw [size_append, List.append_assoc] at this
    simpa [size, sz, h] using this
  | true =>
    unfold subdiag
    rw [rows_append, List.getElem?_append_right (by rw [length_rows]; omega), length_rows, rows]
    simp [h]

theorem blockIdx_at (two : B → Bool) (a : List B) (c : B) (b : List B) :
    blockIdx two (a ++ c :: b) (size two a) = a.length := by
  induction a with
  | nil =>
    have := sz_pos two c
    simp only [List.nil_append, blockIdx, size]
    rw [if_pos (by omega)]; rfl
  | cons x a ih =>
    simp only [List.cons_append, blockIdx, size, List.length_cons]
    rw [if_neg (by omega), Nat.add_sub_cancel_left, ih]; omega

theorem trexc_spec (two : B → Bool) (d a : List B) (c : B) (b : List B) :
    trexc two (d ++ (a ++ c :: b)) (size two d + size two a) (size two d) = some (d ++ (c :: (a ++ b))) := by
  have h1 : blockIdx two (d ++ (a ++ c :: b)) (size two d + size two a) = d.length + a.length := by
    rw [← size_append, ← List.append_assoc, blockIdx_at, List.length_append]
  have h2 : blockIdx two (d ++ (a ++ c :: b)) (size two d) = d.length := by
    cases a with
    | nil => exact blockIdx_at two d c b
    | cons x a => exact blockIdx_at two d x _
  have h3 : (d ++ (a ++ c :: b))[d.length + a.length]? = some c := by
    rw [← List.length_append, ← List.append_assoc]; simp
  have h4 : (d ++ (a ++ c :: b)).eraseIdx (d.length + a.length) = d ++ (a ++ b) := by
    rw [List.eraseIdx_append_of_length_le (by omega), Nat.add_sub_cancel_left,
      List.eraseIdx_append_of_length_le (Nat.le_refl _), Nat.sub_self]
    rfl
  unfold trexc
  rw [h1, h2, h3]
  simp only [h4]
  congr 1
  clear h1 h2 h3 h4
  induction d with
  | nil => rfl
  | cons x d ih => simp only [List.cons_append, List.length_cons, List.insertIdx_succ_cons, ih]

/-! ### The search for the best remaining block -/

theorem findMin_spec (cmp : VCmp V) (hc : VConsistent cmp) (pr : V → Bool) (two : B → Bool) (v : B → V)
    (conj : V → V) (hpr : ∀ c, pr (v c) = two c) (cs pre : List B) (fuel : Nat) (re : V) (pos : Nat)
    (hf : size two cs ≤ fuel) :
    ∃ pos', findMin cmp pr (rowVal two v conj (pre ++ cs)) (size two (pre ++ cs)) fuel (size two pre) re pos
        = some pos' ∧
      ((pos' = pos ∧ ∀ c ∈ cs, cmp re (v c) ≤ 0) ∨
       ∃ a m b, cs = a ++ m :: b ∧ pos' = size two pre + size two a ∧ cmp re (v m) > 0 ∧
         (∀ c ∈ a, cmp (v c) (v m) > 0) ∧ ∀ c ∈ b, cmp (v m) (v c) ≤ 0) := by
  induction cs generalizing pre fuel re pos with
  | nil =>
    refine ⟨pos, ?_, Or.inl ⟨rfl, by simp⟩⟩
    cases fuel with
    | zero => rfl
    | succ fuel => rw [findMin, if_neg (by simp)]
  | cons c cs ih =>
    have hsz := sz_pos two c
    simp only [size] at hf
    cases fuel with
    | zero => omega
    | succ fuel =>
      have e1 : pre ++ c :: cs = (pre ++ [c]) ++ cs := by simp
      have e2 : (if pr (v c) then size two pre + 2 else size two pre + 1) = size two (pre ++ [c]) := by
        rw [hpr, size_append]; simp only [size, sz]; cases two c <;> simp
      rw [findMin, if_pos (by rw [size_append]; simp only [size]; omega)]
      simp only [rowVal_at, Option.bind_eq_bind, Option.bind_some, e2]
      by_cases hcmp : cmp re (v c) > 0
      · rw [if_pos hcmp]
        obtain ⟨pos', h1, h2⟩ := ih (pre ++ [c]) fuel (v c) (size two pre) (by omega)
        refine ⟨pos', by rw [e1]; exact h1, ?_⟩
        rcases h2 with ⟨h2, h3⟩ | ⟨a, m, b, h2, h3, h4, h5, h6⟩
        · exact Or.inr ⟨[], c, cs, rfl, by simp [h2, size], hcmp, by simp, h3⟩
        · refine Or.inr ⟨c :: a, m, b, by rw [h2]; rfl, ?_, ?_, ?_, h6⟩
          · rw [h3, size_append]; simp only [size]; omega
          · by_contra hcon
            have := (hc.anti (v c) re).2 hcmp
            have := hc.trans (v c) re (v m) (by omega) (by omega)
            omega
          · intro x hx
            rcases List.mem_cons.1 hx with rfl | hx
            · exact h4
            · exact h5 x hx
      · rw [if_neg hcmp]
        obtain ⟨pos', h1, h2⟩ := ih (pre ++ [c]) fuel re pos (by omega)
        refine ⟨pos', by rw [e1]; exact h1, ?_⟩
        rcases h2 with ⟨h2, h3⟩ | ⟨a, m, b, h2, h3, h4, h5, h6⟩
        · refine Or.inl ⟨h2, ?_⟩
          intro x hx
          rcases List.mem_cons.1 hx with rfl | hx
          · omega
          · exact h3 x hx
        · refine Or.inr ⟨c :: a, m, b, by rw [h2]; rfl, ?_, h4, ?_, h6⟩
          · rw [h3, size_append]; simp only [size]; omega
          · intro x hx
            rcases List.mem_cons.1 hx with rfl | hx
            · by_contra hcon
              have := hc.trans re (v x) (v m) (by omega) (by omega)
              omega
            · exact h5 x hx

theorem sortTotalLoop_spec (cmp : VCmp V) (hc : VConsistent cmp) (pr : V → Bool) (two : B → Bool) (v : B → V)
    (conj : V → V) (hpr : ∀ c, pr (v c) = two c) (len : Nat) :
    ∀ (rest d : List B) (fuel : Nat), rest.length = len → size two rest ≤ fuel →
    ∃ rest', sortTotalLoop cmp pr two v conj (size two (d ++ rest)) fuel (size two d) (d ++ rest)
        = some (d ++ rest') ∧ rest'.Perm rest ∧ rest'.Pairwise (fun a b => cmp (v a) (v b) ≤ 0) ∧
      ∀ (x : V), rest'.filter (fun c => decide (cmp (v c) x = 0)) = rest.filter (fun c => decide (cmp (v c) x = 0)) := by
  induction len with
  | zero =>
    intro rest d fuel hl hf
    have : rest = [] := List.length_eq_zero_iff.1 hl
    subst this
    refine ⟨[], ?_, List.Perm.refl _, List.Pairwise.nil, fun _ => rfl⟩
    cases fuel with
    | zero => rfl
    | succ fuel => rw [sortTotalLoop, if_neg (by simp)]
  | succ len ih =>
    intro rest d fuel hl hf
    obtain ⟨c, cs, rfl⟩ : ∃ c cs, rest = c :: cs := by
      cases rest with
      | nil => simp at hl
      | cons c cs => exact ⟨c, cs, rfl⟩
    have hlen : cs.length = len := by simpa using hl
    have hsz := sz_pos two c
    simp only [size] at hf
    cases fuel with
    | zero => omega
    | succ fuel =>
      by_cases hlast : size two d + 1 < size two (d ++ c :: cs)
      · have e1 : d ++ c :: cs = (d ++ [c]) ++ cs := by simp
        have e2 : ∀ m, (if pr (v m) then size two d + 2 else size two d + 1) = size two (d ++ [m]) := by
          intro m
          rw [hpr, size_append]; simp only [size, sz]; cases two m <;> simp
        obtain ⟨pos, h1, h2⟩ := findMin_spec cmp hc pr two v conj hpr cs (d ++ [c])
          (size two (d ++ c :: cs)) (v c) 0 (by rw [size_append]; simp only [size]; omega)
        rw [← e1] at h1
        rw [sortTotalLoop, if_pos hlast]
        simp only [rowVal_at, Option.bind_eq_bind, Option.bind_some, e2, h1]
        rcases h2 with ⟨h2, h3⟩ | ⟨a, m, b, h2, h3, h4, h5, h6⟩
        · subst h2
          obtain ⟨rest', g1, g2, g3, g4⟩ := ih cs (d ++ [c]) fuel hlen (by omega)
          refine ⟨c :: rest', ?_, g2.cons c, ?_, ?_⟩
          · simp only [ne_eq, not_true_eq_false, if_false, Option.bind_some, rowVal_at, e2]
            rw [e1, g1]; simp
          · rw [List.pairwise_cons]
            exact ⟨fun x hx => h3 x (g2.mem_iff.1 hx), g3⟩
          · intro x
            rw [List.filter_cons, List.filter_cons, g4 x]
        · have hpos : pos ≠ 0 := by rw [h3, size_append]; simp only [size]; omega
          have hmove := trexc_spec two d (c :: a) m b
          have e3 : pos = size two d + size two (c :: a) := by
            rw [h3, size_append]; simp only [size]; omega
          have e4 : d ++ c :: cs = d ++ ((c :: a) ++ m :: b) := by rw [h2]; rfl
          have hsize : size two (d ++ c :: cs) = size two ((d ++ [m]) ++ ((c :: a) ++ b)) := by
            rw [e4]; simp only [size_append, size]; omega
          obtain ⟨rest', g1, g2, g3, g4⟩ := ih ((c :: a) ++ b) (d ++ [m]) fuel (by
              rw [h2] at hlen; simp at hlen ⊢; omega) (by
              have : size two cs = size two a + (sz two m + size two b) := by rw [h2, size_append]; rfl
              have := sz_pos two m
              rw [size_append]; simp only [size]; omega)
          have hle : ∀ x ∈ (c :: a) ++ b, cmp (v m) (v x) ≤ 0 := by
            intro x hx
            rw [List.mem_append, List.mem_cons] at hx
            rcases hx with (rfl | hx) | hx
            · have := (hc.anti (v m) (v x)).2 h4; omega
            · have := (hc.anti (v m) (v x)).2 (h5 x hx); omega
            · exact h6 x hx
          refine ⟨m :: rest', ?_, ?_, ?_, ?_⟩
          · simp only [ne_eq, hpos, not_false_eq_true, if_true]
            rw [e4, e3, hmove]
            simp only [Option.bind_some, rowVal_at, e2]
            rw [← e4, hsize, show d ++ m :: ((c :: a) ++ b) = (d ++ [m]) ++ ((c :: a) ++ b) by simp, g1]
            simp
          · refine (g2.cons m).trans ?_
            rw [h2]
            exact (List.perm_middle (l₁ := c :: a)).symm
          · rw [List.pairwise_cons]
            exact ⟨fun x hx => hle x (g2.mem_iff.1 hx), g3⟩
          · intro x
            rw [List.filter_cons, g4 x, h2]
            by_cases hm : cmp (v m) x = 0
            · have hnone : (c :: a).filter (fun c => decide (cmp (v c) x = 0)) = [] := by
                rw [List.filter_eq_nil_iff]
                intro y hy
                have hym : cmp (v y) (v m) > 0 := by
                  rcases List.mem_cons.1 hy with rfl | hy
                  · exact h4
                  · exact h5 y hy
                simp only [decide_eq_true_eq]
                intro hy0
                have q1 := hc.anti (v m) x
                have q2 := hc.anti x (v m)
                have := hc.trans (v y) x (v m) (by omega) (by omega)
                omega
              rw [show c :: (a ++ m :: b) = (c :: a) ++ m :: b from rfl, List.filter_append,
                List.filter_append, hnone, List.filter_cons]
              simp
            · rw [show c :: (a ++ m :: b) = (c :: a) ++ m :: b from rfl, List.filter_append,
                List.filter_append, List.filter_cons]
              simp [hm]
      · have hcs : cs = [] := by
          rw [size_append] at hlast
          simp only [size] at hlast
          have := size_le_of_mem two cs
          exact List.length_eq_zero_iff.1 (by omega)
        subst hcs
        refine ⟨[c], ?_, List.Perm.refl _, List.pairwise_singleton _ _, fun _ => rfl⟩
        rw [sortTotalLoop, if_neg hlast]

end Verif.DS
