import Verif.PEP.BasisModel
import Mathlib.Tactic.Ring
import Mathlib.Tactic.FieldSimp
import Mathlib.Tactic.Linarith
import Mathlib.Algebra.Polynomial.Derivative
import Mathlib.Algebra.Polynomial.Eval.Defs

/-! Helper lemmas: loops, and the evaluation of a sequence of polynomials defined by a three-term recurrence. -/
set_option linter.all false

namespace Verif.PEP

open Polynomial

theorem forUp_le {S : Type*} {s e : ℕ} (h : e ≤ s) (f : ℕ → S → S) (x : S) : forUp s e f x = x := by
  unfold forUp; rw [Nat.sub_eq_zero_of_le h]; rfl

theorem forUp_succ {S : Type*} {s e : ℕ} (h : s ≤ e) (f : ℕ → S → S) (x : S) :
    forUp s (e+1) f x = f e (forUp s e f x) := by
  unfold forUp
  rw [show e + 1 - s = (e - s) + 1 by omega, List.range'_1_concat, List.foldl_append]
  simp only [List.foldl_cons, List.foldl_nil]
  rw [show s + (e - s) = e by omega]

theorem forDown_le {S : Type*} {s e : ℕ} (h : e ≤ s) (f : ℕ → S → S) (x : S) : forDown s e f x = x := by
  unfold forDown; rw [Nat.sub_eq_zero_of_le h]; rfl

theorem forDown_succ {S : Type*} {s e : ℕ} (h : s ≤ e) (f : ℕ → S → S) (x : S) :
    forDown s (e+1) f x = forDown s e f (f e x) := by
  unfold forDown
  rw [show e + 1 - s = (e - s) + 1 by omega, List.range'_1_concat, List.reverse_append]
  simp only [List.reverse_cons, List.reverse_nil, List.nil_append, List.cons_append, List.foldl_cons]
  rw [show s + (e - s) = e by omega]

/-- Induction over an upward loop. -/
theorem forUp_inv {S : Type*} (P : ℕ → S → Prop) {s e : ℕ} (hse : s ≤ e) (f : ℕ → S → S) (x : S)
    (h0 : P s x) (hs : ∀ k y, s ≤ k → k < e → P k y → P (k+1) (f k y)) : P e (forUp s e f x) := by
  have key : ∀ m, s ≤ m → m ≤ e → P m (forUp s m f x) := by
    intro m hm
    induction m, hm using Nat.le_induction with
    | base => intro _; rw [forUp_le (le_refl s)]; exact h0
    | succ m hm ih => intro hme; rw [forUp_succ hm]; exact hs m _ hm (by omega) (ih (by omega))
  exact key e hse (le_refl e)

/-- Shifting an array up by one place, from the end. -/
theorem shift_down {K : Type*} (n : ℕ) (v : ℕ → K) (k : ℕ) :
    forDown 1 n (fun k v => Function.update v k (v (k-1))) v k = if 1 ≤ k ∧ k < n then v (k-1) else v k := by
  induction n generalizing v with
  | zero => rw [forDown_le (by omega)]; rw [if_neg (by omega)]
  | succ n ih =>
    by_cases h : 1 ≤ n
    · rw [forDown_succ h, ih]
      by_cases hk : k = n
      · subst hk
        rw [if_neg (by omega), if_pos (by omega), Function.update_self]
      · by_cases h1 : 1 ≤ k ∧ k < n
        · rw [if_pos h1, if_pos (by omega), Function.update_of_ne (by omega)]
        · rw [if_neg h1, if_neg (by omega), Function.update_of_ne hk]
    · rw [forDown_le (by omega), if_neg (by omega)]

theorem shift_down_pair {K : Type*} (n : ℕ) (s : (ℕ → K) × (ℕ → K)) :
    forDown 1 n (fun k (s : (ℕ → K) × (ℕ → K)) =>
      (Function.update s.1 k (s.1 (k-1)), Function.update s.2 k (s.2 (k-1)))) s =
    (forDown 1 n (fun k v => Function.update v k (v (k-1))) s.1,
     forDown 1 n (fun k v => Function.update v k (v (k-1))) s.2) := by
  induction n generalizing s with
  | zero => simp only [forDown_le (show 0 ≤ 1 by omega)]
  | succ n ih =>
    by_cases h : 1 ≤ n
    · simp only [forDown_succ h, ih]
    · simp only [forDown_le (show n + 1 ≤ 1 by omega)]

variable {K : Type*} [Field K]

/-- The three-term recurrence in the form used by the loops. -/
structure Rec3 (p : Pbc K) (f : ℕ → K) (x : K) : Prop where
  zero : f 0 = 1
  one : f 1 = (x - p.cb 0) / p.ca 0
  step : ∀ k, f (k+2) = ((x - p.cb (k+1)) * f (k+1) - p.cg (k+1) * f k) / p.ca (k+1)

theorem evalBasis_eq (p : Pbc K) (f : ℕ → K) (x : K) (hf : Rec3 p f x) (nmat : ℕ) (hn : 2 ≤ nmat) (vals : ℕ → K)
    (k : ℕ) (hk : k < nmat) : evalBasis p nmat x vals k = f k := by
  refine forUp_inv (fun m (v : ℕ → K) => ∀ k, k < m → v k = f k) hn _ _ ?_ ?_ k hk
  · intro k hk
    have : k = 0 ∨ k = 1 := by omega
    rcases this with rfl | rfl
    · rw [Function.update_of_ne (by omega), Function.update_self, hf.zero]
    · rw [Function.update_self, hf.one]
  · intro m v hm _ ih k hk
    by_cases h : k = m
    · subst h
      obtain ⟨j, rfl⟩ : ∃ j, k = j + 2 := ⟨k - 2, by omega⟩
      rw [Function.update_self, hf.step, show j + 2 - 1 = j + 1 by omega, show j + 2 - 2 = j by omega,
        ih (j+1) (by omega), ih j (by omega)]
    · rw [Function.update_of_ne h]; exact ih k (by omega)

/-- Real and imaginary parts of the three-term recurrence. -/
structure Rec3Pair (p : Pbc K) (f g : ℕ → K) (x y : K) : Prop where
  zero : f 0 = 1
  izero : g 0 = 0
  one : f 1 = (x - p.cb 0) / p.ca 0
  ione : g 1 = y / p.ca 0
  step : ∀ k, f (k+2) = ((x - p.cb (k+1)) * f (k+1) - p.cg (k+1) * f k) / p.ca (k+1) - y * g (k+1) / p.ca (k+1)
  istep : ∀ k, g (k+2) = ((x - p.cb (k+1)) * g (k+1) + y * f (k+1) - p.cg (k+1) * g k) / p.ca (k+1)

theorem zeros_loop (n : ℕ) (v : ℕ → K) (k : ℕ) (hk : k < n) :
    forUp 0 n (fun k v => Function.update v k 0) v k = 0 := by
  refine forUp_inv (fun m (v : ℕ → K) => ∀ k, k < m → v k = 0) (Nat.zero_le n) _ _ (fun k hk => by omega) ?_ k hk
  intro m v _ _ ih k hk
  by_cases h : k = m
  · subst h; rw [Function.update_self]
  · rw [Function.update_of_ne h]; exact ih k (by omega)

theorem evalBasisPair_eq (p : Pbc K) (f g : ℕ → K) (x y : K) (hf : Rec3Pair p f g x y) (nmat : ℕ) (hn : 2 ≤ nmat)
    (s : (ℕ → K) × (ℕ → K)) (k : ℕ) (hk : k < nmat) :
    (evalBasisPair p nmat x y s).1 k = f k ∧ (evalBasisPair p nmat x y s).2 k = g k := by
  refine forUp_inv (fun m (s : (ℕ → K) × (ℕ → K)) => ∀ k, k < m → s.1 k = f k ∧ s.2 k = g k) hn _ _ ?_ ?_ k hk
  · intro k hk
    have : k = 0 ∨ k = 1 := by omega
    rcases this with rfl | rfl
    · constructor
      · try dsimp only
        rw [Function.update_of_ne (by omega), Function.update_self, hf.zero]
      · try dsimp only
        rw [Function.update_of_ne (by omega), zeros_loop nmat _ 0 (by omega), hf.izero]
    · constructor
      · try dsimp only
        rw [Function.update_self, hf.one]
      · try dsimp only
        rw [Function.update_self, hf.ione]
  · intro m s hm _ ih k hk
    by_cases h : k = m
    · subst h
      obtain ⟨j, rfl⟩ : ∃ j, k = j + 2 := ⟨k - 2, by omega⟩
      have h1 := ih (j+1) (by omega)
      have h0 := ih j (by omega)
      constructor
      · try dsimp only
        rw [Function.update_self, Function.update_self, hf.step, show j + 2 - 1 = j + 1 by omega,
          show j + 2 - 2 = j by omega, h1.1, h1.2, h0.1]
      · try dsimp only
        rw [Function.update_self, hf.istep, show j + 2 - 1 = j + 1 by omega, show j + 2 - 2 = j by omega,
          Function.update_of_ne (by omega), Function.update_of_ne (by omega), h1.1, h1.2, h0.2]
    · constructor
      · try dsimp only
        rw [Function.update_of_ne h, Function.update_of_ne h]; exact (ih k (by omega)).1
      · try dsimp only
        rw [Function.update_of_ne h]; exact (ih k (by omega)).2

/-- Derivative form of the recurrence. -/
structure Rec3D (p : Pbc K) (f d : ℕ → K) (x : K) : Prop where
  zero : d 0 = 0
  one : d 1 = 1 / p.ca 0
  step : ∀ k, d (k+2) = (f (k+1) + ((x - p.cb (k+1)) * d (k+1) - p.cg (k+1) * d k)) / p.ca (k+1)

theorem evalBasisDerivative_eq (p : Pbc K) (f d : ℕ → K) (x : K) (hf : Rec3 p f x) (hd : Rec3D p f d x)
    (nmat : ℕ) (hn : 2 ≤ nmat) (vals : ℕ → K) (k : ℕ) (hk : k < nmat) :
    evalBasisDerivative p nmat x vals k = d k := by
  refine (forUp_inv (fun m (v : ℕ → K) => (∀ k, k < m → v k = d k) ∧ (∀ k, m ≤ k → k < nmat → v k = f (k-1)))
    hn _ _ ⟨?_, ?_⟩ ?_).1 k hk
  · intro k hk
    have : k = 0 ∨ k = 1 := by omega
    rcases this with rfl | rfl
    · rw [Function.update_of_ne (by omega), Function.update_self, hd.zero]
    · rw [Function.update_self, Function.update_of_ne (by omega), shift_down, if_pos (by omega),
        evalBasis_eq p f x hf nmat hn vals _ (by omega), hd.one]
      rw [show 1 - 1 = 0 by omega, hf.zero]
  · intro k hk hkn
    rw [Function.update_of_ne (by omega), Function.update_of_ne (by omega), shift_down, if_pos (by omega),
        evalBasis_eq p f x hf nmat hn vals _ (by omega)]
  · intro m v hm hmn ih
    constructor
    · intro k hk
      by_cases h : k = m
      · subst h
        obtain ⟨j, rfl⟩ : ∃ j, k = j + 2 := ⟨k - 2, by omega⟩
        rw [Function.update_self, Function.update_self, hd.step, show j + 2 - 1 = j + 1 by omega,
          show j + 2 - 2 = j by omega, ih.1 (j+1) (by omega), ih.1 j (by omega), ih.2 (j+2) (by omega) hmn,
          show j + 2 - 1 = j + 1 by omega]
      · rw [Function.update_of_ne h, Function.update_of_ne h]; exact ih.1 k (by omega)
    · intro k hk hkn
      rw [Function.update_of_ne (by omega), Function.update_of_ne (by omega)]; exact ih.2 k (by omega) hkn

/-- Real and imaginary parts of the derivative recurrence. -/
structure Rec3DPair (p : Pbc K) (f g d e : ℕ → K) (x y : K) : Prop where
  zero : d 0 = 0
  izero : e 0 = 0
  one : d 1 = 1 / p.ca 0
  ione : e 1 = 0
  step : ∀ k, d (k+2) = (f (k+1) + ((x - p.cb (k+1)) * d (k+1) - p.cg (k+1) * d k) - y * e (k+1)) / p.ca (k+1)
  istep : ∀ k, e (k+2) = (g (k+1) + ((x - p.cb (k+1)) * e (k+1) + y * d (k+1) - p.cg (k+1) * e k)) / p.ca (k+1)

theorem evalBasisDerivativePair_eq (p : Pbc K) (f g d e : ℕ → K) (x y : K) (hf : Rec3Pair p f g x y)
    (hd : Rec3DPair p f g d e x y) (nmat : ℕ) (hn : 2 ≤ nmat) (s : (ℕ → K) × (ℕ → K)) (k : ℕ) (hk : k < nmat) :
    (evalBasisDerivativePair p nmat x y s).1 k = d k ∧ (evalBasisDerivativePair p nmat x y s).2 k = e k := by
  unfold evalBasisDerivativePair
  simp only [shift_down_pair]
  refine (forUp_inv (fun m (s : (ℕ → K) × (ℕ → K)) => (∀ k, k < m → s.1 k = d k ∧ s.2 k = e k) ∧
    (∀ k, m ≤ k → k < nmat → s.1 k = f (k-1) ∧ s.2 k = g (k-1))) hn _ _ ⟨?_, ?_⟩ ?_).1 k hk
  · intro k hk
    have : k = 0 ∨ k = 1 := by omega
    have e0 := evalBasisPair_eq p f g x y hf nmat hn s 0 (by omega)
    rcases this with rfl | rfl
    · constructor
      · try dsimp only
        rw [Function.update_of_ne (by omega), Function.update_self, hd.zero]
      · try dsimp only
        rw [Function.update_of_ne (by omega), shift_down, if_neg (by omega), e0.2, hf.izero, hd.izero]
    · constructor
      · try dsimp only
        rw [Function.update_self, Function.update_of_ne (by omega), shift_down, if_pos (by omega), hd.one]
        rw [show 1 - 1 = 0 by omega, e0.1, hf.zero]
      · try dsimp only
        rw [Function.update_self, shift_down, if_pos (by omega), hd.ione]
        rw [show 1 - 1 = 0 by omega, e0.2, hf.izero, zero_div]
  · intro k hk hkn
    have e0 := evalBasisPair_eq p f g x y hf nmat hn s (k-1) (by omega)
    constructor
    · try dsimp only
      rw [Function.update_of_ne (by omega), Function.update_of_ne (by omega), shift_down, if_pos (by omega), e0.1]
    · try dsimp only
      rw [Function.update_of_ne (by omega), shift_down, if_pos (by omega), e0.2]
  · intro m s hm hmn ih
    constructor
    · intro k hk
      by_cases h : k = m
      · subst h
        obtain ⟨j, rfl⟩ : ∃ j, k = j + 2 := ⟨k - 2, by omega⟩
        have h1 := ih.1 (j+1) (by omega)
        have h0 := ih.1 j (by omega)
        have h2 := ih.2 (j+2) (by omega) hmn
        rw [show j + 2 - 1 = j + 1 by omega] at h2
        constructor
        · try dsimp only
          rw [Function.update_self, Function.update_self, Function.update_self, hd.step,
            show j + 2 - 1 = j + 1 by omega, show j + 2 - 2 = j by omega, h1.1, h1.2, h0.1, h2.1]
        · try dsimp only
          rw [Function.update_self, Function.update_self, hd.istep, show j + 2 - 1 = j + 1 by omega,
            show j + 2 - 2 = j by omega, Function.update_of_ne (by omega), Function.update_of_ne (by omega),
            Function.update_of_ne (by omega), h1.1, h1.2, h0.2, h2.2]
      · constructor
        · try dsimp only
          rw [Function.update_of_ne h, Function.update_of_ne h, Function.update_of_ne h]; exact (ih.1 k (by omega)).1
        · try dsimp only
          rw [Function.update_of_ne h, Function.update_of_ne h]; exact (ih.1 k (by omega)).2
    · intro k hk hkn
      have h : k ≠ m := by omega
      constructor
      · try dsimp only
        rw [Function.update_of_ne h, Function.update_of_ne h, Function.update_of_ne h]; exact (ih.2 k (by omega) hkn).1
      · try dsimp only
        rw [Function.update_of_ne h, Function.update_of_ne h]; exact (ih.2 k (by omega) hkn).2

theorem evalFunctionDerivatives_eq (p : Pbc K) (f d : ℕ → K) (x : K) (hf : Rec3 p f x) (hd : Rec3D p f d x)
    (nmat : ℕ) (hn : 2 ≤ nmat) (vals : ℕ → K) (k : ℕ) (hk : k < nmat) :
    evalFunctionDerivatives p nmat x vals k = d k := by
  unfold evalFunctionDerivatives
  rw [if_pos (by omega)]
  refine (forUp_inv (fun m (s : K × K × (ℕ → K)) => (s.1 = if m = 2 then 0 else f (m-3)) ∧ s.2.1 = f (m-2) ∧
    (∀ k, k < m → s.2.2 k = d k)) hn _ _ ⟨?_, ?_, ?_⟩ ?_).2.2 k hk
  · simp
  · simp [hf.zero]
  · intro k hk
    have : k = 0 ∨ k = 1 := by omega
    rcases this with rfl | rfl
    · try dsimp only
      rw [Function.update_of_ne (by omega), Function.update_self, hd.zero]
    · try dsimp only
      rw [Function.update_self, hd.one]
  · intro m s hm hmn ih
    obtain ⟨j, rfl⟩ : ∃ j, m = j + 2 := ⟨m - 2, by omega⟩
    have ha2 : ((x - p.cb (j+2-2)) * s.2.1 - p.cg (j+2-2) * s.1) / p.ca (j+2-2) = f (j+1) := by
      rw [ih.1, ih.2.1, show j + 2 - 2 = j by omega]
      cases j with
      | zero => simp [hf.zero, hf.one]
      | succ j =>
        rw [if_neg (by omega), hf.step, show j + 1 + 2 - 3 = j by omega]
    refine ⟨?_, ?_, ?_⟩
    · rw [if_neg (by omega)]; show s.2.1 = _; rw [ih.2.1, show j + 2 + 1 - 3 = j + 2 - 2 by omega]
    · try dsimp only
      rw [ha2, show j + 2 + 1 - 2 = j + 1 by omega]
    · intro k hk
      try dsimp only
      by_cases h : k = j + 2
      · subst h
        rw [Function.update_self, ha2, hd.step, show j + 2 - 1 = j + 1 by omega, show j + 2 - 2 = j by omega,
          ih.2.2 (j+1) (by omega), ih.2.2 j (by omega)]
        ring
      · rw [Function.update_of_ne h]; exact ih.2.2 k (by omega)

end Verif.PEP
