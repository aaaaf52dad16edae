import Verif.Filt.ChebModel
import Verif.Filt.Lem
import Verif.Filt.VecLem

/-! # Lemmas on the Chebyshev filter: Clenshaw recurrences -/

set_option linter.all false

namespace Verif.Filt

open Polynomial Finset

/-- Clenshaw polynomials for the coefficients `e 0..e n`: `bp e n i` is `b_{n-i}`. -/
noncomputable def bp (e : Arr) (n : ℕ) : ℕ → ℝ[X]
  | 0 => C (e n)
  | 1 => C (e (n - 1)) + 2 * X * C (e n)
  | i + 2 => C (e (n - (i + 2))) + 2 * X * bp e n (i + 1) - bp e n i

/-- With the value 0 before the first. -/
noncomputable def bq (e : Arr) (n : ℕ) : ℕ → ℝ[X]
  | 0 => 0
  | i + 1 => bp e n i

theorem bp_rec (e : Arr) (n i : ℕ) : bp e n (i + 1) = C (e (n - (i + 1))) + 2 * X * bp e n i - bq e n i := by
  cases i with
  | zero => simp [bp, bq]
  | succ i => rfl

theorem clen (e : Arr) (n i : ℕ) (hi : i ≤ n) :
    ser e 0 (n + 1) = ser e 0 (n - i) + bp e n i * Chebyshev.T ℝ ((n - i : ℕ) : ℤ) -
      bq e n i * Chebyshev.T ℝ (((n - i : ℕ) : ℤ) - 1) := by
  induction i with
  | zero => simp [bp, bq, ser_succ]
  | succ i ih =>
    rw [ih (by omega)]
    obtain ⟨m, hm⟩ : ∃ m, n - i = m + 1 := ⟨n - i - 1, by omega⟩
    have hm' : n - (i + 1) = m := by omega
    rw [hm, hm', ser_succ, bp_rec, hm', show bq e n (i + 1) = bp e n i from rfl]
    have : Chebyshev.T ℝ (((m + 1 : ℕ)) : ℤ) = 2 * X * Chebyshev.T ℝ (m : ℤ) - Chebyshev.T ℝ ((m : ℤ) - 1) := by
      push_cast; exact Chebyshev.T_add_one ℝ _
    rw [this, show (((m + 1 : ℕ) : ℤ) - 1) = (m : ℤ) by push_cast; ring, zero_add]
    ring

/-- The last Clenshaw step. -/
theorem clen_last (e : Arr) (n : ℕ) :
    ser e 0 (n + 2) = C (e 0) + X * bp e (n + 1) n - bq e (n + 1) n := by
  have h := clen e (n + 1) (n + 1) le_rfl
  rw [bp_rec, show bq e (n + 1) (n + 1) = bp e (n + 1) n from rfl] at h
  rw [h]
  simp only [Nat.sub_self, Nat.cast_zero, zero_sub, Chebyshev.T_zero, Chebyshev.T_neg_one, ser_zero]
  ring

variable {V : Type*} [AddCommGroup V] [Module ℝ V]

/-- The matrix mapped so that the range goes to `[-1,1]`. -/
noncomputable def mapT (T : V →ₗ[ℝ] V) (left right : ℝ) : V →ₗ[ℝ] V :=
  (2 / (right - left)) • T - ((right + left) / (right - left)) • LinearMap.id

theorem mapT_apply (T : V →ₗ[ℝ] V) (left right : ℝ) (v : V) :
    mapT T left right v = (2 / (right - left)) • T v - ((right + left) / (right - left)) • v := rfl

structure CInv (T : V →ₗ[ℝ] V) (e : Arr) (left right : ℝ) (n : ℕ) (x : V) (i : ℕ) (s : CSt V) : Prop where
  y : s.y = aeval (mapT T left right) (bp e n i) x
  w : (s.w0 = 0 ∧ s.w1 = 1) ∨ (s.w0 = 1 ∧ s.w1 = 0)
  k : s.wk s.w0 = aeval (mapT T left right) (bq e n i) x
  s1 : s.s1 = 4 / (right - left)
  s2 : s.s2 = -2 * (right + left) / (right - left)

theorem cIter_y (T : V →ₗ[ℝ] V) (e : Arr) (n : ℕ) (x : V) (i : ℕ) (s : CSt V)
    (hw : (s.w0 = 0 ∧ s.w1 = 1) ∨ (s.w0 = 1 ∧ s.w1 = 0)) :
    (cIter T e n x i s).y = e (n - i - 1) • x - s.wk s.w0 +
      ((if i + 1 = n then s.s2 / 2 else s.s2) • s.y + (if i + 1 = n then s.s1 / 2 else s.s1) • T s.y) ∧
    (((cIter T e n x i s).w0 = 0 ∧ (cIter T e n x i s).w1 = 1) ∨ ((cIter T e n x i s).w0 = 1 ∧ (cIter T e n x i s).w1 = 0)) ∧
    (cIter T e n x i s).wk (cIter T e n x i s).w0 = s.y := by
  rcases hw with ⟨a, b⟩ | ⟨a, b⟩ <;> simp [cIter, a, b, add_assoc, sub_eq_add_neg]

theorem cIter_inv (T : V →ₗ[ℝ] V) (e : Arr) (left right : ℝ) (n : ℕ) (x : V) (i : ℕ) (s : CSt V)
    (h : CInv T e left right n x i s) (hi : i + 1 < n) : CInv T e left right n x (i + 1) (cIter T e n x i s) := by
  obtain ⟨h1, h2, h3⟩ := cIter_y T e n x i s h.w
  refine ⟨?_, h2, ?_, ?_, ?_⟩
  · rw [h1, if_neg (by omega), if_neg (by omega), h.s1, h.s2, h.k, bp_rec, map_sub, map_add, LinearMap.sub_apply,
      LinearMap.add_apply, show (2 : ℝ[X]) * X * bp e n i = C 2 * (X * bp e n i) by rw [mul_assoc]; rfl, aeval_C_mul, aeval_X_mul,
      ← h.y, mapT_apply, aeval_C, show n - i - 1 = n - (i + 1) by omega]
    rw [Module.algebraMap_end_apply, smul_sub, smul_smul, smul_smul,
      show (2 : ℝ) * (2 / (right - left)) = 4 / (right - left) by ring,
      show (-2 * (right + left) / (right - left)) = -(2 * ((right + left) / (right - left))) by ring, neg_smul]
    abel
  · rw [h3, h.y]; rfl
  · show (if i + 1 = n then s.s1 / 2 else s.s1) = _
    rw [if_neg (by omega), h.s1]
  · show (if i + 1 = n then s.s2 / 2 else s.s2) = _
    rw [if_neg (by omega), h.s2]

theorem chebMult_eq (T : V →ₗ[ℝ] V) (d c : Arr) (left right : ℝ) (degree : ℕ) (junk : ℕ → V) (x : V) :
    chebMult T d c left right degree junk x = aeval (mapT T left right) (ser (fun k => d k * c k) 0 (degree + 1)) x := by
  obtain ⟨e, he⟩ : ∃ e : Arr, e = fun k => d k * c k := ⟨_, rfl⟩
  have key : ∀ i, i < degree ∨ i = 0 → CInv T e left right degree x i (loop i (cIter T e degree x)
    { y := e degree • x, wk := Function.update junk 0 0, w0 := 0, w1 := 1, s1 := 4 / (right - left), s2 := -2 * (right + left) / (right - left) }) := by
    intro i
    induction i with
    | zero =>
      intro _
      refine ⟨?_, Or.inl ⟨rfl, rfl⟩, ?_, rfl, rfl⟩
      · show e degree • x = aeval (mapT T left right) (C (e degree)) x
        rw [aeval_C, Module.algebraMap_end_apply]
      · show Function.update junk 0 0 0 = aeval (mapT T left right) 0 x
        simp
    | succ i ih => intro h; exact cIter_inv T e left right degree x i _ (ih (by omega)) (by omega)
  rw [← he]
  show (loop degree (cIter T (fun k => d k * c k) degree x) _).y = _
  rw [← he]
  show (loop degree (cIter T e degree x) { y := e degree • x, wk := Function.update junk 0 0, w0 := 0, w1 := 1, s1 := 4 / (right - left), s2 := -2 * (right + left) / (right - left) }).y = _
  cases degree with
  | zero =>
    rw [(key 0 (Or.inr rfl)).y, ser_succ]; simp [bp, ser_zero]
  | succ n =>
    have h := key n (Or.inl (by omega))
    obtain ⟨h1, -, -⟩ := cIter_y T e (n + 1) x n _ h.w
    rw [loop, h1, if_pos rfl, if_pos rfl, h.s1, h.s2, h.k, clen_last, map_sub, map_add, LinearMap.sub_apply,
      LinearMap.add_apply, aeval_X_mul, ← h.y, mapT_apply, aeval_C, Module.algebraMap_end_apply, show n + 1 - n - 1 = 0 by omega,
      show (4 : ℝ) / (right - left) / 2 = 2 / (right - left) by ring,
      show (-2 * (right + left) / (right - left) / 2) = -((right + left) / (right - left)) by ring, neg_smul]
    abel

/-! ## Blocks -/

structure CRel {ι : Type*} (j : ι) (tb : CSt (ι → V)) (tv : CSt V) : Prop where
  y : tb.y j = tv.y
  wk : ∀ k, tb.wk k j = tv.wk k
  w0 : tb.w0 = tv.w0
  w1 : tb.w1 = tv.w1
  s1 : tb.s1 = tv.s1
  s2 : tb.s2 = tv.s2

theorem upd_apply {ι : Type*} (f : ℕ → ι → V) (k : ℕ) (v : ι → V) (m : ℕ) (j : ι) :
    Function.update f k v m j = Function.update (fun m => f m j) k (v j) m := by
  by_cases h : m = k
  · subst h; simp
  · simp [h]

theorem cIterB_rel {ι : Type*} (T : V →ₗ[ℝ] V) (e : Arr) (n : ℕ) (B : ι → V) (i : ℕ) (j : ι) (tb : CSt (ι → V)) (tv : CSt V)
    (h : CRel j tb tv) : CRel j (cIterB T e n B i tb) (cIter T e n (B j) i tv) := by
  have hw : (fun m => tb.wk m j) = tv.wk := funext h.wk
  have hw1 : ∀ m, Function.update tb.wk (1 - tb.w0) tb.y m j = Function.update tv.wk (1 - tv.w0) tv.y m := by
    intro m; rw [upd_apply, hw, h.y, h.w0]
  have hw2 : (fun m => Function.update tb.wk (1 - tb.w0) tb.y m j) = Function.update tv.wk (1 - tv.w0) tv.y := funext hw1
  have hw3 : ∀ m, (cIterB T e n B i tb).wk m j = (cIter T e n (B j) i tv).wk m := by
    intro m
    show Function.update (Function.update tb.wk (1 - tb.w0) tb.y) (1 - tb.w1) _ m j = Function.update (Function.update tv.wk (1 - tv.w0) tv.y) (1 - tv.w1) _ m
    rw [upd_apply, hw2, hw1, h.w0, h.w1]
  refine ⟨?_, hw3, by show 1 - _ = 1 - _; rw [h.w0], by show 1 - _ = 1 - _; rw [h.w1],
    by show (if _ then tb.s1 / 2 else tb.s1) = _; rw [h.s1]; rfl, by show (if _ then tb.s2 / 2 else tb.s2) = _; rw [h.s2]; rfl⟩
  show (if i + 1 = n then tb.s2 / 2 else tb.s2) • tb.y j + (-1 : ℝ) • Function.update tb.wk (1 - tb.w0) tb.y (1 - tb.w1) j +
    e (n - i - 1) • B j + (if i + 1 = n then tb.s1 / 2 else tb.s1) • (cIterB T e n B i tb).wk (1 - tb.w1) j =
    e (n - i - 1) • B j + (-1 : ℝ) • Function.update tv.wk (1 - tv.w0) tv.y (1 - tv.w1) + (if i + 1 = n then tv.s2 / 2 else tv.s2) • tv.y +
    (if i + 1 = n then tv.s1 / 2 else tv.s1) • (cIter T e n (B j) i tv).wk (1 - tv.w1)
  rw [hw3, hw1, h.y, h.s1, h.s2, h.w1]
  abel

theorem chebMatMult_col {ι : Type*} (T : V →ₗ[ℝ] V) (d c : Arr) (left right : ℝ) (degree : ℕ) (junk : ℕ → ι → V) (B : ι → V) (j : ι) :
    chebMatMult T d c left right degree junk B j = chebMult T d c left right degree (fun k => junk k j) (B j) := by
  have : ∀ (e : Arr) s1 s2 i, CRel j (loop i (cIterB T e degree B) { y := e degree • B, wk := Function.update junk 0 ((0 : ℝ) • junk 0), w0 := 0, w1 := 1, s1 := s1, s2 := s2 })
      (loop i (cIter T e degree (B j)) { y := e degree • B j, wk := Function.update (fun k => junk k j) 0 0, w0 := 0, w1 := 1, s1 := s1, s2 := s2 }) := by
    intro e s1 s2 i
    induction i with
    | zero =>
      refine ⟨rfl, fun k => ?_, rfl, rfl, rfl, rfl⟩
      show Function.update junk 0 ((0 : ℝ) • junk 0) k j = _
      rw [upd_apply]; simp [loop]
    | succ i ih => exact cIterB_rel T e degree B i j _ _ ih
  exact (this _ _ _ degree).y

/-! ## Scalar version -/

theorem clen_loop (d c : Arr) (n : ℕ) (x0 : ℝ) (j : ℕ) (hj : 2 * j ≤ n) :
    loop j (fun j (t : ℝ × ℝ) =>
      (d (n - 2 * j - 1) * c (n - 2 * j - 1) + 2 * x0 * (d (n - 2 * j) * c (n - 2 * j) + 2 * x0 * t.1 - t.2) - t.1,
        d (n - 2 * j) * c (n - 2 * j) + 2 * x0 * t.1 - t.2)) (0, 0) =
      ((bq (fun k => d k * c k) n (2 * j)).eval x0, if j = 0 then 0 else (bq (fun k => d k * c k) n (2 * j - 1)).eval x0) := by
  obtain ⟨e, he⟩ : ∃ e : Arr, e = fun k => d k * c k := ⟨_, rfl⟩
  have hE : ∀ k, d k * c k = e k := fun k => by rw [he]
  simp only [hE]
  induction j with
  | zero => simp [loop, bq]
  | succ j ih =>
    rw [loop, ih (by omega)]
    dsimp only
    have b1 : e (n - 2 * j) + 2 * x0 * (bq e n (2 * j)).eval x0 - (if j = 0 then 0 else (bq e n (2 * j - 1)).eval x0) =
        (bp e n (2 * j)).eval x0 := by
      cases j with
      | zero => simp [bp, bq]
      | succ j =>
        rw [if_neg (by omega), show 2 * (j + 1) = 2 * j + 1 + 1 by ring, bp_rec, show 2 * j + 1 + 1 - 1 = 2 * j + 1 by omega]
        simp [bq]
    rw [b1]
    refine Prod.ext ?_ ?_
    · show _ = (bp e n (2 * j + 1)).eval x0
      rw [bp_rec, show n - 2 * j - 1 = n - (2 * j + 1) by omega]
      simp
    · show _ = if j + 1 = 0 then (0 : ℝ) else (bq e n (2 * j + 1)).eval x0
      rw [if_neg (by omega)]; rfl

/-- What the scalar routine returns. -/
theorem clenshaw_eq (d c : Arr) (n : ℕ) (x0 : ℝ) :
    clenshaw d c n x0 = if n % 2 = 0 then (ser (fun k => d k * c k) 0 (n + 1)).eval x0
      else d 0 * c 0 + (x0 - 1) * (bq (fun k => d k * c k) n n).eval x0 := by
  have hl := clen_loop d c n x0 (n / 2) (by omega)
  rw [clenshaw]
  dsimp only
  rw [hl]
  obtain ⟨e, he⟩ : ∃ e : Arr, e = fun k => d k * c k := ⟨_, rfl⟩
  have hE : ∀ k, d k * c k = e k := fun k => by rw [he]
  rw [← he]
  simp only [hE]
  by_cases hn : n % 2 = 0
  · rw [if_pos hn, if_neg (by omega)]
    obtain ⟨m, rfl⟩ : ∃ m, n = 2 * m := ⟨n / 2, by omega⟩
    rw [show 2 * m / 2 = m by omega]
    cases m with
    | zero => simp [bq, ser_succ, ser_zero]
    | succ m =>
      rw [show 2 * (m + 1) + 1 = 2 * m + 1 + 2 by ring, clen_last, show 2 * (m + 1) = 2 * m + 1 + 1 by ring, if_neg (by omega),
        show 2 * m + 1 + 1 - 1 = 2 * m + 1 by omega]
      simp [bq]
      left; ring
  · rw [if_neg hn, if_pos (by omega)]
    obtain ⟨m, rfl⟩ : ∃ m, n = 2 * m + 1 := ⟨n / 2, by omega⟩
    rw [show (2 * m + 1) / 2 = m by omega]
    have b1 : e 1 + 2 * x0 * (bq e (2 * m + 1) (2 * m)).eval x0 - (if m = 0 then 0 else (bq e (2 * m + 1) (2 * m - 1)).eval x0) =
        (bp e (2 * m + 1) (2 * m)).eval x0 := by
      cases m with
      | zero => simp [bp, bq]
      | succ m =>
        rw [if_neg (by omega), show 2 * (m + 1) = 2 * m + 1 + 1 by ring, bp_rec, show 2 * m + 1 + 1 - 1 = 2 * m + 1 by omega,
          show 2 * m + 1 + 1 + 1 - (2 * m + 1 + 1) = 1 by omega]
        simp [bq]
    rw [b1, show bq e (2 * m + 1) (2 * m + 1) = bp e (2 * m + 1) (2 * m) from rfl]
    ring

end Verif.Filt
