import Verif.Cg.CountModel

/-!
# C166, C167: dimensions and counters of EPSLOBPCG
-/
set_option linter.all false

namespace Verif.Cg

variable {c : LCfg}

theorem guard_lt (h : SetUpL c) : c.guard < c.bs := by
  obtain ⟨r, -, -, hg⟩ := h.guard
  have := h.bs
  rw [hg]
  unfold guardOf
  split_ifs
  · omega
  · have := min_le_right ⌊(1 - r) * c.bs + 0.45⌋₊ (c.bs - 1)
    omega

theorem ncv_ge (h : SetUpL c) : c.nev + 2 * c.bs ≤ c.ncv := by
  obtain ⟨u, hu⟩ := h.ncv
  have hbs := h.bs
  have hnev := h.nev
  have hk : max (3 * c.bs) (((c.nev - 1) / c.bs + 3) * c.bs) ≤ c.ncv := by
    unfold ncvOf at hu
    cases u with
    | none => exact (Option.some.inj hu).le
    | some m =>
      simp only at hu
      split_ifs at hu with h1
      rw [← Option.some.inj hu]; exact h1
  have h1 := le_trans (le_max_right _ _) hk
  have h2 : c.nev - 1 < ((c.nev - 1) / c.bs + 1) * c.bs := by
    rw [mul_comm]; exact Nat.lt_mul_div_succ _ hbs
  generalize (c.nev - 1) / c.bs = q at *
  have e1 : (q + 3) * c.bs = q * c.bs + 3 * c.bs := by ring
  have e2 : (q + 1) * c.bs = q * c.bs + c.bs := by ring
  rw [e1] at h1
  rw [e2] at h2
  omega

theorem lreach_inv (h : SetUpL c) {s : LSt} {p : ℕ} (hs : LReach c s p) :
    s.locked < c.nev ∧ s.locks ≤ s.locked ∧ (s.exps : ℤ) = s.epsits + s.its + s.locks ∧ p = s.exps + s.locks ∧ s.exps ≤ c.maxit + s.locks ∧ s.nconv < c.bs := by
  have hg := guard_lt h
  have hn := h.nev
  have hb := h.bs
  induction hs with
  | init => exact ⟨hn, le_refl _, by simp [lstart], rfl, Nat.zero_le _, hb⟩
  | pass s p k _ h1 h2 h3 ih =>
    obtain ⟨i1, i2, i3, i4, i5, i6⟩ := ih
    have a1 : s.locked + k < c.nev := by by_contra hc; exact h3 (Or.inl (not_lt.mp hc))
    have a2 : s.epsits + s.its < c.maxit := by by_contra hc; exact h3 (Or.inr (not_lt.mp hc))
    unfold lpass
    by_cases hh : lhard c k
    · rw [if_pos hh]
      unfold lhard at hh
      refine ⟨a1, ?_, ?_, ?_, ?_, hb⟩ <;> simp only
      · omega
      · push_cast; omega
      · omega
      · omega
    · rw [if_neg hh]
      unfold lhard at hh
      refine ⟨i1, i2, ?_, ?_, ?_, ?_⟩ <;> simp only
      · push_cast; omega
      · omega
      · omega
      · omega

/-- **C166.**  For every history of convergence all accesses are within bounds, and the columns taken as new initial vectors are among those generated at the beginning.  (Default stopping test.) -/
theorem C166_partial (h : SetUpL c) {s : LSt} {p k : ℕ} (hs : LReach c s p) (h1 : s.ini c ≤ k) (h2 : k ≤ c.bs) : Within c s k := by
  obtain ⟨i1, -⟩ := lreach_inv h hs
  have hk := ncv_ge h
  have hg := guard_lt h
  refine ⟨by omega, by omega, fun h3 h4 => ?_, fun _ _ => by omega⟩
  have a1 : s.locked + k < c.nev := by by_contra hc; exact h3 (Or.inl (not_lt.mp hc))
  unfold lhard at h4
  unfold LCfg.gen
  refine ⟨Or.inr (by omega), by omega, by omega⟩

/-- **C166 is false near the dimension of the problem:** with nev=98 in a problem of dimension 100 (default block size 16, which the test `n>=5*bs` of line 64 accepts) there is a history in which new initial vectors are taken from columns beyond the 100th,
which cannot be orthonormal to the others. -/
theorem C166_false : ∃ (c : LCfg) (s : LSt) (p : ℕ), SetUpL c ∧ c.nev = 98 ∧ c.bs = 16 ∧ 5 * c.bs ≤ 100 ∧ ncvOf c.nev c.bs none = some c.ncv ∧ LReach c s p ∧ ¬ lstop c s 16 ∧ lhard c 16 ∧ s.locked + c.bs < 100 ∧ 100 < s.locked + c.bs + 16 ∧ 100 < c.ncv := by
  have hg : guardOf 16 1 ≤ 15 := by
    unfold guardOf
    rw [if_neg (by norm_num)]
    exact min_le_right _ _
  obtain ⟨c, hc⟩ : ∃ c : LCfg, c = ⟨98, 16, 144, guardOf 16 1, 0, false, 1000⟩ := ⟨_, rfl⟩
  have hard : lhard c 16 := by unfold lhard; rw [hc]; exact Nat.sub_le _ _
  have step : ∀ q : ℕ, q ≤ 5 → LReach c ⟨16 * q, 0, 0, -(q : ℤ), 0, q⟩ q := by
    intro q
    induction q with
    | zero => intro _; exact LReach.init
    | succ q ih =>
      intro hq
      have := LReach.pass _ _ 16 (ih (by omega)) (by unfold LSt.ini; rw [hc]; simp) (by rw [hc]) (by unfold lstop; rw [hc]; simp; omega)
      unfold lpass at this
      rw [if_pos hard] at this
      convert this using 2
      all_goals first | omega | (push_cast; omega)
  refine ⟨c, _, 5, ⟨?_, ?_, ⟨none, ?_⟩, ⟨1, by norm_num, le_refl _, ?_⟩⟩, ?_, ?_, ?_, ?_, step 5 (le_refl _), ?_, hard, ?_, ?_, ?_⟩ <;> rw [hc] <;> try (first | rfl | norm_num)
  unfold lstop; simp

/-- **C167, the part that holds: termination.**  No run has more than max_it + 2(nev-1) passes that do not end the loop; the search space is expanded at most max_it times plus once for each block locked.
The number of expansions is the iteration number plus the number of blocks locked. -/
theorem C167_partial (h : SetUpL c) {s : LSt} {p : ℕ} (hs : LReach c s p) :
    p ≤ c.maxit + 2 * (c.nev - 1) ∧ (s.exps : ℤ) = s.result + s.locks ∧ s.exps ≤ c.maxit + s.locks ∧ s.locks ≤ c.nev - 1 := by
  obtain ⟨i1, i2, i3, i4, i5, -⟩ := lreach_inv h hs
  refine ⟨by omega, ?_, i5, by omega⟩
  unfold LSt.result; omega

/-- Without locking a block the iteration number is the number of expansions and does not exceed the limit. -/
theorem C167_single (h : SetUpL c) {s : LSt} {p : ℕ} (hs : LReach c s p) (h0 : s.locks = 0) : s.result = s.exps ∧ s.exps ≤ c.maxit := by
  obtain ⟨-, -, i3, -, i5, -⟩ := lreach_inv h hs
  unfold LSt.result
  constructor
  · omega
  · omega

theorem guard1 (r : ℝ) : guardOf 1 r = 0 := by unfold guardOf; simp

/-- **C167 is false of the code:** the iteration number can be -1 (initial vectors that are eigenvectors), and more expansions than allowed can be performed (limit 2, three expansions). -/
theorem C167_false : (∃ (c : LCfg) (s : LSt) (p : ℕ), SetUpL c ∧ LReach c s p ∧ lstop c s 1 ∧ s.result = -1) ∧
    ∃ (c : LCfg) (s : LSt) (p : ℕ), SetUpL c ∧ LReach c s p ∧ c.maxit = 2 ∧ s.exps = 3 ∧ s.result = 2 := by
  constructor
  · obtain ⟨c, hc⟩ : ∃ c : LCfg, c = ⟨2, 1, 4, 0, 0, false, 100⟩ := ⟨_, rfl⟩
    have h1 := LReach.pass (c := c) _ _ 1 LReach.init (by rw [hc]; decide) (by rw [hc]) (by rw [hc]; decide)
    refine ⟨c, _, _, ⟨?_, ?_, ⟨none, ?_⟩, ⟨1, by norm_num, le_refl _, ?_⟩⟩, h1, ?_, ?_⟩ <;> rw [hc]
    · decide
    · decide
    · rfl
    · exact (guard1 1).symm
    · decide
    · decide
  · obtain ⟨c, hc⟩ : ∃ c : LCfg, c = ⟨2, 1, 4, 0, 0, false, 2⟩ := ⟨_, rfl⟩
    have h1 := LReach.pass (c := c) _ _ 0 LReach.init (by rw [hc]; decide) (by rw [hc]; decide) (by rw [hc]; decide)
    have h2 := LReach.pass (c := c) _ _ 1 h1 (by rw [hc]; decide) (by rw [hc]) (by rw [hc]; decide)
    have h3 := LReach.pass (c := c) _ _ 0 h2 (by rw [hc]; decide) (by rw [hc]; decide) (by rw [hc]; decide)
    have h4 := LReach.pass (c := c) _ _ 0 h3 (by rw [hc]; decide) (by rw [hc]; decide) (by rw [hc]; decide)
    refine ⟨c, _, _, ⟨?_, ?_, ⟨none, ?_⟩, ⟨1, by norm_num, le_refl _, ?_⟩⟩, h4, ?_, ?_, ?_⟩ <;> rw [hc]
    · decide
    · decide
    · rfl
    · exact (guard1 1).symm
    · decide
    · decide

/-- A case: nev=5, block size 2, default dimensions. -/
example : SetUpL ⟨5, 2, 10, guardOf 2 0.9, 0, true, 100⟩ := ⟨by decide, by decide, ⟨none, rfl⟩, ⟨0.9, by norm_num, by norm_num, rfl⟩⟩

end Verif.Cg
