import Verif.Lan.BetaModel

/-! # C160: the residual norm in the error estimates of EPSLANCZOS -/
set_option linter.all false

namespace Verif.Lan

/-- Induction over the loop: a property of the result of each step (given its predecessor) holds at the end. -/
theorem bloop_inv (step : BSt → ℕ → Orth → BSt) (o : ℕ → Orth) (P : ℕ → BSt → Prop)
    (hl : ∀ s j q, (step s j (o j)).left = some q → q = j + 1)
    (hp : ∀ s j, (step s j (o j)).left = none → P (j + 1) (step s j (o j)))
    (hq : ∀ s j, (step s j (o j)).left ≠ none → P (j + 1) (step s j (o j))) :
    ∀ (g j : ℕ) (s : BSt), ∃ n, j < n ∧ n ≤ j + (g + 1) ∧ P n (bloop step o (g + 1) j s) ∧
      (bloop step o (g + 1) j s).left.getD (j + (g + 1)) = n
  | 0, j, s => by
    have e : bloop step o (0 + 1) j s = step s j (o j) := by
      rw [bloop]
      cases (step s j (o j)).left <;> rfl
    rw [e]
    refine ⟨j + 1, by omega, by omega, ?_, ?_⟩
    · cases h : (step s j (o j)).left with
      | none => exact hp s j h
      | some q => exact hq s j (by rw [h]; simp)
    · cases h : (step s j (o j)).left with
      | none => rfl
      | some q => exact hl s j q h
  | g + 1, j, s => by
    rw [bloop]
    cases h : (step s j (o j)).left with
    | none =>
      obtain ⟨n, n1, n2, n3, n4⟩ := bloop_inv step o P hl hp hq g (j + 1) (step s j (o j))
      refine ⟨n, by omega, by omega, n3, ?_⟩
      rw [show j + (g + 1 + 1) = j + 1 + (g + 1) by omega]
      exact n4
    | some q =>
      refine ⟨j + 1, by omega, by omega, hq s j (by rw [h]; simp), ?_⟩
      show (step s j (o j)).left.getD _ = _
      rw [h]; exact hl s j q h

/-- **C160, local reorthogonalization.** The returned value is the norm of the residual vector, with and without breakdown. -/
theorem C160_local_partial (o : ℕ → Orth) (k m : ℕ) (h : k < m) (s : BSt) :
    betam m (bloop lbstep o (m - k) k s) = (bloop lbstep o (m - k) k s).norm := by
  obtain ⟨g, hg⟩ : ∃ g, m - k = g + 1 := ⟨m - k - 1, by omega⟩
  obtain ⟨n, n1, n2, n3, n4⟩ := bloop_inv lbstep o (fun n s => s.beta (n - 1) = s.norm)
    (fun s j q hq => by
      unfold lbstep at hq
      cases hb : (o j).brk1 <;> simp [hb] at hq
      exact hq.symm)
    (fun s j _ => by show Function.update s.beta j (o j).norm1 (j + 1 - 1) = (o j).norm1; simp)
    (fun s j _ => by show Function.update s.beta j (o j).norm1 (j + 1 - 1) = (o j).norm1; simp) g k s
  unfold betam
  rw [hg]
  rw [show k + (g + 1) = m by omega] at n4
  rw [n4]; exact n3

theorem pstep_cases (s : BSt) (j : ℕ) (o : Orth) :
    ((pstep s j o).left = none ∧ (pstep s j o).beta j = (pstep s j o).norm) ∨
    ((pstep s j o).left = some (j + 1) ∧ (pstep s j o).fro = s.fro ∧
      (s.fro = false → o.second = false → (pstep s j o).beta j = (pstep s j o).norm)) := by
  unfold pstep
  cases hf : s.fro <;> cases h1 : o.brk1 <;> cases h2 : o.second <;> cases h3 : o.brk2 <;> cases h4 : o.tiny <;> simp

/-- **C160, partial and periodic reorthogonalization.** The returned value is the norm of the residual vector, except if
the loop has been left in mode `fro` or after a second orthogonalization; without breakdown it always is. -/
theorem C160_partial_partial (o : ℕ → Orth) (k m : ℕ) (h : k < m) (s : BSt) :
    betam m (bloop pstep o (m - k) k s) = (bloop pstep o (m - k) k s).norm ∨
    ∃ M, (bloop pstep o (m - k) k s).left = some M ∧ ((bloop pstep o (m - k) k s).fro = true ∨ (o (M - 1)).second = true) := by
  obtain ⟨g, hg⟩ : ∃ g, m - k = g + 1 := ⟨m - k - 1, by omega⟩
  have key : ∀ (s : BSt) (j : ℕ), (fun n (s : BSt) => s.beta (n - 1) = s.norm ∨ (s.left = some n ∧ (s.fro = true ∨ (o (n - 1)).second = true)))
      (j + 1) (pstep s j (o j)) := fun s j => by
    rcases pstep_cases s j (o j) with ⟨_, h2⟩ | ⟨h1, h2, h3⟩
    · exact Or.inl h2
    · by_cases hf : s.fro = true
      · exact Or.inr ⟨h1, Or.inl (h2.trans hf)⟩
      · by_cases hs : (o j).second = true
        · exact Or.inr ⟨h1, Or.inr hs⟩
        · exact Or.inl (h3 (by simpa using hf) (by simpa using hs))
  obtain ⟨n, n1, n2, n3, n4⟩ := bloop_inv pstep o (fun n s => s.beta (n - 1) = s.norm ∨ (s.left = some n ∧ (s.fro = true ∨ (o (n - 1)).second = true)))
    (fun s j q hq => by
      rcases pstep_cases s j (o j) with ⟨h1, _⟩ | ⟨h1, _, _⟩
      · rw [h1] at hq; simp at hq
      · rw [h1] at hq; exact (Option.some.inj hq).symm)
    (fun s j _ => key s j) (fun s j _ => key s j) g k s
  unfold betam
  rw [hg]
  rw [show k + (g + 1) = m by omega] at n4
  rw [n4]
  rcases n3 with h | h
  · exact Or.inl h
  · exact Or.inr ⟨n, h⟩

/-- **C160 is false for partial and periodic reorthogonalization.** After a breakdown in mode `fro`, where the residual is zero,
the value used in the estimates is whatever the array contained before. -/
theorem C160_fro_false (old : ℝ) : ∃ (o : ℕ → Orth) (s : BSt), s.beta 1 = old ∧ s.fro = false ∧
    (bloop pstep o 2 0 s).left = some 2 ∧ (bloop pstep o 2 0 s).norm = 0 ∧ betam 2 (bloop pstep o 2 0 s) = old := by
  refine ⟨fun j => { norm1 := if j = 0 then 1 else 0, brk1 := decide (j = 1), second := false, norm2 := 0, brk2 := false, tiny := false, toFro := true },
    { beta := fun _ => old, fro := false, norm := 0, left := none }, rfl, rfl, ?_, ?_, ?_⟩
  · simp [bloop, pstep]
  · simp [bloop, pstep]
  · simp [bloop, pstep, betam]

/-- **C160 is false for selective reorthogonalization.** After the orthogonalization against Ritz vectors the value used in
the estimates is still the norm before it. -/
theorem C160_selective_false : ∃ (o : ℕ → Orth) (s : BSt), (bloop sstep o 1 0 s).left = none ∧
    (bloop sstep o 1 0 s).norm = 1 ∧ betam 1 (bloop sstep o 1 0 s) = 2 := by
  refine ⟨fun j => { norm1 := 2, brk1 := false, second := true, norm2 := 1, brk2 := false, tiny := false, toFro := false },
    { beta := fun _ => 0, fro := false, norm := 0, left := none }, ?_, ?_, ?_⟩
  · simp [bloop, sstep]
  · simp [bloop, sstep]
  · simp [bloop, sstep, betam]

/-- **C160, selective reorthogonalization.** The returned value is the norm of the residual vector if no step orthogonalizes
against Ritz vectors. -/
theorem C160_selective_partial (o : ℕ → Orth) (k m : ℕ) (h : k < m) (s : BSt) (hx : ∀ j, (o j).second = false) :
    betam m (bloop sstep o (m - k) k s) = (bloop sstep o (m - k) k s).norm := by
  obtain ⟨g, hg⟩ : ∃ g, m - k = g + 1 := ⟨m - k - 1, by omega⟩
  have key : ∀ s j, (sstep s j (o j)).beta (j + 1 - 1) = (sstep s j (o j)).norm := fun s j => by
    unfold sstep
    simp only [hx j]
    cases (o j).brk1 <;> simp
  obtain ⟨n, n1, n2, n3, n4⟩ := bloop_inv sstep o (fun n s => s.beta (n - 1) = s.norm)
    (fun s j q hq => by
      unfold sstep at hq
      simp only [hx j] at hq
      cases hb : (o j).brk1 <;> simp [hb] at hq
      exact hq.symm)
    (fun s j _ => key s j) (fun s j _ => key s j) g k s
  unfold betam
  rw [hg]
  rw [show k + (g + 1) = m by omega] at n4
  rw [n4]; exact n3

/-- Beside `C160_partial_partial`: two steps without breakdown. -/
example : ∃ (o : ℕ → Orth) (s : BSt), (bloop pstep o (2 - 0) 0 s).left = none ∧ betam 2 (bloop pstep o (2 - 0) 0 s) = 7 := by
  refine ⟨fun j => { norm1 := 7, brk1 := false, second := false, norm2 := 0, brk2 := false, tiny := false, toFro := false },
    { beta := fun _ => 0, fro := false, norm := 0, left := none }, ?_, ?_⟩
  · simp [bloop, pstep]
  · simp [bloop, pstep, betam]

end Verif.Lan
