import Verif.Lan.SortModel

/-! # C155, C157: placement of converged values and purge of repeated ones in EPSLANCZOS -/
set_option linter.all false

namespace Verif.Lan

theorem srch_some {p : ℕ → Bool} : ∀ {g j q : ℕ}, srch p g j = some q →
    j ≤ q ∧ q < j + g ∧ p q = true ∧ ∀ i, j ≤ i → i < q → p i = false
  | 0, j, q, h => by simp [srch] at h
  | g + 1, j, q, h => by
    rw [srch] at h
    by_cases hp : p j = true
    · rw [if_pos hp] at h
      have : j = q := Option.some.inj h
      subst this
      exact ⟨le_refl _, by omega, hp, fun i h1 h2 => by omega⟩
    · rw [if_neg hp] at h
      obtain ⟨h1, h2, h3, h4⟩ := srch_some h
      refine ⟨by omega, by omega, h3, fun i hi hq => ?_⟩
      by_cases e : i = j
      · subst e; simpa using hp
      · exact h4 i (by omega) hq

theorem srch_none {p : ℕ → Bool} : ∀ {g j : ℕ}, srch p g j = none →
    ∀ i, j ≤ i → i < j + g → p i = false
  | 0, j, h => fun i h1 h2 => by omega
  | g + 1, j, h => fun i h1 h2 => by
    rw [srch] at h
    by_cases hp : p j = true
    · rw [if_pos hp] at h; simp at h
    · rw [if_neg hp] at h
      by_cases e : i = j
      · subst e; simpa using hp
      · exact srch_none h i (by omega) (by omega)

theorem swp_eq {α : Type} (f : ℕ → α) (a b i : ℕ) : swp f a b i = f (Equiv.swap a b i) := by
  unfold swp
  by_cases h1 : i = a
  · subst h1; simp
  · by_cases h2 : i = b
    · subst h2; simp [h1]
    · rw [if_neg h1, if_neg h2, Equiv.swap_apply_of_ne_of_ne h1 h2]

/-- A permutation fixing everything outside `[k,n)` maps `[k,n)` to itself. -/
theorem perm_mem {σ : Equiv.Perm ℕ} {k n : ℕ} (h : ∀ i, i < k ∨ n ≤ i → σ i = i) (i : ℕ)
    (h1 : k ≤ i) (h2 : i < n) : k ≤ σ i ∧ σ i < n := by
  by_contra hc
  have hc' : σ i < k ∨ n ≤ σ i := by omega
  have e := σ.injective (h _ hc')
  omega

theorem part_spec {α : Type} (P : α → Bool) (n : ℕ) : ∀ (g k : ℕ) (f : ℕ → α), k + g = n →
    ∃ σ : Equiv.Perm ℕ, (∀ i, i < k ∨ n ≤ i → σ i = i) ∧
      (∀ i, (part P n g k f).1 i = f (σ i)) ∧
      k ≤ (part P n g k f).2 ∧ (part P n g k f).2 ≤ n ∧
      (∀ i, k ≤ i → i < (part P n g k f).2 → P (f (σ i)) = true) ∧
      (∀ i, (part P n g k f).2 ≤ i → i < n → P (f (σ i)) = false) ∧
      (∀ i j, k ≤ i → i < j → j < (part P n g k f).2 → σ i < σ j)
  | 0, k, f, h => ⟨1, fun _ _ => rfl, fun _ => rfl, le_refl _, by simp [part]; omega,
      fun i h1 h2 => by simp [part] at h2; omega, fun i h1 h2 => by simp [part] at h1; omega,
      fun i j h1 h2 h3 => by simp [part] at h3; omega⟩
  | g + 1, k, f, h => by
    rw [part]
    by_cases hp : P (f k) = true
    · rw [if_pos hp]
      obtain ⟨σ, s1, s2, s3, s4, s5, s6, s7⟩ := part_spec P n g (k + 1) f (by omega)
      refine ⟨σ, fun i hi => s1 i (by omega), s2, by omega, s4, fun i h1 h2 => ?_, s6,
        fun i j h1 h2 h3 => ?_⟩
      · by_cases e : i = k
        · subst e; rw [s1 i (by omega)]; exact hp
        · exact s5 i (by omega) h2
      · by_cases e : i = k
        · subst e
          rw [s1 i (by omega)]
          have := perm_mem s1 j (by omega) (by omega)
          omega
        · exact s7 i j (by omega) h2 h3
    · rw [if_neg hp]
      cases hs : srch (fun j => P (f j)) (n - (k + 1)) (k + 1) with
      | none =>
        refine ⟨1, fun _ _ => rfl, fun _ => rfl, le_refl _, by show k ≤ n; omega, fun i h1 h2 => ?_,
          fun i h1 h2 => ?_, fun i j h1 h2 h3 => ?_⟩
        · have : i < k := h2
          omega
        · have h1' : k ≤ i := h1
          show P (f i) = false
          by_cases e : i = k
          · subst e; simpa using hp
          · exact srch_none hs i (by omega) (by omega)
        · have : j < k := h3
          omega
      | some q =>
        obtain ⟨q1, q2, q3, q4⟩ := srch_some hs
        obtain ⟨σ, s1, s2, s3, s4, s5, s6, s7⟩ := part_spec P n g (k + 1) (swp f k q) (by omega)
        have hP : ∀ i, P (swp f k q (σ i)) = P (f ((σ.trans (Equiv.swap k q)) i)) := fun i => by
          rw [swp_eq]; rfl
        have hk : (σ.trans (Equiv.swap k q)) k = q := by
          show Equiv.swap k q (σ k) = q
          rw [s1 k (by omega)]; simp
        have hi : ∀ i, k < i → i < (part P n g (k + 1) (swp f k q)).2 →
            q < σ i ∧ (σ.trans (Equiv.swap k q)) i = σ i := fun i h1 h2 => by
          have hm := perm_mem s1 i (by omega) (by omega)
          have hPi := s5 i (by omega) h2
          have hne : σ i ≠ q := fun e => by
            rw [e, swp_eq] at hPi; simp at hPi; exact hp hPi
          have hsw : Equiv.swap k q (σ i) = σ i := Equiv.swap_apply_of_ne_of_ne (by omega) hne
          refine ⟨?_, hsw⟩
          rw [swp_eq, hsw] at hPi
          by_contra hlt
          have := q4 (σ i) hm.1 (by omega)
          simp [hPi] at this
        refine ⟨σ.trans (Equiv.swap k q), fun i hi' => ?_, fun i => ?_, by show k ≤ (part P n g (k+1) (swp f k q)).2; omega, s4, fun i h1 h2 => ?_,
          fun i h1 h2 => ?_, fun i j h1 h2 h3 => ?_⟩
        · show Equiv.swap k q (σ i) = i
          rw [s1 i (by omega)]
          exact Equiv.swap_apply_of_ne_of_ne (by omega) (by omega)
        · have := s2 i
          rw [swp_eq] at this
          exact this
        · by_cases e : i = k
          · subst e; rw [hk]; exact q3
          · rw [← hP]; exact s5 i (by omega) h2
        · rw [← hP]; exact s6 i h1 h2
        · have h3' : j < (part P n g (k + 1) (swp f k q)).2 := h3
          obtain ⟨j1, j2⟩ := hi j (by omega) h3'
          rw [j2]
          by_cases e : i = k
          · subst e; rw [hk]; exact j1
          · rw [(hi i (by omega) (by omega)).2]
            exact s7 i j (by omega) h2 h3

theorem place_spec {α : Type} (n : ℕ) : ∀ (g i k : ℕ) (perm : ℕ → ℕ) (a : ℕ → α), i + g = k → k ≤ n →
    (∀ p, i ≤ p → p < n → i ≤ perm p ∧ perm p < n) →
    (∀ p q, i ≤ p → p < n → i ≤ q → q < n → perm p = perm q → p = q) →
    (∀ v, i ≤ v → v < n → ∃ p, i ≤ p ∧ p < n ∧ perm p = v) →
    ∃ b, place n g i perm a = some b ∧ ∃ τ : Equiv.Perm ℕ, (∀ p, p < i ∨ n ≤ p → τ p = p) ∧
      (∀ p, i ≤ p → p < k → τ p = perm p) ∧ ∀ p, b p = a (τ p)
  | 0, i, k, perm, a, h, hk, m, inj, sur =>
    ⟨a, rfl, 1, fun _ _ => rfl, fun p h1 h2 => by omega, fun _ => rfl⟩
  | g + 1, i, k, perm, a, h, hk, m, inj, sur => by
    rw [place]
    by_cases hx : perm i = i
    · rw [if_pos hx]
      obtain ⟨b, hb, τ, t1, t2, t3⟩ := place_spec n g (i + 1) k perm a (by omega) hk
        (fun p h1 h2 => by
          have := m p (by omega) h2
          have : perm p ≠ i := fun e => by
            have := inj p i (by omega) h2 (le_refl _) (by omega) (by omega)
            omega
          omega)
        (fun p q h1 h2 h3 h4 e => inj p q (by omega) h2 (by omega) h4 e)
        (fun v h1 h2 => by
          obtain ⟨p, p1, p2, p3⟩ := sur v (by omega) h2
          refine ⟨p, ?_, p2, p3⟩
          by_contra hc
          have : p = i := by omega
          subst this
          omega)
      refine ⟨b, hb, τ, fun p hp => t1 p (by omega), fun p h1 h2 => ?_, t3⟩
      by_cases e : p = i
      · subst e; rw [t1 p (by omega), hx]
      · exact t2 p (by omega) h2
    · rw [if_neg hx]
      obtain ⟨q, q1, q2, q3⟩ := sur i (le_refl _) (by omega)
      have hqi : q ≠ i := fun e => hx (by rw [e] at q3; exact q3)
      cases hs : srch (fun j => decide (perm j = i)) (n - (i + 1)) (i + 1) with
      | none =>
        have := srch_none hs q (by omega) (by omega)
        simp [q3] at this
      | some j =>
        obtain ⟨j1, j2, j3, j4⟩ := srch_some hs
        have j3' : perm j = i := by simpa using j3
        have mi := m i (le_refl _) (by omega)
        set perm' := Function.update (Function.update perm j (perm i)) i i with hperm'
        have e1 : perm' j = perm i := by
          rw [hperm', Function.update_of_ne (by omega), Function.update_self]
        have e2 : ∀ p, p ≠ i → p ≠ j → perm' p = perm p := fun p h1 h2 => by
          rw [hperm', Function.update_of_ne h1, Function.update_of_ne h2]
        have nei : ∀ p, i < p → p < n → p ≠ j → perm p ≠ i ∧ perm p ≠ perm i := fun p h1 h2 h3 =>
          ⟨fun e => h3 (inj p j (by omega) h2 (by omega) (by omega) (by omega)),
            fun e => by have := inj p i (by omega) h2 (le_refl _) (by omega) e; omega⟩
        obtain ⟨b, hb, τ, t1, t2, t3⟩ := place_spec n g (i + 1) k perm' (swp a (perm i) i) (by omega) hk
          (fun p h1 h2 => by
            by_cases e : p = j
            · subst e; rw [e1]; omega
            · rw [e2 p (by omega) e]
              have := m p (by omega) h2
              have := nei p (by omega) h2 e
              omega)
          (fun p r h1 h2 h3 h4 e => by
            by_cases ep : p = j
            · by_cases er : r = j
              · omega
              · rw [ep, e1, e2 r (by omega) er] at e
                have := nei r (by omega) h4 er
                omega
            · by_cases er : r = j
              · rw [er, e1, e2 p (by omega) ep] at e
                have := nei p (by omega) h2 ep
                omega
              · rw [e2 p (by omega) ep, e2 r (by omega) er] at e
                exact inj p r (by omega) h2 (by omega) h4 e)
          (fun v h1 h2 => by
            obtain ⟨p, p1, p2, p3⟩ := sur v (by omega) h2
            by_cases ei : p = i
            · subst ei; exact ⟨j, by omega, by omega, by rw [e1]; exact p3⟩
            · by_cases ej : p = j
              · subst ej; omega
              · exact ⟨p, by omega, p2, by rw [e2 p ei ej]; exact p3⟩)
        refine ⟨b, hb, τ.trans (Equiv.swap (perm i) i), fun p hp => ?_, fun p h1 h2 => ?_, fun p => ?_⟩
        · show Equiv.swap (perm i) i (τ p) = p
          rw [t1 p (by omega)]
          exact Equiv.swap_apply_of_ne_of_ne (by omega) (by omega)
        · show Equiv.swap (perm i) i (τ p) = perm p
          by_cases e : p = i
          · subst e; rw [t1 p (by omega)]; simp
          · rw [t2 p (by omega) h2]
            by_cases ej : p = j
            · subst ej; rw [e1, j3']; simp
            · rw [e2 p e ej]
              have := nei p (by omega) (by omega) ej
              exact Equiv.swap_apply_of_ne_of_ne this.2 this.1
        · rw [t3 p, swp_eq]; rfl

/-- The result of moving entries satisfying `P` of `a[nconv..n)` to the front: `b` is a rearrangement
of `a`, the first `k` entries satisfy `P` and keep their relative order, the others do not. -/
def Front {α : Type} (P : α → Bool) (nconv n : ℕ) (a b : ℕ → α) (k : ℕ) : Prop :=
  nconv ≤ k ∧ k ≤ n ∧ ∃ σ : Equiv.Perm ℕ, (∀ i, i < nconv ∨ n ≤ i → σ i = i) ∧ (∀ i, b i = a (σ i)) ∧
    (∀ i, nconv ≤ i → i < k → P (b i) = true) ∧ (∀ i, k ≤ i → i < n → P (b i) = false) ∧
    (∀ i j, nconv ≤ i → i < j → j < k → σ i < σ j)

/-- **C155.** The two loops of EPSSolve_Lanczos put the converged pairs first, in their order, and
never search beyond the end of the permutation array. -/
theorem C155_first {α : Type} (P : α → Bool) (nconv n : ℕ) (h : nconv ≤ n) (a : ℕ → α) :
    ∃ b k, sortConv P nconv n a = some (b, k) ∧ Front P nconv n a b k := by
  obtain ⟨σ, s1, s2, s3, s4, s5, s6, s7⟩ := part_spec (fun i => P (a i)) n (n - nconv) nconv id (by omega)
  set pk := part (fun i => P (a i)) n (n - nconv) nconv id with hpk
  have s2' : ∀ i, pk.1 i = σ i := s2
  obtain ⟨b, hb, τ, t1, t2, t3⟩ := place_spec n (pk.2 - nconv) nconv pk.2 pk.1 a (by omega) s4
    (fun p h1 h2 => by rw [s2']; exact perm_mem s1 p h1 h2)
    (fun p q _ _ _ _ e => by rw [s2', s2'] at e; exact σ.injective e)
    (fun v h1 h2 => ⟨σ.symm v, by
      have inv : ∀ i, i < nconv ∨ n ≤ i → σ.symm i = i := fun i hi => by
        rw [Equiv.symm_apply_eq]; exact (s1 i hi).symm
      have := perm_mem inv v h1 h2
      exact this.1, by
      have inv : ∀ i, i < nconv ∨ n ≤ i → σ.symm i = i := fun i hi => by
        rw [Equiv.symm_apply_eq]; exact (s1 i hi).symm
      have := perm_mem inv v h1 h2
      exact this.2, by rw [s2']; simp⟩)
  refine ⟨b, pk.2, ?_, s3, s4, τ, t1, t3, fun i h1 h2 => ?_, fun i h1 h2 => ?_, fun i j h1 h2 h3 => ?_⟩
  · unfold sortConv
    show Option.map _ (place n (pk.2 - nconv) nconv pk.1 a) = _
    rw [hb]; rfl
  · rw [t3, t2 i h1 h2, s2']; exact s5 i h1 h2
  · rw [t3]
    have hq := perm_mem t1 i (by omega) h2
    have hi : σ (σ.symm (τ i)) = τ i := by simp
    have inv : ∀ i, i < nconv ∨ n ≤ i → σ.symm i = i := fun i hi => by
      rw [Equiv.symm_apply_eq]; exact (s1 i hi).symm
    have hm := perm_mem inv (τ i) hq.1 hq.2
    by_cases hc : σ.symm (τ i) < pk.2
    · have := t2 (σ.symm (τ i)) hm.1 hc
      rw [s2', hi] at this
      have := τ.injective this
      omega
    · have := s6 (σ.symm (τ i)) (by omega) hm.2
      simpa [hi] using this
  · rw [t2 i h1 (by omega), t2 j (by omega) h3, s2', s2']
    exact s7 i j h1 h2 h3

/-- **C155.** The loop that removes spurious values has the same effect on the accepted ones. -/
theorem C155_spurious {α : Type} (P : α → Bool) (nconv k : ℕ) (h : nconv ≤ k) (a : ℕ → α) :
    Front P nconv k a (part P k (k - nconv) nconv a).1 (part P k (k - nconv) nconv a).2 := by
  obtain ⟨σ, s1, s2, s3, s4, s5, s6, s7⟩ := part_spec P k (k - nconv) nconv a (by omega)
  exact ⟨s3, s4, σ, s1, s2, fun i h1 h2 => by rw [s2]; exact s5 i h1 h2,
    fun i h1 h2 => by rw [s2]; exact s6 i h1 h2, s7⟩

/-- A pair is to be accepted if it is marked as converged and, with local reorthogonalization, its
true error is below the tolerance. -/
def Good {β : Type} (tol : ℝ) (loc : Bool) (res : β → ℝ) (r : Rec β) : Prop :=
  r.mark = 'C' ∧ (loc = true → res r.val < tol)

/-- **C155.** At the end of a restart the accepted pairs are exactly those that pass the tests, in the
order of the input, each value with its vector; with local reorthogonalization the stored estimates
are the true errors. -/
theorem C155_accepted {β : Type} (tol : ℝ) (loc : Bool) (res : β → ℝ) (nconv n : ℕ) (h : nconv ≤ n)
    (a : ℕ → Rec β) :
    ∃ b k, settle tol loc res nconv n a = some (b, k) ∧ nconv ≤ k ∧ k ≤ n ∧
      ∃ σ : Equiv.Perm ℕ, (∀ i, i < nconv ∨ n ≤ i → σ i = i) ∧ (∀ i, (b i).val = (a (σ i)).val) ∧
        (∀ i, nconv ≤ i → i < k → Good tol loc res (a (σ i)) ∧
          (b i).est = if loc then res (b i).val else (a (σ i)).est) ∧
        (∀ i, k ≤ i → i < n → ¬ Good tol loc res (a (σ i))) ∧
        (∀ i j, nconv ≤ i → i < j → j < k → σ i < σ j) := by
  obtain ⟨b, k, hb, k1, k2, σ, s1, s2, s3, s4, s5⟩ := C155_first isC nconv n h a
  have hC : ∀ r : Rec β, isC r = true ↔ r.mark = 'C' := fun r => by simp [isC]
  unfold settle
  rw [hb]
  cases loc with
  | false =>
    refine ⟨b, k, rfl, k1, k2, σ, s1, fun i => by rw [s2], fun i h1 h2 => ⟨⟨?_, fun hf => by simp at hf⟩, ?_⟩,
      fun i h1 h2 hg => ?_, s5⟩
    · rw [← s2]; exact (hC _).1 (s3 i h1 h2)
    · simp [s2]
    · have := s4 i h1 h2
      rw [s2, (hC _).2 hg.1] at this
      simp at this
  | true =>
    obtain ⟨m1, m2, ρ, r1, r2, r3, r4, r5⟩ := C155_spurious isC nconv k k1 (spur tol res nconv k b)
    set pp := part isC k (k - nconv) nconv (spur tol res nconv k b) with hpp
    have sv : ∀ i, (spur tol res nconv k b i).val = (b i).val := fun i => by
      unfold spur; by_cases hi : nconv ≤ i ∧ i < k
      · rw [if_pos hi]
      · rw [if_neg hi]
    refine ⟨pp.1, pp.2, rfl, m1, by omega, ρ.trans σ, fun i hi => ?_, fun i => ?_, fun i h1 h2 => ?_,
      fun i h1 h2 hg => ?_, fun i j h1 h2 h3 => ?_⟩
    · show σ (ρ i) = i
      rw [r1 i (by omega)]; exact s1 i hi
    · show _ = (a (σ (ρ i))).val
      rw [r2, sv, s2]
    · have hm := perm_mem r1 i h1 (by omega)
      have hc := (hC _).1 (r3 i h1 h2)
      rw [r2] at hc
      have hcc := hc
      unfold spur at hc
      rw [if_pos hm] at hc
      show Good tol true res (a (σ (ρ i))) ∧ _
      by_cases ht : tol ≤ res (b (ρ i)).val
      · simp [ht] at hc
      · have hc' : (b (ρ i)).mark = 'C' := by simpa [ht] using hc
        refine ⟨⟨by rw [← s2]; exact hc', fun _ => by rw [← s2]; exact not_le.1 ht⟩, ?_⟩
        rw [if_pos rfl, r2, sv]
        unfold spur
        rw [if_pos hm]
    · have hg' : Good tol true res (a (σ (ρ i))) := hg
      by_cases hik : i < k
      · have hm := perm_mem r1 i (by omega) hik
        have hf := r4 i h1 hik
        rw [r2] at hf
        have : isC (spur tol res nconv k b (ρ i)) = true := by
          rw [hC]
          unfold spur
          rw [if_pos hm]
          have := hg'.2 rfl
          rw [← s2] at this
          simp [not_le.2 this]
          have := hg'.1
          rw [← s2] at this
          exact this
        rw [this] at hf
        simp at hf
      · rw [r1 i (by omega)] at hg'
        have := s4 i (by omega) h2
        rw [s2, (hC _).2 hg'.1] at this
        simp at this
    · show σ (ρ i) < σ (ρ j)
      exact s5 _ _ (perm_mem r1 i h1 (by omega)).1 (r5 i j h1 h2 h3) (perm_mem r1 j (by omega) (by omega)).2

theorem restartLoop_spec (c : ℕ → Char) (key : ℕ → ℝ) : ∀ (g i r nc : ℕ), c r = 'N' → nc ≤ r → r < i →
    (∀ p, nc ≤ p → p < i → c p = 'N' → key p ≤ key r) →
    c (restartLoop c key g i r) = 'N' ∧ nc ≤ restartLoop c key g i r ∧ restartLoop c key g i r < i + g ∧
      ∀ p, nc ≤ p → p < i + g → c p = 'N' → key p ≤ key (restartLoop c key g i r)
  | 0, i, r, nc, h1, h2, h3, h4 => ⟨h1, h2, h3, h4⟩
  | g + 1, i, r, nc, h1, h2, h3, h4 => by
    have e : i + 1 + g = i + (g + 1) := by omega
    rw [restartLoop]
    by_cases hb : c i = 'N' ∧ key r < key i
    · rw [if_pos hb, ← e]
      exact restartLoop_spec c key g (i + 1) i nc hb.1 (by omega) (by omega)
        (fun p p1 p2 p3 => by
          by_cases e : p = i
          · rw [e]
          · exact (h4 p p1 (by omega) p3).trans hb.2.le)
    · rw [if_neg hb, ← e]
      exact restartLoop_spec c key g (i + 1) r nc h1 h2 (by omega)
        (fun p p1 p2 p3 => by
          by_cases e : p = i
          · subst e
            by_contra hc
            exact hb ⟨p3, not_le.1 hc⟩
          · exact h4 p p1 (by omega) p3)

/-- **C155.** The restart vector is the preferred one among the unconverged Ritz vectors, and a new
start vector is generated only if there is none. -/
theorem C155_restart (c : ℕ → Char) (key : ℕ → ℝ) (nconv n : ℕ) (h : nconv ≤ n) :
    (∀ r, restartIdx c key nconv n = some r → c r = 'N' ∧ nconv ≤ r ∧ r < n ∧
      ∀ p, nconv ≤ p → p < n → c p = 'N' → key p ≤ key r) ∧
    (restartIdx c key nconv n = none → ∀ p, nconv ≤ p → p < n → c p ≠ 'N') := by
  unfold restartIdx
  cases hs : srch (fun j => c j == 'N') (n - nconv) nconv with
  | none =>
    refine ⟨fun r hr => by simp at hr, fun _ p h1 h2 => ?_⟩
    have := srch_none hs p h1 (by omega)
    simpa using this
  | some q =>
    refine ⟨fun r hr => ?_, fun hr => by simp at hr⟩
    have hr' := Option.some.inj hr
    subst hr'
    obtain ⟨q1, q2, q3, q4⟩ := srch_some hs
    have e : q + 1 + (n - (q + 1)) = n := by omega
    have := restartLoop_spec c key (n - (q + 1)) (q + 1) q nconv (by simpa using q3) q1 (by omega)
      (fun p p1 p2 p3 => by
        by_cases e : p = q
        · rw [e]
        · have := q4 p p1 (by omega)
          simp [p3] at this)
    rw [e] at this
    exact this

/-- Beside `C155_accepted`: values marked N, C, C with the second one spurious. -/
example : ∃ b k, settle (1/2) true (fun v : ℕ => if v = 11 then 1 else 0) 0 3
    (fun i => { val := 10 + i, est := 0, mark := if i = 0 then 'N' else 'C' }) = some (b, k) ∧
    k = 1 ∧ (b 0).val = 12 := by
  obtain ⟨b, k, h1, h2, h3, σ, s1, s2, s3, s4, s5⟩ := C155_accepted (1/2) true
    (fun v : ℕ => if v = 11 then 1 else 0) 0 3 (by norm_num)
    (fun i => { val := 10 + i, est := 0, mark := if i = 0 then 'N' else 'C' })
  have g2 : Good (1/2) true (fun v : ℕ => if v = 11 then (1:ℝ) else 0)
      { val := 10 + 2, est := 0, mark := if (2:ℕ) = 0 then 'N' else 'C' } := ⟨by norm_num, fun _ => by norm_num⟩
  have acc : ∀ i, i < k → σ i = 2 := fun i hi => by
    have hg := (s3 i (by omega) hi).1
    have hm := perm_mem s1 i (by omega) (by omega)
    rcases hv : σ i with _ | _ | _ | m
    · rw [hv] at hg; exact absurd hg.1 (by decide)
    · rw [hv] at hg; have := hg.2 rfl; norm_num at this
    · rfl
    · omega
  have k1 : k ≤ 1 := by
    by_contra hc
    have := s5 0 1 (by omega) (by omega) (by omega)
    rw [acc 0 (by omega), acc 1 (by omega)] at this
    omega
  have k0 : k ≠ 0 := fun e => by
    have inv : ∀ i, i < 0 ∨ 3 ≤ i → σ.symm i = i := fun i hi => by
      rw [Equiv.symm_apply_eq]; exact (s1 i hi).symm
    have hm := perm_mem inv 2 (by omega) (by omega)
    refine s4 (σ.symm 2) (by omega) hm.2 ?_
    simpa using g2
  refine ⟨b, k, h1, by omega, ?_⟩
  rw [s2, acc 0 (by omega)]

/-- **C157, the part that holds.** A converged value is discarded as repeated only if it is close to
the value before it; the others keep their mark. -/
theorem C157_partial (tol : ℝ) (ritz est : ℕ → ℝ) (nconv i : ℕ) (hi : nconv ≤ i) :
    (markR tol ritz nconv (mark0 tol est) i = 'R' ↔
      est i < tol ∧ nconv < i ∧ |(ritz i - ritz (i - 1)) / ritz i| < tol) ∧
    (markR tol ritz nconv (mark0 tol est) i = 'N' ↔ ¬ est i < tol) := by
  unfold markR mark0
  by_cases h : est i < tol
  · by_cases h2 : nconv + 1 ≤ i ∧ |(ritz i - ritz (i - 1)) / ritz i| < tol
    · have h3 : nconv < i := h2.1
      simp [h, h2.2, h3]
    · by_cases h3 : nconv < i
      · have h4 : ¬ |(ritz i - ritz (i - 1)) / ritz i| < tol := fun e => h2 ⟨h3, e⟩
        simp [h, h3, h4]
      · have h4 : ¬ nconv + 1 ≤ i := fun e => h3 e
        simp [h, h3, h4]
  · simp [h]

/-- **C157.** Consecutive accepted values differ by more than the tolerance. -/
theorem C157_adjacent (tol : ℝ) (ritz est : ℕ → ℝ) (nconv i : ℕ) (hi : nconv ≤ i) 
    (h2 : markR tol ritz nconv (mark0 tol est) (i + 1) = 'C') (h0 : ritz (i + 1) ≠ 0) :
    tol * |ritz (i + 1)| ≤ |ritz (i + 1) - ritz i| := by
  unfold markR at h2
  by_cases hc : nconv + 1 ≤ i + 1 ∧ mark0 tol est (i + 1) = 'C' ∧ |(ritz (i + 1) - ritz (i + 1 - 1)) / ritz (i + 1)| < tol
  · rw [if_pos hc] at h2; exact absurd h2 (by decide)
  · rw [if_neg hc] at h2
    have h3 : ¬ |(ritz (i + 1) - ritz (i + 1 - 1)) / ritz (i + 1)| < tol := fun e => hc ⟨by omega, h2, e⟩
    rw [abs_div, not_lt, le_div_iff₀ (abs_pos.2 h0)] at h3
    simpa using h3

/-- **C157 is false of the code.** A converged value can be discarded as repeated although no other
converged value equals it (its neighbour is equal but has not converged), so nothing is accepted; and
with values ordered by magnitude the same value can be accepted twice. -/
theorem C157_false :
    (∃ ritz est : ℕ → ℝ, est 1 < 1/10 ∧ ∀ i, i < 2 → markR (1/10) ritz 0 (mark0 (1/10) est) i ≠ 'C') ∧
    (∃ ritz est : ℕ → ℝ, ritz 0 = ritz 2 ∧ |ritz 0| ≥ |ritz 1| ∧ |ritz 1| ≥ |ritz 2| ∧
      markR (1/10) ritz 0 (mark0 (1/10) est) 0 = 'C' ∧ markR (1/10) ritz 0 (mark0 (1/10) est) 2 = 'C') := by
  refine ⟨⟨fun _ => 1, fun i => if i = 1 then 0 else 1, by norm_num, fun i hi => ?_⟩,
    ⟨fun i => if i = 1 then -1 else 1, fun _ => 0, by norm_num, by norm_num, by norm_num, ?_, ?_⟩⟩
  · have : i = 0 ∨ i = 1 := by omega
    rcases this with rfl | rfl
    · unfold markR mark0; norm_num; decide
    · unfold markR mark0; norm_num; decide
  · unfold markR mark0; norm_num
  · unfold markR mark0; norm_num

end Verif.Lan
