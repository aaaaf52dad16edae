import Verif.Pscl.Lemmas
/-!
Properties C194 to C196: memory safety of the set-up, the scaling factor, and options.
-/
set_option linter.all false
namespace Verif.Pscl
noncomputable section
open Classical

/-- C194: parallel matrices, or sequential ones not declared to have the same pattern, are handled without access to a missing matrix. -/
theorem C194_partial (mpi same : Bool) (h : mpi = true ∨ same = false) (nmat c k : ℕ) (a : Slot) : (addLoop mpi same nmat c k a).isSome = true := by
  induction c generalizing k a with
  | zero => rfl
  | succ c ih =>
    have : addStep mpi same nmat k a = some .dead := by
      unfold addStep
      rw [if_neg (by rintro ⟨h1, h2, -⟩; rcases h with h | h <;> simp_all), if_pos (by tauto)]
    rw [addLoop, this]
    exact ih _ _

/-- C194 is false for sequential matrices declared to have the same nonzero pattern: the first `MatCopy` writes to a matrix that was never created, for every
number of matrices. -/
theorem C194_same_false (nmat : ℕ) (h : 3 ≤ nmat) : addLoop false true nmat (nmat - 1) 1 .uninit = none := by
  obtain ⟨c, hc⟩ : ∃ c, nmat - 1 = c + 1 := ⟨nmat - 2, by omega⟩
  rw [hc, addLoop]
  have : addStep false true nmat 1 .uninit = none := by
    unfold addStep
    rw [if_pos ⟨rfl, rfl, by decide⟩]
  rw [this]; rfl

/-- C194: even if the work matrix existed at the start (a repaired initialization), it is destroyed one iteration before the last one needs it. -/
theorem C194_same_live_false (nmat : ℕ) (h : 3 ≤ nmat) : addLoop false true nmat (nmat - 1) 1 .live = none := by
  have key : ∀ c k, k + 2 + c = nmat → addLoop false true nmat (c + 2) k .live = none := by
    intro c
    induction c with
    | zero =>
      intro k hk
      have s1 : addStep false true nmat k .live = some .dead := by
        unfold addStep
        rw [if_neg (by rintro ⟨-, -, h⟩; exact h rfl), if_pos (Or.inr (Or.inr (by omega)))]
      have s2 : addStep false true nmat (k + 1) .dead = none := by
        unfold addStep
        rw [if_pos ⟨rfl, rfl, by decide⟩]
      rw [addLoop, s1]
      show addLoop false true nmat 1 (k + 1) .dead = none
      rw [addLoop, s2]; rfl
    | succ c ih =>
      intro k hk
      have s1 : addStep false true nmat k .live = some .live := by
        unfold addStep
        rw [if_neg (by rintro ⟨-, -, h⟩; exact h rfl), if_neg]
        rintro (h | h | h)
        · cases h
        · cases h
        · omega
      rw [addLoop, s1]
      exact ih (k + 1) (by omega)
  have := key (nmat - 3) 1 (by omega)
  rwa [show nmat - 3 + 2 = nmat - 1 by omega] at this

/-- C194: the list of columns fits its array if no stored entry is zero, for all distributions. -/
theorem C194_cols_partial (n lst lend : ℕ) (h1 : lst ≤ lend) (h2 : lend ≤ n) (entries : List (ℕ × ℝ)) (he : ∀ e ∈ entries, e.1 < n ∧ e.2 ≠ 0) :
    (scanSafe n lst lend entries).isSome = true := by
  unfold scanSafe
  rw [if_pos]
  · rfl
  · unfold capacity
    apply le_min
    · obtain ⟨hn, hm⟩ := scan_nodup n lst lend entries (fun _ => 0) [] he (fun _ => le_rfl) (by simp) List.nodup_nil (by simp)
      rw [← List.toFinset_card_of_nodup hn]
      have hsub : (scan lst lend entries (fun _ => 0) []).toFinset ⊆ Finset.range lst ∪ Finset.Ico lend n := by
        intro j hj
        have := hm j (List.mem_toFinset.1 hj)
        rw [Finset.mem_union, Finset.mem_range, Finset.mem_Ico]
        rcases this.2 with h | h
        · exact Or.inl h
        · exact Or.inr ⟨h, this.1⟩
      refine (Finset.card_le_card hsub).trans ((Finset.card_union_le _ _).trans ?_)
      rw [Finset.card_range, Nat.card_Ico]
      omega
    · have := scan_length lst lend entries (fun _ => 0) []
      simpa using this

/-- C194 is false with explicitly stored zeros: in every distribution in which one process has at least two rows and leaves exactly one column to the others, two stored zeros
in that column overflow the array. -/
theorem C194_cols_false (lend : ℕ) (h : 2 ≤ lend) : scanSafe (lend + 1) 0 lend [(lend, 0), (lend, 0)] = none := by
  unfold scanSafe
  rw [if_neg]
  simp [scan, capacity]

/-- C195: with nonzero first and last coefficients the computed factor is positive, the scaled coefficients at both ends have equal norm, and the average norm of
the scaled coefficients is one. -/
theorem C195_partial (nmat : ℕ) (hn : 3 ≤ nmat) (norm : ℕ → ℝ) (h : ∀ k, 0 ≤ norm k) (h0 : 0 < norm 0) (hd : 0 < norm (nmat - 1)) (p : Settings)
    (hs : p.scale.isScalar = true) (hp : p.set = false) :
    0 < (computeFactor nmat norm p).sfactor ∧
    (computeFactor nmat norm p).sfactor ^ (nmat - 1) * norm (nmat - 1) = norm 0 ∧
    (∑ k ∈ Finset.range nmat, (computeFactor nmat norm p).dsfactor * (computeFactor nmat norm p).sfactor ^ k * norm k) / nmat = 1 := by
  obtain ⟨sf, hsf⟩ : ∃ sf, sf = (norm 0 / norm (nmat - 1)) ^ (1 / ((nmat : ℝ) - 1)) := ⟨_, rfl⟩
  have e1 : (computeFactor nmat norm p).sfactor = sf := by
    unfold computeFactor
    rw [if_neg (by rw [hs]; decide), if_neg (by rw [hp]; decide)]
    exact hsf.symm
  have e2 : (computeFactor nmat norm p).dsfactor = nmat / hloop norm sf (nmat - 2) (norm (nmat - 1)) := by
    unfold computeFactor
    rw [if_neg (by rw [hs]; decide), if_neg (by rw [hp]; decide), hsf]
  rw [e1, e2]
  have hq : 0 < norm 0 / norm (nmat - 1) := div_pos h0 hd
  have hpos : 0 < sf := by rw [hsf]; exact Real.rpow_pos_of_pos hq _
  have hc : ((nmat - 1 : ℕ) : ℝ) = (nmat : ℝ) - 1 := by
    rw [Nat.cast_sub (by omega)]; norm_num
  have hne : ((nmat - 1 : ℕ) : ℝ) ≠ 0 := by
    rw [Nat.cast_ne_zero]; omega
  refine ⟨hpos, ?_, ?_⟩
  · rw [hsf, ← hc, one_div, Real.rpow_inv_natCast_pow hq.le (by omega)]
    field_simp
  · have hsum : hloop norm sf (nmat - 2) (norm (nmat - 1)) = ∑ k ∈ Finset.range nmat, sf ^ k * norm k := by
      obtain ⟨q, rfl⟩ : ∃ q, nmat = q + 2 := ⟨nmat - 2, by omega⟩
      rw [hloop_eq]
      show norm (q + 1) * sf ^ (q + 1) + ∑ i ∈ Finset.range (q + 1), sf ^ i * norm i = _
      rw [Finset.sum_range_succ _ (q + 1)]
      ring
    rw [hsum]
    have hS : 0 < ∑ k ∈ Finset.range nmat, sf ^ k * norm k := by
      apply Finset.sum_pos'
      · intro k _
        have := h k
        positivity
      · exact ⟨0, Finset.mem_range.2 (by omega), by simpa using h0⟩
    have hnm : (nmat : ℝ) ≠ 0 := by rw [Nat.cast_ne_zero]; omega
    have : ∑ k ∈ Finset.range nmat, (nmat : ℝ) / (∑ k ∈ Finset.range nmat, sf ^ k * norm k) * sf ^ k * norm k
        = (nmat : ℝ) / (∑ k ∈ Finset.range nmat, sf ^ k * norm k) * ∑ k ∈ Finset.range nmat, sf ^ k * norm k := by
      rw [Finset.mul_sum]
      exact Finset.sum_congr rfl fun k _ => by ring
    rw [this, div_mul_cancel₀ _ hS.ne', div_self hnm]

/-- C195: a factor given by the user is used as it is, and without scalar scaling the factor is one. -/
theorem C195_user (nmat : ℕ) (norm : ℕ → ℝ) (p : Settings) :
    (p.scale.isScalar = true → p.set = true → (computeFactor nmat norm p).sfactor = p.sfactor) ∧
    (p.scale.isScalar = false → (computeFactor nmat norm p).sfactor = 1) := by
  constructor
  · intro h1 h2
    unfold computeFactor
    rw [if_neg (by rw [h1]; decide), if_pos h2]
  · intro h1
    unfold computeFactor
    rw [if_pos h1]

/-- C195 is false if the constant coefficient is zero: the factor is zero, not positive, and the solvers divide by it. -/
theorem C195_false (nmat : ℕ) (hn : 3 ≤ nmat) (norm : ℕ → ℝ) (h0 : norm 0 = 0) (p : Settings)
    (hs : p.scale.isScalar = true) (hp : p.set = false) : (computeFactor nmat norm p).sfactor = 0 := by
  unfold computeFactor
  rw [if_neg (by rw [hs]; decide), if_neg (by rw [hp]; decide), h0, zero_div]
  apply Real.zero_rpow
  have : (3:ℝ) ≤ nmat := by exact_mod_cast hn
  have h1 : (nmat : ℝ) - 1 ≠ 0 := by linarith
  positivity

/-- C196: with both strategies selected, a factor set by the user that is not one, and positive values, options change what they name and nothing else. -/
theorem C196_partial (p : Settings) (o : Opts) (hs : (o.scale.getD p.scale) = .both) (hset : p.set = true) (hf : 0 < p.sfactor) (hf1 : p.sfactor ≠ 1)
    (hi : 0 < p.its) (hl : 0 < p.lam) (ho1 : ∀ a, o.factor = some a → 0 < a) (ho2 : ∀ a, o.its = some a → 0 < a) (ho3 : ∀ a, o.lam = some a → 0 < a) :
    fromOptions p o = some (named p o) := by
  unfold fromOptions
  have g1 : 0 < o.factor.getD p.sfactor := by
    cases h : o.factor with
    | none => exact hf
    | some a => exact ho1 a h
  have g2 : 0 < o.its.getD p.its := by
    cases h : o.its with
    | none => exact hi
    | some a => exact ho2 a h
  have g3 : 0 < o.lam.getD p.lam := by
    cases h : o.lam with
    | none => exact hl
    | some a => exact ho3 a h
  have g4 : (if o.factor.isSome = true then true else p.set) = true := by rw [hset]; split_ifs <;> rfl
  by_cases h : o.scale.isSome = true ∨ o.factor.isSome = true ∨ o.its.isSome = true ∨ o.lam.isSome = true
  · rw [if_pos h, if_neg (by rintro ⟨-, h⟩; exact hf1 h), hs]
    simp only [setScale, Scale.isScalar, Scale.isDiag, if_true, if_pos g1, if_pos g2, if_pos g3, Option.bind_some, named, g4, hs]
  · rw [if_neg h]
    simp only [not_or, Bool.not_eq_true, Option.isSome_eq_false_iff, Option.isNone_iff_eq_none] at h
    obtain ⟨h1, h2, h3, h4⟩ := h
    rw [h1] at hs
    simp only [named, h1, h2, h3, h4, Option.getD_none, Option.isSome_none]
    rfl

/-- C196 is false: after the request to compute the factor, any of the other options makes `PEPSetFromOptions` fail; and a factor 1 given by the user is replaced by
the computed one. -/
theorem C196_false (its : ℕ) (hi : 0 < its) :
    (∃ p, setScale initial .both .determine .determine .determine = some p ∧ fromOptions p ⟨none, none, some its, none⟩ = none) ∧
    (∃ p q, setScale initial .both (.value 1) .determine .determine = some p ∧ p.set = true ∧ fromOptions p ⟨none, none, some its, none⟩ = some q ∧ q.set = false) := by
  constructor
  · refine ⟨_, rfl, ?_⟩
    unfold fromOptions
    rw [if_pos (by simp)]
    simp [setScale, Scale.isScalar, Scale.isDiag, initial]
  · refine ⟨⟨.both, 1, 1, true, 5, 1⟩, ⟨.both, 0, 1, false, its, 1⟩, ?_, rfl, ?_, rfl⟩
    · simp [setScale, Scale.isScalar, Scale.isDiag, initial]
    · unfold fromOptions
      rw [if_pos (by simp)]
      simp [setScale, Scale.isScalar, Scale.isDiag, hi]

/-- C196 is false: without diagonal scaling selected the options on its parameters are dropped silently, so that they have no effect if it is selected later. -/
theorem C196_dropped_false (p : Settings) (hs : p.scale = .scalar) (hset : p.set = true) (hf : 0 < p.sfactor) (hf1 : p.sfactor ≠ 1) (its : ℕ) (lam : ℝ) :
    fromOptions p ⟨none, none, some its, some lam⟩ = some p := by
  obtain ⟨sc, sf, ds, st, i, l⟩ := p
  simp only at hs hset hf hf1
  subst hs; subst hset
  simp [fromOptions, setScale, Scale.isScalar, Scale.isDiag, hf, hf1]

end
end Verif.Pscl
