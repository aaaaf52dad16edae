import Verif.EPS.LeftPairs
/-!
C68, left vectors of conjugate pairs that are computed in the loop at the end of `EPSSolve` or later.
-/
set_option linter.all false
namespace Verif.EPS.LeftPairs
noncomputable section
open Classical

variable {V : Type} [AddCommGroup V] [Module ℝ V]

/-- State after `k` steps of the loop. -/
def LoopInv (bs : List (Blk V)) (k : ℕ) (s : Bool × List (Blk V)) : Prop :=
  (s.1 = false ∧ (∀ i < k, ∀ b, bs[i]? = some b → ¬ isNeg b) ∧ s.2 = bs) ∨
  (s.1 = true ∧ ∃ f < k, (∃ b, bs[f]? = some b ∧ isNeg b) ∧ (∀ i < f, ∀ b, bs[i]? = some b → ¬ isNeg b) ∧
    ∀ i, s.2[i]? = bs[i]?.map fun b => if i < k then result (some f) i b else conjW b)

theorem conjW_neg {b : Blk V} (h : isNeg b) : conjW b = b := by
  cases b with
  | real er w => exact h.elim
  | pair er ei w1 w2 =>
    have h' : ei < 0 := h
    show (if 0 < ei then _ else Blk.pair er ei w1 w2) = _
    rw [if_neg (not_lt.mpr h'.le)]

theorem isNeg_conjW {b : Blk V} : isNeg (conjW b) ↔ isNeg b := by
  cases b with
  | real er w => exact Iff.rfl
  | pair er ei w1 w2 =>
    by_cases h : 0 < ei
    · show isNeg (if 0 < ei then _ else _) ↔ _
      rw [if_pos h]; exact Iff.rfl
    · show isNeg (if 0 < ei then _ else _) ↔ _
      rw [if_neg h]

theorem scale_conjW_flip {b : Blk V} (h : isNeg b) : scale (conjW (flip b)) = flip b := by
  cases b with
  | real er w => exact h.elim
  | pair er ei w1 w2 =>
    have h' : 0 < -ei := neg_pos.mpr h
    show scale (if 0 < -ei then _ else _) = _
    rw [if_pos h']
    show Blk.pair er (-ei) w1 (- -w2) = Blk.pair er (-ei) w1 w2
    rw [neg_neg]

theorem loop_step (bs : List (Blk V)) (k : ℕ) (s : Bool × List (Blk V)) (h : LoopInv bs k s) : LoopInv bs (k + 1) (stepAt s k) := by
  rcases h with ⟨h1, h2, h3⟩ | ⟨h1, f, hf, hb, hfirst, hall⟩
  · unfold stepAt
    rw [h3]
    cases hk : bs[k]? with
    | none =>
      left
      refine ⟨h1, fun i hi b hb => ?_, h3⟩
      rcases Nat.lt_succ_iff_lt_or_eq.mp hi with h | h
      · exact h2 i h b hb
      · rw [h, hk] at hb; cases hb
    | some b =>
      show LoopInv bs (k + 1) (if isNeg b then _ else s)
      by_cases hn : isNeg b
      · rw [if_pos hn]
        right
        have hc : computeVectors (s.1, bs.modify k flip) = (true, (bs.modify k flip).map conjW) := by
          unfold computeVectors; rw [h1]; rfl
        rw [hc]
        refine ⟨rfl, k, Nat.lt_succ_self k, ⟨b, hk, hn⟩, fun i hi => h2 i hi, fun i => ?_⟩
        rw [List.getElem?_modify, List.getElem?_map, List.getElem?_modify]
        cases hi : bs[i]? with
        | none => rfl
        | some c =>
          show some _ = some _
          congr 1
          beta_reduce
          by_cases hik : k = i
          · subst hik
            have hcb : c = b := by rw [hk] at hi; exact (Option.some.inj hi).symm
            rw [if_pos rfl, if_pos rfl, if_pos (Nat.lt_succ_self k)]
            unfold result
            rw [hcb, if_pos hn, if_pos rfl]
            exact scale_conjW_flip hn
          · rw [if_neg hik, if_neg hik]
            show conjW c = _
            by_cases hlt : i < k + 1
            · rw [if_pos hlt]
              unfold result
              rw [if_neg (h2 i (by omega) c hi)]
            · rw [if_neg hlt]
      · rw [if_neg hn]
        left
        refine ⟨h1, fun i hi c hc => ?_, h3⟩
        rcases Nat.lt_succ_iff_lt_or_eq.mp hi with h | h
        · exact h2 i h c hc
        · rw [h, hk] at hc; rw [← Option.some.inj hc]; exact hn
  · unfold stepAt
    rw [hall k]
    cases hk : bs[k]? with
    | none =>
      right
      refine ⟨h1, f, by omega, hb, hfirst, fun i => ?_⟩
      show s.2[i]? = _
      rw [hall i]
      cases hi : bs[i]? with
      | none => rfl
      | some c =>
        show some _ = some _
        congr 1
        beta_reduce
        have : i ≠ k := by intro h; rw [h, hk] at hi; cases hi
        by_cases hlt : i < k
        · rw [if_pos hlt, if_pos (by omega)]
        · rw [if_neg hlt, if_neg (by omega)]
    | some b =>
      show LoopInv bs (k + 1) (if isNeg (if k < k then result (some f) k b else conjW b) then _ else s)
      rw [if_neg (lt_irrefl k)]
      by_cases hn : isNeg b
      · rw [if_pos (isNeg_conjW.mpr hn)]
        right
        have hc : computeVectors (s.1, s.2.modify k flip) = (true, s.2.modify k flip) := by
          unfold computeVectors; rw [h1]; rfl
        rw [hc]
        refine ⟨rfl, f, by omega, hb, hfirst, fun i => ?_⟩
        rw [List.getElem?_modify, List.getElem?_modify, hall i]
        cases hi : bs[i]? with
        | none => rfl
        | some c =>
          show some _ = some _
          congr 1
          beta_reduce
          by_cases hik : k = i
          · subst hik
            have hcb : c = b := by rw [hk] at hi; exact (Option.some.inj hi).symm
            rw [if_pos rfl, if_pos rfl, if_neg (lt_irrefl k), if_pos (Nat.lt_succ_self k)]
            unfold result
            rw [hcb, if_pos hn, if_neg (by intro h; have := Option.some.inj h; omega), conjW_neg hn]
          · rw [if_neg hik, if_neg hik]
            show (if i < k then result (some f) i c else conjW c) = _
            by_cases hlt : i < k
            · rw [if_pos hlt, if_pos (by omega)]
            · rw [if_neg hlt, if_neg (by omega)]
      · rw [if_neg (fun h => hn (isNeg_conjW.mp h))]
        right
        refine ⟨h1, f, by omega, hb, hfirst, fun i => ?_⟩
        rw [hall i]
        cases hi : bs[i]? with
        | none => rfl
        | some c =>
          show some _ = some _
          congr 1
          beta_reduce
          by_cases hik : k = i
          · subst hik
            have hcb : c = b := by rw [hk] at hi; exact (Option.some.inj hi).symm
            rw [if_neg (lt_irrefl k), if_pos (Nat.lt_succ_self k)]
            unfold result
            rw [hcb, if_neg hn]
          · by_cases hlt : i < k
            · rw [if_pos hlt, if_pos (by omega)]
            · rw [if_neg hlt, if_neg (by omega)]

theorem loop_inv (bs : List (Blk V)) (k : ℕ) : LoopInv bs k ((List.range k).foldl stepAt (false, bs)) := by
  induction k with
  | zero => exact Or.inl ⟨rfl, fun i hi => absurd hi (Nat.not_lt_zero i), rfl⟩
  | succ k ih =>
    rw [List.range_succ, List.foldl_append]
    exact loop_step bs k _ ih

/-- Blocks the user gets: `f` is the first pair to be exchanged. -/
theorem final_get (bs : List (Blk V)) : ∃ f : Option ℕ, (∀ i, (final bs)[i]? = bs[i]?.map (result f i)) ∧
    (∀ i b, bs[i]? = some b → isNeg b → ∃ g, f = some g ∧ g ≤ i) ∧ (∀ g, f = some g → ∃ b, bs[g]? = some b ∧ isNeg b) := by
  have h := loop_inv bs bs.length
  have hl : loop (false, bs) = (List.range bs.length).foldl stepAt (false, bs) := rfl
  unfold final
  rw [hl]
  obtain ⟨s, hs⟩ : ∃ s, s = (List.range bs.length).foldl stepAt (false, bs) := ⟨_, rfl⟩
  rw [← hs] at h ⊢
  have hlt : ∀ {i b}, bs[i]? = some b → i < bs.length := fun h => (List.getElem?_eq_some_iff.mp h).1
  rcases h with ⟨h1, h2, h3⟩ | ⟨h1, f, hf, hb, hfirst, hall⟩
  · refine ⟨none, fun i => ?_, fun i b hb hn => absurd hn (h2 i (hlt hb) b hb), fun g hg => by cases hg⟩
    unfold computeVectors
    rw [h1, if_neg (by decide), h3, List.getElem?_map]
    cases hi : bs[i]? with
    | none => rfl
    | some b =>
      show some _ = some _
      unfold result
      rw [if_neg (h2 i (hlt hi) b hi)]
  · refine ⟨some f, fun i => ?_, fun i b hbi hn => ⟨f, rfl, ?_⟩, fun g hg => by rw [← Option.some.inj hg]; exact hb⟩
    · unfold computeVectors
      rw [h1, if_pos rfl, hall i]
      cases hi : bs[i]? with
      | none => rfl
      | some b =>
        show some _ = some _
        beta_reduce
        rw [if_pos (hlt hi)]
    · by_contra hc
      exact hfirst i (by omega) b hbi hn

theorem pair_neg {At Bt : V →ₗ[ℝ] V} {er ei : ℝ} {x y : V} (h : PencilPair At Bt er ei x y) : PencilPair At Bt er (-ei) x (-y) := by
  refine ⟨?_, ?_⟩
  · rw [h.1, map_neg]; module
  · rw [map_neg, h.2, map_neg]; module

/-- C68, left vectors: right if at most one pair has to be exchanged (in particular if the transformation keeps the sign of the imaginary part). -/
theorem C68_left_partial (At Bt : V →ₗ[ℝ] V) (bs : List (Blk V)) (hraw : ∀ b ∈ bs, Raw At Bt b) (hp : ∀ b ∈ bs, Proper b)
    (hone : ∀ (i j : ℕ) (bi bj : Blk V), bs[i]? = some bi → bs[j]? = some bj → isNeg bi → isNeg bj → i = j) :
    (final bs).length = bs.length ∧ ∀ b ∈ final bs, Good At Bt b := by
  obtain ⟨f, h1, h2, h3⟩ := final_get bs
  constructor
  · apply le_antisymm
    · by_contra hc
      push Not at hc
      have := h1 bs.length
      rw [List.getElem?_eq_none (le_refl _), List.getElem?_eq_getElem hc] at this
      cases this
    · by_contra hc
      push Not at hc
      have := h1 (final bs).length
      rw [List.getElem?_eq_none (le_refl _), List.getElem?_eq_getElem hc] at this
      cases this
  · intro b hb
    obtain ⟨i, hi⟩ := List.mem_iff_getElem?.mp hb
    rw [h1 i] at hi
    cases hc : bs[i]? with
    | none => rw [hc] at hi; cases hi
    | some c =>
      rw [hc] at hi
      have hb' : result f i c = b := Option.some.inj hi
      have hm : c ∈ bs := List.mem_iff_getElem?.mpr ⟨i, hc⟩
      rw [← hb']
      have hr := hraw c hm
      have hpr := hp c hm
      unfold result
      by_cases hn : isNeg c
      · rw [if_pos hn]
        obtain ⟨g, hg, _⟩ := h2 i c hc hn
        obtain ⟨d, hd, hdn⟩ := h3 g hg
        rw [hg, hone g i d c hd hc hdn hn, if_pos rfl]
        cases c with
        | real er w => exact hn.elim
        | pair er ei w1 w2 =>
          refine ⟨neg_pos.mpr hn, ?_⟩
          show PencilPair At Bt er (- -ei) w1 w2
          rw [neg_neg]; exact hr
      · rw [if_neg hn]
        cases c with
        | real er w => exact hr
        | pair er ei w1 w2 =>
          have hpos : 0 < ei := lt_of_le_of_ne (not_lt.mp hn) (Ne.symm hpr)
          show Good At Bt (if 0 < ei then _ else _)
          rw [if_pos hpos]
          exact ⟨hpos, pair_neg hr⟩

/-- C68 is false for left vectors: if two pairs have to be exchanged, as with shift-and-invert, the left vector of the second one, which is nonzero, is returned
for the conjugate of its eigenvalue. -/
theorem C68_left_false (At Bt : V →ₗ[ℝ] V) (bs : List (Blk V)) (i j : ℕ) (hij : i < j) (bi : Blk V) (hi : bs[i]? = some bi) (hni : isNeg bi) (er ei : ℝ) (w1 w2 : V)
    (hj : bs[j]? = some (.pair er ei w1 w2)) (hnj : ei < 0) (hraw : Raw At Bt (.pair er ei w1 w2)) (hne : Bt w1 ≠ 0 ∨ Bt w2 ≠ 0) :
    ∃ b, (final bs)[j]? = some b ∧ ¬ Good At Bt b := by
  obtain ⟨f, h1, h2, h3⟩ := final_get bs
  obtain ⟨g, hg, hgi⟩ := h2 i bi hi hni
  have e : result f j (Blk.pair er ei w1 w2) = .pair er (-ei) w1 (-w2) := by
    unfold result
    rw [if_pos (show isNeg (Blk.pair er ei w1 w2) from hnj), hg, if_neg (by intro h; have := Option.some.inj h; omega)]
    rfl
  refine ⟨_, by rw [h1 j, hj, Option.map_some, e], ?_⟩
  rintro ⟨_, g1, g2⟩
  obtain ⟨r1, r2⟩ := hraw
  rw [neg_neg] at g1 g2
  have e1 : (2 * ei) • Bt w2 = 0 := by
    have : er • Bt w1 - ei • Bt w2 = er • Bt w1 - ei • Bt (-w2) := r1.symm.trans g1
    rw [map_neg] at this
    have h' : ei • Bt w2 = - (ei • Bt w2) := by
      have := sub_right_injective this
      rwa [smul_neg] at this
    rw [mul_smul, two_smul]
    exact add_eq_zero_iff_eq_neg.mpr h'
  have e2 : (2 * ei) • Bt w1 = 0 := by
    rw [map_neg, r2, map_neg, smul_neg] at g2
    have h' : ei • Bt w1 = - (ei • Bt w1) := by
      have h3 : -(ei • Bt w1) - er • Bt w2 = ei • Bt w1 - er • Bt w2 := by
        rw [← sub_eq_add_neg] at g2
        rw [← g2]; abel
      exact (sub_left_injective h3).symm
    rw [mul_smul, two_smul]
    exact add_eq_zero_iff_eq_neg.mpr h'
  have hei : (2 * ei) ≠ 0 := mul_ne_zero two_ne_zero hnj.ne
  rcases hne with h | h
  · exact h ((smul_eq_zero.mp e2).resolve_left hei)
  · exact h ((smul_eq_zero.mp e1).resolve_left hei)

/-- Rotation of the plane. -/
def rot : ℝ × ℝ →ₗ[ℝ] ℝ × ℝ where
  toFun p := (p.2, -p.1)
  map_add' a b := by ext <;> simp [add_comm]
  map_smul' c a := by ext <;> simp

/-- Hypotheses of `C68_left_partial` (one pair) and of `C68_left_false` (two pairs), with eigenvalue `-i` in the first position. -/
example : Raw rot LinearMap.id (.pair 0 (-1) ((1, 0) : ℝ × ℝ) (0, -1)) ∧ isNeg (V := ℝ × ℝ) (.pair 0 (-1) (1, 0) (0, -1)) ∧
    (LinearMap.id : ℝ × ℝ →ₗ[ℝ] ℝ × ℝ) (1, 0) ≠ 0 := by
  refine ⟨⟨?_, ?_⟩, ?_, ?_⟩
  · ext <;> simp [rot]
  · ext <;> simp [rot]
  · show (-1 : ℝ) < 0; norm_num
  · intro h; have := congrArg Prod.fst h; simp at this

end
end Verif.EPS.LeftPairs
