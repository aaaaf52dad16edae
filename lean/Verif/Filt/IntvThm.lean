import Verif.Filt.IntvInv
import Verif.Filt.FiltThm
import Verif.Filt.HermThm

/-! # Theorems on the choice of the intervals of the FILTLAN filter -/

set_option linter.all false

namespace Verif.Filt

open Classical Polynomial Finset

/-- **C134** (partial) Outcome of the choice of the intervals for any frame, number of grid points
and evaluation function: if no error is reported, the frame is valid, the break points are a
partition, the threshold is the smallest value at the ends and grid points of the wanted interval,
is attained at one of the ends and not below the required minimum, the values at both ends agree
within the tolerance (mid-pass filter), and on both sides the ripples are bounded.

Missing: the value at the grid point where the first increase is seen is not compared with the limit,
and later points are compared with the local minimum first (`RippleOk`); see `C134_ripple_false`. -/
theorem C134_partial (pe : ℕ → Arr → ℝ → ℝ) (a a1 b1 b : ℝ) (grid np : ℕ) (hg : 1 ≤ grid) (x : Arr) (gamma gs : ℝ)
    (hgs : gs = (b - a) / max grid (gridNeed a a1 b1 b)) (h : getIntervals pe a a1 b1 b grid = some (np, x, gamma)) :
    (a < a1 ∧ a1 < b1 ∧ b1 ≤ b) ∧ IsPartition a a1 b1 b np x ∧
    IsGridMin a1 b1 gs (fun z => 1 - pe np x z) gamma ∧ (gamma = 1 - pe np x a1 ∨ gamma = 1 - pe np x b1) ∧ 1 / 1000 ≤ gamma ∧
    (b ≠ b1 → |pe np x a1 - pe np x b1| ≤ 1 / 10000) ∧
    RippleOk (fun k => 1 - pe np x (a1 - k * gs)) (fun k => a ≤ a1 - k * gs) (gamma * (4 / 5)) ∧
    (b ≠ b1 → RippleOk (fun k => 1 - pe np x (b1 + k * gs)) (fun k => b1 + k * gs ≤ b) (gamma * (4 / 5))) := by
  rw [getIntervals] at h
  by_cases h1 : ¬ (a ≤ a1 ∧ a1 ≤ b1 ∧ b1 ≤ b)
  · rw [if_pos h1] at h; cases h
  rw [if_neg h1] at h
  by_cases h2 : a1 = b1
  · rw [if_pos h2] at h; cases h
  rw [if_neg h2] at h
  by_cases h3 : a = a1
  · rw [if_pos h3] at h; cases h
  rw [if_neg h3] at h
  obtain ⟨I, hI⟩ : ∃ I : GIn, I = { a := a, a1 := a1, b1 := b1, b := b, N := max grid (gridNeed a a1 b1 b), two := decide (b ≠ b1) } := ⟨_, rfl⟩
  simp only [← hI] at h
  by_cases h4 : (gLoop I pe 50 (gInit I)).ok = 0
  · rw [if_pos h4] at h; cases h
  rw [if_neg h4] at h
  obtain ⟨p1, p2, p3⟩ := not_not.1 h1
  have ok : I.Ok := by
    subst hI
    exact ⟨lt_of_le_of_ne p1 h3, lt_of_le_of_ne p2 h2, p3, by simp, le_trans hg (le_max_left _ _)⟩
  have inv := gLoop_inv I pe ok 50 _ (gInit_inv I pe ok)
  have acc := inv.acc h4
  have hh := Option.some.inj h
  have q1 : I.np = np := congrArg Prod.fst hh
  have q2 : (gLoop I pe 50 (gInit I)).best = x := congrArg (fun t => t.2.1) hh
  have q3 : (gLoop I pe 50 (gInit I)).yl = gamma := congrArg (fun t => t.2.2) hh
  rw [q2, q3] at acc
  have hgs' : I.gs = gs := by rw [hgs, GIn.gs]; subst hI; push_cast; rfl
  obtain ⟨c1, c2, c3, c4, c5, c6⟩ := gEval_acc I ok _ acc.noL acc.noR
  have cp := acc.part
  rw [acc.lo, hgs', q1] at c1 c5 c6
  rw [acc.lo, q1] at c2
  rw [acc.lo] at c3
  rw [q1] at c4 cp
  subst hI
  refine ⟨⟨ok.left, ok.mid, ok.right⟩, cp, c1, c2, c3, fun hb => ?_, c5, c6⟩
  have := c4 hb
  rwa [show (1 - pe np x a1 - (1 - pe np x b1)) = -(pe np x a1 - pe np x b1) by ring, abs_neg] at this

/-- The flags and weights of the code, filtlan.c:215, 1201-1205. -/
def filtFlags (j : ℕ) : ℤ := if j = 0 ∨ j = 4 then 1 else if j = 2 then 0 else -1
def filtWeights : Arr := fun j => if j = 0 ∨ j = 4 then 100 else 1

theorem filt_part {a a1 b1 b : ℝ} {np : ℕ} {x : Arr} (h : IsPartition a a1 b1 b np x) (h0 : 0 ≤ a) (h1 : a1 < b1) (h2 : b1 ≤ b) :
    Part (np - 1) x filtWeights ∧ Pattern np x filtFlags := by
  have f0 := h.first; have fl := h.last; have ll := h.left; have lm := h.mid; have lr := h.right
  have hn := h.num
  by_cases hb : b = b1
  · rw [if_pos hb] at hn
    subst hn
    have fl' : x 3 = b := fl
    have cases3 : ∀ j < 4 - 1, j = 0 ∨ j = 1 ∨ j = 2 := fun j hj => by omega
    refine ⟨⟨fun j hj => ?_, fun j hj => ?_, fun j hj => ?_, 1, by norm_num, lm.1⟩, ⟨fun j hj => ?_, fun j hj h' => ?_, fun j hj h' => ?_, fun j hj h' h'' => ?_⟩⟩
    · rcases cases3 j hj with rfl | rfl | rfl <;> norm_num [filtWeights]
    · rcases cases3 j hj with rfl | rfl | rfl <;> linarith [ll.1, ll.2, lm.1, lm.2]
    · rcases cases3 j hj with rfl | rfl | rfl <;> simp only [Nat.reduceAdd, zero_add] <;> linarith [ll.1, ll.2, lm.1, lm.2]
    · rcases cases3 j hj with rfl | rfl | rfl <;> simp [filtFlags]
    · rcases cases3 j hj with rfl | rfl | rfl <;> simp [filtFlags] at h'
      exact ⟨lm.1, by norm_num, by simp [filtFlags]⟩
    · have : j = 0 ∨ j = 1 := by omega
      rcases this with rfl | rfl <;> simp [filtFlags] at h' ⊢
    · have : j = 0 ∨ j = 1 := by omega
      rcases this with rfl | rfl <;> simp [filtFlags] at h' h''
  · rw [if_neg hb] at hn
    subst hn
    have fl' : x 5 = b := fl
    obtain ⟨l1, l2, l3⟩ := lr hb
    have cases5 : ∀ j < 6 - 1, j = 0 ∨ j = 1 ∨ j = 2 ∨ j = 3 ∨ j = 4 := fun j hj => by omega
    refine ⟨⟨fun j hj => ?_, fun j hj => ?_, fun j hj => ?_, 1, by norm_num, lm.1⟩, ⟨fun j hj => ?_, fun j hj h' => ?_, fun j hj h' => ?_, fun j hj h' h'' => ?_⟩⟩
    · rcases cases5 j hj with rfl | rfl | rfl | rfl | rfl <;> norm_num [filtWeights]
    · rcases cases5 j hj with rfl | rfl | rfl | rfl | rfl <;> linarith [ll.1, ll.2, lm.1, lm.2]
    · rcases cases5 j hj with rfl | rfl | rfl | rfl | rfl <;> simp only [Nat.reduceAdd, zero_add] <;> linarith [ll.1, ll.2, lm.1, lm.2]
    · rcases cases5 j hj with rfl | rfl | rfl | rfl | rfl <;> simp [filtFlags]
    · rcases cases5 j hj with rfl | rfl | rfl | rfl | rfl <;> simp [filtFlags] at h'
      · exact ⟨lm.1, by norm_num, by simp [filtFlags]⟩
      · exact ⟨l1, by norm_num, by simp [filtFlags]⟩
    · have : j = 0 ∨ j = 1 ∨ j = 2 ∨ j = 3 := by omega
      rcases this with rfl | rfl | rfl | rfl <;> simp [filtFlags] at h' ⊢
    · have : j = 0 ∨ j = 1 ∨ j = 2 ∨ j = 3 := by omega
      rcases this with rfl | rfl | rfl | rfl <;> simp [filtFlags] at h' h''

/-- The evaluation function of the code: the polynomial of the break points, filtlan.c:316-323 with
base degree 10 (filtlan.c:1197), evaluated by pieces. -/
noncomputable def filtEval (bf0 junk : Arr) (deg : ℕ) (np : ℕ) (iv : Arr) (z : ℝ) : ℝ :=
  pieceEval (crPoly (hermite bf0 iv np filtFlags 10 junk) 22 iv np filtWeights deg).c (deg + 2) iv np z

/-- Evaluation by pieces of a polynomial stored by pieces, also at the end of an interval of length
zero. -/
theorem pieceEval_poly (pp : Arr) (m np : ℕ) (hm : 1 ≤ m) (hnp : 2 ≤ np) (iv : Arr) (hmono : ∀ j < np - 1, iv j ≤ iv (j + 1)) (Q : ℝ[X])
    (hQ : ∀ j < np - 1, ∀ t, (∑ i ∈ range m, pp (j * m + i) * (Chebyshev.T ℝ (i : ℤ)).eval t) = Q.eval ((iv j + iv (j + 1)) / 2 + (iv (j + 1) - iv j) / 2 * t))
    (z : ℝ) (hz0 : iv 0 ≤ z) (hz1 : z ≤ iv (np - 1)) : pieceEval pp m iv np z = Q.eval z := by
  obtain ⟨k, e, k1, k2, k3⟩ := findIdx_spec iv np z hnp
  have hs := hQ k (by omega) (mapped z (iv k) (iv (k + 1)))
  have e1 : pieceEval pp m iv np z = ∑ i ∈ range m, pp (k * m + i) * (Chebyshev.T ℝ (i : ℤ)).eval (mapped z (iv k) (iv (k + 1))) := by
    rw [pieceEval, e]
    dsimp only
    rw [show k + 1 - 1 = k by omega, polyEval_eq _ _ _ _ _ _ hm, show k + 1 - 1 = k by omega, ser, eval_finset_sum]
    exact sum_congr rfl fun i _ => by rw [eval_mul, eval_C]
  rw [e1, hs]
  congr 1
  by_cases hne : iv k = iv (k + 1)
  · have hk : k + 2 = np := by
      by_contra hc
      have h1 := k3 (by omega)
      by_cases h0 : k = 0
      · subst h0; linarith
      · have := k2 h0; linarith
    have hl : iv (np - 1) = iv (k + 1) := by rw [show np - 1 = k + 1 by omega]
    have h3 : iv k ≤ z := by
      by_cases h0 : k = 0
      · subst h0; exact hz0
      · exact k2 h0
    rw [← hne]; ring_nf; linarith
  · have hd : iv (k + 1) - iv k ≠ 0 := fun h => hne (by linarith)
    rw [mapped]
    by_cases h5 : iv k = -1 ∧ iv (k + 1) = 1
    · rw [if_pos h5, h5.1, h5.2]; ring
    · rw [if_neg h5, if_neg hne]
      field_simp
      ring

/-- **C134** with the polynomials of the code: after a successful choice of the intervals, the base
function has the shape of C129, the filter is one minus the best approximation of the base function (C131),
the operator applied is that filter of the matrix, and the threshold is a lower bound of the factors with which the
operator multiplies eigenvectors at the ends and grid points of the wanted interval. -/
theorem C134_filter (bf0 junk : Arr) (deg : ℕ) (hd : 1 ≤ deg) (a a1 b1 b : ℝ) (ha : 0 ≤ a) (grid np : ℕ) (hg : 1 ≤ grid) (x : Arr) (gamma gs : ℝ)
    (hgs : gs = (b - a) / max grid (gridNeed a a1 b1 b)) (h : getIntervals (filtEval bf0 junk deg) a a1 b1 b grid = some (np, x, gamma)) :
    ∃ Q : ℝ[X], Pattern np x filtFlags ∧ IsBest (np - 1) x filtWeights (hermite bf0 x np filtFlags 10 junk) 22 deg Q ∧
      IsGridMin a1 b1 gs (fun z => 1 - Q.eval z) gamma ∧
      ∀ {V : Type*} [AddCommGroup V] [Module ℝ V] (T : V →ₗ[ℝ] V) (v : V) (mu : ℝ), T v = mu • v →
        matMult T v (hermite bf0 x np filtFlags 10 junk) 10 x np filtWeights deg = (1 - Q.eval mu) • v := by
  obtain ⟨⟨h1, h2, h3⟩, hp, hm, -⟩ := C134_partial _ a a1 b1 b grid np hg x gamma gs hgs h
  obtain ⟨hpart, hpat⟩ := filt_part hp ha h2 h3
  obtain ⟨Q, q1, -, q3⟩ := C131 (hermite bf0 x np filtFlags 10 junk) 22 x np filtWeights deg hd hpart
  have hnp : 4 ≤ np := by
    rw [hp.num]
    by_cases hb : b = b1
    · rw [if_pos hb]
    · rw [if_neg hb]; norm_num
  have ev : ∀ z, a ≤ z → z ≤ b → filtEval bf0 junk deg np x z = Q.eval z := by
    intro z z1 z2
    exact pieceEval_poly _ (deg + 2) np (by omega) (by omega) x hpart.mono Q q3 z (by rw [hp.first]; exact z1) (by rw [hp.last]; exact z2)
  refine ⟨Q, hpat, q1, ?_, fun T v mu hv => C132_eigen _ 10 x np filtWeights deg hpart Q q1 T v mu hv⟩
  have gpos : 0 < gs := by
    rw [hgs]
    refine div_pos (by linarith) ?_
    have : (1 : ℝ) ≤ max (grid : ℝ) (gridNeed a a1 b1 b : ℝ) := le_trans (by exact_mod_cast hg) (le_max_left _ _)
    push_cast; linarith
  have hset : {y | ∃ z, (z = a1 ∨ z = b1 ∨ ∃ k : ℕ, 1 ≤ k ∧ z = a1 + k * gs ∧ z < b1) ∧ y = 1 - filtEval bf0 junk deg np x z} =
      {y | ∃ z, (z = a1 ∨ z = b1 ∨ ∃ k : ℕ, 1 ≤ k ∧ z = a1 + k * gs ∧ z < b1) ∧ y = 1 - Q.eval z} := by
    have hz : ∀ z, (z = a1 ∨ z = b1 ∨ ∃ k : ℕ, 1 ≤ k ∧ z = a1 + k * gs ∧ z < b1) → a ≤ z ∧ z ≤ b := by
      rintro z (rfl | rfl | ⟨k, hk1, hk2, hk3⟩)
      · constructor <;> linarith
      · constructor <;> linarith
      · have : (0 : ℝ) ≤ k * gs := by positivity
        constructor <;> linarith
    ext y
    constructor
    · rintro ⟨z, hz1, hz2⟩; exact ⟨z, hz1, by rw [hz2, ev z (hz z hz1).1 (hz z hz1).2]⟩
    · rintro ⟨z, hz1, hz2⟩; exact ⟨z, hz1, by rw [hz2, ev z (hz z hz1).1 (hz z hz1).2]⟩
  rw [IsGridMin, hset] at hm
  exact hm

end Verif.Filt
