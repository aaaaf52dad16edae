import Verif.GKL.Loop
/-! The loop of SVDTwoSideLanczos. -/
set_option linter.all false
namespace Verif.GKL
open Verif.BV Verif.BVB Finset
variable {𝕜 E F : Type} [RCLike 𝕜] [NormedAddCommGroup E] [InnerProductSpace 𝕜 E] [NormedAddCommGroup F] [InnerProductSpace 𝕜 F]

/-- Breakdown on the right side: `A* u_{n-1}` depends on the right basis. -/
def BrkV (AT : F →ₗ[𝕜] E) (n : ℕ) (s : Bid E F) : Prop := AT (s.U (n - 1)) = (s.alpha (n - 1) : 𝕜) • s.V (n - 1) ∧ s.beta (n - 1) = 0

/-- Breakdown on the left side: `A v_n` depends on the left basis. -/
def BrkU (A : E →ₗ[𝕜] F) (AT : F →ₗ[𝕜] E) (n : ℕ) (s : Bid E F) : Prop :=
  Insert.ON 𝕜 s.V (n + 1) ∧ AT (s.U (n - 1)) = (s.alpha (n - 1) : 𝕜) • s.V (n - 1) + (s.beta (n - 1) : 𝕜) • s.V n ∧ 0 < s.beta (n - 1) ∧
    A (s.V n) ∈ Biorth.spanOf 𝕜 s.U n

/-- Columns and arrays finished before step `i` are kept. -/
def Same (i : ℕ) (s' s : Bid E F) : Prop :=
  (∀ j < i, s'.V j = s.V j) ∧ (∀ j < i, s'.U j = s.U j) ∧ (∀ j < i, s'.alpha j = s.alpha j) ∧ (∀ j, j + 1 < i → s'.beta j = s.beta j)

theorem Same.trans {i : ℕ} {a b c : Bid E F} (h1 : Same i a b) (h2 : Same i b c) : Same i a c :=
  ⟨fun j hj => (h1.1 j hj).trans (h2.1 j hj), fun j hj => (h1.2.1 j hj).trans (h2.2.1 j hj), fun j hj => (h1.2.2.1 j hj).trans (h2.2.2.1 j hj),
    fun j hj => (h1.2.2.2 j hj).trans (h2.2.2.2 j hj)⟩

theorem Same.mono {i k : ℕ} {a b : Bid E F} (h : Same i a b) (hk : k ≤ i) : Same k a b :=
  ⟨fun j hj => h.1 j (by omega), fun j hj => h.2.1 j (by omega), fun j hj => h.2.2.1 j (by omega), fun j hj => h.2.2.2 j (by omega)⟩

theorem twoLoop_succ (o : Opts) (A : E →ₗ[𝕜] F) (AT : F →ₗ[𝕜] E) (fuel i : ℕ) (s : Bid E F) :
    twoLoop o A AT (fuel + 1) i s =
      if (orthon 𝕜 o s.V i (AT (s.U (i - 1)))).2.2 = true then
        ({ s with V := (orthon 𝕜 o s.V i (AT (s.U (i - 1)))).1, beta := wr s.beta (i - 1) (orthon 𝕜 o s.V i (AT (s.U (i - 1)))).2.1 }, i, true)
      else if (orthon 𝕜 o s.U i (A ((orthon 𝕜 o s.V i (AT (s.U (i - 1)))).1 i))).2.2 = true then
        ({ V := (orthon 𝕜 o s.V i (AT (s.U (i - 1)))).1, beta := wr s.beta (i - 1) (orthon 𝕜 o s.V i (AT (s.U (i - 1)))).2.1,
           U := (orthon 𝕜 o s.U i (A ((orthon 𝕜 o s.V i (AT (s.U (i - 1)))).1 i))).1,
           alpha := wr s.alpha i (orthon 𝕜 o s.U i (A ((orthon 𝕜 o s.V i (AT (s.U (i - 1)))).1 i))).2.1 }, i, true)
      else twoLoop o A AT fuel (i + 1)
        { V := (orthon 𝕜 o s.V i (AT (s.U (i - 1)))).1, beta := wr s.beta (i - 1) (orthon 𝕜 o s.V i (AT (s.U (i - 1)))).2.1,
          U := (orthon 𝕜 o s.U i (A ((orthon 𝕜 o s.V i (AT (s.U (i - 1)))).1 i))).1,
          alpha := wr s.alpha i (orthon 𝕜 o s.U i (A ((orthon 𝕜 o s.V i (AT (s.U (i - 1)))).1 i))).2.1 } := by
  rfl

/-- The U-step: from `i+1` right and `i` left columns. -/
theorem ustep_run (o : Opts) (he : o.eta ≤ 1) {A : E →ₗ[𝕜] F} {AT : F →ₗ[𝕜] E} (hadj : Adj A AT) {c p i : ℕ} (hcp : c ≤ p) (hpi : p ≤ i) {V : ℕ → E} {U : ℕ → F} {a b : ℕ → ℝ}
    (hV : Insert.ON 𝕜 V (i + 1)) (hU : Insert.ON 𝕜 U i) (low : ∀ j < c, A (V j) ∈ Biorth.spanOf 𝕜 U (j + 1))
    (right : ∀ j, c ≤ j → j < i → A (V j) - ∑ m ∈ Ico c (j + 1), ((bent p a b m j : ℝ) : 𝕜) • U m ∈ Biorth.spanOf 𝕜 U c)
    (left : ∀ m, c ≤ m → m < i → AT (U m) = (a m : 𝕜) • V m + (b m : 𝕜) • V (nxt p m))
    (hl : (orthon 𝕜 o U i (A (V i))).2.2 = false) :
    Run A AT c p (i + 1) ⟨V, (orthon 𝕜 o U i (A (V i))).1, wr a i (orthon 𝕜 o U i (A (V i))).2.1, b⟩ := by
  obtain ⟨g1, g2, g3, g4, g5, g6⟩ := orthon_facts (𝕜 := 𝕜) o he U i hU (A (V i))
  have hs := ustep hadj hcp hpi hV left
  obtain ⟨r, hr⟩ : ∃ r, r = orthon 𝕜 o U i (A (V i)) := ⟨_, rfl⟩
  rw [← hr] at g1 g2 g3 g4 g5 g6 hl ⊢
  have hu : ∀ m < i, r.1 m = U m := fun m hm => g1 m (by omega)
  have hspan : Biorth.spanOf 𝕜 r.1 c = Biorth.spanOf 𝕜 U c := Biorth.spanOf_congr fun m hm => hu m (by omega)
  refine ⟨hcp, hV, g6 hl, ?_, ?_, ?_⟩
  · intro j hj
    show A (V j) ∈ Biorth.spanOf 𝕜 r.1 (j + 1)
    rw [Biorth.spanOf_congr (fun m hm => hu m (by omega))]
    exact low j hj
  · intro j hc hj
    show A (V j) - ∑ m ∈ Ico c (j + 1), ((bent p (wr a i r.2.1) b m j : ℝ) : 𝕜) • r.1 m ∈ Biorth.spanOf 𝕜 r.1 c
    rw [hspan]
    by_cases hji : j < i
    · have : ∑ m ∈ Ico c (j + 1), ((bent p (wr a i r.2.1) b m j : ℝ) : 𝕜) • r.1 m = ∑ m ∈ Ico c (j + 1), ((bent p a b m j : ℝ) : 𝕜) • U m := by
        refine sum_congr rfl fun m hm => ?_
        have := mem_Ico.mp hm
        rw [bent_congr (i := i) (a := a) (b := b) (by omega) hji (fun q hq => Biorth.wr_other _ _ _ (by omega)) (fun q hq => rfl), hu m (by omega)]
      rw [this]
      exact right j hc hji
    · have hji : j = i := by omega
      subst hji
      rw [Finset.sum_Ico_succ_top hc]
      have : ∑ m ∈ Ico c j, ((bent p (wr a j r.2.1) b m j : ℝ) : 𝕜) • r.1 m = ∑ m ∈ Ico c j, ((bent p a b m j : ℝ) : 𝕜) • U m := by
        refine sum_congr rfl fun m hm => ?_
        have := mem_Ico.mp hm
        rw [hu m (by omega)]
        congr 2
        unfold bent
        have hmj : ¬ m = j := by omega
        rw [if_neg hmj, if_neg hmj]
      rw [this, bent_self, Biorth.wr_same, sub_add_eq_sub_sub]
      have h2 : A (V j) = ∑ m ∈ range j, inner 𝕜 (U m) (A (V j)) • U m + (r.2.1 : 𝕜) • r.1 j := g3
      have h3 : A (V j) - ∑ m ∈ Ico c j, ((bent p a b m j : ℝ) : 𝕜) • U m - (r.2.1 : 𝕜) • r.1 j =
          ∑ m ∈ range j, inner 𝕜 (U m) (A (V j)) • U m - ∑ m ∈ Ico c j, ((bent p a b m j : ℝ) : 𝕜) • U m := by
        have h4 : A (V j) - (r.2.1 : 𝕜) • r.1 j = ∑ m ∈ range j, inner 𝕜 (U m) (A (V j)) • U m := sub_eq_of_eq_add h2
        rw [sub_right_comm, h4]
      rw [h3]
      exact hs
  · intro m hc hm
    show AT (r.1 m) = ((wr a i r.2.1 m : ℝ) : 𝕜) • V m + (b m : 𝕜) • V (nxt p m)
    rw [hu m (by omega), Biorth.wr_other _ _ _ (by omega)]
    exact left m hc (by omega)

/-- The loop. -/
theorem twoLoop_ok (o : Opts) (he : o.eta ≤ 1) {A : E →ₗ[𝕜] F} {AT : F →ₗ[𝕜] E} (hadj : Adj A AT) {c p : ℕ} (fuel : ℕ) : ∀ (i : ℕ) (s : Bid E F), p < i → Run A AT c p i s →
    Same i (twoLoop o A AT fuel i s).1 s ∧
    ((twoLoop o A AT fuel i s).2.2 = false → Run A AT c p (i + fuel) (twoLoop o A AT fuel i s).1) ∧
    ((twoLoop o A AT fuel i s).2.2 = true → i ≤ (twoLoop o A AT fuel i s).2.1 ∧ (twoLoop o A AT fuel i s).2.1 < i + fuel ∧
      Run A AT c p (twoLoop o A AT fuel i s).2.1 (twoLoop o A AT fuel i s).1 ∧
      (BrkV AT (twoLoop o A AT fuel i s).2.1 (twoLoop o A AT fuel i s).1 ∨ BrkU A AT (twoLoop o A AT fuel i s).2.1 (twoLoop o A AT fuel i s).1)) := by
  induction fuel with
  | zero =>
    intro i s hp h
    exact ⟨⟨fun _ _ => rfl, fun _ _ => rfl, fun _ _ => rfl, fun _ _ => rfl⟩, fun _ => h, fun e => by cases e⟩
  | succ fuel ih =>
    intro i s hp h
    have hle := h.le
    obtain ⟨g1, g2, g3, g4, g5, g6⟩ := orthon_facts (𝕜 := 𝕜) o he s.V i h.onV (AT (s.U (i - 1)))
    rw [h.vstep hadj hp] at g3
    rw [twoLoop_succ]
    obtain ⟨v, hv⟩ : ∃ v, v = orthon 𝕜 o s.V i (AT (s.U (i - 1))) := ⟨_, rfl⟩
    rw [← hv] at g1 g2 g3 g4 g5 g6 ⊢
    have hsame : ∀ (u : ℕ → F) (a : ℕ → ℝ), (∀ j < i, u j = s.U j) → (∀ j < i, a j = s.alpha j) → Same i (⟨v.1, u, a, wr s.beta (i - 1) v.2.1⟩ : Bid E F) s := by
      intro u a hu ha
      exact ⟨fun j hj => g1 j (by omega), hu, ha, fun j hj => Biorth.wr_other _ _ _ (by omega)⟩
    by_cases hl : v.2.2 = true
    · rw [if_pos hl]
      have hS := hsame s.U s.alpha (fun _ _ => rfl) (fun _ _ => rfl)
      refine ⟨hS, (fun e => by cases e), fun _ => ⟨le_rfl, by show i < _; omega, h.congr hp hS.1 hS.2.1 hS.2.2.1 hS.2.2.2, Or.inl ⟨?_, ?_⟩⟩⟩
      · show AT (s.U (i - 1)) = (s.alpha (i - 1) : 𝕜) • v.1 (i - 1)
        rw [g3, g5.mp hl, RCLike.ofReal_zero, zero_smul, add_zero, g1 (i - 1) (by omega)]
      · show wr s.beta (i - 1) v.2.1 (i - 1) = 0
        rw [Biorth.wr_same]; exact g5.mp hl
    · rw [if_neg hl]
      have hl' : v.2.2 = false := by cases hq : v.2.2 with
        | false => rfl
        | true => exact absurd hq hl
      have hV := g6 hl'
      have hpos : 0 < v.2.1 := lt_of_le_of_ne g2 (fun e => hl (g5.mpr e.symm))
      have hlow : ∀ j < c, A (v.1 j) ∈ Biorth.spanOf 𝕜 s.U (j + 1) := fun j hj => by rw [g1 j (by omega)]; exact h.low j hj
      have hS := hsame s.U s.alpha (fun _ _ => rfl) (fun _ _ => rfl)
      have hR := h.congr hp hS.1 hS.2.1 hS.2.2.1 hS.2.2.2
      have hleft : ∀ m, c ≤ m → m < i → AT (s.U m) = (s.alpha m : 𝕜) • v.1 m + ((wr s.beta (i - 1) v.2.1 m : ℝ) : 𝕜) • v.1 (nxt p m) := by
        intro m hc hm
        by_cases hmi : m + 1 < i
        · exact hR.left m hc hmi
        · have : m = i - 1 := by omega
          subst this
          have hn : nxt p (i - 1) = i := by unfold nxt; rw [if_neg (by omega)]; omega
          rw [Biorth.wr_same, hn, g1 (i - 1) (by omega)]
          exact g3
      obtain ⟨f1, f2, f3, f4, f5, f6⟩ := orthon_facts (𝕜 := 𝕜) o he s.U i h.onU (A (v.1 i))
      by_cases hu : (orthon 𝕜 o s.U i (A (v.1 i))).2.2 = true
      · rw [if_pos hu]
        have hS2 := hsame (orthon 𝕜 o s.U i (A (v.1 i))).1 (wr s.alpha i (orthon 𝕜 o s.U i (A (v.1 i))).2.1) (fun j hj => f1 j (by omega)) (fun j hj => Biorth.wr_other _ _ _ (by omega))
        refine ⟨hS2, (fun e => by cases e), fun _ => ⟨le_rfl, by show i < _; omega, h.congr hp hS2.1 hS2.2.1 hS2.2.2.1 hS2.2.2.2, Or.inr ⟨hV, ?_, ?_, ?_⟩⟩⟩
        · show AT ((orthon 𝕜 o s.U i (A (v.1 i))).1 (i - 1)) = ((wr s.alpha i (orthon 𝕜 o s.U i (A (v.1 i))).2.1 (i - 1) : ℝ) : 𝕜) • v.1 (i - 1) + ((wr s.beta (i - 1) v.2.1 (i - 1) : ℝ) : 𝕜) • v.1 i
          rw [f1 (i - 1) (by omega), Biorth.wr_other _ _ _ (by omega), Biorth.wr_same, g1 (i - 1) (by omega)]
          exact g3
        · show 0 < wr s.beta (i - 1) v.2.1 (i - 1)
          rw [Biorth.wr_same]; exact hpos
        · show A (v.1 i) ∈ Biorth.spanOf 𝕜 (orthon 𝕜 o s.U i (A (v.1 i))).1 i
          rw [Biorth.spanOf_congr (fun j hj => f1 j (by omega))]
          exact f4.mp hu
      · rw [if_neg hu]
        have hu' : (orthon 𝕜 o s.U i (A (v.1 i))).2.2 = false := by cases hq : (orthon 𝕜 o s.U i (A (v.1 i))).2.2 with
          | false => rfl
          | true => exact absurd hq hu
        have hrun : Run A AT c p (i + 1) ⟨v.1, (orthon 𝕜 o s.U i (A (v.1 i))).1, wr s.alpha i (orthon 𝕜 o s.U i (A (v.1 i))).2.1, wr s.beta (i - 1) v.2.1⟩ :=
          ustep_run o he hadj hle (by omega) hV h.onU hlow hR.right hleft hu'
        have hS2 := hsame (orthon 𝕜 o s.U i (A (v.1 i))).1 (wr s.alpha i (orthon 𝕜 o s.U i (A (v.1 i))).2.1) (fun j hj => f1 j (by omega)) (fun j hj => Biorth.wr_other _ _ _ (by omega))
        obtain ⟨k1, k2, k3⟩ := ih (i + 1) _ (by omega) hrun
        refine ⟨(k1.mono (by omega)).trans hS2, ?_, ?_⟩
        · intro e
          have := k2 e
          rwa [show i + 1 + fuel = i + (fuel + 1) by omega] at this
        · intro e
          obtain ⟨a, b, c', d⟩ := k3 e
          exact ⟨by omega, by omega, c', d⟩

end Verif.GKL
