import Verif.LME.KrylovModel
import Verif.LME.ResidualLemmas
/-!
Lemmas on the two passes of the Krylov solver for Lyapunov equations.
-/
set_option linter.all false
namespace Verif.LME
noncomputable section
open Verif.BV Verif.MFN
variable {𝕜 : Type} [RCLike 𝕜] {E : Type} [NormedAddCommGroup E] [InnerProductSpace 𝕜 E]

theorem arnLoop_ge (f : E →ₗ⋆[𝕜] E →ₗ[𝕜] 𝕜) (o : OrthOpts) (A : E →ₗ[𝕜] E) (N nc : Nat) :
    ∀ (fuel j : Nat) (ss : List (Slot 𝕜 E)) (buf : Nat → Nat → 𝕜) (beta : ℝ), j ≤ (arnLoop f o A N nc fuel j ss buf beta).m := by
  intro fuel
  induction fuel with
  | zero => intro j ss buf beta; exact le_rfl
  | succ fuel ih =>
    intro j ss buf beta
    unfold arnLoop
    dsimp only
    by_cases h : j + 1 = N
    · rw [if_pos h]; exact Nat.le_succ j
    · rw [if_neg h]
      by_cases h2 : (orthonormalize f false o.mgs o.eta o.ref ss (A (lastCol ss))).2.lindep = true
      · rw [if_pos h2]; exact Nat.le_succ j
      · rw [if_neg h2]; exact (Nat.le_succ j).trans (ih _ _ _ _)

/-- Repeating the loop for the number of steps that it did gives the same columns, whatever is in the buffer. -/
theorem arnLoop_prefix (f : E →ₗ⋆[𝕜] E →ₗ[𝕜] 𝕜) (o : OrthOpts) (A : E →ₗ[𝕜] E) (N nc : Nat) :
    ∀ (fuel j : Nat) (ss : List (Slot 𝕜 E)) (buf buf' : Nat → Nat → 𝕜) (beta beta' : ℝ),
      let r := arnLoop f o A N nc fuel j ss buf beta
      (arnLoop f o A N nc (r.m - j) j ss buf' beta').ss = r.ss ∧ (arnLoop f o A N nc (r.m - j) j ss buf' beta').m = r.m := by
  intro fuel
  induction fuel with
  | zero => intro j ss buf buf' beta beta'; simp [arnLoop]
  | succ fuel ih =>
    intro j ss buf buf' beta beta'
    simp only [arnLoop]
    by_cases h : j + 1 = N
    · rw [if_pos h]
      dsimp only
      rw [Nat.add_sub_cancel_left]
      simp only [arnLoop]
      rw [if_pos h]
      exact ⟨rfl, rfl⟩
    · rw [if_neg h]
      by_cases h2 : (orthonormalize f false o.mgs o.eta o.ref ss (A (lastCol ss))).2.lindep = true
      · rw [if_pos h2]
        dsimp only
        rw [Nat.add_sub_cancel_left]
        simp only [arnLoop]
        rw [if_neg h, if_pos h2]
        exact ⟨rfl, rfl⟩
      · rw [if_neg h2]
        have hge := arnLoop_ge f o A N nc fuel (j + 1)
          ((orthonormalize f false o.mgs o.eta o.ref ss (A (lastCol ss))).2.ss ++
            [mkSlot (orthonormalize f false o.mgs o.eta o.ref ss (A (lastCol ss))).1 1])
          (writeCol buf (j + 1) (bufferColumn nc (orthonormalize f false o.mgs o.eta o.ref ss (A (lastCol ss))).2))
          (orthonormalize f false o.mgs o.eta o.ref ss (A (lastCol ss))).2.nrm
        have hih := ih (j + 1) ((orthonormalize f false o.mgs o.eta o.ref ss (A (lastCol ss))).2.ss ++
            [mkSlot (orthonormalize f false o.mgs o.eta o.ref ss (A (lastCol ss))).1 1])
          (writeCol buf (j + 1) (bufferColumn nc (orthonormalize f false o.mgs o.eta o.ref ss (A (lastCol ss))).2))
          (writeCol buf' (j + 1) (bufferColumn nc (orthonormalize f false o.mgs o.eta o.ref ss (A (lastCol ss))).2))
          (orthonormalize f false o.mgs o.eta o.ref ss (A (lastCol ss))).2.nrm
          (orthonormalize f false o.mgs o.eta o.ref ss (A (lastCol ss))).2.nrm
        dsimp only at hih
        generalize hR : arnLoop f o A N nc fuel (j + 1) _ _ _ = R at hge hih ⊢
        rw [show R.m - j = (R.m - (j + 1)) + 1 by omega]
        simp only [arnLoop]
        rw [if_neg h, if_neg h2]
        exact hih

/-- Column `l` of the basis computed in at most `m` steps from `v`. -/
def colv (o : OrthOpts) (A : E →ₗ[𝕜] E) (m : Nat) (v : E) (l : Nat) : E :=
  ((arnLoop (ipForm 𝕜 E) o A (Module.finrank 𝕜 E) 0 m 0 [mkSlot v 1] (fun _ _ => 0) 0).ss.map Slot.v).getD l 0

/-- The number of steps done from `v`, at most `m`. -/
def stepsOf (o : OrthOpts) (A : E →ₗ[𝕜] E) (m : Nat) (v : E) : Nat :=
  (arnLoop (ipForm 𝕜 E) o A (Module.finrank 𝕜 E) 0 m 0 [mkSlot v 1] (fun _ _ => 0) 0).m

theorem arnLoop_indep (f : E →ₗ⋆[𝕜] E →ₗ[𝕜] 𝕜) (o : OrthOpts) (A : E →ₗ[𝕜] E) (N nc : Nat) :
    ∀ (fuel j : Nat) (ss : List (Slot 𝕜 E)) (buf buf' : Nat → Nat → 𝕜) (beta beta' : ℝ),
      (arnLoop f o A N nc fuel j ss buf beta).ss = (arnLoop f o A N nc fuel j ss buf' beta').ss ∧
      (arnLoop f o A N nc fuel j ss buf beta).m = (arnLoop f o A N nc fuel j ss buf' beta').m := by
  intro fuel
  induction fuel with
  | zero => intro j ss buf buf' beta beta'; exact ⟨rfl, rfl⟩
  | succ fuel ih =>
    intro j ss buf buf' beta beta'
    simp only [arnLoop]
    by_cases h : j + 1 = N
    · rw [if_pos h, if_pos h]; exact ⟨rfl, rfl⟩
    · rw [if_neg h, if_neg h]
      by_cases h2 : (orthonormalize f false o.mgs o.eta o.ref ss (A (lastCol ss))).2.lindep = true
      · rw [if_pos h2, if_pos h2]; exact ⟨rfl, rfl⟩
      · rw [if_neg h2, if_neg h2]; exact ih _ _ _ _ _ _

/-- `matArnoldi` in terms of `colv` and `stepsOf`. -/
theorem matArnoldi_cols (o : OrthOpts) (A : E →ₗ[𝕜] E) (m ldh : Nat) (v : E) (buf h0 : Nat → Nat → 𝕜) :
    let r := matArnoldi (ipForm 𝕜 E) o A (Module.finrank 𝕜 E) 0 0 m ldh [mkSlot v 1] buf h0
    r.m = stepsOf o A m v ∧ ∀ l, (r.ss.map Slot.v).getD l 0 = colv o A m v l := by
  obtain ⟨h1, h2⟩ := arnLoop_indep (ipForm 𝕜 E) o A (Module.finrank 𝕜 E) 0 m 0 [mkSlot v 1] buf (fun _ _ => 0) 0 0
  refine ⟨h2, fun l => ?_⟩
  unfold colv
  rw [← h1]
  rfl

theorem colv_prefix (o : OrthOpts) (A : E →ₗ[𝕜] E) (m : Nat) (v : E) :
    stepsOf o A (stepsOf o A m v) v = stepsOf o A m v ∧ ∀ l, colv o A (stepsOf o A m v) v l = colv o A m v l := by
  have h := arnLoop_prefix (ipForm 𝕜 E) o A (Module.finrank 𝕜 E) 0 m 0 [mkSlot v 1] (fun _ _ => (0 : 𝕜)) (fun _ _ => 0) 0 0
  dsimp only at h
  rw [Nat.sub_zero] at h
  refine ⟨h.2, fun l => ?_⟩
  unfold colv
  unfold stepsOf
  rw [h.1]

/-- The start vectors of the successive cycles. -/
def startOf (o : OrthOpts) (A : E →ₗ[𝕜] E) (m : Nat) (v : E) : Nat → E
  | 0 => v
  | k + 1 => colv o A m (startOf o A m v k) m

/-- The columns of all cycles, of `m` columns each. -/
def allCols (o : OrthOpts) (A : E →ₗ[𝕜] E) (m : Nat) (v : E) (i : Nat) : E := colv o A m (startOf o A m v (i / m)) (i % m)

theorem KRel.congr {A : E →ₗ[𝕜] E} {W W' : Nat → E} {d : Nat} {H H' : Nat → Nat → 𝕜} {u : E} (h : KRel A W d H u)
    (hW : ∀ i, i < d → W' i = W i) (hH : ∀ i j, i < d → j < d → H' i j = H i j) : KRel A W' d H' u := by
  intro j hj
  rw [hW j hj, h j hj]
  congr 1
  refine Finset.sum_congr rfl fun i hi => ?_
  have := Finset.mem_range.1 hi
  rw [hW i this, hH i j this hj]

theorem glueL_eq (n m : Nat) (hm : 0 < m) (M G : Nat → Nat → 𝕜) (first : Bool) (beta betaold : ℝ) (hn : first = false → 0 < n)
    (hf : first = true → n = 0)
    (hG : first = false → G n (n - 1) = (betaold : 𝕜)) (hH : first = false → ∀ i j, j + 1 < i → G i j = 0)
    (i j : Nat) (hi : i < n + m) (hj : j < n + m) : glueL n m M G first beta i j = Verif.MFN.glue n m M G first betaold i j := by
  unfold glueL Verif.MFN.glue
  cases first with
  | true =>
    have := hf rfl
    subst this
    rw [if_neg (by simp), if_neg (by omega), if_pos (by omega), if_pos (by omega)]
  | false =>
    have h0 := hn rfl
    by_cases h1 : j < n
    · by_cases h2 : i < n
      · rw [if_pos ⟨rfl, h1, by omega⟩, if_neg (by omega), if_pos ⟨rfl, h2, h1⟩]
      · by_cases h3 : i = n
        · rw [if_pos ⟨rfl, h1, by omega⟩, if_neg (by omega), if_neg (by omega)]
          by_cases h4 : j = n - 1
          · rw [if_pos ⟨rfl, h3, h4⟩, h3, h4, hG rfl]
          · rw [if_neg (by omega), hH rfl i j (by omega)]
        · rw [if_neg (by omega), if_neg (by omega), if_neg (by omega), if_neg (by omega), if_neg (by omega), if_neg (by omega)]
    · rw [if_neg (by omega), if_neg (by omega)]
      by_cases h2 : n ≤ i
      · rw [if_pos (by omega), if_pos (by omega)]
      · rw [if_neg (by omega), if_neg (by omega), if_neg (by omega), if_neg (by omega)]

theorem glueL_hess (n m : Nat) (hm : 0 < m) (M G : Nat → Nat → 𝕜) (first : Bool) (beta : ℝ) (hM : ∀ i j, j + 1 < i → M i j = 0)
    (hG : first = false → ∀ i j, j + 1 < i → G i j = 0) : ∀ i j, j + 1 < i → glueL n m M G first beta i j = 0 := by
  intro i j hij
  unfold glueL
  by_cases h1 : first = false ∧ j < n ∧ i ≤ n
  · rw [if_pos h1, hG h1.1 i j hij]
  · rw [if_neg h1, if_neg (by omega)]
    by_cases h2 : n ≤ i ∧ i < n + m ∧ n ≤ j ∧ j < n + m
    · rw [if_pos h2, hM _ _ (by omega)]
    · rw [if_neg h2]

theorem glueL_last (n m : Nat) (hm : 0 < m) (M G : Nat → Nat → 𝕜) (first : Bool) (beta : ℝ) :
    glueL n m M G first beta (n + m) (n + m - 1) = (beta : 𝕜) := by
  unfold glueL
  rw [if_neg (by omega), if_pos ⟨rfl, rfl⟩]

/-- The state of the first pass between two cycles. -/
structure Before (o : OrthOpts) (A : E →ₗ[𝕜] E) (P : Lim) (v : E) (s : P0 𝕜 E) : Prop where
  n : s.n = s.its * P.ncv
  m : s.m = P.ncv
  v0 : s.v0 = startOf o A P.ncv v s.its
  unit : ‖s.v0‖ = 1
  hM : ∀ i j, j + 1 < i → s.M i j = 0
  full : ∀ k, k < s.its → stepsOf o A P.ncv (startOf o A P.ncv v k) = P.ncv
  rel : 0 < s.its → ∃ beta : ℝ, KRel A (allCols o A P.ncv v) s.n s.G ((beta : 𝕜) • s.v0) ∧ s.G s.n (s.n - 1) = (beta : 𝕜) ∧
    (∀ i j, j + 1 < i → s.G i j = 0)

/-- What is known when the first pass has converged. -/
structure After (o : OrthOpts) (A : E →ₗ[𝕜] E) (P : Lim) (dense : Dense 𝕜) (bnorm : ℝ) (v : E) (s : P0 𝕜 E) (L : Nat → Nat → 𝕜) : Prop where
  its : 0 < s.its
  n : s.n = (s.its - 1) * P.ncv + s.m
  mpos : 0 < s.m
  mle : s.m ≤ P.ncv
  full : ∀ k, k + 1 < s.its → stepsOf o A P.ncv (startOf o A P.ncv v k) = P.ncv
  last : stepsOf o A P.ncv (startOf o A P.ncv v (s.its - 1)) = s.m
  dense : dense s.n s.G bnorm = some L
  rel : ∃ (beta : ℝ) (u : E), u = colv o A P.ncv (startOf o A P.ncv v (s.its - 1)) s.m ∧
    KRel A (allCols o A P.ncv v) s.n s.G ((beta : 𝕜) • u) ∧ s.errest = beta * lastRow s.n L ∧
    ((0 < beta ∧ ‖u‖ = 1) ∨ (beta = 0 ∧ u = 0)) ∧
    (0 < beta → s.its = 1 → ONList 𝕜 (cols (allCols o A P.ncv v) s.n ++ [u])) ∧
    (s.its = 1 → ONList 𝕜 (cols (allCols o A P.ncv v) s.n))
  tol : s.errest < P.tol

/-- One Arnoldi factorization from a unit vector, in terms of `colv`. -/
theorem arn_unit [FiniteDimensional 𝕜 E] (o : OrthOpts) (he : o.eta ≤ 1) (A : E →ₗ[𝕜] E) (m ldh : Nat) (hm : 0 < m)
    (v0 : E) (hv : ‖v0‖ = 1) (buf h0 : Nat → Nat → 𝕜) (hz : ∀ i j, j + 1 < i → h0 i j = 0) :
    let r := matArnoldi (ipForm 𝕜 E) o A (Module.finrank 𝕜 E) 0 0 m ldh [mkSlot v0 1] buf h0
    r.m = stepsOf o A m v0 ∧ (∀ l, (r.ss.map Slot.v).getD l 0 = colv o A m v0 l) ∧ colv o A m v0 0 = v0 ∧ 0 < r.m ∧ r.m ≤ m ∧
      KRel A (colv o A m v0) r.m r.H ((r.beta : 𝕜) • colv o A m v0 r.m) ∧ (∀ i j, j + 1 < i → r.H i j = 0) ∧
      ONList 𝕜 (cols (colv o A m v0) r.m) ∧
      (r.breakdown = true → r.beta = 0 ∧ colv o A m v0 r.m = 0) ∧
      (r.breakdown = false → r.m = m ∧ 0 < r.beta ∧ ONList 𝕜 (cols (colv o A m v0) (m + 1))) := by
  have ho : ONList 𝕜 ([] ++ cols (fun _ => v0) (0 + 1)) := by
    refine ⟨?_, ?_⟩ <;> simp [cols, hv]
  have hh : Holds [mkSlot (𝕜 := 𝕜) v0 1] ([] ++ cols (fun _ => v0) (0 + 1)) := by
    refine ⟨?_, ?_, ?_⟩ <;> simp [cols, mkSlot]
  obtain ⟨V, v1, v2, v3, v4, v5, v6, v7, v8, v9⟩ := C80_arnoldi o he A [] 0 m ldh hm _ (fun _ => v0) hh ho buf h0 hz
  simp only [List.length_nil, List.nil_append] at v2 v3 v4 v5 v6 v7 v8 v9
  intro r
  rw [show matArnoldi (ipForm 𝕜 E) o A (Module.finrank 𝕜 E) 0 0 m ldh [mkSlot v0 1] buf h0 = r from rfl] at v2 v3 v4 v5 v6 v7 v8 v9
  obtain ⟨c1, c2⟩ := matArnoldi_cols o A m ldh v0 buf h0
  rw [show matArnoldi (ipForm 𝕜 E) o A (Module.finrank 𝕜 E) 0 0 m ldh [mkSlot v0 1] buf h0 = r from rfl] at c1 c2
  have hV : ∀ l, l < r.m + 1 → colv o A m v0 l = V l := by
    intro l hl
    rw [← c2, v2, cols_getD _ _ _ hl]
  have hcols : ∀ d, d ≤ r.m + 1 → cols (colv o A m v0) d = cols V d := by
    intro d hd
    exact cols_congr _ _ d fun i hi => hV i (by omega)
  refine ⟨c1, c2, ?_, v3, v4, ?_, v7, ?_, ?_, ?_⟩
  · rw [hV 0 (by omega)]; exact v1 0 le_rfl
  · intro j hj
    obtain ⟨c, hc, e⟩ := v6 j (by omega) hj
    have hc0 : c = 0 := by simpa using hc
    rw [hV j (by omega), e, hc0, zero_add, hV r.m (by omega)]
    congr 1
    exact Finset.sum_congr rfl fun i hi => by rw [hV i (by have := Finset.mem_range.1 hi; omega)]
  · rw [hcols _ (by omega)]; exact v5
  · intro hb; rw [hV _ (by omega)]; exact v9 hb
  · intro hb
    obtain ⟨b1, b2, b3, b4⟩ := v8 hb
    exact ⟨b1, b2, by rw [hcols _ (by omega)]; exact b3⟩

theorem allCols_lt (o : OrthOpts) (A : E →ₗ[𝕜] E) (m : Nat) (v : E) (k l : Nat) (hl : l < m) :
    allCols o A m v (k * m + l) = colv o A m (startOf o A m v k) l := by
  unfold allCols
  have h1 : (k * m + l) / m = k := by
    rw [add_comm, Nat.add_mul_div_right _ _ (by omega), Nat.div_eq_of_lt hl, zero_add]
  have h2 : (k * m + l) % m = l := by
    rw [add_comm, Nat.add_mul_mod_self_right, Nat.mod_eq_of_lt hl]
  rw [h1, h2]

/-- One cycle of the first pass. -/
theorem cycle0_ok [FiniteDimensional 𝕜 E] (o : OrthOpts) (he : o.eta ≤ 1) (A : E →ₗ[𝕜] E) (P : Lim) (hP : 0 < P.ncv) (ht : 0 < P.tol)
    (dense : Dense 𝕜) (bnorm : ℝ) (v : E) (s : P0 𝕜 E) (hs : Before o A P v s) (hr : s.stat = .running) :
    let t := cycle0 (ipForm 𝕜 E) o A (Module.finrank 𝕜 E) P dense bnorm s
    t.its = s.its + 1 ∧
    match t.stat with
    | .running => Before o A P v t ∧ P.totalits + t.its < P.maxIt
    | .conv L => After o A P dense bnorm v t L
    | .fail => P.maxIt ≤ P.totalits + t.its
    | .error => True := by
  have hmpos : 0 < s.m := by rw [hs.m]; exact hP
  obtain ⟨a1, a2, a3, a4, a5, a6, a7, a8, a9, a10⟩ := arn_unit o he A s.m (P.ncv + 1) hmpos s.v0 hs.unit s.buf s.M hs.hM
  unfold cycle0
  dsimp only
  simp only [a2]
  generalize hr0 : matArnoldi (ipForm 𝕜 E) o A (Module.finrank 𝕜 E) 0 0 s.m (P.ncv + 1) [mkSlot s.v0 1] s.buf s.M = r at *
  clear hr0
  rw [hs.m] at a1 a3 a5 a6 a8 a9 a10
  have hGpre : decide (s.its = 0) = false → 0 < s.its := by
    intro h; have := of_decide_eq_false h; omega
  have hnpos : decide (s.its = 0) = false → 0 < s.n := fun h => by
    rw [hs.n]; exact Nat.mul_pos (hGpre h) hP
  have hn0 : decide (s.its = 0) = true → s.n = 0 := fun h => by
    rw [hs.n, of_decide_eq_true h, zero_mul]
  -- the glued relation
  have hrel : KRel A (allCols o A P.ncv v) (s.n + r.m) (glueL s.n r.m r.H s.G (decide (s.its = 0)) r.beta)
      ((r.beta : 𝕜) • colv o A P.ncv s.v0 r.m) := by
    have hW : ∀ i, i < s.n + r.m → allCols o A P.ncv v i =
        if i < s.n then allCols o A P.ncv v i else colv o A P.ncv s.v0 (i - s.n) := by
      intro i hi
      by_cases h : i < s.n
      · rw [if_pos h]
      · rw [if_neg h]
        have : i = s.its * P.ncv + (i - s.n) := by rw [← hs.n]; omega
        conv_lhs => rw [this]
        rw [allCols_lt _ _ _ _ _ _ (by omega), ← hs.v0]
    by_cases hit : s.its = 0
    · have hf : decide (s.its = 0) = true := decide_eq_true hit
      refine KRel.congr (KRel.glue (W := allCols o A P.ncv v) (betaold := 0) (G := s.G) (n := s.n) true a4 (by simp [hn0 hf])
        (fun h => by cases h) a6) hW ?_
      intro i j hi hj
      rw [hf]
      exact glueL_eq s.n r.m a4 r.H s.G true r.beta 0 (fun h => by cases h) (fun _ => hn0 hf) (fun h => by cases h) (fun h => by cases h) i j hi hj
    · have hf : decide (s.its = 0) = false := decide_eq_false hit
      obtain ⟨bo, k1, k2, k3⟩ := hs.rel (by omega)
      refine KRel.congr (KRel.glue (W := allCols o A P.ncv v) (betaold := bo) (G := s.G) (n := s.n) false a4
        (by simp; have := hnpos hf; omega) (fun _ => by rw [a3]; exact k1) a6) hW ?_
      intro i j hi hj
      rw [hf]
      exact glueL_eq s.n r.m a4 r.H s.G false r.beta bo (fun _ => hnpos hf) (fun h => by cases h) (fun _ => k2) (fun _ => k3) i j hi hj
  have hhess := glueL_hess s.n r.m a4 r.H s.G (decide (s.its = 0)) r.beta a7
    (fun h => (hs.rel (hGpre h)).choose_spec.2.2)
  have hlast := glueL_last s.n r.m a4 r.H s.G (decide (s.its = 0)) r.beta
  generalize hG : glueL s.n r.m r.H s.G (decide (s.its = 0)) r.beta = G at *
  cases hd : dense (s.n + r.m) G bnorm with
  | none => exact ⟨rfl, trivial⟩
  | some L =>
    dsimp only
    have hbn : 0 ≤ r.beta := by
      by_cases hb : r.breakdown = true
      · rw [(a9 hb).1]
      · exact (a10 (by simpa using hb)).2.1.le
    have hnorm : ‖G (s.n + r.m) (s.n + r.m - 1)‖ = r.beta := by
      rw [hlast, RCLike.norm_ofReal, abs_of_nonneg hbn]
    rw [hnorm]
    by_cases hc : r.beta * lastRow (s.n + r.m) L < P.tol
    · rw [if_pos hc]
      refine ⟨rfl, ?_⟩
      dsimp only
      have hone : s.its + 1 = 1 → ∀ d, d ≤ r.m → cols (allCols o A P.ncv v) d = cols (colv o A P.ncv s.v0) d := by
        intro h1 d hd
        refine cols_congr _ _ d fun i hi => ?_
        have := allCols_lt o A P.ncv v 0 i (by omega)
        rw [zero_mul, zero_add] at this
        rw [this, hs.v0, show s.its = 0 by omega]
      refine ⟨by dsimp only; omega, by dsimp only; rw [Nat.add_sub_cancel, hs.n], a4, a5, ?_, ?_, hd,
        ⟨r.beta, colv o A P.ncv s.v0 r.m, by dsimp only; rw [Nat.add_sub_cancel, hs.v0], hrel, rfl, ?_, ?_, ?_⟩, hc⟩
      · intro k hk; exact hs.full k (by dsimp only at hk; omega)
      · dsimp only; rw [Nat.add_sub_cancel, ← hs.v0]; exact a1.symm
      · by_cases hb : r.breakdown = true
        · exact .inr (a9 hb)
        · obtain ⟨b1, b2, b3⟩ := a10 (by simpa using hb)
          refine .inl ⟨b2, ?_⟩
          rw [b1]
          exact b3.unit _ (List.mem_map.2 ⟨P.ncv, List.mem_range.2 (by omega), rfl⟩)
      · intro hb h1
        dsimp only at h1 ⊢
        have hnb : r.breakdown = false := by
          by_contra hcon
          have := (a9 (by simpa using hcon)).1
          rw [this] at hb; exact lt_irrefl _ hb
        obtain ⟨b1, b2, b3⟩ := a10 hnb
        have hn' : s.n = 0 := by rw [hs.n, show s.its = 0 by omega, zero_mul]
        rw [hn', zero_add, hone h1 _ le_rfl, b1]
        rw [cols_succ] at b3
        exact b3
      · intro h1
        dsimp only at h1 ⊢
        have hn' : s.n = 0 := by rw [hs.n, show s.its = 0 by omega, zero_mul]
        rw [hn', zero_add, hone h1 _ le_rfl]
        exact a8
    · rw [if_neg hc]
      by_cases hm : P.maxIt ≤ P.totalits + (s.its + 1)
      · rw [if_pos hm]; exact ⟨rfl, hm⟩
      · rw [if_neg hm]
        refine ⟨rfl, ?_⟩
        dsimp only
        rw [hr]
        have hnb : r.breakdown = false := by
          by_contra hcon
          have := (a9 (by simpa using hcon)).1
          rw [this, zero_mul] at hc; exact hc ht
        obtain ⟨b1, b2, b3⟩ := a10 hnb
        refine ⟨⟨?_, b1, ?_, ?_, a7, ?_, ?_⟩, by omega⟩
        · dsimp only; rw [hs.n, b1]; ring
        · dsimp only; rw [b1, hs.m, hs.v0]; rfl
        · dsimp only
          rw [b1, hs.m]
          exact b3.unit _ (List.mem_map.2 ⟨P.ncv, List.mem_range.2 (by omega), rfl⟩)
        · intro k hk
          dsimp only at hk
          rcases Nat.lt_or_ge k s.its with h | h
          · exact hs.full k h
          · rw [show k = s.its by omega, ← hs.v0, ← a1, b1]
        · intro _
          exact ⟨r.beta, by dsimp only; rw [hs.m]; exact hrel, hlast, hhess⟩

/-- The first pass ends, in one of the three ways. -/
theorem pass0_ok [FiniteDimensional 𝕜 E] (o : OrthOpts) (he : o.eta ≤ 1) (A : E →ₗ[𝕜] E) (P : Lim) (hP : 0 < P.ncv) (ht : 0 < P.tol)
    (dense : Dense 𝕜) (bnorm : ℝ) (v : E) :
    ∀ (fuel : Nat) (s : P0 𝕜 E), Before o A P v s → s.stat = .running → P.maxIt < fuel + (P.totalits + s.its) → 0 < fuel →
    let t := pass0 (ipForm 𝕜 E) o A (Module.finrank 𝕜 E) P dense bnorm fuel s
    match t.stat with
    | .running => False
    | .conv L => After o A P dense bnorm v t L
    | .fail => P.maxIt ≤ P.totalits + t.its
    | .error => True := by
  intro fuel
  induction fuel with
  | zero => intro s _ _ _ h; omega
  | succ fuel ih =>
    intro s hs hr hf _
    obtain ⟨h1, h2⟩ := cycle0_ok o he A P hP ht dense bnorm v s hs hr
    unfold pass0
    rw [hr]
    dsimp only
    generalize cycle0 (ipForm 𝕜 E) o A (Module.finrank 𝕜 E) P dense bnorm s = t at *
    cases hst : t.stat with
    | running =>
      rw [hst] at h2
      dsimp only at h2
      refine ih t h2.1 hst (by omega) ?_
      have := h2.2
      omega
    | conv L =>
      rw [hst] at h2
      cases fuel with
      | zero => simp only [pass0, hst]; exact h2
      | succ f => simp only [pass0, hst]; exact h2
    | fail =>
      rw [hst] at h2
      cases fuel with
      | zero => simp only [pass0, hst]; exact h2
      | succ f => simp only [pass0, hst]; exact h2
    | error =>
      cases fuel with
      | zero => simp only [pass0, hst]
      | succ f => simp only [pass0, hst]

theorem before_start (o : OrthOpts) (A : E →ₗ[𝕜] E) (P : Lim) (b : E) (hb : ‖b‖ ≠ 0) (buf : Nat → Nat → 𝕜) :
    Before o A P (((‖b‖⁻¹ : ℝ) : 𝕜) • b) (start0 P ‖b‖ b buf) := by
  refine ⟨by simp [start0], rfl, rfl, ?_, fun _ _ _ => rfl, fun k hk => by simp [start0] at hk, fun h => by simp [start0] at h⟩
  simp only [start0]
  rw [norm_smul, RCLike.norm_ofReal, abs_of_nonneg (inv_nonneg.2 (norm_nonneg _)), inv_mul_cancel₀ hb]

/-- The second pass: after `k` cycles with `m` columns each. -/
theorem pass1_ok (o : OrthOpts) (A : E →ₗ[𝕜] E) (P : Lim) (US Vt : Nat → Nat → 𝕜) (rank : Nat) (v : E) (m : Nat) (hm : m ≤ P.ncv)
    (M buf : Nat → Nat → 𝕜) (K : Nat) (hK : K = 1 ∨ m = P.ncv)
    (hfull : ∀ k, k < K → stepsOf o A P.ncv (startOf o A P.ncv v k) = m) :
    ∀ k, k ≤ K →
      let t := (cycle1 (ipForm 𝕜 E) o A (Module.finrank 𝕜 E) P.ncv US Vt rank)^[k] ⟨0, m, M, buf, v, fun _ => 0⟩
      t.its = k ∧ (k < K → t.m = m ∧ t.v0 = startOf o A P.ncv v k) ∧
      ∀ c, c < rank → t.Z c = ∑ i ∈ Finset.range (k * m), (∑ l ∈ Finset.range rank, US i l * Vt l c) • allCols o A P.ncv v i := by
  intro k
  induction k with
  | zero =>
    intro hk
    refine ⟨rfl, fun _ => ⟨rfl, rfl⟩, fun c _ => ?_⟩
    simp
  | succ k ih =>
    intro hk
    obtain ⟨i1, i2, i3⟩ := ih (by omega)
    obtain ⟨j1, j2⟩ := i2 (by omega)
    rw [Function.iterate_succ_apply']
    generalize (cycle1 (ipForm 𝕜 E) o A (Module.finrank 𝕜 E) P.ncv US Vt rank)^[k] ⟨0, m, M, buf, v, fun _ => 0⟩ = t at *
    obtain ⟨a1, a2⟩ := matArnoldi_cols o A t.m (P.ncv + 1) t.v0 t.buf t.M
    obtain ⟨p1, p2⟩ := colv_prefix o A P.ncv (startOf o A P.ncv v k)
    rw [hfull k (by omega)] at p1 p2
    rw [j1, j2] at a1 a2
    rw [p1] at a1
    have hcyc : cycle1 (ipForm 𝕜 E) o A (Module.finrank 𝕜 E) P.ncv US Vt rank t =
        { its := t.its + 1, m := m, M := (matArnoldi (ipForm 𝕜 E) o A (Module.finrank 𝕜 E) 0 0 t.m (P.ncv + 1) [mkSlot t.v0 1] t.buf t.M).H,
          buf := (matArnoldi (ipForm 𝕜 E) o A (Module.finrank 𝕜 E) 0 0 t.m (P.ncv + 1) [mkSlot t.v0 1] t.buf t.M).buf,
          v0 := colv o A P.ncv (startOf o A P.ncv v k) m,
          Z := fun c => t.Z c + if c < rank then ∑ l ∈ Finset.range m,
            (∑ q ∈ Finset.range rank, US (t.its * m + l) q * Vt q c) • colv o A P.ncv (startOf o A P.ncv v k) l else 0 } := by
      unfold cycle1
      dsimp only
      rw [j1, j2]
      simp only [a1, a2, p2]
    rw [hcyc]
    refine ⟨by dsimp only; omega, fun h => ?_, fun c hc => ?_⟩
    · refine ⟨rfl, ?_⟩
      dsimp only
      rcases hK with hK | hK
      · omega
      · rw [hK]; rfl
    · dsimp only
      rw [if_pos hc, i3 c hc, i1, Nat.succ_mul, Finset.sum_range_add]
      congr 1
      refine Finset.sum_congr rfl fun l hl => ?_
      have hl' := Finset.mem_range.1 hl
      congr 1
      rcases hK with hK | hK
      · have : k = 0 := by omega
        subst this
        rw [zero_mul]
        have := allCols_lt o A P.ncv v 0 l (by omega)
        rw [zero_mul] at this
        rw [this]
      · rw [hK, allCols_lt _ _ _ _ _ _ (by omega)]

end
end Verif.LME
