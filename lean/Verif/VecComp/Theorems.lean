import Verif.VecComp.Model
import Mathlib.Tactic

/-! C24 (dot products and norms of composite vectors) and C54 (elementwise operations, maximum). -/
set_option linter.all false

namespace Verif.VecComp

/-! ### Specification -/

/-- All the entries of a parallel composite vector, in the order of the reduction. -/
def allEntries (t : Tree Local) : List ℂ := (t.leaves.map List.flatten).flatten

/-- Two composite local vectors with the same layout. -/
def SameLayout {α : Type} (a b : List (List α)) : Prop :=
  a.map List.length = b.map List.length

/-- `y^H x`. -/
def hdot (x y : List ℂ) : ℂ := (List.zipWith (fun a b => a * starRingEnd ℂ b) x y).sum

/-- `y^T x`. -/
def tdot (x y : List ℂ) : ℂ := (List.zipWith (fun a b => a * b) x y).sum

/-- The 1-norm. -/
noncomputable def norm1 (x : List ℂ) : ℝ := (x.map fun c => ‖c‖).sum

/-- The 2-norm. -/
noncomputable def norm2 (x : List ℂ) : ℝ := Real.sqrt (x.map fun c => ‖c‖ ^ 2).sum

/-- The infinity norm: the least nonnegative bound of the moduli. -/
def IsNormInf (x : List ℂ) (r : ℝ) : Prop := IsLeast {r | 0 ≤ r ∧ ∀ c ∈ x, ‖c‖ ≤ r} r

/-! ### Lemmas -/

theorem foldl_add_map {M α : Type} [AddCommMonoid M] (f : α → M) (l : List α) (s : M) :
    l.foldl (fun s p => s + f p) s = s + (l.map f).sum := by
  induction l generalizing s with
  | nil => simp
  | cons a l ih => rw [List.foldl_cons, ih, List.map_cons, List.sum_cons, add_assoc]

theorem zipWith_flatten {α β γ : Type} (f : α → β → γ) (a : List (List α)) (b : List (List β))
    (h : a.map List.length = b.map List.length) :
    List.zipWith f a.flatten b.flatten = (List.zipWith (List.zipWith f) a b).flatten := by
  induction a generalizing b with
  | nil => simp
  | cons x a ih =>
    cases b with
    | nil => simp at h
    | cons y b =>
      simp only [List.map_cons, List.cons.injEq] at h
      simp only [List.flatten_cons, List.zipWith_cons_cons]
      rw [List.zipWith_append h.1, ih b h.2]

theorem dotLoop_eq (f : ℂ → ℂ → ℂ) (a b : Local) (h : SameLayout a b) :
    dotLoop (fun x y => (List.zipWith f x y).sum) a b =
      (List.zipWith f a.flatten b.flatten).sum := by
  unfold dotLoop
  rw [foldl_add_map (fun p : List ℂ × List ℂ => (List.zipWith f p.1 p.2).sum), zero_add,
    zipWith_flatten f a b h]
  unfold SameLayout at h
  induction a generalizing b with
  | nil => simp
  | cons x a ih =>
    cases b with
    | nil => simp at h
    | cons y b =>
      simp only [List.map_cons, List.cons.injEq] at h
      simp only [List.zip_cons_cons, List.map_cons, List.sum_cons, List.zipWith_cons_cons,
        List.flatten_cons, List.sum_append]
      rw [ih b h.2]

/-! ### C24: dot products -/

/-- C24: `VecDot` and `VecTDot` of composite vectors equal those of the concatenations, in one process. -/
theorem C24_dot_local (a b : Local) (h : SameLayout a b) :
    dotLoop dotSeq a b = hdot a.flatten b.flatten ∧
    dotLoop tdotSeq a b = tdot a.flatten b.flatten :=
  ⟨dotLoop_eq _ a b h, dotLoop_eq _ a b h⟩

theorem sumTree_eq {α : Type} (f : α → ℂ) (t : Tree α) : sumTree f t = (t.leaves.map f).sum := by
  induction t with
  | leaf a => simp [sumTree, Tree.leaves]
  | node l r hl hr => simp [sumTree, Tree.leaves, hl, hr]

/-- C24: the parallel `VecDot`/`VecTDot` equal those of the concatenations over all the processes,
whatever the order of the reduction. -/
theorem C24_dot (t : Tree (Local × Local)) (h : ∀ p ∈ t.leaves, SameLayout p.1 p.2) :
    dotCompMPI dotSeq t = hdot ((t.leaves.map fun p => p.1.flatten).flatten)
      ((t.leaves.map fun p => p.2.flatten).flatten) ∧
    dotCompMPI tdotSeq t = tdot ((t.leaves.map fun p => p.1.flatten).flatten)
      ((t.leaves.map fun p => p.2.flatten).flatten) := by
  have key : ∀ f : ℂ → ℂ → ℂ, ∀ L : List (Local × Local), (∀ p ∈ L, SameLayout p.1 p.2) →
      (L.map fun p => (List.zipWith f p.1.flatten p.2.flatten).sum).sum =
      (List.zipWith f ((L.map fun p => p.1.flatten).flatten) ((L.map fun p => p.2.flatten).flatten)).sum := by
    intro f L hL
    induction L with
    | nil => simp
    | cons p L ih =>
      simp only [List.map_cons, List.sum_cons, List.flatten_cons]
      have hp : p.1.flatten.length = p.2.flatten.length := by
        have := hL p (by simp)
        unfold SameLayout at this
        rw [List.length_flatten, List.length_flatten, this]
      rw [List.zipWith_append hp, List.sum_append, ih fun q hq => hL q (List.mem_cons_of_mem _ hq)]
  unfold dotCompMPI
  rw [sumTree_eq, sumTree_eq]
  constructor
  · rw [List.map_congr_left (g := fun p => hdot p.1.flatten p.2.flatten)
      fun p hp => (C24_dot_local p.1 p.2 (h p hp)).1]
    exact key _ _ h
  · rw [List.map_congr_left (g := fun p => tdot p.1.flatten p.2.flatten)
      fun p hp => (C24_dot_local p.1 p.2 (h p hp)).2]
    exact key _ _ h

theorem foldl_fun_add (g : ℕ → ℕ → ℂ) (l : List ℕ) (r : ℕ → ℂ) (i : ℕ) :
    l.foldl (fun r j => fun i => r i + g j i) r i = r i + (l.map fun j => g j i).sum := by
  induction l generalizing r with
  | nil => simp
  | cons a l ih => rw [List.foldl_cons, ih, List.map_cons, List.sum_cons, add_assoc]

theorem mdot_eq (f : ℂ → ℂ → ℂ) (a : Local) (b : ℕ → Local) (z : ℕ → ℂ) (i : ℕ) (ha : a ≠ [])
    (h : SameLayout a (b i)) :
    mdotLoop (fun x y => (List.zipWith f x y).sum) a b z i =
      (List.zipWith f a.flatten (b i).flatten).sum := by
  have hl : a.length ≠ 0 := by simpa using ha
  unfold mdotLoop
  rw [if_neg hl, foldl_fun_add (fun j i => (List.zipWith f (a.getD j []) ((b i).getD j [])).sum),
    zero_add, ← dotLoop_eq f a (b i) h]
  unfold dotLoop
  rw [foldl_add_map (fun p : List ℂ × List ℂ => (List.zipWith f p.1 p.2).sum), zero_add]
  have hlen : a.length = (b i).length := by simpa using congrArg List.length h
  congr 1
  apply List.ext_getElem
  · simp [hlen]
  · intro n h1 h2
    simp at h1 h2
    simp [List.getElem_zip, List.getD_eq_getElem?_getD, h1, hlen ▸ h1]

/-- C24: `VecMDot`/`VecMTDot` give the dot product with each vector, if there is at least one component. -/
theorem C24_mdot (a : Local) (b : ℕ → Local) (z : ℕ → ℂ) (i : ℕ) (ha : a ≠ [])
    (h : SameLayout a (b i)) :
    mdotLoop dotSeq a b z i = hdot a.flatten (b i).flatten ∧
    mdotLoop tdotSeq a b z i = tdot a.flatten (b i).flatten :=
  ⟨mdot_eq _ a b z i ha h, mdot_eq _ a b z i ha h⟩

/-- Without components, only the first of the results is set: `VecMDot` leaves the others as they were. -/
theorem C24_mdot_false : ∃ (b : ℕ → Local) (z : ℕ → ℂ), SameLayout [] (b 1) ∧
    mdotLoop dotSeq [] b z 1 ≠ dotLoop dotSeq [] (b 1) := by
  refine ⟨fun _ => [], fun _ => 7, rfl, ?_⟩
  norm_num [mdotLoop, dotLoop]

theorem foldl_pair (f g : List ℂ × List ℂ → ℂ) (l : List (List ℂ × List ℂ)) (s : ℂ × ℂ) :
    l.foldl (fun s p => (s.1 + f p, s.2 + g p)) s = (l.foldl (fun s p => s + f p) s.1,
      l.foldl (fun s p => s + g p) s.2) := by
  induction l generalizing s with
  | nil => rfl
  | cons a l ih => simp only [List.foldl_cons]; rw [ih]

/-- C24: `VecDotNorm2` gives the dot product and the square of the norm of the second vector. -/
theorem C24_dotnorm2 (v w : Local) (h : SameLayout v w) :
    dotNorm2Loop v w = (hdot v.flatten w.flatten, hdot w.flatten w.flatten) := by
  unfold dotNorm2Loop
  rw [foldl_pair (fun p => dotSeq p.1 p.2) (fun p => dotSeq p.2 p.2)]
  ext1
  · exact (C24_dot_local v w h).1
  · show _ = hdot w.flatten w.flatten
    rw [← (C24_dot_local w w rfl).1]
    unfold dotLoop
    show (List.zip v w).foldl (fun s p => s + dotSeq p.2 p.2) 0 = _
    rw [foldl_add_map, foldl_add_map]
    congr 2
    apply List.ext_getElem
    · have : v.length = w.length := by simpa using congrArg List.length h
      simp [this]
    · intro n h1 h2
      simp

example : SameLayout [[1, 2], [3 * Complex.I]] [[4, Complex.I], [(2 : ℂ)]] ∧
    dotLoop dotSeq [[1, 2], [3 * Complex.I]] [[4, Complex.I], [2]] = 4 + 4 * Complex.I := by
  refine ⟨by simp [SameLayout], ?_⟩
  have h4 : (starRingEnd ℂ) 4 = 4 := by norm_num [map_ofNat]
  have h2 : (starRingEnd ℂ) 2 = 2 := by norm_num [map_ofNat]
  simp [dotLoop, dotSeq, h4, h2]
  ring

/-! ### C24: norms -/

/-- The norms of the concatenation over the components, in one process (1-norm and infinity norm). -/
theorem C24_norm1_local (x : Local) : norm1Loop x = norm1 x.flatten := by
  unfold norm1Loop
  rw [foldl_add_map, zero_add]
  unfold norm1 norm1Seq
  induction x with
  | nil => simp
  | cons c x ih => simp only [List.map_cons, List.sum_cons, ih, List.flatten_cons, List.map_append, List.sum_append]

theorem foldl_max_init (l : List ℝ) (s : ℝ) (hs : 0 ≤ s) : l.foldl max s = max s (l.foldl max 0) := by
  induction l generalizing s with
  | nil => simp [hs]
  | cons a l ih =>
    rw [List.foldl_cons, List.foldl_cons, ih _ (le_trans hs (le_max_left _ _)), ih _ (le_max_left _ _),
      ← max_assoc, ← max_assoc, max_eq_left hs]

theorem foldl_max_nonneg (l : List ℝ) (s : ℝ) (hs : 0 ≤ s) : 0 ≤ l.foldl max s := by
  rw [foldl_max_init l s hs]; exact le_trans hs (le_max_left _ _)

theorem normInfSeq_nonneg (x : List ℂ) : 0 ≤ normInfSeq x := foldl_max_nonneg _ _ le_rfl

theorem normInfSeq_append (x y : List ℂ) : normInfSeq (x ++ y) = max (normInfSeq x) (normInfSeq y) := by
  unfold normInfSeq
  rw [List.map_append, List.foldl_append, foldl_max_init _ _ (foldl_max_nonneg _ _ le_rfl)]

theorem normInf_local (x : Local) : normInfLoop x = normInfSeq x.flatten := by
  unfold normInfLoop
  have : ∀ s : ℝ, 0 ≤ s → x.foldl (fun s c => max s (normInfSeq c)) s = max s (normInfSeq x.flatten) := by
    induction x with
    | nil => intro s hs; simp [normInfSeq, hs]
    | cons c x ih =>
      intro s hs
      rw [List.foldl_cons, ih _ (le_trans hs (le_max_left _ _)), List.flatten_cons, normInfSeq_append, max_assoc]
  rw [this 0 le_rfl, max_eq_right (normInfSeq_nonneg _)]

theorem isNormInf (x : List ℂ) : IsNormInf x (normInfSeq x) := by
  refine ⟨⟨normInfSeq_nonneg x, ?_⟩, ?_⟩
  · intro c hc
    induction x with
    | nil => simp at hc
    | cons a x ih =>
      have h0 : normInfSeq (a :: x) = max ‖a‖ (normInfSeq x) := by
        have := normInfSeq_append [a] x
        simpa [normInfSeq] using this
      rw [h0]
      rcases List.mem_cons.1 hc with rfl | hc
      · exact le_max_left _ _
      · exact (ih hc).trans (le_max_right _ _)
  · rintro r ⟨hr, h⟩
    induction x with
    | nil => simpa [normInfSeq] using hr
    | cons a x ih =>
      have h0 : normInfSeq (a :: x) = max ‖a‖ (normInfSeq x) := by
        have := normInfSeq_append [a] x
        simpa [normInfSeq] using this
      rw [h0]
      exact max_le (h a (by simp)) (ih fun c hc => h c (List.mem_cons_of_mem _ hc))

/-- C24: the infinity norm in one process. -/
theorem C24_normInf_local (x : Local) : IsNormInf x.flatten (normInfLoop x) := by
  rw [normInf_local]; exact isNormInf _

/-- C24: the parallel 1-norm and infinity norm. -/
theorem C24_norm1_inf (t : Tree Local) :
    norm1CompMPI t = norm1 (allEntries t) ∧ IsNormInf (allEntries t) (normInfCompMPI t) := by
  constructor
  · unfold norm1CompMPI
    induction t with
    | leaf x => simp [sumTreeR, allEntries, Tree.leaves, C24_norm1_local]
    | node l r hl hr =>
      simp only [sumTreeR, hl, hr, allEntries, Tree.leaves, List.map_append, List.flatten_append]
      simp [norm1]
  · have : normInfCompMPI t = normInfSeq (allEntries t) := by
      unfold normInfCompMPI
      induction t with
      | leaf x => simp [maxTree, allEntries, Tree.leaves, normInf_local]
      | node l r hl hr =>
        simp only [maxTree, hl, hr, allEntries, Tree.leaves, List.map_append, List.flatten_append,
          normInfSeq_append]
    rw [this]; exact isNormInf _

/-- Sum of squares of the entries. -/
noncomputable def sq (x : List ℂ) : ℝ := (x.map (‖·‖ ^ 2)).sum

theorem sq_nonneg' (x : List ℂ) : 0 ≤ sq x := by
  unfold sq; apply List.sum_nonneg; intro a ha
  obtain ⟨c, _, rfl⟩ := List.mem_map.1 ha; positivity

theorem sq_append (x y : List ℂ) : sq (x ++ y) = sq x + sq y := by simp [sq]

theorem norm2Seq_sq (x : List ℂ) : norm2Seq x ^ 2 = sq x := Real.sq_sqrt (sq_nonneg' x)

/-- Meaning of the scaled pair. -/
def Pair (s : ℝ × ℝ) (v : ℝ) : Prop := 0 < s.1 ∧ 0 ≤ s.2 ∧ s.2 ^ 2 * s.1 = v

theorem addNorm2_pair (s : ℝ × ℝ) (v x : ℝ) (h : Pair s v) : Pair (addNorm2 s x) (v + x ^ 2) := by
  obtain ⟨h1, h2, h3⟩ := h
  unfold addNorm2
  by_cases hx : x = 0
  · simp [hx]; exact ⟨h1, h2, h3⟩
  · rw [if_pos hx]
    have hx' : 0 < |x| := abs_pos.2 hx
    by_cases hs : s.2 < |x|
    · rw [if_pos hs]
      refine ⟨?_, hx'.le, ?_⟩
      · show 0 < 1 + s.1 * (s.2 / |x|) * (s.2 / |x|)
        have : 0 ≤ s.2 / |x| := by positivity
        positivity
      · show |x| ^ 2 * (1 + s.1 * (s.2 / |x|) * (s.2 / |x|)) = v + x ^ 2
        rw [← h3, ← sq_abs x]; field_simp; ring
    · rw [if_neg hs]
      have hs' : 0 < s.2 := lt_of_lt_of_le hx' (not_lt.1 hs)
      refine ⟨?_, h2, ?_⟩
      · show 0 < s.1 + (|x| / s.2) * (|x| / s.2); positivity
      · show s.2 ^ 2 * (s.1 + (|x| / s.2) * (|x| / s.2)) = v + x ^ 2
        rw [← h3, ← sq_abs x]; field_simp

theorem foldl_pair_sq (ws : List ℝ) (s : ℝ × ℝ) (v : ℝ) (h : Pair s v) :
    Pair (ws.foldl addNorm2 s) (v + (ws.map (· ^ 2)).sum) := by
  induction ws generalizing s v with
  | nil => simpa using h
  | cons w ws ih =>
    rw [List.foldl_cons, List.map_cons, List.sum_cons, ← add_assoc]
    exact ih _ _ (addNorm2_pair s v w h)

theorem pair_init : Pair (1, 0) 0 := ⟨one_pos, le_rfl, by norm_num⟩

theorem norm2Loop_pair (x : Local) : Pair (norm2Loop x) (sq x.flatten) := by
  unfold norm2Loop
  have h := foldl_pair_sq (x.map norm2Seq) (1, 0) 0 pair_init
  rw [List.foldl_map, zero_add, List.map_map] at h
  convert h using 1
  induction x with
  | nil => simp [sq]
  | cons c x ih =>
    rw [List.flatten_cons, sq_append, List.map_cons, List.sum_cons, ih]
    · simp [norm2Seq_sq]
    · exact h.elim fun _ _ => by
        have h := foldl_pair_sq (x.map norm2Seq) (1, 0) 0 pair_init
        rwa [List.foldl_map, zero_add, List.map_map] at h

theorem getNorm2_eq (s : ℝ × ℝ) (v : ℝ) (h : Pair s v) : getNorm2 s = Real.sqrt v := by
  obtain ⟨h1, h2, h3⟩ := h
  unfold getNorm2
  rw [← h3, Real.sqrt_mul (by positivity), Real.sqrt_sq h2]

/-- C24: the 2-norm in one process (and hence of a composite vector used as a component). -/
theorem C24_norm2_local (x : Local) : norm2CompSeq x = norm2 x.flatten :=
  getNorm2_eq _ _ (norm2Loop_pair x)

theorem sumNorm2_pair (a b : ℝ × ℝ) (u v : ℝ) (ha : Pair a u) (hb : Pair b v) :
    (∀ c, sumNorm2 a b = some c → Pair c (u + v)) ∧ (sumNorm2 a b = none ↔ u = 0 ∧ v = 0) := by
  obtain ⟨a1, a2, a3⟩ := ha
  obtain ⟨b1, b2, b3⟩ := hb
  have hu : u = 0 ↔ a.2 = 0 := by
    rw [← a3]; constructor
    · intro h; rcases mul_eq_zero.1 h with h | h
      · exact pow_eq_zero_iff (two_ne_zero) |>.1 h
      · exact absurd h a1.ne'
    · intro h; simp [h]
  have hv : v = 0 ↔ b.2 = 0 := by
    rw [← b3]; constructor
    · intro h; rcases mul_eq_zero.1 h with h | h
      · exact pow_eq_zero_iff (two_ne_zero) |>.1 h
      · exact absurd h b1.ne'
    · intro h; simp [h]
  unfold sumNorm2 divide
  by_cases h : a.2 > b.2
  · have ha0 : 0 < a.2 := lt_of_le_of_lt b2 h
    rw [if_pos h, if_neg ha0.ne']
    refine ⟨?_, ?_⟩
    · intro c hc
      simp only [Option.map_some, Option.some.injEq] at hc
      subst hc
      refine ⟨by positivity, a2, ?_⟩
      show a.2 ^ 2 * (a.1 + b.2 / a.2 * (b.2 / a.2) * b.1) = u + v
      rw [← a3, ← b3]; field_simp
    · simp only [Option.map_some, reduceCtorEq, false_iff]
      rintro ⟨h1, _⟩; exact ha0.ne' (hu.1 h1)
  · rw [if_neg h]
    by_cases hb0 : b.2 = 0
    · rw [if_pos hb0]
      have ha0 : a.2 = 0 := le_antisymm (hb0 ▸ not_lt.1 h) a2
      refine ⟨by intro c hc; simp at hc, ?_⟩
      simp [hu, hv, ha0, hb0]
    · have hb' : 0 < b.2 := lt_of_le_of_ne b2 (Ne.symm hb0)
      rw [if_neg hb0]
      refine ⟨?_, ?_⟩
      · intro c hc
        simp only [Option.map_some, Option.some.injEq] at hc
        subst hc
        refine ⟨by positivity, b2, ?_⟩
        show b.2 ^ 2 * (b.1 + a.2 / b.2 * (a.2 / b.2) * a.1) = u + v
        rw [← a3, ← b3]; field_simp; ring
      · simp only [Option.map_some, reduceCtorEq, false_iff]
        rintro ⟨_, h1⟩; exact hb0 (hv.1 h1)

theorem sq_zero_iff (x : List ℂ) : sq x = 0 ↔ ∀ c ∈ x, c = 0 := by
  induction x with
  | nil => simp [sq]
  | cons a x ih =>
    have h1 : sq (a :: x) = ‖a‖ ^ 2 + sq x := by simp [sq]
    have h2 := sq_nonneg' x
    rw [h1, add_eq_zero_iff_of_nonneg (by positivity) h2, ih]
    simp

theorem allEntries_node (l r : Tree Local) : allEntries (.node l r) = allEntries l ++ allEntries r := by
  simp [allEntries, Tree.leaves]

/-- The reduction either gives the sum of squares or is undefined; it is undefined exactly when
somewhere in the reduction two contributions with only zeros meet. -/
def ZeroMeet : Tree Local → Prop
  | .leaf _ => False
  | .node l r => ZeroMeet l ∨ ZeroMeet r ∨ ∀ c ∈ allEntries (.node l r), c = 0

theorem reduce_spec (t : Tree Local) :
    (∀ c, (norm2CompMPI.go t).reduce sumNorm2 = some c → Pair c (sq (allEntries t))) ∧
    ((norm2CompMPI.go t).reduce sumNorm2 = none ↔ ZeroMeet t) := by
  induction t with
  | leaf x =>
    refine ⟨?_, by simp [norm2CompMPI.go, Tree.reduce, ZeroMeet]⟩
    intro c hc
    simp only [norm2CompMPI.go, Tree.reduce, Option.some.injEq] at hc
    subst hc
    simpa [allEntries, Tree.leaves] using norm2Loop_pair x
  | node l r hl hr =>
    simp only [norm2CompMPI.go, Tree.reduce]
    cases h1 : (norm2CompMPI.go l).reduce sumNorm2 with
    | none => refine ⟨by intro c hc; simp at hc, ?_⟩
              simp only [Option.bind_none, true_iff]
              exact Or.inl (hl.2.1 h1)
    | some a =>
      cases h2 : (norm2CompMPI.go r).reduce sumNorm2 with
      | none => refine ⟨by intro c hc; simp at hc, ?_⟩
                simp only [Option.bind_some, Option.bind_none, true_iff]
                exact Or.inr (Or.inl (hr.2.1 h2))
      | some b =>
        simp only [Option.bind_some]
        have hs := sumNorm2_pair a b _ _ (hl.1 a h1) (hr.1 b h2)
        rw [allEntries_node, sq_append]
        refine ⟨hs.1, ?_⟩
        rw [hs.2]
        have n1 : ¬ ZeroMeet l := fun h => by rw [hl.2.2 h] at h1; simp at h1
        have n2 : ¬ ZeroMeet r := fun h => by rw [hr.2.2 h] at h2; simp at h2
        simp only [ZeroMeet, n1, n2, false_or, allEntries_node, sq_zero_iff, List.mem_append]
        constructor
        · rintro ⟨h3, h4⟩ c (h | h)
          · exact h3 c h
          · exact h4 c h
        · intro h; exact ⟨fun c hc => h c (Or.inl hc), fun c hc => h c (Or.inr hc)⟩

/-- C24: the parallel 2-norm is that of the concatenation, unless two contributions with only
zeros meet in the reduction (in particular it is right if at most one process has a zero local part);
`_partial` because of this exception. -/
theorem C24_norm2_partial (t : Tree Local) :
    (norm2CompMPI t = some (norm2 (allEntries t)) ∨ norm2CompMPI t = none) ∧
    (norm2CompMPI t = none ↔ ZeroMeet t) := by
  obtain ⟨h1, h2⟩ := reduce_spec t
  unfold norm2CompMPI
  cases h : (norm2CompMPI.go t).reduce sumNorm2 with
  | none => simp only [Option.map_none, or_true, true_iff, true_and]; exact h2.1 h
  | some c =>
    simp only [Option.map_some, reduceCtorEq, or_false, false_iff]
    refine ⟨?_, fun hz => by rw [h2.2 hz] at h; simp at h⟩
    rw [getNorm2_eq c _ (h1 c h)]
    rfl

/-- Number of processes whose local part has only zeros. -/
noncomputable def zeroParts (t : Tree Local) : ℕ :=
  (t.leaves.filter fun x => decide (sq x.flatten = 0)).length

theorem zeroParts_pos (t : Tree Local) (h : ∀ c ∈ allEntries t, c = 0) : 1 ≤ zeroParts t := by
  induction t with
  | leaf x =>
    have : sq x.flatten = 0 := (sq_zero_iff _).2 (by simpa [allEntries, Tree.leaves] using h)
    simp [zeroParts, Tree.leaves, this]
  | node l r hl hr =>
    rw [allEntries_node] at h
    have := hl fun c hc => h c (List.mem_append_left _ hc)
    have e : zeroParts (.node l r) = zeroParts l + zeroParts r := by simp [zeroParts, Tree.leaves]
    omega

theorem zeroMeet_count (t : Tree Local) (h : ZeroMeet t) : 2 ≤ zeroParts t := by
  induction t with
  | leaf x => exact absurd h id
  | node l r hl hr =>
    have e : zeroParts (.node l r) = zeroParts l + zeroParts r := by simp [zeroParts, Tree.leaves]
    rcases h with h | h | h
    · have := hl h; omega
    · have := hr h; omega
    · rw [allEntries_node] at h
      have := zeroParts_pos l fun c hc => h c (List.mem_append_left _ hc)
      have := zeroParts_pos r fun c hc => h c (List.mem_append_right _ hc)
      omega

/-- C24: with at most one process holding only zeros, the parallel 2-norm is right. -/
theorem C24_norm2_defined (t : Tree Local) (h : zeroParts t ≤ 1) :
    norm2CompMPI t = some (norm2 (allEntries t)) := by
  obtain ⟨h1, h2⟩ := C24_norm2_partial t
  rcases h1 with h1 | h1
  · exact h1
  · have := zeroMeet_count t (h2.1 h1); omega

/-- C24 is false of the code: the 2-norm of the zero vector on two or more processes is undefined
(0/0) instead of 0, whatever the reduction order. -/
theorem C24_norm2_false (l r : Tree Local) (h : ∀ c ∈ allEntries (.node l r), c = 0) :
    norm2CompMPI (.node l r) = none ∧ norm2 (allEntries (.node l r)) = 0 := by
  refine ⟨(C24_norm2_partial _).2.2 (Or.inr (Or.inr h)), ?_⟩
  have := (sq_zero_iff _).2 h
  unfold norm2
  change Real.sqrt (sq _) = 0
  rw [this, Real.sqrt_zero]

/-- Also for a non-zero vector, if two processes hold zeros only. -/
theorem C24_norm2_false_nonzero : ∃ t : Tree Local, norm2 (allEntries t) = 1 ∧
    norm2CompMPI t = none := by
  refine ⟨.node (.leaf [[1]]) (.node (.leaf [[0]]) (.leaf [[0]])), ?_, (C24_norm2_partial _).2.2 ?_⟩
  · simp [allEntries, Tree.leaves, norm2]
  · right; left; right; right; intro c hc; simpa [allEntries, Tree.leaves] using hc

/-- Components without local norms: with the correction the result is the norm ... -/
theorem C24_norm2_nolocal_seq (ws : List ℝ) :
    norm2CompSeqNoLocal ws = Real.sqrt ((ws.map (· ^ 2)).sum) := by
  have := foldl_pair_sq ws (1, 0) 0 pair_init
  rw [zero_add] at this
  exact getNorm2_eq _ _ this

/-- ... and the parallel version omits the correction: it returns 1 for any single non-zero component. -/
theorem C24_norm2_nolocal_false (w : ℝ) (hw : w ≠ 0) : norm2CompMPINoLocal [w] = 1 := by
  have : (0 : ℝ) < |w| := abs_pos.2 hw
  simp [norm2CompMPINoLocal, addNorm2, hw, this]

example : zeroParts (.node (.leaf [[3], [4 * Complex.I]]) (.leaf [[0], [0]])) ≤ 1 := by
  simp [zeroParts, Tree.leaves, sq]
  norm_num

/-! ### C54 -/

/-- C54: elementwise operations act on the concatenation. -/
theorem C54_elementwise {α : Type} (f : α → α → α) (v w : List (List α)) (h : SameLayout v w) :
    (zipComp f v w).flatten = List.zipWith f v.flatten w.flatten ∧ SameLayout (zipComp f v w) v := by
  refine ⟨(zipWith_flatten f v w h).symm, ?_⟩
  unfold SameLayout zipComp at *
  induction v generalizing w with
  | nil => simp
  | cons a v ih =>
    cases w with
    | nil => simp at h
    | cons b w =>
      simp only [List.map_cons, List.cons.injEq] at h
      simp only [List.zipWith_cons_cons, List.map_cons, List.cons.injEq, List.length_zipWith]
      exact ⟨by omega, ih w h.2⟩

/-- `i` is the first position of a largest entry, of value `v`. -/
def IsFirstMax (l : List ℝ) (i : ℕ) (v : ℝ) : Prop :=
  l[i]? = some v ∧ (∀ x ∈ l, x ≤ v) ∧ ∀ j < i, ∀ x, l[j]? = some x → x < v

theorem vecMax_spec (l : List ℝ) (h : l ≠ []) : ∃ i v, vecMax l = some (i, v) ∧ IsFirstMax l i v := by
  induction l with
  | nil => exact absurd rfl h
  | cons a l ih =>
    by_cases hl : l = []
    · subst hl; exact ⟨0, a, rfl, rfl, by simp, by simp⟩
    · obtain ⟨i, v, h1, h2, h3, h4⟩ := ih hl
      simp only [vecMax, h1]
      by_cases hav : a < v
      · rw [if_pos hav]
        refine ⟨i + 1, v, rfl, by simpa using h2, ?_, ?_⟩
        · intro x hx; rcases List.mem_cons.1 hx with rfl | hx
          · exact hav.le
          · exact h3 x hx
        · intro j hj x hx
          cases j with
          | zero => simp at hx; rw [← hx]; exact hav
          | succ j => exact h4 j (by omega) x (by simpa using hx)
      · rw [if_neg hav]
        refine ⟨0, a, rfl, rfl, ?_, by simp⟩
        intro x hx; rcases List.mem_cons.1 hx with rfl | hx
        · exact le_rfl
        · exact le_trans (h3 x hx) (not_lt.1 hav)

/-- Invariant of the loop: `pre` are the entries seen, `last` those of the last component. -/
structure MaxInv (st : MaxState) (pre first : List ℝ) : Prop where
  le : ∀ x ∈ pre, x ≤ st.zp
  mem : st.zp ∈ pre
  idx : ∀ i, st.idx = some i → IsFirstMax pre i st.zp
  unset : st.idx = none ↔ st.zp ∈ first
  zp_first : st.idx = none → ∀ x ∈ first, x ≤ st.zp

theorem maxLoop_spec (cs : List (List ℝ)) (hcs : ∀ c ∈ cs, c ≠ []) (prev : List ℝ) (pre0 first : List ℝ)
    (st : MaxState) (hs : st.s = pre0.length) (hinv : MaxInv st (pre0 ++ prev) first)
    (hsub : ∀ x ∈ first, x ∈ pre0 ++ prev) :
    ∃ l, ((List.zip (prev :: cs) cs).mapM fun p => (vecMax p.2).map fun v => (p.1.length, v)) = some l ∧
      MaxInv (maxLoop st l) (pre0 ++ prev ++ cs.flatten) first := by
  induction cs generalizing prev pre0 st with
  | nil => exact ⟨[], rfl, by simpa [maxLoop] using hinv⟩
  | cons c cs ih =>
    obtain ⟨i, v, h1, h2, h3, h4⟩ := vecMax_spec c (hcs c (by simp))
    let st' : MaxState := if st.zp < v then ⟨st.s + prev.length, v, some (st.s + prev.length + i)⟩
      else ⟨st.s + prev.length, st.zp, st.idx⟩
    have hst' : MaxInv st' ((pre0 ++ prev) ++ c) first := by
      by_cases hlt : st.zp < v
      · have hst : st' = ⟨st.s + prev.length, v, some (st.s + prev.length + i)⟩ := if_pos hlt
        rw [hst]
        have hv : v ∈ c := List.mem_of_getElem? h2
        refine ⟨?_, List.mem_append_right _ hv, ?_, ?_, by intro h; simp at h⟩
        · intro x hx; rcases List.mem_append.1 hx with hx | hx
          · exact (hinv.le x hx).trans hlt.le
          · exact h3 x hx
        · intro k hk
          simp only [Option.some.injEq] at hk
          have hlen : (pre0 ++ prev).length = st.s + prev.length := by simp [hs]
          refine ⟨?_, ?_, ?_⟩
          · rw [← hk, List.getElem?_append_right (by omega), hlen]; simpa using h2
          · intro x hx; rcases List.mem_append.1 hx with hx | hx
            · exact (hinv.le x hx).trans hlt.le
            · exact h3 x hx
          · intro j hj x hx
            by_cases hjl : j < (pre0 ++ prev).length
            · rw [List.getElem?_append_left hjl] at hx
              exact lt_of_le_of_lt (hinv.le x (List.mem_of_getElem? hx)) hlt
            · rw [List.getElem?_append_right (by omega)] at hx
              exact h4 _ (by omega) x hx
        · simp only [reduceCtorEq, false_iff]
          intro hvf
          exact absurd (hinv.le v (hsub v hvf)) (not_le.2 hlt)
      · have hst : st' = ⟨st.s + prev.length, st.zp, st.idx⟩ := if_neg hlt
        rw [hst]
        refine ⟨?_, List.mem_append_left _ hinv.mem, ?_, hinv.unset, hinv.zp_first⟩
        · intro x hx; rcases List.mem_append.1 hx with hx | hx
          · exact hinv.le x hx
          · exact (h3 x hx).trans (not_lt.1 hlt)
        · intro k hk
          obtain ⟨k1, k2, k3⟩ := hinv.idx k hk
          have hkl : k < (pre0 ++ prev).length := by
            by_contra hc; rw [List.getElem?_eq_none (by omega)] at k1; simp at k1
          refine ⟨by rw [List.getElem?_append_left hkl]; exact k1, ?_, ?_⟩
          · intro x hx; rcases List.mem_append.1 hx with hx | hx
            · exact hinv.le x hx
            · exact (h3 x hx).trans (not_lt.1 hlt)
          · intro j hj x hx
            rw [List.getElem?_append_left (by omega)] at hx
            exact k3 j hj x hx
    have hs' : st'.s = (pre0 ++ prev).length := by
      show (if st.zp < v then _ else _ : MaxState).s = _
      split_ifs <;> simp [hs]
    obtain ⟨l, hl1, hl2⟩ := ih (fun d hd => hcs d (List.mem_cons_of_mem _ hd)) c (pre0 ++ prev) st'
      hs' hst' (fun x hx => List.mem_append_left _ (hsub x hx))
    refine ⟨(prev.length, (i, v)) :: l, ?_, ?_⟩
    · rw [List.zip_cons_cons, List.mapM_cons, hl1]
      simp [h1]
    · show MaxInv (maxLoop st' l) _ first
      rw [List.flatten_cons, ← List.append_assoc]; exact hl2

/-- C54, `VecMax`: the value is the largest entry; *if* an index is returned it is the first position
of the largest entry in the concatenation; it is returned exactly when no entry of the first
component is a largest one.  `_partial`: the index should always be returned. -/
theorem C54_max_partial (c : List ℝ) (cs : List (List ℝ)) (h : ∀ d ∈ c :: cs, d ≠ []) :
    ∃ st, maxComp (c :: cs) = some st ∧ st.zp ∈ (c :: cs).flatten ∧
      (∀ x ∈ (c :: cs).flatten, x ≤ st.zp) ∧
      (∀ i, st.idx = some i → IsFirstMax (c :: cs).flatten i st.zp) ∧
      (st.idx = none ↔ st.zp ∈ c) := by
  obtain ⟨i, v, h1, h2, h3, h4⟩ := vecMax_spec c (h c (by simp))
  have hv : v ∈ c := List.mem_of_getElem? h2
  have h0 : MaxInv ⟨0, v, none⟩ ([] ++ c) c :=
    ⟨by simpa using h3, by simpa using hv, by simp, by simpa using hv, fun _ => h3⟩
  obtain ⟨l, hl1, hl2⟩ := maxLoop_spec cs (fun d hd => h d (List.mem_cons_of_mem _ hd)) c [] c
    ⟨0, v, none⟩ rfl h0 (by simp)
  refine ⟨maxLoop ⟨0, v, none⟩ l, ?_, ?_, ?_, ?_, ?_⟩
  · simp only [maxComp, h1, Option.bind_some, hl1, Option.map_some]
  · simpa using hl2.mem
  · simpa using hl2.le
  · simpa using hl2.idx
  · exact hl2.unset

/-- C54 is false of the code: `VecMax` does not return the index if the largest entry is in the first
component. -/
theorem C54_max_false : ∃ st, maxComp [[2, 5], [3]] = some st ∧ st.idx = none ∧
    IsFirstMax [2, 5, 3] 1 st.zp := by
  refine ⟨⟨2, 5, none⟩, ?_, rfl, by norm_num [IsFirstMax]⟩
  norm_num [maxComp, vecMax, maxLoop]

example : ∃ st, maxComp [[2, 5], [7, 3]] = some st ∧ st.idx = some 2 := by
  refine ⟨⟨2, 7, some 2⟩, ?_, rfl⟩
  norm_num [maxComp, vecMax, maxLoop]

end Verif.VecComp
