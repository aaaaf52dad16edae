import Verif.Contour.Lemmas

/-!
C22 (points are distributed exactly once), C48 (quadrature sums do not depend on the partitioning),
C49 (region changes), C50 (size parameters), C51 (block Hankel matrix and growing of the bases).
-/
set_option linter.all false

namespace Verif.Contour

open Finset

/-! ### C22 -/

/-- C22: every integration point belongs to exactly one partition, at exactly one local position;
nothing else is stored; and partition sizes differ by at most one. -/
theorem C22_partition (n npart : ℕ) (hp : 0 < npart) :
    (∀ p, p < n → ∃! x : ℕ × ℕ, x.1 < npart ∧ x.2 < npoints n npart x.1 ∧
      pid npart x.1 x.2 = p) ∧
    (∀ c i, c < npart → i < npoints n npart c → pid npart c i < n) ∧
    (∀ c c', npoints n npart c ≤ npoints n npart c' + 1) := by
  refine ⟨?_, ?_, ?_⟩
  · intro p h
    have hc := Nat.mod_lt p hp
    refine ⟨(p % npart, p / npart), ⟨hc, (npoints_spec n npart _ _ hp hc).2 ?_, ?_⟩, ?_⟩
    · show p / npart * npart + p % npart < n
      rw [Nat.mul_comm, Nat.div_add_mod]; exact h
    · simp only [pid]; rw [Nat.mul_comm, Nat.div_add_mod]
    · rintro ⟨c, i⟩ ⟨h1, h2, h3⟩
      simp only [pid] at h1 h2 h3
      subst h3
      have h4 : (i * npart + c) % npart = c := by
        rw [Nat.mul_comm, Nat.mul_add_mod, Nat.mod_eq_of_lt h1]
      have h5 : (i * npart + c) / npart = i := by
        rw [Nat.mul_comm, Nat.mul_add_div hp, Nat.div_eq_of_lt h1, Nat.add_zero]
      rw [h4, h5]
  · intro c i hc hi
    exact (npoints_spec n npart c i hp hc).1 hi
  · intro c c'
    unfold npoints
    split_ifs <;> omega

example : (List.range 3).map (fun c => (List.range (npoints 8 3 c)).map (pid 3 c)) =
    [[0, 3, 6], [1, 4, 7], [2, 5]] := by decide

/-! ### C48: quadrature sums -/

/-- The vector of moment `k` and column `j`: the sum over all points of `w_p z_p^k Y_p,j`, where
`Yg p j` is column `j` of the solution at point `p`; with conjugates, the contribution of the
conjugate points is the conjugate. -/
noncomputable def momentVec (n : ℕ) (Yg : ℕ → ℕ → ℕ → ℂ) (w zn : ℕ → ℂ) (useconj : Bool) (k j t : ℕ) :
    ℂ :=
  let f := fun p => w p * zn p ^ k * Yg p j t
  if useconj then ∑ p ∈ range n, (f p + starRingEnd ℂ (f p)) else ∑ p ∈ range n, f p

/-- The solutions held by partition `c` are those of its points. -/
def Holds (n npart Lmax L : ℕ) (Y Yg : ℕ → ℕ → ℕ → ℂ) : Prop :=
  ∀ c i j, c < npart → i < npoints n npart c → j < L →
    Y c (i * Lmax + j) = Yg (pid npart c i) j

theorem add_conj' (z : ℂ) : ((2 * z.re : ℝ) : ℂ) = z + starRingEnd ℂ z := by
  rw [Complex.add_conj]

theorem realify_sum (uc : Bool) (n npart : ℕ) (hp : 0 < npart) (f : ℕ → ℂ) :
    ∑ c ∈ range npart, realify uc (fun _ => ∑ i ∈ range (npoints n npart c), f (pid npart c i)) 0 =
      if uc then ∑ p ∈ range n, (f p + starRingEnd ℂ (f p)) else ∑ p ∈ range n, f p := by
  cases uc
  · simp only [realify, Bool.false_eq_true, if_false]
    exact sum_points n npart hp f
  · simp only [realify, if_true]
    rw [← sum_points n npart hp]
    refine Finset.sum_congr rfl fun c _ => ?_
    rw [add_conj', map_sum, ← Finset.sum_add_distrib]

theorem realify_at (uc : Bool) (v : ℕ → ℂ) (t : ℕ) : realify uc v t = realify uc (fun _ => v t) 0 := by
  unfold realify; cases uc <;> rfl

theorem sumQuadrature_eq (m n npart : ℕ) (hp : 0 < npart) (ls : List ℕ) (hls : ls.sum = m)
    (Y Yg : ℕ → ℕ → ℕ → ℂ) (w zn : ℕ → ℂ) (L Lmax : ℕ) (hY : Holds n npart Lmax L Y Yg)
    (uc : Bool) (k j : ℕ) (hj : j < L) (S : ℕ → ℂ) (t : ℕ) (ht : t < m) :
    sumQuadrature m n npart ls Y w zn Lmax uc k j S t =
      (if 1 < npart then S t else 0) + momentVec n Yg w zn uc k j t := by
  have hv : ∀ c, c < npart →
      realify uc (sumLocal (Y c) w zn Lmax (npoints n npart c) npart c k j) t =
      realify uc (fun _ => ∑ i ∈ range (npoints n npart c),
        (fun p => w p * zn p ^ k * Yg p j t) (pid npart c i)) 0 := by
    intro c hc
    rw [realify_at]
    congr 1
    funext _
    rw [sumLocal_eq]
    refine Finset.sum_congr rfl fun i hi => ?_
    rw [hY c i j hc (mem_range.1 hi) hj]
    ring
  unfold sumQuadrature momentVec
  dsimp only
  by_cases h1 : 1 < npart
  · rw [if_pos h1, if_pos h1, scatter_reverse m npart ls hls _ _ _ ht]
    congr 1
    rw [← realify_sum uc n npart hp]
    exact Finset.sum_congr rfl fun c hc => hv c (mem_range.1 hc)
  · rw [if_neg h1, if_neg h1, zero_add]
    have h2 : npart = 1 := by omega
    subst h2
    rw [hv 0 hp, ← realify_sum uc n 1 hp]
    simp

/-- C48, sums (partial: with several partitions only if the columns of `S` were zero before, see
`C48_sum_false`): `BVSumQuadrature` computes the moment vectors, for every number of partitions and
every distribution of the rows. -/
theorem C48_sum_partial (m n npart : ℕ) (hp : 0 < npart) (ls : List ℕ) (hls : ls.sum = m)
    (Y Yg : ℕ → ℕ → ℕ → ℂ) (w zn : ℕ → ℂ) (L Lmax : ℕ) (hY : Holds n npart Lmax L Y Yg)
    (uc : Bool) (k j : ℕ) (hj : j < L) (S : ℕ → ℂ) (t : ℕ) (ht : t < m)
    (hS : npart = 1 ∨ ∀ t, S t = 0) :
    sumQuadrature m n npart ls Y w zn Lmax uc k j S t = momentVec n Yg w zn uc k j t := by
  rw [sumQuadrature_eq m n npart hp ls hls Y Yg w zn L Lmax hY uc k j hj S t ht]
  rcases hS with h | h
  · subst h; simp
  · rw [h t]; split_ifs <;> simp

/-- The exact effect: with several partitions the previous contents of the column are added. -/
theorem C48_sum_stale (m n npart : ℕ) (hp : 1 < npart) (ls : List ℕ) (hls : ls.sum = m)
    (Y Yg : ℕ → ℕ → ℕ → ℂ) (w zn : ℕ → ℂ) (L Lmax : ℕ) (hY : Holds n npart Lmax L Y Yg)
    (uc : Bool) (k j : ℕ) (hj : j < L) (S : ℕ → ℂ) (t : ℕ) (ht : t < m) :
    sumQuadrature m n npart ls Y w zn Lmax uc k j S t = S t + momentVec n Yg w zn uc k j t := by
  rw [sumQuadrature_eq m n npart (by omega) ls hls Y Yg w zn L Lmax hY uc k j hj S t ht, if_pos hp]

/-- C48 fails with several partitions: two consecutive calls with the same data give different
results (as happens from the second outer iteration on). -/
theorem C48_sum_false : ∃ (m n npart : ℕ) (ls : List ℕ) (Y Yg : ℕ → ℕ → ℕ → ℂ) (w zn : ℕ → ℂ),
    ls.sum = m ∧ Holds n npart 1 1 Y Yg ∧
    sumQuadrature m n npart ls Y w zn 1 false 0 0
      (sumQuadrature m n npart ls Y w zn 1 false 0 0 fun _ => 0) 0 ≠
    momentVec n Yg w zn false 0 0 0 := by
  have hY : Holds 2 2 1 1 (fun _ _ _ => 1) (fun _ _ _ => 1) := by
    intro c i j _ _ _; rfl
  refine ⟨1, 2, 2, [1], fun _ _ _ => 1, fun _ _ _ => 1, fun _ => 1, fun _ => 1, rfl, hY, ?_⟩
  rw [C48_sum_stale 1 2 2 (by norm_num) [1] rfl _ _ _ _ 1 1 hY false 0 0 (by norm_num) _ 0 (by norm_num),
    C48_sum_stale 1 2 2 (by norm_num) [1] rfl _ _ _ _ 1 1 hY false 0 0 (by norm_num) _ 0 (by norm_num)]
  simp [momentVec]

/-- C48, inner products: `BVDotQuadrature` computes the moments `sum_p w_p z_p^k (V^H Y_p)`, for
every number of partitions and every number of processes in each of them. -/
theorem C48_dot (n npart : ℕ) (hp : 0 < npart) (size : ℕ → ℕ) (hs : ∀ c, 0 < size c)
    (H Hg : ℕ → ℕ → ℕ → ℂ) (w zn : ℕ → ℂ) (L Lmax : ℕ)
    (hH : ∀ c i j s, c < npart → i < npoints n npart c → j < L → s < L →
      H c s (i * Lmax + j) = Hg (pid npart c i) s j)
    (uc : Bool) (k j s : ℕ) (hj : j < L) (hsL : s < L) :
    dotQuadrature n npart size H w zn Lmax uc k j s =
      momentVec n (fun p j s => Hg p s j) w zn uc k j s := by
  unfold dotQuadrature momentVec
  rw [sum_flatMap, list_range_sum]
  dsimp only
  rw [← realify_sum uc n npart hp]
  refine Finset.sum_congr rfl fun c hc => ?_
  have h0 : (size c : ℂ) ≠ 0 := by
    have := hs c; exact_mod_cast this.ne'
  rw [List.map_const', List.length_range, List.sum_replicate, nsmul_eq_mul, mul_div_cancel₀ _ h0,
    dotLocal_eq]
  have h1 : ∀ i ∈ range (npoints n npart c),
      zn (pid npart c i) ^ k * w (pid npart c i) * H c s (i * Lmax + j) =
      w (pid npart c i) * zn (pid npart c i) ^ k * Hg (pid npart c i) s j := by
    intro i hi
    rw [hH c i j s (mem_range.1 hc) (mem_range.1 hi) hj hsL]; ring
  cases uc
  · simp only [realify, Bool.false_eq_true, if_false]
    exact Finset.sum_congr rfl h1
  · simp only [realify, if_true]
    rw [Complex.re_sum, Finset.mul_sum, Complex.ofReal_sum]
    exact Finset.sum_congr rfl fun i hi => by rw [h1 i hi]

/-- C48, trace (partial: one partition): `BVTraceQuadrature` returns the modulus of the trace of
`V^H sum_p w_p Y_p`, divided by the number of columns. -/
theorem C48_trace_partial (m n : ℕ) (ls : List ℕ) (Y Yg : ℕ → ℕ → ℕ → ℂ) (V : ℕ → ℕ → ℂ)
    (w : ℕ → ℂ) (L Lmax : ℕ) (hY : Holds n 1 Lmax L Y Yg) (uc : Bool) :
    traceQuadrature m n 1 ls Y V w L Lmax uc =
      ‖∑ j ∈ range L, (let d := ∑ t ∈ range m, starRingEnd ℂ (V j t) * ∑ p ∈ range n, w p * Yg p j t
        if uc then d + starRingEnd ℂ d else d)‖ / L := by
  have key : ∀ l, l ≤ L → (traceLoop m n 1 ls Y V w Lmax uc l).2 = starRingEnd ℂ
      (∑ j ∈ range l, (let d := ∑ t ∈ range m, starRingEnd ℂ (V j t) * ∑ p ∈ range n, w p * Yg p j t
        if uc then d + starRingEnd ℂ d else d)) := by
    intro l hl
    induction l with
    | zero => simp [traceLoop]
    | succ l ih =>
      have hd : vecDot m (V l) (sumLocal (Y 0) w (fun _ => 0) Lmax (npoints n 1 0) 1 0 0 l) =
          starRingEnd ℂ (∑ t ∈ range m, starRingEnd ℂ (V l t) * ∑ p ∈ range n, w p * Yg p l t) := by
        unfold vecDot
        rw [map_sum]
        refine Finset.sum_congr rfl fun t _ => ?_
        rw [map_mul, Complex.conj_conj, sumLocal_eq]
        congr 2
        have := sum_points n 1 (by norm_num) (fun p => w p * Yg p l t)
        rw [← this]
        rw [Finset.sum_range_one]
        refine Finset.sum_congr rfl fun i hi => ?_
        rw [hY 0 i l (by norm_num) (mem_range.1 hi) (by omega)]
        simp
      rw [traceLoop]
      dsimp only
      rw [Finset.sum_range_succ, map_add, ih (by omega)]
      simp only [lt_irrefl, if_false]
      rw [hd]
      cases uc
      · simp
      · simp only [if_true]
        rw [add_conj', map_add]
  unfold traceQuadrature
  rw [key L le_rfl, RCLike.norm_conj]

/-- C48 fails for the trace with two partitions: the vector that collects the contributions is not
cleared between columns.  Here both columns contribute 1 to the trace, so the estimate should be 1
(as computed with one partition), but 3/2 is returned. -/
theorem C48_trace_false : ∃ (Yg : ℕ → ℕ → ℕ → ℂ) (Y1 Y2 : ℕ → ℕ → ℕ → ℂ) (V : ℕ → ℕ → ℂ) (w : ℕ → ℂ),
    Holds 2 1 2 2 Y1 Yg ∧ Holds 2 2 2 2 Y2 Yg ∧
    traceQuadrature 1 2 1 [1] Y1 V w 2 2 false = 1 ∧
    traceQuadrature 1 2 2 [1] Y2 V w 2 2 false = 3 / 2 := by
  have h2 : Holds 2 2 2 2 (fun _ _ _ => 1 / 2) (fun _ _ _ => 1 / 2) := fun c i j _ _ _ => rfl
  have h1 : Holds 2 1 2 2 (fun _ _ _ => 1 / 2) (fun _ _ _ => 1 / 2) := fun c i j _ _ _ => rfl
  refine ⟨fun _ _ _ => 1 / 2, fun _ _ _ => 1 / 2, fun _ _ _ => 1 / 2, fun _ _ => 1, fun _ => 1, h1, h2, ?_, ?_⟩
  · rw [C48_trace_partial 1 2 [1] _ _ _ _ 2 2 h1 false]
    simp [Finset.sum_range_succ]
  · have hy : ∀ (j : ℕ) (s : ℕ → ℂ), scatterReverseAdd (scatterPairs 1 2 [1])
        (dup 1 fun c => sumLocal (fun _ _ => (1 / 2 : ℂ)) (fun _ => 1) (fun _ => 0) 2
          (npoints 2 2 c) 2 c 0 j) s 0 = s 0 + 1 := by
      intro j s
      rw [scatter_reverse 1 2 [1] rfl _ _ 0 (by norm_num)]
      congr 1
      simp only [sumLocal_eq, Finset.sum_range_succ, Finset.range_zero, Finset.sum_empty]
      norm_num [npoints]
    have e : (traceLoop 1 2 2 [1] (fun _ _ _ => (1 / 2 : ℂ)) (fun _ _ => 1) (fun _ => 1) 2 false 2).2
        = 3 := by
      simp only [traceLoop, one_lt_two, if_true, Bool.false_eq_true, if_false, vecDot,
        Finset.sum_range_one, hy]
      norm_num [map_ofNat]
    unfold traceQuadrature
    rw [e]; norm_num

/-- The redundant copies made by `BVScatter` are exact: partition `c` receives the whole vector. -/
theorem C48_scatter (m npart : ℕ) (ls : List ℕ) (hls : ls.sum = m) (v x : ℕ → ℂ) (c i : ℕ)
    (hc : c < npart) (hi : i < m) :
    scatterForward (scatterPairs m npart ls) v x (c * m + i) = v i := by
  rw [scatterForward_eq]
  have hle := ranges_le ls 0
  refine foldl_update_const _ _ _ _ ?_ ?_
  · intro p hp h
    simp only [List.mem_map, scatterPairs, List.mem_flatMap, List.mem_range, List.mem_range'_1] at hp
    obtain ⟨q, ⟨r, hr, k, hk, a, ⟨ha1, ha2⟩, rfl⟩, rfl⟩ := hp
    have := hle r hr
    have ham : a < m := by omega
    simp only at h ⊢
    have hm : 0 < m := by omega
    have h3 : a = i := by
      have := congrArg (· % m) h
      simpa [Nat.add_mul_mod_self_left, Nat.mod_eq_of_lt ham, Nat.mod_eq_of_lt hi,
        Nat.mul_add_mod_of_lt, Nat.mul_comm c m, Nat.mul_add_mod] using this
    rw [h3]
  · obtain ⟨r, hr, h1, h2⟩ := mem_ranges ls 0 i (Nat.zero_le _) (by omega)
    refine ⟨(i + m * c, v i), ?_, by simp [Nat.mul_comm, Nat.add_comm]⟩
    simp only [List.mem_map, scatterPairs, List.mem_flatMap, List.mem_range, List.mem_range'_1]
    exact ⟨(i, i + m * c), ⟨r, hr, c, hc, i, ⟨h1, by omega⟩, rfl⟩, rfl⟩

/-! ### C51: block Hankel matrix and growing of the bases -/

/-- C51: `CISS_BlockHankel` builds the block Hankel matrix: block `(a,b)` is the moment of index
`a+b+s` (all arrays by columns, moments of order `L`). -/
theorem C51_hankel (Mu H0 : ℕ → ℂ) (s L M a b i j : ℕ) (ha : a < M) (hb : b < M) (hi : i < L)
    (hj : j < L) :
    runWrites H0 (hankelWrites Mu s L M) ((a * L + i) + (b * L + j) * (L * M)) =
      Mu ((i + j * L) + (a + b + s) * (L * L)) := by
  have hlt : ∀ a i, a < M → i < L → a * L + i < L * M := by
    intro a i ha hi
    have : (a + 1) * L ≤ M * L := Nat.mul_le_mul_right L ha
    nlinarith
  refine foldl_update_const _ _ _ _ ?_ ?_
  · intro p hp h
    simp only [hankelWrites, List.mem_flatMap, List.mem_range, List.mem_map] at hp
    obtain ⟨k, hk, j', hj', i', hi', rfl⟩ := hp
    simp only at h ⊢
    have hA := hlt a i ha hi
    have hA' := hlt j' i' hj' hi'
    have e : (j' * L + i') + k * (L * M) = (a * L + i) + (b * L + j) * (L * M) := by
      rw [← h]; ring
    have h1 : j' * L + i' = a * L + i := by
      have := congrArg (· % (L * M)) e
      simpa [Nat.add_mul_mod_self_right, Nat.mod_eq_of_lt hA, Nat.mod_eq_of_lt hA'] using this
    have hLM : 0 < L * M := by omega
    have h2 : k = b * L + j := by
      have : k * (L * M) = (b * L + j) * (L * M) := by omega
      exact Nat.eq_of_mul_eq_mul_right hLM this
    have h3 : i' = i := by
      have := congrArg (· % L) h1
      simpa [Nat.mul_comm _ L, Nat.mul_add_mod, Nat.mod_eq_of_lt hi, Nat.mod_eq_of_lt hi'] using this
    have h4 : j' = a := Nat.eq_of_mul_eq_mul_right (by omega : 0 < L) (by omega)
    subst h2 h3 h4
    congr 1; ring
  · refine ⟨(a * L + i + (b * L + j) * L * M, Mu (i + (b * L + j) * L + (a + s) * L * L)), ?_, ?_⟩
    · simp only [hankelWrites, List.mem_flatMap, List.mem_range, List.mem_map]
      exact ⟨b * L + j, hlt b j hb hj, a, ha, i, hi, rfl⟩
    · simp only; ring

/-- The inner loop of `BVCISSResizeBases`, processing columns `Lold-1 .. 0` of one point. -/
theorem resize_inner {α : Type} (Lold Lnew i : ℕ) (hL : Lold ≤ Lnew) (n : ℕ) (hn : n ≤ Lold)
    (Y : ℕ → α) (t : ℕ) :
    (List.range n).reverse.foldl (fun Y j => copyColumn Y (i * Lold + j) (i * Lnew + j)) Y t =
      if i * Lnew ≤ t ∧ t < i * Lnew + n then Y (i * Lold + (t - i * Lnew)) else Y t := by
  induction n generalizing Y with
  | zero => simp
  | succ n ih =>
    have hle : i * Lold ≤ i * Lnew := Nat.mul_le_mul_left i hL
    rw [List.range_succ, List.reverse_append, List.reverse_singleton, List.singleton_append,
      List.foldl_cons, ih (by omega)]
    by_cases h1 : i * Lnew ≤ t ∧ t < i * Lnew + n
    · rw [if_pos h1, if_pos (by omega)]
      unfold copyColumn
      rw [Function.update_of_ne (by omega)]
    · rw [if_neg h1]
      unfold copyColumn
      by_cases h2 : t = i * Lnew + n
      · subst h2; simp
      · rw [Function.update_of_ne h2, if_neg (by omega)]

/-- C51: growing the block size keeps the solutions: afterwards column `j` of point `i` is where the
new numbering expects it (nothing is overwritten before it has been copied). -/
theorem C51_resize {α : Type} (Lold Lnew npts : ℕ) (hL : Lold ≤ Lnew) (Y : ℕ → α) (i j : ℕ)
    (hi : i < npts) (hj : j < Lold) :
    resizeY Lold Lnew npts Y (i * Lnew + j) = Y (i * Lold + j) := by
  have key : ∀ n (Y : ℕ → α) t, (List.range n).reverse.foldl (fun Y i =>
      (List.range Lold).reverse.foldl (fun Y j => copyColumn Y (i * Lold + j) (i * Lnew + j)) Y) Y t =
      if t / Lnew < n ∧ t % Lnew < Lold then Y (t / Lnew * Lold + t % Lnew) else Y t := by
    intro n
    have hLn : 0 < Lnew := by omega
    induction n with
    | zero => intro Y t; simp
    | succ n ih =>
      intro Y t
      rw [List.range_succ, List.reverse_append, List.reverse_singleton, List.singleton_append,
        List.foldl_cons, ih]
      have hdm := Nat.div_add_mod t Lnew
      have hm := Nat.mod_lt t hLn
      by_cases h1 : t / Lnew < n ∧ t % Lnew < Lold
      · rw [if_pos h1, if_pos (by omega), resize_inner _ _ _ hL _ le_rfl, if_neg]
        rintro ⟨h2, _⟩
        have h3 : t / Lnew * Lold ≤ t / Lnew * Lnew := Nat.mul_le_mul_left _ hL
        have h4 : (t / Lnew + 1) * Lnew ≤ n * Lnew := Nat.mul_le_mul_right _ h1.1
        have h5 : (t / Lnew + 1) * Lnew = t / Lnew * Lnew + Lnew := by ring
        omega
      · rw [if_neg h1, resize_inner _ _ _ hL _ le_rfl]
        by_cases h2 : n * Lnew ≤ t ∧ t < n * Lnew + Lold
        · have h3 : t / Lnew = n := by
            apply Nat.div_eq_of_lt_le
            · omega
            · have : (n + 1) * Lnew = n * Lnew + Lnew := by ring
              omega
          have h4 : t % Lnew = t - n * Lnew := by
            rw [h3, Nat.mul_comm Lnew n] at hdm; omega
          rw [if_pos h2, if_pos (by omega), h3, h4]
        · rw [if_neg h2, if_neg]
          rintro ⟨h3, h4⟩
          have h5 : t / Lnew = n := by omega
          rw [h5, Nat.mul_comm Lnew n] at hdm
          omega
  unfold resizeY
  rw [key]
  have h1 : (i * Lnew + j) / Lnew = i := by
    rw [Nat.mul_comm, Nat.mul_add_div (by omega), Nat.div_eq_of_lt (by omega), Nat.add_zero]
  have h2 : (i * Lnew + j) % Lnew = j := by
    rw [Nat.mul_comm, Nat.mul_add_mod, Nat.mod_eq_of_lt (by omega)]
  rw [h1, h2, if_pos ⟨hi, hj⟩]

example : (List.range 6).map (resizeY 2 3 2 (fun t => t)) = [0, 1, 2, 2, 3, 5] := by decide

/-! ### C50: size parameters -/

/-- What a caller may rely on after set-up of the sizes. -/
structure Sizes.Valid (size : ℤ) (c : Sizes) : Prop where
  even : c.N % 2 = 0
  pos : 0 < c.N
  moments : 0 < c.M
  moments_le : c.M ≤ c.N
  block : 0 < c.L
  maxblock : 0 < c.Lmax
  parts : 1 ≤ c.npart ∧ c.npart ≤ size

/-- C50 (partial: the number of points must not be set to 2): every accepted call of
`EPSCISSSetSizes` leaves valid sizes. -/
theorem C50_sizes_partial (size : ℤ) (hsz : 1 ≤ size) (c : Sizes) (hc : c.Valid size)
    (hN : 4 ≤ c.N) (ip bs ms np bm : Arg) (rm : Bool) (hip : ∀ v, ip = .val v → v ≠ 2)
    (c' : Sizes) (h : setSizes size c ip bs ms np bm rm = some c') :
    c'.Valid size ∧ 4 ≤ c'.N := by
  unfold setSizes at h
  obtain ⟨c1, h1, h⟩ := Option.bind_eq_some_iff.1 h
  obtain ⟨c2, h2, h⟩ := Option.bind_eq_some_iff.1 h
  obtain ⟨c3, h3, h⟩ := Option.bind_eq_some_iff.1 h
  obtain ⟨c4, h4, h⟩ := Option.bind_eq_some_iff.1 h
  obtain ⟨c5, h5, h⟩ := Option.bind_eq_some_iff.1 h
  have v1 : c1.Valid size ∧ 4 ≤ c1.N := by
    cases ip with
    | current => cases Option.some.inj h1; exact ⟨hc, hN⟩
    | determine =>
      have := Option.some.inj h1
      split_ifs at this with hh
      · subst this
        exact ⟨⟨by norm_num, by norm_num, by norm_num, by norm_num, hc.block, hc.maxblock, hc.parts⟩,
          by norm_num⟩
      · subst this; exact ⟨hc, hN⟩
    | val v =>
      have hv := hip v rfl
      simp only at h1
      split_ifs at h1 with a1 a2 a3
      · have := Option.some.inj h1; subst this
        have h4 : 4 ≤ v := by omega
        refine ⟨⟨a2, a1, ?_, ?_, hc.block, hc.maxblock, hc.parts⟩, h4⟩
        · simp only; omega
        · simp only; omega
      · have := Option.some.inj h1; subst this; exact ⟨hc, hN⟩
  have v2 : c2.Valid size ∧ 4 ≤ c2.N := by
    obtain ⟨v, hv⟩ := v1
    cases bs with
    | current => cases Option.some.inj h2; exact ⟨v, hv⟩
    | determine =>
      cases Option.some.inj h2
      exact ⟨⟨v.even, v.pos, v.moments, v.moments_le, by norm_num, v.maxblock, v.parts⟩, hv⟩
    | val x =>
      simp only at h2
      split_ifs at h2 with a1
      cases Option.some.inj h2
      exact ⟨⟨v.even, v.pos, v.moments, v.moments_le, a1, v.maxblock, v.parts⟩, hv⟩
  have v3 : c3.Valid size ∧ 4 ≤ c3.N := by
    obtain ⟨v, hv⟩ := v2
    cases ms with
    | current => cases Option.some.inj h3; exact ⟨v, hv⟩
    | determine =>
      cases Option.some.inj h3
      refine ⟨⟨v.even, v.pos, ?_, ?_, v.block, v.maxblock, v.parts⟩, hv⟩
      · simp only; omega
      · simp only; omega
    | val x =>
      simp only at h3
      split_ifs at h3 with a1 a2
      cases Option.some.inj h3
      exact ⟨⟨v.even, v.pos, a1, a2, v.block, v.maxblock, v.parts⟩, hv⟩
  have v4 : c4.Valid size ∧ 4 ≤ c4.N := by
    obtain ⟨v, hv⟩ := v3
    cases np with
    | current => cases Option.some.inj h4; exact ⟨v, hv⟩
    | determine =>
      cases Option.some.inj h4
      exact ⟨⟨v.even, v.pos, v.moments, v.moments_le, v.block, v.maxblock, le_rfl, hsz⟩, hv⟩
    | val x =>
      simp only at h4
      split_ifs at h4 with a1
      cases Option.some.inj h4
      exact ⟨⟨v.even, v.pos, v.moments, v.moments_le, v.block, v.maxblock, by simp only; omega,
        by simp only; omega⟩, hv⟩
  have v5 : c5.Valid size ∧ 4 ≤ c5.N := by
    obtain ⟨v, hv⟩ := v4
    cases bm with
    | current => cases Option.some.inj h5; exact ⟨v, hv⟩
    | determine =>
      cases Option.some.inj h5
      exact ⟨⟨v.even, v.pos, v.moments, v.moments_le, v.block, by norm_num, v.parts⟩, hv⟩
    | val x =>
      simp only at h5
      split_ifs at h5 with a1
      cases Option.some.inj h5
      exact ⟨⟨v.even, v.pos, v.moments, v.moments_le, v.block, lt_max_of_lt_left a1, v.parts⟩, hv⟩
  cases Option.some.inj h
  obtain ⟨v, hv⟩ := v5
  exact ⟨⟨v.even, v.pos, v.moments, v.moments_le, v.block, v.maxblock, v.parts⟩, hv⟩

/-- C50 fails for two integration points: the accepted call `EPSCISSSetSizes(eps,2,...)` with all
other arguments left at their current or default values leaves zero moments, by which set-up
divides (ciss.c:231, 236). -/
theorem C50_sizes_false : ∃ c', Sizes.init.Valid 1 ∧
    setSizes 1 Sizes.init (.val 2) .current .current .current .current false = some c' ∧
    setSizes 1 Sizes.init (.val 2) .determine .determine .determine .determine false = some c' ∧
    c'.M = 0 := by
  refine ⟨⟨2, 16, 0, 1, 64, false⟩, ?_, by decide, by decide, rfl⟩
  constructor <;> decide

example : ∃ c', Sizes.init.Valid 4 ∧
    setSizes 4 Sizes.init (.val 16) (.val 8) .determine (.val 2) (.val 4) true = some c' ∧
    c' = ⟨16, 8, 4, 2, 8, true⟩ := by
  refine ⟨_, ?_, by decide, rfl⟩
  constructor <;> decide

/-! ### C49: changes of region -/

/-- C49 (partial: as long as the answer of `RGCanUseConjugates` does not change): after every set-up
the contour has the right number of points for the current region. -/
theorem C49_region_partial (N : ℕ) (rgs : List Region) (rg : Region)
    (hsame : ∀ r ∈ rgs, r.canConj = rg.canConj) :
    (setUp N (rgs.foldl (setUp N) Ctx.init) rg).useconj = rg.canConj ∧
    (setUp N (rgs.foldl (setUp N) Ctx.init) rg).contour =
      some (if rg.canConj then N / 2 else N) := by
  have step : ∀ (c : Ctx) (r : Region), r.canConj = rg.canConj →
      (c.contour = none ∨ (c.useconj = rg.canConj ∧
        c.contour = some (if rg.canConj then N / 2 else N))) →
      (setUp N c r).useconj = rg.canConj ∧
        (setUp N c r).contour = some (if rg.canConj then N / 2 else N) := by
    intro c r hr h
    unfold setUp
    by_cases h1 : c.rgid ≠ 0 ∧ (r.id ≠ c.rgid ∨ r.state ≠ c.rgstate)
    · rw [if_pos h1]; simp [hr]
    · rw [if_neg h1]
      rcases h with h | ⟨h2, h3⟩
      · simp [h, hr]
      · simp [h3, h2]
  have inv : ∀ (c : Ctx) (l : List Region), (∀ r ∈ l, r.canConj = rg.canConj) →
      (c.contour = none ∨ (c.useconj = rg.canConj ∧
        c.contour = some (if rg.canConj then N / 2 else N))) →
      ((l.foldl (setUp N) c).contour = none ∨ ((l.foldl (setUp N) c).useconj = rg.canConj ∧
        (l.foldl (setUp N) c).contour = some (if rg.canConj then N / 2 else N))) := by
    intro c l
    induction l generalizing c with
    | nil => intro _ h; exact h
    | cons r l ih =>
      intro h1 h2
      exact ih _ (fun x hx => h1 x (List.mem_cons_of_mem _ hx))
        (Or.inr (step c r (h1 r (by simp)) h2))
  exact step _ rg rfl (inv _ rgs hsame (Or.inl rfl))

/-- The test for a changed region never succeeds: the identity of the region is recorded only
where the test succeeds. -/
theorem C49_never_detected (N : ℕ) (rgs : List Region) : (rgs.foldl (setUp N) Ctx.init).rgid = 0 := by
  have : ∀ (l : List Region) (c : Ctx), c.rgid = 0 → (l.foldl (setUp N) c).rgid = 0 := by
    intro l
    induction l with
    | nil => intro c h; exact h
    | cons r l ih =>
      intro c h
      refine ih _ ?_
      unfold setUp
      rw [if_neg (by simp [h])]
      cases hc : c.contour <;> simp [hc, h]
  exact this rgs _ rfl

/-- C49 fails: after changing from a region symmetric with respect to the real axis to one that is
not, set-up still halves the number of points and uses their conjugates. -/
theorem C49_region_false : ∃ (N : ℕ) (rg1 rg2 : Region), rg1.id ≠ rg2.id ∧ rg1.canConj = true ∧
    rg2.canConj = false ∧ (setUp N (setUp N Ctx.init rg1) rg2).useconj = true ∧
    (setUp N (setUp N Ctx.init rg1) rg2).contour = some (N / 2) := by
  refine ⟨32, ⟨1, 1, true⟩, ⟨2, 1, false⟩, by decide, rfl, rfl, ?_, ?_⟩ <;> rfl

/-! ### Rank decision -/

/-- The rank reported is the number of singular values above the tolerance, relative to the largest
one if that exceeds 1. -/
theorem rank_spec (delta : ℝ) (sigma : ℕ → ℝ) (ml : ℕ) :
    rankCount delta sigma ml =
      ((range ml).filter fun i => delta * max (sigma 0) 1 < sigma i).card := by
  unfold rankCount
  induction ml with
  | zero => simp
  | succ n ih =>
    rw [List.range_succ, List.foldl_append, ih, Finset.range_add_one, Finset.filter_insert]
    have hpos : (0 : ℝ) < max (sigma 0) 1 := lt_max_of_lt_right one_pos
    simp only [List.foldl_cons, List.foldl_nil, lt_div_iff₀ hpos]
    split_ifs with h
    · rw [Finset.card_insert_of_notMem (by simp)]
    · rfl

end Verif.Contour
