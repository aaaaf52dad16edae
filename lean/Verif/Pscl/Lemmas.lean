import Verif.Pscl.Spec
/-!
Helper lemmas for scaling in polynomial eigenproblems.
-/
set_option linter.all false
namespace Verif.Pscl
noncomputable section
open Classical

section solve
variable {ι K : Type} [Field K]

theorem mulDr_smul (D : Option (ι → K)) (c : K) (v : ι → K) : mulDr D (c • v) = c • mulDr D v := by
  cases D with
  | none => rfl
  | some d => funext i; simp only [mulDr, Pi.smul_apply, smul_eq_mul]; ring

theorem mul_divDr (D : Option (ι → K)) (h : ∀ d, D = some d → ∀ i, d i ≠ 0) (v : ι → K) : mulDr D (divDr D v) = v := by
  cases D with
  | none => rfl
  | some d => funext i; simp only [mulDr, divDr]; exact div_mul_cancel₀ _ (h d rfl i)

theorem div_mulDr (D : Option (ι → K)) (h : ∀ d, D = some d → ∀ i, d i ≠ 0) (v : ι → K) : divDr D (mulDr D v) = v := by
  cases D with
  | none => rfl
  | some d => funext i; simp only [mulDr, divDr]; exact mul_div_cancel_right₀ _ (h d rfl i)

theorem workDr_ne (s : Solver) (p : Obj ι K) (h : ∀ d, p.Dr = some d → ∀ i, d i ≠ 0) :
    ∀ d, workDr s p = some d → ∀ i, d i ≠ 0 := by
  intro d hd
  unfold workDr at hd
  by_cases hs : usesDr s = true
  · rw [if_pos hs] at hd; exact h d hd
  · rw [if_neg hs] at hd; cases hd

theorem retVec_eq (s : Solver) (p : Obj ι K) (hc : p.Dr.isSome = true → usesDr s = p.scale.isDiag) (x : ι → K) :
    retVec p x = mulDr (workDr s p) x := by
  unfold retVec workDr
  cases hD : p.Dr with
  | none => simp [mulDr]
  | some d =>
    have := hc (by rw [hD]; rfl)
    cases hs : p.scale.isDiag <;> rw [hs] at this <;> simp [this, mulDr]

theorem block_pow {d : ℕ} {F : (ℕ → ι → K) → ℕ → ι → K} {theta : K} {v : ℕ → ι → K}
    (h : ∀ j, j < d → F v j = theta • v j) (hF : ∀ j, j + 1 < d → F v j = v (j + 1)) (j : ℕ) (hj : j < d) : v j = theta ^ j • v 0 := by
  induction j with
  | zero => simp
  | succ j ih =>
    rw [← hF j hj, h j (by omega), ih (by omega), smul_smul, pow_succ']

theorem history_snoc (c : ι → K) (sf : K) (ss : List Scale) (t : Scale) :
    history c sf (ss ++ [t]) = useScale (history c sf ss) t c := by
  unfold history
  rw [List.foldl_append]; rfl

theorem history_Dr (c : ι → K) (sf : K) (ss : List Scale) :
    (history c sf ss).Dr = if ∃ t ∈ ss, t.isDiag = true then some c else none := by
  induction ss using List.reverseRecOn with
  | nil => simp [history]
  | append_singleton ss t ih =>
    rw [history_snoc]
    unfold useScale
    show (if t.isDiag = true then some c else (history c sf ss).Dr) = _
    by_cases ht : t.isDiag = true
    · rw [if_pos ht, if_pos ⟨t, by simp, ht⟩]
    · rw [if_neg ht, ih]
      by_cases h : ∃ u ∈ ss, u.isDiag = true
      · obtain ⟨u, hu, hu'⟩ := h
        rw [if_pos ⟨u, hu, hu'⟩, if_pos ⟨u, by simp [hu], hu'⟩]
      · rw [if_neg h, if_neg]
        rintro ⟨u, hu, hu'⟩
        rcases List.mem_append.1 hu with h1 | h1
        · exact h ⟨u, h1, hu'⟩
        · rw [List.mem_singleton.1 h1] at hu'; exact ht hu'

theorem history_sf (c : ι → K) (sf : K) (ss : List Scale) : (history c sf ss).sfactor = sf := by
  induction ss using List.reverseRecOn with
  | nil => rfl
  | append_singleton ss t ih => rw [history_snoc]; exact ih

theorem history_scale (c : ι → K) (sf : K) (ss : List Scale) (t : Scale) : (history c sf (ss ++ [t])).scale = t := by
  rw [history_snoc]; rfl
end solve

/-! Rounding -/
theorem expo_scale {c : ℝ} (hc : 0 < c) :
    1 / 2 ≤ c * ((2:ℝ) ^ expo c * (2:ℝ) ^ expo c) ∧ c * ((2:ℝ) ^ expo c * (2:ℝ) ^ expo c) ≤ 2 := by
  have l2 : 0 < Real.log 2 := Real.log_pos (by norm_num)
  obtain ⟨d, hd⟩ : ∃ d, d = Real.log c / (2 * Real.log 2) := ⟨_, rfl⟩
  have hlc : Real.log c = 2 * Real.log 2 * d := by rw [hd]; field_simp
  have hr : -(1/2) ≤ d + (expo c : ℝ) ∧ d + (expo c : ℝ) ≤ 1/2 := by
    unfold expo
    rw [← hd]
    by_cases h : d < 0
    · rw [if_pos h]
      have h1 := Int.le_ceil (d - 1/2)
      have h2 := Int.ceil_lt_add_one (d - 1/2)
      push_cast
      constructor <;> linarith
    · rw [if_neg h]
      have h1 := Int.floor_le (d + 1/2)
      have h2 := Int.lt_floor_add_one (d + 1/2)
      push_cast
      constructor <;> linarith
  have hp : 0 < (2:ℝ) ^ expo c := zpow_pos (by norm_num) _
  have hx : 0 < c * ((2:ℝ) ^ expo c * (2:ℝ) ^ expo c) := by positivity
  have hlog : Real.log (c * ((2:ℝ) ^ expo c * (2:ℝ) ^ expo c)) = 2 * Real.log 2 * (d + expo c) := by
    rw [Real.log_mul hc.ne' (by positivity), Real.log_mul hp.ne' hp.ne', Real.log_zpow, hlc]; ring
  constructor
  · rw [← Real.log_le_log_iff (by norm_num) hx, hlog, one_div, Real.log_inv]
    nlinarith [hr.1]
  · rw [← Real.log_le_log_iff hx (by norm_num), hlog]
    nlinarith [hr.2]

theorem expo_eq {c : ℝ} (k : ℕ) (h1 : 4 ^ k ≤ 2 * c) (h2 : c < 2 * 4 ^ k) (h3 : 1 ≤ c) : expo c = -(k : ℤ) := by
  have l2 : 0 < Real.log 2 := Real.log_pos (by norm_num)
  have hc : 0 < c := by linarith
  have l4 : Real.log 4 = 2 * Real.log 2 := by
    rw [show (4:ℝ) = 2 ^ 2 by norm_num, Real.log_pow]; norm_num
  have a1 : (k:ℝ) * (2 * Real.log 2) ≤ Real.log 2 + Real.log c := by
    rw [← l4, ← Real.log_pow, ← Real.log_mul (by norm_num) hc.ne']
    exact Real.log_le_log (by positivity) h1
  have a2 : Real.log c < Real.log 2 + (k:ℝ) * (2 * Real.log 2) := by
    rw [← l4, ← Real.log_pow, ← Real.log_mul (by norm_num) (by positivity)]
    exact Real.log_lt_log hc h2
  have a3 : 0 ≤ Real.log c := Real.log_nonneg h3
  have hn : ¬ Real.log c / (2 * Real.log 2) < 0 := not_lt.2 (by positivity)
  unfold expo
  rw [if_neg hn]
  congr 1
  rw [Int.floor_eq_iff]
  have e : Real.log c / (2 * Real.log 2) + 1 / 2 = (Real.log c + Real.log 2) / (2 * Real.log 2) := by field_simp
  rw [e, le_div_iff₀ (by positivity), div_lt_iff₀ (by positivity)]
  push_cast
  constructor
  · linarith
  · nlinarith

/-! Sums -/
variable {m : ℕ}

theorem csum_colScale (b : Bal m) (j : Fin m) :
    csum (colScale b).M j = csum b.M j * ((2:ℝ) ^ expo (csum b.M j) * (2:ℝ) ^ expo (csum b.M j)) := by
  unfold csum colScale
  rw [Finset.sum_mul]
  apply Finset.sum_congr rfl
  intro i _
  simp only []
  rw [abs_mul, abs_of_pos (a := (2:ℝ) ^ expo (csum b.M j) * (2:ℝ) ^ expo (csum b.M j)) (by positivity)]
  rfl

theorem rsum_rowScale (b : Bal m) (i : Fin m) :
    rsum (rowScale b).M i = rsum b.M i * ((2:ℝ) ^ expo (rsum b.M i) * (2:ℝ) ^ expo (rsum b.M i)) := by
  unfold rsum rowScale
  rw [Finset.sum_mul]
  apply Finset.sum_congr rfl
  intro j _
  simp only []
  rw [abs_mul, abs_of_pos (a := (2:ℝ) ^ expo (rsum b.M i) * (2:ℝ) ^ expo (rsum b.M i)) (by positivity)]
  rfl

theorem csum_zero (M : Fin m → Fin m → ℝ) (j : Fin m) : csum M j = 0 ↔ ∀ i, M i j = 0 := by
  unfold csum
  rw [Finset.sum_eq_zero_iff_of_nonneg (fun i _ => abs_nonneg _)]
  simp

theorem rsum_zero (M : Fin m → Fin m → ℝ) (i : Fin m) : rsum M i = 0 ↔ ∀ j, M i j = 0 := by
  unfold rsum
  rw [Finset.sum_eq_zero_iff_of_nonneg (fun i _ => abs_nonneg _)]
  simp

theorem csum_nonneg (M : Fin m → Fin m → ℝ) (j : Fin m) : 0 ≤ csum M j := Finset.sum_nonneg fun _ _ => abs_nonneg _
theorem rsum_nonneg (M : Fin m → Fin m → ℝ) (j : Fin m) : 0 ≤ rsum M j := Finset.sum_nonneg fun _ _ => abs_nonneg _

/-- No zero row and no zero column. -/
def Good (M : Fin m → Fin m → ℝ) : Prop := (∀ j, csum M j ≠ 0) ∧ ∀ i, rsum M i ≠ 0

theorem good_scale {M N : Fin m → Fin m → ℝ} (f : Fin m → Fin m → ℝ) (hf : ∀ i j, f i j ≠ 0) (h : ∀ i j, N i j = M i j * f i j) (g : Good M) :
    Good N := by
  constructor
  · intro j hj
    apply g.1 j
    rw [csum_zero] at hj ⊢
    intro i
    have := hj i
    rw [h] at this
    rcases mul_eq_zero.1 this with h1 | h1
    · exact h1
    · exact absurd h1 (hf i j)
  · intro i hi
    apply g.2 i
    rw [rsum_zero] at hi ⊢
    intro j
    have := hi j
    rw [h] at this
    rcases mul_eq_zero.1 this with h1 | h1
    · exact h1
    · exact absurd h1 (hf i j)

theorem good_col (b : Bal m) (g : Good b.M) : Good (colScale b).M :=
  good_scale (fun i j => (2:ℝ) ^ expo (csum b.M j) * (2:ℝ) ^ expo (csum b.M j)) (fun i j => by positivity) (fun i j => rfl) g

theorem good_row (b : Bal m) (g : Good b.M) : Good (rowScale b).M :=
  good_scale (fun i j => (2:ℝ) ^ expo (rsum b.M i) * (2:ℝ) ^ expo (rsum b.M i)) (fun i j => by positivity) (fun i j => rfl) g

theorem sweep_good (b : Bal m) (g : Good b.M) : sweep b = some (rowScale (colScale b)) := by
  unfold sweep
  rw [if_neg (by rintro ⟨j, hj⟩; exact g.1 j hj), if_neg (by rintro ⟨j, hj⟩; exact (good_col b g).2 j hj)]

theorem powTwo_mul {x : ℝ} (h : PowTwo x) (e : ℤ) : PowTwo (x * 2 ^ e) := by
  obtain ⟨k, rfl⟩ := h
  exact ⟨k + e, (zpow_add₀ (by norm_num) k e).symm⟩

/-- The matrix is the original one scaled with the squared diagonals, which are powers of two. -/
def Inv (M0 : Fin m → Fin m → ℝ) (b : Bal m) : Prop :=
  (∀ i j, b.M i j = b.Dl i ^ 2 * M0 i j * b.Dr j ^ 2) ∧ (∀ i, PowTwo (b.Dl i)) ∧ ∀ j, PowTwo (b.Dr j)

theorem inv_sweep (M0 : Fin m → Fin m → ℝ) (b : Bal m) (h : Inv M0 b) : Inv M0 (rowScale (colScale b)) := by
  obtain ⟨h1, h2, h3⟩ := h
  refine ⟨fun i j => ?_, fun i => powTwo_mul (h2 i) _, fun j => powTwo_mul (h3 j) _⟩
  show b.M i j * _ * _ = (b.Dl i * _) ^ 2 * M0 i j * (b.Dr j * _) ^ 2
  rw [h1 i j]; ring

theorem row_bounds (b : Bal m) (g : Good b.M) (i : Fin m) :
    1 / 2 ≤ rsum (rowScale b).M i ∧ rsum (rowScale b).M i ≤ 2 := by
  rw [rsum_rowScale]
  exact expo_scale (lt_of_le_of_ne (rsum_nonneg _ _) (g.2 i).symm)

theorem emax_spec (b : Bal m) : 0 ≤ emax b ∧ ∀ i, expo (rsum (colScale b).M i) ≤ emax b := by
  unfold emax
  constructor
  · apply le_max_of_le_left
    rw [Finset.le_fold_max]; exact Or.inl le_rfl
  · intro i
    apply le_max_of_le_right
    rw [Finset.le_fold_max]; exact Or.inr ⟨i, Finset.mem_univ _, le_rfl⟩

theorem emin_spec (b : Bal m) : emin b ≤ 0 ∧ ∀ i, emin b ≤ expo (rsum (colScale b).M i) := by
  unfold emin
  constructor
  · apply min_le_of_left_le
    rw [Finset.fold_min_le]; exact Or.inl le_rfl
  · intro i
    apply min_le_of_right_le
    rw [Finset.fold_min_le]; exact Or.inr ⟨i, Finset.mem_univ _, le_rfl⟩

theorem col_bounds (b : Bal m) (g : Good b.M) (h : emax b ≤ emin b + 2) (j : Fin m) :
    1 / 32 ≤ csum (rowScale (colScale b)).M j ∧ csum (rowScale (colScale b)).M j ≤ 32 := by
  have hb := expo_scale (lt_of_le_of_ne (csum_nonneg _ j) (g.1 j).symm)
  rw [← csum_colScale] at hb
  have hx := emax_spec b
  have hn := emin_spec b
  have key : ∀ i, 1 / 16 * |(colScale b).M i j| ≤ |(rowScale (colScale b)).M i j| ∧
      |(rowScale (colScale b)).M i j| ≤ 16 * |(colScale b).M i j| := by
    intro i
    have e1 : -2 ≤ expo (rsum (colScale b).M i) := by have := hn.2 i; omega
    have e2 : expo (rsum (colScale b).M i) ≤ 2 := by have := hx.2 i; omega
    have p1 : (2:ℝ) ^ (-2:ℤ) ≤ 2 ^ expo (rsum (colScale b).M i) := zpow_le_zpow_right₀ (by norm_num) e1
    have p2 : (2:ℝ) ^ expo (rsum (colScale b).M i) ≤ 2 ^ (2:ℤ) := zpow_le_zpow_right₀ (by norm_num) e2
    show _ ≤ |(colScale b).M i j * _| ∧ |(colScale b).M i j * _| ≤ _
    obtain ⟨f, hf⟩ : ∃ f, f = (2:ℝ) ^ expo (rsum (colScale b).M i) := ⟨_, rfl⟩
    rw [← hf] at p1 p2 ⊢
    have q1 : (1:ℝ)/4 ≤ f := by have h4 : (2:ℝ) ^ (-2:ℤ) = 1/4 := by norm_num
                                rw [h4] at p1; exact p1
    have q2 : f ≤ 4 := by have h4 : (2:ℝ) ^ (2:ℤ) = 4 := by norm_num
                          rw [h4] at p2; exact p2
    rw [abs_mul, abs_of_nonneg (a := f * f) (by positivity)]
    have a0 := abs_nonneg ((colScale b).M i j)
    have b1 : 1 / 16 ≤ f * f := by nlinarith
    have b2 : f * f ≤ 16 := by nlinarith
    constructor <;> nlinarith
  constructor
  · have : 1 / 16 * csum (colScale b).M j ≤ csum (rowScale (colScale b)).M j := by
      unfold csum
      rw [Finset.mul_sum]
      exact Finset.sum_le_sum fun i _ => (key i).1
    linarith [hb.1]
  · have : csum (rowScale (colScale b)).M j ≤ 16 * csum (colScale b).M j := by
      unfold csum
      rw [Finset.mul_sum]
      exact Finset.sum_le_sum fun i _ => (key i).2
    linarith [hb.2]

theorem loop_spec (M0 : Fin m → Fin m → ℝ) (k : ℕ) : ∀ b : Bal m, Inv M0 b → Good b.M →
    ∃ r, loop k b = some r ∧ Inv M0 r.1 ∧
      ((0 < k ∨ ∀ i, 1 / 2 ≤ rsum b.M i ∧ rsum b.M i ≤ 2) → ∀ i, 1 / 2 ≤ rsum r.1.M i ∧ rsum r.1.M i ≤ 2) ∧
      (r.2 = true → ∀ j, 1 / 32 ≤ csum r.1.M j ∧ csum r.1.M j ≤ 32) := by
  induction k with
  | zero =>
    intro b hi g
    exact ⟨(b, false), rfl, hi, fun h => h.resolve_left (by omega), fun h => by cases h⟩
  | succ k ih =>
    intro b hi g
    have hs := sweep_good b g
    have hi' := inv_sweep M0 b hi
    have g' := good_row _ (good_col b g)
    have hr : ∀ i, 1 / 2 ≤ rsum (rowScale (colScale b)).M i ∧ rsum (rowScale (colScale b)).M i ≤ 2 := row_bounds _ (good_col b g)
    by_cases h : emax b ≤ emin b + 2
    · refine ⟨(rowScale (colScale b), true), ?_, hi', fun _ => hr, fun _ => col_bounds b g h⟩
      simp only [loop, hs, if_pos h]
    · obtain ⟨r, h1, h2, h3, h4⟩ := ih _ hi' g'
      refine ⟨r, ?_, h2, fun _ => h3 (Or.inr hr), h4⟩
      simp only [loop, hs, if_neg h, h1]

theorem weight_eq (lam sf : ℝ) (k : ℕ) : weight lam sf k = (lam * lam * sf) ^ k := by
  induction k with
  | zero => rfl
  | succ k ih => rw [weight, ih, pow_succ]

theorem buildM_zero {𝕜 : Type} [RCLike 𝕜] (nmat : ℕ) (A : ℕ → Matrix (Fin m) (Fin m) 𝕜) (lam sf : ℝ) (hl : 0 < lam) (hs : 0 < sf) (i j : Fin m) :
    buildM nmat A lam sf i j = 0 ↔ ∀ k, k < nmat → A k i j = 0 := by
  have hw : ∀ k, 0 < weight lam sf k := fun k => by rw [weight_eq]; positivity
  unfold buildM
  rw [Finset.sum_eq_zero_iff_of_nonneg (fun k _ => by have := hw k; positivity)]
  constructor
  · intro h k hk
    have := h k (Finset.mem_range.2 hk)
    rcases mul_eq_zero.1 this with h1 | h1
    · exact absurd h1 (hw k).ne'
    · exact norm_eq_zero.1 (mul_self_eq_zero.1 h1)
  · intro h k hk
    rw [h k (Finset.mem_range.1 hk)]; simp

theorem buildM_nonneg {𝕜 : Type} [RCLike 𝕜] (nmat : ℕ) (A : ℕ → Matrix (Fin m) (Fin m) 𝕜) (lam sf : ℝ) (hl : 0 < lam) (hs : 0 < sf) (i j : Fin m) :
    0 ≤ buildM nmat A lam sf i j := by
  unfold buildM
  apply Finset.sum_nonneg
  intro k _
  rw [weight_eq]; positivity

theorem regular_good {𝕜 : Type} [RCLike 𝕜] (nmat : ℕ) (A : ℕ → Matrix (Fin m) (Fin m) 𝕜) (lam sf : ℝ) (hl : 0 < lam) (hs : 0 < sf)
    (hr : Regular nmat A) : Good (buildM nmat A lam sf) := by
  obtain ⟨z, hz⟩ := hr
  constructor
  · intro j hj
    rw [csum_zero] at hj
    apply hz
    apply Matrix.det_eq_zero_of_column_eq_zero j
    intro i
    rw [Matrix.sum_apply]
    apply Finset.sum_eq_zero
    intro k hk
    rw [Matrix.smul_apply, (buildM_zero nmat A lam sf hl hs i j).1 (hj i) k (Finset.mem_range.1 hk), smul_zero]
  · intro i hi
    rw [rsum_zero] at hi
    apply hz
    apply Matrix.det_eq_zero_of_row_eq_zero i
    intro j
    rw [Matrix.sum_apply]
    apply Finset.sum_eq_zero
    intro k hk
    rw [Matrix.smul_apply, (buildM_zero nmat A lam sf hl hs i j).1 (hi j) k (Finset.mem_range.1 hk), smul_zero]

/-! The list of columns -/
theorem scan_length (lst lend : ℕ) (es : List (ℕ × ℝ)) : ∀ (aux : ℕ → ℝ) (cols : List ℕ),
    (scan lst lend es aux cols).length ≤ cols.length + es.length := by
  induction es with
  | nil => intro aux cols; simp [scan]
  | cons e r ih =>
    intro aux cols
    obtain ⟨j, v⟩ := e
    rw [scan]
    refine (ih _ _).trans ?_
    split_ifs <;> simp <;> omega

theorem scan_nodup (n lst lend : ℕ) (es : List (ℕ × ℝ)) : ∀ (aux : ℕ → ℝ) (cols : List ℕ),
    (∀ e ∈ es, e.1 < n ∧ e.2 ≠ 0) → (∀ j, 0 ≤ aux j) → (∀ j ∈ cols, aux j ≠ 0) → cols.Nodup → (∀ j ∈ cols, j < n ∧ (j < lst ∨ lend ≤ j)) →
    (scan lst lend es aux cols).Nodup ∧ ∀ j ∈ scan lst lend es aux cols, j < n ∧ (j < lst ∨ lend ≤ j) := by
  induction es with
  | nil => intro aux cols _ _ _ h1 h2; exact ⟨h1, h2⟩
  | cons e r ih =>
    intro aux cols he ha hc h1 h2
    obtain ⟨j, v⟩ := e
    rw [scan]
    have hv := he (j, v) (by simp)
    have hpos : 0 < aux j + |v| := by
      have := abs_pos.2 hv.2
      linarith [ha j]
    apply ih
    · intro e he'; exact he e (by simp [he'])
    · intro i
      by_cases hi : i = j
      · subst hi; rw [Function.update_self]; exact hpos.le
      · rw [Function.update_of_ne hi]; exact ha i
    · intro i hi
      by_cases hij : i = j
      · subst hij; rw [Function.update_self]; exact hpos.ne'
      · rw [Function.update_of_ne hij]
        by_cases hh : aux j = 0 ∧ (j < lst ∨ lend ≤ j)
        · rw [if_pos hh] at hi
          rcases List.mem_append.1 hi with h | h
          · exact hc i h
          · exact absurd (List.mem_singleton.1 h) hij
        · rw [if_neg hh] at hi; exact hc i hi
    · by_cases hh : aux j = 0 ∧ (j < lst ∨ lend ≤ j)
      · rw [if_pos hh]
        rw [List.nodup_append]
        refine ⟨h1, List.nodup_singleton _, ?_⟩
        intro a ha' b hb hab
        rw [List.mem_singleton.1 hb] at hab
        subst hab
        exact hc _ ha' hh.1
      · rw [if_neg hh]; exact h1
    · intro i hi
      by_cases hh : aux j = 0 ∧ (j < lst ∨ lend ≤ j)
      · rw [if_pos hh] at hi
        rcases List.mem_append.1 hi with h | h
        · exact h2 i h
        · rw [List.mem_singleton.1 h]; exact ⟨hv.1, hh.2⟩
      · rw [if_neg hh] at hi; exact h2 i hi

/-! Horner sum -/
theorem hloop_eq (norm : ℕ → ℝ) (sf : ℝ) (k : ℕ) : ∀ acc, hloop norm sf k acc = acc * sf ^ (k + 1) + ∑ i ∈ Finset.range (k + 1), sf ^ i * norm i := by
  induction k with
  | zero => intro acc; simp [hloop]
  | succ k ih =>
    intro acc
    rw [hloop, ih, Finset.sum_range_succ _ (k + 1)]
    ring

end
end Verif.Pscl
