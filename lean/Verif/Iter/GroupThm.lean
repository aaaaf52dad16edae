import Verif.Iter.GroupModel

/-!
# C153: acceptance in the subspace iteration
-/

set_option linter.all false

namespace Verif.Iter

open Finset

theorem scan_le (w : ℕ → ℂ) (g r : ℝ) : ∀ (f i : ℕ) (c : ℝ), (scan w g r f i c).1 ≤ f := by
  intro f
  induction f with
  | zero => intro i c; simp [scan]
  | succ f ih =>
    intro i c
    unfold scan
    split_ifs
    · exact Nat.zero_le _
    · exact Nat.succ_le_succ (ih _ _)

theorem scan_mem (w : ℕ → ℂ) (g r : ℝ) : ∀ (f i : ℕ) (c : ℝ) (j : ℕ), i ≤ j → j < i + (scan w g r f i c).1 → |r - ‖w j‖| ≤ g * (r + ‖w j‖) := by
  intro f
  induction f with
  | zero => intro i c j h1 h2; simp [scan] at h2; omega
  | succ f ih =>
    intro i c j h1 h2
    unfold scan at h2
    by_cases h : |r - ‖w i‖| > g * (r + ‖w i‖)
    · rw [if_pos h] at h2; simp at h2; omega
    · rw [if_neg h] at h2
      by_cases hj : j = i
      · subst hj; exact not_lt.mp h
      · exact ih (i + 1) ((r + ‖w i‖) / 2) j (by omega) (by simp only at h2; omega)

theorem scan_max (w : ℕ → ℂ) (g r : ℝ) : ∀ (f i : ℕ) (c : ℝ), (scan w g r f i c).1 < f → |r - ‖w (i + (scan w g r f i c).1)‖| > g * (r + ‖w (i + (scan w g r f i c).1)‖) := by
  intro f
  induction f with
  | zero => intro i c h; omega
  | succ f ih =>
    intro i c h
    unfold scan at h ⊢
    by_cases hh : |r - ‖w i‖| > g * (r + ‖w i‖)
    · rw [if_pos hh] at h ⊢; exact hh
    · rw [if_neg hh] at h ⊢
      have := ih (i + 1) ((r + ‖w i‖) / 2) (by simp only at h; omega)
      rw [show i + ((scan w g r f (i + 1) ((r + ‖w i‖) / 2)).1 + 1, (scan w g r f (i + 1) ((r + ‖w i‖) / 2)).2).1 = i + 1 + (scan w g r f (i + 1) ((r + ‖w i‖) / 2)).1 by simp only; omega]
      exact this

theorem scan_ctr (w : ℕ → ℂ) (g r : ℝ) : ∀ (f i : ℕ) (c : ℝ), (scan w g r f i c).1 ≠ 0 → (scan w g r f i c).2 = (r + ‖w (i + (scan w g r f i c).1 - 1)‖) / 2 := by
  intro f
  induction f with
  | zero => intro i c h; simp [scan] at h
  | succ f ih =>
    intro i c h
    unfold scan at h ⊢
    by_cases hh : |r - ‖w i‖| > g * (r + ‖w i‖)
    · rw [if_pos hh] at h; simp at h
    · rw [if_neg hh]
      by_cases h0 : (scan w g r f (i + 1) ((r + ‖w i‖) / 2)).1 = 0
      · have hz : ∀ (f i : ℕ) (c : ℝ), (scan w g r f i c).1 = 0 → (scan w g r f i c).2 = c := by
          intro f i c h
          cases f with
          | zero => simp [scan]
          | succ f =>
            unfold scan at h ⊢
            by_cases h3 : |r - ‖w i‖| > g * (r + ‖w i‖)
            · rw [if_pos h3]
            · rw [if_neg h3] at h; simp at h
        show (scan w g r f (i + 1) ((r + ‖w i‖) / 2)).2 = (r + ‖w (i + ((scan w g r f (i + 1) ((r + ‖w i‖) / 2)).1 + 1) - 1)‖) / 2
        rw [hz _ _ _ h0, h0]; rfl
      · show (scan w g r f (i + 1) ((r + ‖w i‖) / 2)).2 = (r + ‖w (i + ((scan w g r f (i + 1) ((r + ‖w i‖) / 2)).1 + 1) - 1)‖) / 2
        rw [ih _ _ h0]
        congr 4; omega

/-- the values with indices in `[s, s+n)` have nearly the same modulus as the first one -/
def NearMod (w : ℕ → ℂ) (g : ℝ) (s n : ℕ) : Prop := ∀ j, s ≤ j → j < s + n → |‖w s‖ - ‖w j‖| ≤ g * (‖w s‖ + ‖w j‖)

/-- **C153** (groups).  EPSSubspaceFindGroup returns the longest run of consecutive values from `l` with nearly the same modulus as the first one, the mean of the first and last modulus, the mean of the real
    parts and the root mean square of the residual norms. -/
theorem C153_group (l m : ℕ) (w : ℕ → ℂ) (rsd : ℕ → ℝ) (g : ℝ) (hn : (findGroup l m w rsd g).n ≠ 0) :
    l + (findGroup l m w rsd g).n ≤ m ∧ NearMod w g l (findGroup l m w rsd g).n ∧
      (l + (findGroup l m w rsd g).n < m → |‖w l‖ - ‖w (l + (findGroup l m w rsd g).n)‖| > g * (‖w l‖ + ‖w (l + (findGroup l m w rsd g).n)‖)) ∧
      (findGroup l m w rsd g).ctr = (‖w l‖ + ‖w (l + (findGroup l m w rsd g).n - 1)‖) / 2 ∧
      (findGroup l m w rsd g).ae * (findGroup l m w rsd g).n = ∑ i ∈ Ico l (l + (findGroup l m w rsd g).n), (w i).re ∧
      0 ≤ (findGroup l m w rsd g).arsd ∧ (findGroup l m w rsd g).arsd ^ 2 * (findGroup l m w rsd g).n = ∑ i ∈ Ico l (l + (findGroup l m w rsd g).n), rsd i ^ 2 := by
  have hs : (scan w g ‖w l‖ (m - l) l 0).1 ≠ 0 := by
    intro h; apply hn; unfold findGroup; simp only [h, if_true]
  have hfg : findGroup l m w rsd g = ⟨(scan w g ‖w l‖ (m - l) l 0).1, (scan w g ‖w l‖ (m - l) l 0).2, (∑ i ∈ Ico l (l + (scan w g ‖w l‖ (m - l) l 0).1), (w i).re) / (scan w g ‖w l‖ (m - l) l 0).1,
      Real.sqrt ((∑ i ∈ Ico l (l + (scan w g ‖w l‖ (m - l) l 0).1), rsd i * rsd i) / (scan w g ‖w l‖ (m - l) l 0).1)⟩ := by
    unfold findGroup; simp only [hs, if_false]
  rw [hfg]
  have hle := scan_le w g ‖w l‖ (m - l) l 0
  have h1 := scan_mem w g ‖w l‖ (m - l) l 0
  have h2 := scan_max w g ‖w l‖ (m - l) l 0
  have h3 := scan_ctr w g ‖w l‖ (m - l) l 0 hs
  generalize scan w g ‖w l‖ (m - l) l 0 = s at *
  have hpos : (0 : ℝ) < s.1 := by exact_mod_cast Nat.pos_of_ne_zero hs
  refine ⟨?_, fun j a b => h1 j a b, fun h => h2 (by simp only at h; omega), h3, ?_, Real.sqrt_nonneg _, ?_⟩
  · show l + s.1 ≤ m; omega
  · show (∑ i ∈ Ico l (l + s.1), (w i).re) / (s.1 : ℝ) * (s.1 : ℝ) = _
    rw [div_mul_cancel₀ _ hpos.ne']
  · show Real.sqrt ((∑ i ∈ Ico l (l + s.1), rsd i * rsd i) / (s.1 : ℝ)) ^ 2 * (s.1 : ℝ) = _
    rw [Real.sq_sqrt (div_nonneg (sum_nonneg fun i _ => mul_self_nonneg _) hpos.le), div_mul_cancel₀ _ hpos.ne']
    exact sum_congr rfl fun i _ => (sq _).symm

/-- the interval `[a,b)` is split into consecutive groups, each of which passes the tests: same size in the previous projection, nearly the same modulus, root mean square of the residual norms at most `tol`
    times the mean of the first and last modulus -/
inductive Groups (x : AccIn) (nv : ℕ) : ℕ → ℕ → Prop
  | nil (a : ℕ) : Groups x nv a a
  | cons (a n b : ℕ) : 0 < n → a + n ≤ nv → NearMod x.w x.g a n → NearMod x.ow x.g a n → (∑ i ∈ Ico a (a + n), x.rsd i ^ 2 ≤ n * ((‖x.w a‖ + ‖x.w (a + n - 1)‖) / 2 * x.tol) ^ 2) →
      |(∑ i ∈ Ico a (a + n), (x.w i).re) - ∑ i ∈ Ico a (a + n), (x.ow i).re| ≤ n * ((‖x.w a‖ + ‖x.w (a + n - 1)‖) / 2 * x.cnvtol * x.d a) → Groups x nv (a + n) b → Groups x nv a b

/-- **C153** (acceptance loop).  The loop accepts a sequence of consecutive groups of values beginning at the first value not accepted, each converged in the root mean square sense. -/
theorem C153_accept (x : AccIn) (ht : 0 ≤ x.tol) (nv f k : ℕ) : Groups x nv k (acceptLoop x nv f k) := by
  induction f generalizing k with
  | zero => exact Groups.nil k
  | succ f ih =>
    unfold acceptLoop
    by_cases hp : x.pass nv k
    · rw [if_pos hp]
      obtain ⟨p1, p2, p3, p4⟩ := hp
      obtain ⟨g1, g2, _, g4, g5, g6, g7⟩ := C153_group k nv x.w x.rsd x.g p2
      obtain ⟨_, o2, _, _, o5, _, _⟩ := C153_group k nv x.ow x.orsd x.g (p1 ▸ p2)
      rw [← p1] at o2 o5
      rw [g4] at p3 p4
      push Not at p3 p4
      generalize findGroup k nv x.w x.rsd x.g = G at *
      have hn : (0 : ℝ) < G.n := by exact_mod_cast Nat.pos_of_ne_zero p2
      have hc : ∀ b, Groups x nv (k + G.n) b → Groups x nv k b := by
        intro b hb
        refine Groups.cons k G.n b (Nat.pos_of_ne_zero p2) g1 g2 o2 ?_ ?_ hb
        · rw [← g7, mul_comm]
          exact mul_le_mul_of_nonneg_left (pow_le_pow_left₀ g6 p4 2) hn.le
        · rw [← g5, ← o5, ← sub_mul, abs_mul, abs_of_pos hn, mul_comm]
          exact mul_le_mul_of_nonneg_left p3 hn.le
      by_cases h : k + G.n ≥ nv
      · rw [if_pos h]; exact hc _ (Groups.nil _)
      · rw [if_neg h]; exact hc _ (ih _)
    · rw [if_neg hp]; exact Groups.nil k

theorem acceptLoop_le (x : AccIn) (nv f k : ℕ) : k ≤ acceptLoop x nv f k := by
  induction f generalizing k with
  | zero => exact le_rfl
  | succ f ih =>
    unfold acceptLoop
    by_cases hp : x.pass nv k
    · rw [if_pos hp]
      by_cases h : k + (findGroup k nv x.w x.rsd x.g).n ≥ nv
      · rw [if_pos h]; omega
      · rw [if_neg h]; exact le_trans (Nat.le_add_right _ _) (ih _)
    · rw [if_neg hp]

/-- the loop ends within `nv - k` passes: more of them do not change the result -/
theorem acceptLoop_fuel (x : AccIn) (nv : ℕ) : ∀ f k, nv - k ≤ f → 0 < nv - k → acceptLoop x nv (f + 1) k = acceptLoop x nv f k := by
  intro f
  induction f with
  | zero => intro k h h2; omega
  | succ f ih =>
    intro k h h2
    have un : ∀ f, acceptLoop x nv (f + 1) k = (open Classical in if x.pass nv k then
        if k + (findGroup k nv x.w x.rsd x.g).n ≥ nv then k + (findGroup k nv x.w x.rsd x.g).n
        else acceptLoop x nv f (k + (findGroup k nv x.w x.rsd x.g).n) else k) := fun f => by rw [acceptLoop]
    rw [un, un]
    by_cases hp : x.pass nv k
    · rw [if_pos hp, if_pos hp]
      have hn : (findGroup k nv x.w x.rsd x.g).n ≠ 0 := hp.2.1
      by_cases h3 : k + (findGroup k nv x.w x.rsd x.g).n ≥ nv
      · rw [if_pos h3, if_pos h3]
      · rw [if_neg h3, if_neg h3]
        exact ih _ (by omega) (by omega)
    · rw [if_neg hp, if_neg hp]

/-- bound for one member of a converged group -/
theorem C153_member_partial {w : ℕ → ℂ} {rsd : ℕ → ℝ} {g tol : ℝ} (hg : 0 ≤ g) (hg1 : g < 1) (ht : 0 ≤ tol) (hr : ∀ i, 0 ≤ rsd i) {s n : ℕ} (hm : NearMod w g s n)
    (hs : ∑ i ∈ Ico s (s + n), rsd i ^ 2 ≤ n * ((‖w s‖ + ‖w (s + n - 1)‖) / 2 * tol) ^ 2) {j : ℕ} (h1 : s ≤ j) (h2 : j < s + n) :
    rsd j ≤ Real.sqrt n * tol * ((1 + g) / (1 - g) ^ 2 * ‖w j‖) := by
  have hL := abs_le.mp (hm (s + n - 1) (by omega) (by omega))
  have hJ := abs_le.mp (hm j h1 h2)
  have hc : (‖w s‖ + ‖w (s + n - 1)‖) / 2 ≤ (1 + g) / (1 - g) ^ 2 * ‖w j‖ := by
    have hp : 0 < 1 - g := by linarith
    have e1 : (‖w s‖ + ‖w (s + n - 1)‖) / 2 ≤ ‖w s‖ / (1 - g) := by
      rw [le_div_iff₀ hp]; nlinarith [hL.1, hL.2]
    have e2 : ‖w s‖ ≤ (1 + g) / (1 - g) * ‖w j‖ := by
      rw [div_mul_eq_mul_div, le_div_iff₀ hp]; nlinarith [hJ.1, hJ.2]
    calc _ ≤ ‖w s‖ / (1 - g) := e1
      _ ≤ ((1 + g) / (1 - g) * ‖w j‖) / (1 - g) := by gcongr
      _ = _ := by field_simp
  have h0 : 0 ≤ (‖w s‖ + ‖w (s + n - 1)‖) / 2 := by positivity
  have hj : rsd j ^ 2 ≤ (Real.sqrt n * ((‖w s‖ + ‖w (s + n - 1)‖) / 2 * tol)) ^ 2 := by
    rw [mul_pow, Real.sq_sqrt (Nat.cast_nonneg n)]
    exact (single_le_sum (f := fun i => rsd i ^ 2) (fun i _ => sq_nonneg _) (mem_Ico.mpr ⟨h1, h2⟩)).trans hs
  have := (pow_le_pow_iff_left₀ (hr j) (by positivity) two_ne_zero).mp hj
  calc rsd j ≤ Real.sqrt n * ((‖w s‖ + ‖w (s + n - 1)‖) / 2 * tol) := this
    _ ≤ Real.sqrt n * ((1 + g) / (1 - g) ^ 2 * ‖w j‖ * tol) := by gcongr
    _ = _ := by ring

/-- **C153** (accepted values; partial).  Every accepted value has a residual norm of at most `sqrt(n) tol (1+g)/(1-g)^2` times its modulus, with `n` the size of its group.  Partial: the property has no
    factor; see `C153_false`. -/
theorem C153_accept_partial (x : AccIn) (hg : 0 ≤ x.g) (hg1 : x.g < 1) (ht : 0 ≤ x.tol) (hr : ∀ i, 0 ≤ x.rsd i) {nv a b : ℕ} (h : Groups x nv a b) :
    a ≤ b ∧ ∀ j, a ≤ j → j < b → ∃ s n, a ≤ s ∧ s ≤ j ∧ j < s + n ∧ s + n ≤ b ∧ s + n ≤ nv ∧ x.rsd j ≤ Real.sqrt n * x.tol * ((1 + x.g) / (1 - x.g) ^ 2 * ‖x.w j‖) := by
  induction h with
  | nil a => exact ⟨le_rfl, fun j h1 h2 => by omega⟩
  | cons a n b hn hnv hm hom hs ha hb ih =>
    refine ⟨by omega, ?_⟩
    intro j h1 h2
    by_cases hj : j < a + n
    · exact ⟨a, n, le_rfl, h1, hj, ih.1, hnv, C153_member_partial hg hg1 ht hr hm hs h1 hj⟩
    · obtain ⟨s, m, q1, q2, q3, q4, q5, q6⟩ := ih.2 j (by omega) h2
      exact ⟨s, m, by omega, q2, q3, q4, q5, q6⟩

/-- the data of the counterexample: two values of modulus one, unchanged since the last projection, with residual norms 0 and 14/1000 and tolerance 1/100 -/
noncomputable def xg : AccIn := { w := fun i => if i = 0 then 1 else -1, rsd := fun i => if i = 0 then 0 else 14 / 1000, ow := fun i => if i = 0 then 1 else -1, orsd := fun i => if i = 0 then 1 / 10 else 1 / 10, d := fun _ => 1, g := 0, cnvtol := 1, tol := 1 / 100 }

theorem xg_scan : scan xg.w 0 ‖xg.w 0‖ 2 0 0 = (2, 1) := by
  have h0 : ‖xg.w 0‖ = 1 := by show ‖(if (0 : ℕ) = 0 then (1 : ℂ) else -1)‖ = 1; simp
  have h1 : ‖xg.w 1‖ = 1 := by show ‖(if (1 : ℕ) = 0 then (1 : ℂ) else -1)‖ = 1; simp
  rw [h0]
  simp [scan, h0, h1]

theorem xg_group (rsd : ℕ → ℝ) : findGroup 0 2 xg.w rsd 0 = ⟨2, 1, 0, Real.sqrt ((rsd 0 * rsd 0 + rsd 1 * rsd 1) / 2)⟩ := by
  unfold findGroup
  rw [show 2 - 0 = 2 from rfl, xg_scan]
  simp only [OfNat.ofNat_ne_zero, if_false]
  have e : Ico 0 (0 + 2) = ({0, 1} : Finset ℕ) := by rfl
  rw [e, sum_pair (by norm_num), sum_pair (by norm_num)]
  show (⟨2, 1, ((1 : ℂ).re + (-1 : ℂ).re) / ((2 : ℕ) : ℝ), _⟩ : Grp) = _
  simp

/-- **C153** (negation).  A value can be accepted although its residual norm exceeds the tolerance times its modulus: with the groups of `xg` both values are accepted, and the second one has modulus 1,
    tolerance 1/100 and residual norm 14/1000. -/
theorem C153_false : acceptLoop xg 2 2 0 = 2 ∧ xg.tol * ‖xg.w 1‖ < xg.rsd 1 := by
  have hp : xg.pass 2 0 := by
    unfold AccIn.pass
    rw [show xg.g = 0 from rfl, show xg.ow = xg.w from rfl, xg_group, xg_group]
    refine ⟨rfl, two_ne_zero, ?_, ?_⟩
    · show ¬|(0 : ℝ) - 0| > 1 * 1 * 1; norm_num
    · show ¬Real.sqrt (((0 : ℝ) * 0 + 14 / 1000 * (14 / 1000)) / 2) > 1 * (1 / 100)
      rw [not_lt, Real.sqrt_le_left (by norm_num)]; norm_num
  refine ⟨?_, ?_⟩
  · rw [acceptLoop, if_pos hp, show xg.g = 0 from rfl, xg_group]
    rfl
  · show 1 / 100 * ‖(if (1 : ℕ) = 0 then (1 : ℂ) else -1)‖ < (14 / 1000 : ℝ)
    simp; norm_num

/-- **C153** (negation: counters).  The loop can end with all projected columns accepted, equal sizes of groups and a decreased residual: then line 287 reads the entry `nconv = nv` of an array of which only the entries below
    `nv` have been set. -/
theorem C153_uninitialised_false : acceptLoop xg 2 2 0 = 2 ∧ (findGroup 0 2 xg.w xg.rsd xg.g).n = (findGroup 0 2 xg.ow xg.orsd xg.g).n ∧ (findGroup 0 2 xg.w xg.rsd xg.g).n ≠ 0 ∧
    (findGroup 0 2 xg.w xg.rsd xg.g).arsd < (findGroup 0 2 xg.ow xg.orsd xg.g).arsd := by
  refine ⟨C153_false.1, ?_⟩
  rw [show xg.g = 0 from rfl, show xg.ow = xg.w from rfl, xg_group, xg_group]
  refine ⟨rfl, two_ne_zero, ?_⟩
  show Real.sqrt (((0 : ℝ) * 0 + 14 / 1000 * (14 / 1000)) / 2) < Real.sqrt ((1 / 10 * (1 / 10) + 1 / 10 * (1 / 10)) / 2)
  exact Real.sqrt_lt_sqrt (by norm_num) (by norm_num)

/-- a case of the theorems -/
example : ∀ i, 0 ≤ xg.rsd i := by
  intro i; show 0 ≤ (if i = 0 then (0 : ℝ) else 14 / 1000)
  split_ifs <;> norm_num

end Verif.Iter
