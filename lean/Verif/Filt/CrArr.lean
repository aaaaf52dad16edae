import Verif.Filt.Kern
import Verif.Filt.Cr

/-! # The arrays of the conjugate residual iteration represent polynomials -/

set_option linter.all false

namespace Verif.Filt

open Polynomial Finset

/-- The map from `[-1,1]` to interval `j`. -/
noncomputable def mp (intv : Arr) (j : ℕ) : ℝ[X] :=
  C ((intv j + intv (j + 1)) / 2) + C ((intv (j + 1) - intv j) / 2) * X

theorem ci_map_add {f : ℝ[X] → ℝ[X]} (h : ∀ a b, f (a + b) = f a + f b) (a b : ℝ[X]) :
    ci (f (a + b)) = ci (f a) + ci (f b) := by rw [h, ci_add]

/-- The weighted sum over the intervals of the integrals of a polynomial. -/
noncomputable def Lf (n : ℕ) (intv w : Arr) : ℝ[X] →ₗ[ℝ] ℝ where
  toFun P := ∑ j ∈ range n, w j * ci (P.comp (mp intv j))
  map_add' P Q := by
    simp only [add_comp, ci_add, mul_add, sum_add_distrib]
  map_smul' a P := by
    simp only [smul_eq_C_mul, mul_comp, C_comp, ci_C_mul, RingHom.id_apply, smul_eq_mul, mul_sum]
    exact sum_congr rfl fun j _ => by ring

/-- The weighted product of a polynomial with a piecewise polynomial (series `bf`, `nbase`
coefficients per interval). -/
noncomputable def Ff (n : ℕ) (intv w bf : Arr) (nbase : ℕ) : ℝ[X] →ₗ[ℝ] ℝ where
  toFun P := ∑ j ∈ range n, w j * ci (ser bf (j * nbase) nbase * P.comp (mp intv j))
  map_add' P Q := by
    simp only [add_comp, mul_add, ci_add, sum_add_distrib]
  map_smul' a P := by
    simp only [smul_eq_C_mul, mul_comp, C_comp, RingHom.id_apply, smul_eq_mul, mul_sum]
    refine sum_congr rfl fun j _ => ?_
    rw [show ser bf (j * nbase) nbase * (C a * P.comp (mp intv j)) = C a * (ser bf (j * nbase) nbase * P.comp (mp intv j)) by ring, ci_C_mul]
    ring

/-! ## Positivity -/

theorem ci_nonneg (P : ℝ[X]) (h0 : ∀ t, -1 ≤ t → t ≤ 1 → 0 ≤ P.eval t) : 0 ≤ ci P := by
  rw [ci, Chebyshev.integral_measureT_eq_integral_cos]
  exact intervalIntegral.integral_nonneg Real.pi_pos.le
    fun θ _ => h0 _ (Real.neg_one_le_cos θ) (Real.cos_le_one θ)

theorem ci_pos (P : ℝ[X]) (h0 : ∀ t, -1 ≤ t → t ≤ 1 → 0 ≤ P.eval t) (hP : P ≠ 0) : 0 < ci P := by
  rw [ci, Chebyshev.integral_measureT_eq_integral_cos]
  have hex : ∃ t ∈ Set.Icc (-1 : ℝ) 1, P.eval t ≠ 0 := by
    by_contra hc
    push Not at hc
    exact hP (Polynomial.eq_zero_of_infinite_isRoot P
      (Set.Infinite.mono (s := Set.Icc (-1 : ℝ) 1) (fun t ht => hc t ht) (Set.Icc_infinite (by norm_num))))
  obtain ⟨t, ht, hne⟩ := hex
  refine intervalIntegral.integral_pos Real.pi_pos ?_ (fun θ _ => h0 _ (Real.neg_one_le_cos θ) (Real.cos_le_one θ)) ?_
  · exact (P.continuous.comp Real.continuous_cos).continuousOn
  · refine ⟨Real.arccos t, ⟨Real.arccos_nonneg t, Real.arccos_le_pi t⟩, ?_⟩
    rw [Real.cos_arccos ht.1 ht.2]
    exact lt_of_le_of_ne (h0 t ht.1 ht.2) (Ne.symm hne)

/-- A partition of a range to the right of zero, with positive weights. -/
structure Part (n : ℕ) (intv w : Arr) : Prop where
  pos : ∀ j < n, 0 < w j
  zero : ∀ j < n, 0 ≤ intv j
  mono : ∀ j < n, intv j ≤ intv (j + 1)
  big : ∃ j < n, intv j < intv (j + 1)

theorem mp_eval (intv : Arr) (j : ℕ) (t : ℝ) :
    (mp intv j).eval t = (intv j + intv (j + 1)) / 2 + (intv (j + 1) - intv j) / 2 * t := by
  simp [mp]

theorem mp_nonneg {n : ℕ} {intv w : Arr} (h : Part n intv w) {j : ℕ} (hj : j < n) (t : ℝ) (h1 : -1 ≤ t) (h2 : t ≤ 1) :
    0 ≤ (mp intv j).eval t := by
  rw [mp_eval]
  have := h.zero j hj
  have := h.mono j hj
  nlinarith

theorem comp_mp_ne {intv : Arr} {j : ℕ} (hj : intv j < intv (j + 1)) {P : ℝ[X]} (hP : P ≠ 0) :
    P.comp (mp intv j) ≠ 0 := by
  intro h
  rcases comp_eq_zero_iff.mp h with h | h
  · exact hP h
  · have h1 : (mp intv j).coeff 1 = 0 := by rw [h.2]; simp [coeff_C]
    rw [mp] at h1
    simp [coeff_C] at h1
    linarith

theorem Lf_apply (n : ℕ) (intv w : Arr) (P : ℝ[X]) :
    Lf n intv w P = ∑ j ∈ range n, w j * ci (P.comp (mp intv j)) := rfl

theorem Lf_pos {n : ℕ} {intv w : Arr} (h : Part n intv w) (P : ℝ[X]) (hP : P ≠ 0)
    (h0 : ∀ z, 0 ≤ z → 0 ≤ P.eval z) : 0 < Lf n intv w P := by
  rw [Lf_apply]
  have hn : ∀ j < n, ∀ t, -1 ≤ t → t ≤ 1 → 0 ≤ (P.comp (mp intv j)).eval t := fun j hj t a b => by
    rw [eval_comp]; exact h0 _ (mp_nonneg h hj t a b)
  obtain ⟨j, hj, hb⟩ := h.big
  refine sum_pos' (fun i hi => ?_) ⟨j, mem_range.mpr hj, ?_⟩
  · have hi := mem_range.mp hi
    exact mul_nonneg (h.pos i hi).le (ci_nonneg _ (hn i hi))
  · exact mul_pos (h.pos j hj) (ci_pos _ (hn j hj) (comp_mp_ne hb hP))

theorem pos_of_part {n : ℕ} {intv w : Arr} (h : Part n intv w) : Pos (Lf n intv w) where
  one q hq := Lf_pos h _ (mul_ne_zero hq (mul_ne_zero X_ne_zero hq)) fun z hz => by
    simp only [eval_mul, eval_X]; nlinarith [mul_self_nonneg (q.eval z)]
  two q hq := Lf_pos h _ (mul_ne_zero (mul_ne_zero X_ne_zero hq) (mul_ne_zero X_ne_zero hq)) fun z hz => by
    simp only [eval_mul, eval_X]; exact mul_self_nonneg _

theorem Lf_sq_nonneg {n : ℕ} {intv w : Arr} (h : Part n intv w) (q : ℝ[X]) : 0 ≤ Lf n intv w (q * q) := by
  rw [Lf_apply]
  exact sum_nonneg fun i hi => mul_nonneg (h.pos i (mem_range.mp hi)).le (ci_nonneg _ fun t _ _ => by
    simp only [eval_comp, eval_mul]; exact mul_self_nonneg _)

/-! ## Representation -/

/-- In every interval the first `s` entries of the column are the Chebyshev series of the
polynomial `Q`, and the others are zero. -/
def Rep (I : CrIn) (f : Arr) (s : ℕ) (Q : ℝ[X]) : Prop :=
  ∀ j < I.nintv, ser f (j * I.ld) s = Q.comp (mp I.intv j) ∧ ∀ i, s ≤ i → i < I.ld → f (j * I.ld + i) = 0

theorem Rep.mono {I : CrIn} {f : Arr} {s s' : ℕ} {Q : ℝ[X]} (h : Rep I f s Q) (hs : s ≤ s') (hl : s' ≤ I.ld) :
    Rep I f s' Q := fun j hj =>
  ⟨by rw [ser_ext hs (fun i a b => (h j hj).2 i a (by omega)), (h j hj).1],
   fun i a b => (h j hj).2 i (by omega) b⟩

theorem Rep.axpy {I : CrIn} {f g : Arr} {s : ℕ} {P Q : ℝ[X]} (hf : Rep I f s P) (hg : Rep I g s Q) (al be : ℝ)
    (hl : s ≤ I.ld) : Rep I (axpy s I.nintv al f I.ld be g I.ld) s (C al * P + C be * Q) := fun j hj =>
  ⟨by rw [axpy_ser _ _ _ _ _ _ _ _ hl hj, (hf j hj).1, (hg j hj).1]; simp,
   fun i a b => by rw [axpy_apply _ _ _ _ _ _ _ _ _ hl b, if_neg (by omega), (hg j hj).2 i a b]⟩

theorem Rep.mulX {I : CrIn} {f g : Arr} {d : ℕ} {P : ℝ[X]} (hf : Rep I f (d + 1) P) (hl : d + 2 ≤ I.ld)
    (hg : ∀ j < I.nintv, ∀ i, d + 2 ≤ i → i < I.ld → g (j * I.ld + i) = 0) :
    Rep I (mulX f (d + 1) I.ld I.intv I.nintv g I.ld) (d + 2) (X * P) := fun j hj =>
  ⟨by rw [mulX_ser _ _ _ _ _ _ _ hl j hj, (hf j hj).1, mul_comp, X_comp]; rfl,
   fun i a b => by rw [mulX_out _ _ _ _ _ _ _ hl j i a b, hg j hj i a b]⟩

theorem Rep.inner {I : CrIn} {f g : Arr} {s s' : ℕ} {P Q : ℝ[X]} (hf : Rep I f s P) (hg : Rep I g s' Q) :
    innerP f s I.nintv I.ld g s' I.nintv I.ld I.w = Lf I.nintv I.intv I.w (P * Q) := by
  rw [innerP_eq, min_self, Lf_apply]
  refine sum_congr rfl fun j hj => ?_
  have hj := mem_range.mp hj
  rw [(hf j hj).1, (hg j hj).1, mul_comp]

theorem Rep.innerF {I : CrIn} {g : Arr} {s' : ℕ} {Q : ℝ[X]} (hg : Rep I g s' Q) :
    innerP I.bf I.nbase I.nintv I.nbase g s' I.nintv I.ld I.w = Ff I.nintv I.intv I.w I.bf I.nbase Q := by
  rw [innerP_eq, min_self]
  refine sum_congr rfl fun j hj => ?_
  have hj := mem_range.mp hj
  rw [(hg j hj).1]

/-- The sequence of polynomials of the iteration. -/
noncomputable def crSeq (I : CrIn) (k : ℕ) : Ps :=
  psSeq (Lf I.nintv I.intv I.w) (Ff I.nintv I.intv I.w I.bf I.nbase) k

/-- The state before iteration `k`. -/
structure CrInv (I : CrIn) (k : ℕ) (s : CrSt) : Prop where
  sp : s.sp = k + 2
  sr : s.sr = k + 2
  sc : s.sc = k + 2
  sap : s.sap = k + 3
  sar : s.sar = k + 3
  p : Rep I s.p (k + 2) (crSeq I k).p
  r : Rep I s.r (k + 2) (crSeq I k).r
  c : Rep I s.c (k + 2) (crSeq I k).c
  ap : Rep I s.ap (k + 3) (X * (crSeq I k).p)
  ar : ∀ j < I.nintv, ∀ i, k + 3 ≤ i → i < I.ld → s.ar (j * I.ld + i) = 0
  rho : s.rho = psRho (Lf I.nintv I.intv I.w) (crSeq I k)
  nan : ¬ s.nan

theorem one_apply (n ld : ℕ) (hl : 0 < ld) (j i : ℕ) (hi : i < ld) :
    loop n (fun j f => wr f (j * ld) 1) (fun _ => (0 : ℝ)) (j * ld + i) = if j < n ∧ i = 0 then 1 else 0 := by
  induction n with
  | zero => rw [loop, if_neg (by omega)]
  | succ n ih =>
    rw [loop]
    by_cases h : j = n ∧ i = 0
    · obtain ⟨rfl, rfl⟩ := h
      rw [show j * ld + 0 = j * ld by omega, wr_same, if_pos (by omega)]
    · rw [wr_ne, ih]
      · by_cases h' : j < n ∧ i = 0
        · rw [if_pos h', if_pos (by omega)]
        · rw [if_neg h', if_neg (by omega)]
      · intro he
        rcases lt_trichotomy j n with h1 | h1 | h1
        · have := mul_sep (ld := ld) h1; omega
        · subst h1; omega
        · have := mul_sep (ld := ld) h1; omega

theorem one_rep (I : CrIn) (hl : 2 ≤ I.ld) :
    Rep I (loop I.nintv (fun j f => wr f (j * I.ld) 1) (fun _ => 0)) 2 1 := fun j hj => by
  refine ⟨?_, fun i a b => ?_⟩
  · rw [ser, sum_range_succ, sum_range_one, one_apply _ _ (by omega) _ _ (by omega),
      one_apply _ _ (by omega) _ _ (by omega), if_pos ⟨hj, rfl⟩, if_neg (by omega)]
    simp
  · rw [one_apply _ _ (by omega) _ _ b, if_neg (by omega)]

theorem copy_apply (n m ld : ℕ) (g : Arr) (j i : ℕ) (hm : m ≤ ld) (hi : i < ld) :
    loop m (fun i f => loop n (fun j f => wr f (i + j * ld) (g (i + j * ld))) f) (fun _ => (0 : ℝ)) (j * ld + i) =
      if i < m ∧ j < n then g (j * ld + i) else 0 := by
  have inner : ∀ (a n : ℕ) (f : Arr), a < ld → loop n (fun j f => wr f (a + j * ld) (g (a + j * ld))) f (j * ld + i) =
      if i = a ∧ j < n then g (j * ld + i) else f (j * ld + i) := by
    intro a n f ha
    induction n with
    | zero => rw [loop, if_neg (by omega)]
    | succ n ih =>
      rw [loop]
      by_cases h : i = a ∧ j = n
      · obtain ⟨rfl, rfl⟩ := h
        rw [show i + j * ld = j * ld + i by omega, wr_same, if_pos (by omega)]
      · rw [wr_ne, ih]
        · by_cases h' : i = a ∧ j < n
          · rw [if_pos h', if_pos (by omega)]
          · rw [if_neg h', if_neg (by omega)]
        · intro he
          rcases lt_trichotomy j n with h1 | h1 | h1
          · have := mul_sep (ld := ld) h1; omega
          · subst h1; omega
          · have := mul_sep (ld := ld) h1; omega
  induction m with
  | zero => rw [loop, if_neg (by omega)]
  | succ m ih =>
    rw [loop, inner m n _ (by omega), ih (by omega)]
    by_cases h : i = m ∧ j < n
    · rw [if_pos h, if_pos (by omega)]
    · rw [if_neg h]
      by_cases h' : i < m ∧ j < n
      · rw [if_pos h', if_pos (by omega)]
      · rw [if_neg h', if_neg (by omega)]

theorem crInit_ar (I : CrIn) : (crInit I).ar = loop 3 (fun i f => loop I.nintv (fun j f =>
    wr f (i + j * I.ld) ((mulX (loop I.nintv (fun j f => wr f (j * I.ld) 1) (fun _ => 0)) 2 I.ld I.intv I.nintv (fun _ => 0) I.ld) (i + j * I.ld))) f)
    (fun _ => 0) := rfl

theorem crInit_inv (I : CrIn) (hl : 3 ≤ I.ld) : CrInv I 0 (crInit I) := by
  have h1 := one_rep I (by omega)
  have h2 : Rep I (mulX (loop I.nintv (fun j f => wr f (j * I.ld) 1) (fun _ => 0)) 2 I.ld I.intv I.nintv (fun _ => 0) I.ld) 3 (X * 1) :=
    Rep.mulX h1 hl (fun _ _ _ _ _ => rfl)
  have h3 : Rep I (crInit I).ar 3 (X * 1) := fun j hj => by
    refine ⟨?_, fun i a b => ?_⟩
    · rw [← (h2 j hj).1]
      refine ser_congr fun i hi => ?_
      rw [crInit_ar, copy_apply _ _ _ _ _ _ hl (by omega), if_pos ⟨hi, hj⟩]
    · rw [crInit_ar, copy_apply _ _ _ _ _ _ hl b, if_neg (by omega)]
  refine ⟨rfl, rfl, rfl, rfl, rfl, h1, h1, h1, h2, fun j hj i a b => (h3 j hj).2 i a b, ?_, fun h => h⟩
  show innerP _ 2 I.nintv I.ld (crInit I).ar 3 I.nintv I.ld I.w = _
  rw [Rep.inner h1 h3]
  rfl

/-- The state after the first part of iteration `k`. -/
theorem crA_inv (I : CrIn) (hpart : Part I.nintv I.intv I.w) (k : ℕ) (s : CrSt) (h : CrInv I k s) (hl : k + 3 ≤ I.ld) :
    Rep I (crA I s).r (k + 3) (crSeq I (k + 1)).r ∧ Rep I (crA I s).c (k + 3) (crSeq I (k + 1)).c ∧
    (crA I s).alp0 = psAl0 (Lf I.nintv I.intv I.w) (crSeq I k) ∧
    (crA I s).alp = psAl (Lf I.nintv I.intv I.w) (Ff I.nintv I.intv I.w I.bf I.nbase) (crSeq I k) ∧ ¬ (crA I s).nan := by
  have hden : innerP s.ap s.sap I.nintv I.ld s.ap s.sap I.nintv I.ld I.w = psDen (Lf I.nintv I.intv I.w) (crSeq I k) := by
    rw [h.sap]; exact Rep.inner h.ap h.ap
  have hrho1 : innerP I.bf I.nbase I.nintv I.nbase s.ap s.sap I.nintv I.ld I.w =
      Ff I.nintv I.intv I.w I.bf I.nbase (X * (crSeq I k).p) := by
    rw [h.sap]; exact Rep.innerF h.ap
  have e0 : (crA I s).alp0 = psAl0 (Lf I.nintv I.intv I.w) (crSeq I k) := by
    show s.rho / innerP s.ap s.sap I.nintv I.ld s.ap s.sap I.nintv I.ld I.w = _
    rw [hden, h.rho]; rfl
  have e1 : (crA I s).alp = psAl (Lf I.nintv I.intv I.w) (Ff I.nintv I.intv I.w I.bf I.nbase) (crSeq I k) := by
    show (s.rho - innerP I.bf I.nbase I.nintv I.nbase s.ap s.sap I.nintv I.ld I.w) /
      innerP s.ap s.sap I.nintv I.ld s.ap s.sap I.nintv I.ld I.w = _
    rw [hden, hrho1, h.rho]; rfl
  refine ⟨?_, ?_, e0, e1, ?_⟩
  · have : (crA I s).r = axpy (k + 3) I.nintv (-(crA I s).alp0) s.ap I.ld 1 s.r I.ld := by
      show axpy (s.sr + 1) _ _ _ _ _ _ _ = _
      rw [h.sr]; rfl
    rw [this, e0]
    have := Rep.axpy h.ap (Rep.mono h.r (by omega) hl) (-psAl0 (Lf I.nintv I.intv I.w) (crSeq I k)) 1 hl
    convert this using 1
    show (psSeq _ _ (k + 1)).r = _
    rw [r_succ]
    simp only [crSeq, C_neg, map_one]; ring
  · have : (crA I s).c = axpy (k + 3) I.nintv (-(crA I s).alp) s.ap I.ld 1 s.c I.ld := by
      show axpy (s.sc + 1) _ _ _ _ _ _ _ = _
      rw [h.sc]; rfl
    rw [this, e1]
    have := Rep.axpy h.ap (Rep.mono h.c (by omega) hl) (-psAl (Lf I.nintv I.intv I.w) (Ff I.nintv I.intv I.w I.bf I.nbase) (crSeq I k)) 1 hl
    convert this using 1
    show (psSeq _ _ (k + 1)).c = _
    rw [c_succ]
    simp only [crSeq, C_neg, map_one]; ring
  · show ¬ (s.nan ∨ innerP s.ap s.sap I.nintv I.ld s.ap s.sap I.nintv I.ld I.w = 0)
    rw [hden]
    rintro (h' | h')
    · exact h.nan h'
    · exact (den_pos (pos_of_part hpart) k).ne' h'

theorem crB_inv (I : CrIn) (hpart : Part I.nintv I.intv I.w) (k : ℕ) (s : CrSt) (h : CrInv I k s) (hl : k + 4 ≤ I.ld) :
    Rep I (crB I (crA I s)).ar (k + 4) (X * (crSeq I (k + 1)).r) ∧
    (crB I (crA I s)).rho = psRho (Lf I.nintv I.intv I.w) (crSeq I (k + 1)) ∧
    (crB I (crA I s)).bet = psBet (Lf I.nintv I.intv I.w) (crSeq I k) ∧ ¬ (crB I (crA I s)).nan := by
  obtain ⟨hr, hc, ha0, ha, hn⟩ := crA_inv I hpart k s h (by omega)
  have har : Rep I (crB I (crA I s)).ar (k + 4) (X * (crSeq I (k + 1)).r) := by
    have : (crB I (crA I s)).ar = mulX (crA I s).r (k + 2 + 1) I.ld I.intv I.nintv s.ar I.ld := by
      show mulX (crA I s).r (s.sr + 1) I.ld I.intv I.nintv s.ar I.ld = _
      rw [h.sr]
    rw [this]
    exact Rep.mulX hr hl (fun j hj i a b => h.ar j hj i (by omega) b)
  have hrho : (crB I (crA I s)).rho = psRho (Lf I.nintv I.intv I.w) (crSeq I (k + 1)) := by
    show innerP (crA I s).r (s.sr + 1) I.nintv I.ld (crB I (crA I s)).ar (s.sar + 1) I.nintv I.ld I.w = _
    rw [h.sr, h.sar]
    exact Rep.inner hr har
  refine ⟨har, hrho, ?_, ?_⟩
  · show (crB I (crA I s)).rho / s.rho = _
    rw [hrho, h.rho]; rfl
  · show ¬ ((crA I s).nan ∨ s.rho = 0)
    rintro (h' | h')
    · exact hn h'
    · rw [h.rho] at h'
      exact (rho_pos (pos_of_part hpart) k).ne' h'

theorem crIter_inv (I : CrIn) (hpart : Part I.nintv I.intv I.w) (k : ℕ) (s : CrSt) (h : CrInv I k s) (hl : k + 4 ≤ I.ld) :
    CrInv I (k + 1) (crIter I s) := by
  obtain ⟨hr, hc, ha0, ha, hn⟩ := crA_inv I hpart k s h (by omega)
  obtain ⟨har, hrho, hbet, hn'⟩ := crB_inv I hpart k s h hl
  refine ⟨?_, ?_, ?_, ?_, ?_, ?_, hr, hc, ?_, fun j hj i a b => (har j hj).2 i (by omega) b, hrho, hn'⟩
  · show s.sp + 1 = _; rw [h.sp]
  · show s.sr + 1 = _; rw [h.sr]
  · show s.sc + 1 = _; rw [h.sc]
  · show s.sap + 1 = _; rw [h.sap]
  · show s.sar + 1 = _; rw [h.sar]
  · have : (crIter I s).p = axpy (k + 3) I.nintv 1 (crA I s).r I.ld (crB I (crA I s)).bet s.p I.ld := by
      show axpy (s.sp + 1) _ _ _ _ _ _ _ = _
      rw [h.sp]; rfl
    rw [this, hbet]
    have := Rep.axpy hr (Rep.mono h.p (by omega) (by omega)) 1 (psBet (Lf I.nintv I.intv I.w) (crSeq I k)) (by omega)
    convert this using 1
    show (psSeq _ _ (k + 1)).p = _
    rw [p_succ]; simp only [crSeq, map_one, one_mul]
  · have : (crIter I s).ap = axpy (k + 4) I.nintv 1 (crB I (crA I s)).ar I.ld (crB I (crA I s)).bet s.ap I.ld := by
      show axpy (s.sap + 1) _ _ _ _ _ _ _ = _
      rw [h.sap]; rfl
    rw [this, hbet]
    have := Rep.axpy har (Rep.mono h.ap (by omega) hl) 1 (psBet (Lf I.nintv I.intv I.w) (crSeq I k)) hl
    convert this using 1
    show X * (psSeq _ _ (k + 1)).p = _
    rw [p_succ]; simp only [crSeq, map_one, one_mul]; ring

theorem crLoop_inv (I : CrIn) (hpart : Part I.nintv I.intv I.w) (hl3 : 3 ≤ I.ld) (k : ℕ) (hl : k + 3 ≤ I.ld) :
    CrInv I k (loop k (fun _ s => crIter I s) (crInit I)) := by
  induction k with
  | zero => exact crInit_inv I hl3
  | succ k ih => exact crIter_inv I hpart k _ (ih (by omega)) (by omega)

end Verif.Filt
