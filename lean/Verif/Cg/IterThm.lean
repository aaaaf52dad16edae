import Verif.Cg.IterModel
import Verif.Cg.LineThm
import Verif.Iter.Two
import Verif.Iter.SubspaceModel

/-!
# C163, C164 and C161 for whole iterations of EPSRQCG
-/
set_option linter.all false

namespace Verif.Cg

open Finset

variable {E : Type*} [NormedAddCommGroup E] [InnerProductSpace ℂ E]

theorem firstBad_spec (tol : ℝ) (err : ℕ → ℝ) : ∀ g i, i ≤ firstBad tol err i g ∧ firstBad tol err i g ≤ i + g ∧
    (∀ j, i ≤ j → j < firstBad tol err i g → err j < tol) ∧ (firstBad tol err i g < i + g → tol ≤ err (firstBad tol err i g)) := by
  intro g
  induction g with
  | zero => intro i; exact ⟨le_refl _, le_refl _, fun j h1 h2 => absurd h2 (by show ¬ j < i; omega), fun h => absurd h (by show ¬ i < i + 0; omega)⟩
  | succ g ih =>
    intro i
    unfold firstBad
    by_cases h : tol ≤ err i
    · rw [if_pos h]; exact ⟨le_refl _, by omega, fun j h1 h2 => by omega, fun _ => h⟩
    · rw [if_neg h]
      obtain ⟨h1, h2, h3, h4⟩ := ih (i + 1)
      refine ⟨by omega, by omega, fun j hj hjk => ?_, fun hlt => h4 (by omega)⟩
      rcases Nat.lt_or_ge i j with hij | hij
      · exact h3 j hij hjk
      · have : j = i := by omega
        rw [this]; exact not_le.mp h

theorem moves_other (A : E →ₗ[ℂ] E) (P rnd : ℕ → E) (l : ℕ) (V : ℕ → E) : ∀ g j, j < l ∨ l + g ≤ j → moves A P rnd l g V j = V j := by
  intro g
  induction g with
  | zero => intro j _; rfl
  | succ g ih =>
    intro j hj
    show Function.update _ _ _ j = _
    rw [Function.update_of_ne (by omega)]
    exact ih j (by omega)

theorem moves_first (A : E →ₗ[ℂ] E) (P rnd : ℕ → E) (l : ℕ) (V : ℕ → E) : ∀ g, 0 < g → moves A P rnd l g V l = normCol V rnd l (lineMove A LinearMap.id (V l) (P 0)) := by
  intro g
  induction g with
  | zero => intro h; omega
  | succ g ih =>
    intro _
    show Function.update _ _ _ l = _
    rcases Nat.eq_zero_or_pos g with rfl | hg
    · show Function.update V (l + 0) _ l = _
      rw [Nat.add_zero, Function.update_self]; rfl
    · rw [Function.update_of_ne (by omega)]
      exact ih hg

section
variable {c : RCfg} {A K : E →ₗ[ℂ] E} {its : ℕ} {rs : Option ((ℕ → ℕ → ℂ) × (ℕ → ℝ))} {rnd : ℕ → E} {st st' : RSt E} {b : Bool}

theorem vecsAt_low {l n : ℕ} {V : ℕ → E} {i : ℕ} (hi : i < l) : vecsAt l n rs V i = V i := by
  unfold vecsAt
  cases rs with
  | none => rfl
  | some q => show rotate V l n q.1 i = _; unfold rotate; rw [if_neg (by omega)]

/-- what an iteration does to eigenpairs and counters -/
theorem iter_cases (h : iter c A K its rs rnd st = some (st', b)) :
    st'.eigr = valsAt A st.nconv (c.nv st.nconv) rs st.V st.eigr ∧
    st'.errest = errAt c A st.nconv (c.nv st.nconv) (vecsAt st.nconv (c.nv st.nconv) rs st.V) st'.eigr st.errest ∧
    st'.nconv = firstBad c.tol st'.errest st.nconv (c.nv st.nconv - st.nconv) ∧ b = stopB c its st'.nconv ∧
    (b = true → st'.V = vecsAt st.nconv (c.nv st.nconv) rs st.V) ∧
    (b = false → st'.V = moves A st'.P rnd st.nconv (c.nv st.nconv - st.nconv) (vecsAt st.nconv (c.nv st.nconv) rs st.V) ∧
      ¬ ((rs.isNone && decide (1 < its)) = true ∧ ∃ i < c.nv st.nconv - st.nconv, st.gamma i = 0) ∧
      (∀ i, st'.P i = if i < c.nv st.nconv - st.nconv then dirAt A K (vecsAt st.nconv (c.nv st.nconv) rs st.V) st'.eigr (rs.isNone && decide (1 < its)) st.gamma st.P st.nconv i else st.P i) ∧
      ∀ i, st'.gamma i = if i < c.nv st.nconv - st.nconv then gamAt A K (vecsAt st.nconv (c.nv st.nconv) rs st.V) st'.eigr (st.nconv + i) else st.gamma i) := by
  unfold iter at h
  simp only at h
  by_cases hs : stopB c its (firstBad c.tol (errAt c A st.nconv (c.nv st.nconv) (vecsAt st.nconv (c.nv st.nconv) rs st.V) (valsAt A st.nconv (c.nv st.nconv) rs st.V st.eigr) st.errest) st.nconv (c.nv st.nconv - st.nconv)) = true
  · rw [if_pos hs] at h
    obtain ⟨h1, h2⟩ := Prod.mk.inj (Option.some.inj h)
    subst h1 h2
    exact ⟨rfl, rfl, rfl, hs.symm, fun _ => rfl, fun hb => Bool.noConfusion hb⟩
  · rw [if_neg hs] at h
    split_ifs at h with h0
    obtain ⟨h1, h2⟩ := Prod.mk.inj (Option.some.inj h)
    subst h1 h2
    exact ⟨rfl, rfl, rfl, (Bool.eq_false_iff.mpr hs).symm, fun hb => Bool.noConfusion hb, fun _ => ⟨rfl, h0, fun i => rfl, fun i => rfl⟩⟩

/-- **C163, the part that holds.**  In the iteration in which the loop ends, the pairs accepted have, as returned, a residual that satisfies the criterion, and the error estimate is that of the returned pair. -/
theorem C163_last_partial (h : iter c A K its rs rnd st = some (st', true)) :
    ∀ i, st.nconv ≤ i → i < st'.nconv → c.conv (st'.eigr i) ‖A (st'.V i) - (st'.eigr i : ℂ) • st'.V i‖ < c.tol ∧
      st'.errest i = c.conv (st'.eigr i) ‖A (st'.V i) - (st'.eigr i : ℂ) • st'.V i‖ := by
  obtain ⟨-, h2, h3, -, h5, -⟩ := iter_cases h
  intro i hi hik
  obtain ⟨f1, f2, f3, -⟩ := firstBad_spec c.tol st'.errest (c.nv st.nconv - st.nconv) st.nconv
  rw [← h3] at f1 f2 f3
  have he := f3 i hi hik
  have hval : st'.errest i = c.conv (st'.eigr i) ‖A (st'.V i) - (st'.eigr i : ℂ) • st'.V i‖ := by
    rw [h5 rfl]
    refine (congrFun h2 i).trans ?_
    unfold errAt
    rw [if_pos ⟨hi, by omega⟩]
    rfl
  exact ⟨by rw [← hval]; exact he, hval⟩

/-- Pairs accepted before an iteration are not changed by it. -/
theorem C163_locked (h : iter c A K its rs rnd st = some (st', b)) : st.nconv ≤ st'.nconv ∧
    ∀ i < st.nconv, st'.V i = st.V i ∧ st'.eigr i = st.eigr i ∧ st'.errest i = st.errest i := by
  obtain ⟨h1, h2, h3, -, h5, h6⟩ := iter_cases h
  refine ⟨?_, fun i hi => ⟨?_, ?_, ?_⟩⟩
  · rw [h3]; exact (firstBad_spec _ _ _ _).1
  · cases b with
    | true => rw [h5 rfl]; exact vecsAt_low hi
    | false => rw [(h6 rfl).1, moves_other _ _ _ _ _ _ _ (Or.inl hi)]; exact vecsAt_low hi
  · rw [h1]; unfold valsAt; rw [if_neg (by omega)]
  · rw [h2]; unfold errAt; rw [if_neg (by omega)]

/-- Pairs accepted are not changed in the rest of the run. -/
theorem C163_run_locked {i j : ℕ} (h : Runs c A K i st j st') : st.nconv ≤ st'.nconv ∧
    ∀ m < st.nconv, st'.V m = st.V m ∧ st'.eigr m = st.eigr m ∧ st'.errest m = st.errest m := by
  induction h with
  | refl => exact ⟨le_refl _, fun _ _ => ⟨rfl, rfl, rfl⟩⟩
  | step j st1 st2 rs rnd b _ hi ih =>
    obtain ⟨h1, h2⟩ := ih
    obtain ⟨h3, h4⟩ := C163_locked hi
    refine ⟨h1.trans h3, fun m hm => ?_⟩
    obtain ⟨a1, a2, a3⟩ := h2 m hm
    obtain ⟨b1, b2, b3⟩ := h4 m (by omega)
    exact ⟨b1.trans a1, b2.trans a2, b3.trans a3⟩

theorem gsCol_fix {V : ℕ → E} {l : ℕ} {x : E} (h : ∀ j < l, inner ℂ (V j) x = (0 : ℂ)) : Iter.gsCol V l x = x := by
  unfold Iter.gsCol
  rw [sum_eq_zero, sub_zero]
  intro j hj
  rw [h j (mem_range.mp hj), zero_smul]

theorem gsCol_perp {V : ℕ → E} {l : ℕ} (hV : Iter.OrthoN V l) (x : E) : ∀ j < l, inner ℂ (V j) (Iter.gsCol V l x) = (0 : ℂ) := by
  intro j hj
  unfold Iter.gsCol
  rw [inner_sub_right, inner_sum, sum_eq_single_of_mem j (mem_range.mpr hj)]
  · rw [inner_smul_right, hV j hj j hj, if_pos rfl]; ring
  · intro i hi hne
    rw [inner_smul_right, hV j hj i (mem_range.mp hi), if_neg (Ne.symm hne), mul_zero]

theorem rayleigh_smul (A B : E →ₗ[ℂ] E) (x : E) {r : ℝ} (hr : r ≠ 0) : rayleigh A B ((r : ℂ) • x) = rayleigh A B x := by
  unfold rayleigh
  rw [map_smul, map_smul, inner_smul_left, inner_smul_left, inner_smul_right, inner_smul_right]
  simp only [Complex.conj_ofReal, Complex.re_ofReal_mul]
  rw [mul_div_mul_left _ _ hr, mul_div_mul_left _ _ hr]

theorem id_posDef : PosDef (LinearMap.id : E →ₗ[ℂ] E) := by
  refine ⟨fun x y => rfl, fun x hx => ?_⟩
  have h := norm_sq_eq_re_inner (𝕜 := ℂ) x
  change _ = (inner ℂ x x).re at h
  have : 0 < ‖x‖ := norm_pos_iff.mpr hx
  rw [LinearMap.id_apply, ← h]
  positivity

/-- **C161 for a whole iteration** (search direction, line search and orthonormalization): the Rayleigh quotient of the first active vector does not increase. -/
theorem C161_iter (hA : A.IsSymmetric) (hV : Iter.OrthoN st.V (c.nv st.nconv)) (hlt : st.nconv < c.nv st.nconv) (h : iter c A K its none rnd st = some (st', false)) :
    rayleigh A LinearMap.id (st'.V st.nconv) ≤ rayleigh A LinearMap.id (st.V st.nconv) := by
  obtain ⟨-, -, -, -, -, h6⟩ := iter_cases h
  obtain ⟨hm, -, hP, -⟩ := h6 rfl
  have hx : st.V st.nconv ≠ 0 := by
    intro h0
    have := hV st.nconv hlt st.nconv hlt
    rw [h0] at this
    simp at this
  rw [hm, moves_first _ _ _ _ _ _ (by omega)]
  show rayleigh A LinearMap.id (normCol st.V rnd st.nconv (lineMove A LinearMap.id (st.V st.nconv) (st'.P 0))) ≤ _
  have hVl : Iter.OrthoN st.V st.nconv := fun i hi j hj => hV i (by omega) j (by omega)
  have hperp : ∀ j < st.nconv, inner ℂ (st.V j) (lineMove A LinearMap.id (st.V st.nconv) (st'.P 0)) = (0 : ℂ) := by
    intro j hj
    unfold lineMove
    rw [inner_add_right, inner_smul_right, hV j (by omega) _ hlt, if_neg (by omega), hP 0, if_pos (by omega)]
    unfold dirAt
    rw [Nat.zero_add]
    rw [show vecsAt st.nconv (c.nv st.nconv) none st.V = st.V from rfl, gsCol_perp hVl _ j hj]
    simp
  unfold normCol
  rw [gsCol_fix hperp]
  have hne := (C161_min (p := st'.P 0) hA id_posDef hx).1
  rw [if_neg hne, rayleigh_smul]
  · exact C161_decrease hA id_posDef hx
  · exact one_div_ne_zero (norm_ne_zero_iff.mpr hne)

/-- **C164, what the code does:** in an iteration with conjugate directions, the direction of vector `j` is formed with the direction and the gradient norm at position `j - nconv` of the arrays. -/
theorem C164_position (h : iter c A K its none rnd st = some (st', false)) (hits : 1 < its) {j : ℕ} (h1 : st.nconv ≤ j) (h2 : j < c.nv st.nconv) :
    st'.P (j - st.nconv) = Iter.gsCol st.V j (K (grad A st.V st'.eigr j) + (inner ℂ (grad A st.V st'.eigr j) (K (grad A st.V st'.eigr j)) / st.gamma (j - st.nconv)) • st.P (j - st.nconv)) ∧
    st'.gamma (j - st.nconv) = inner ℂ (grad A st.V st'.eigr j) (K (grad A st.V st'.eigr j)) := by
  obtain ⟨-, -, -, -, -, h6⟩ := iter_cases h
  obtain ⟨-, -, hP, hg⟩ := h6 rfl
  have e : st.nconv + (j - st.nconv) = j := by omega
  have e' : j - st.nconv + st.nconv = j := by omega
  rw [hP, if_pos (by omega), hg, if_pos (by omega)]
  unfold dirAt
  rw [e, e']
  have : ((none : Option ((ℕ → ℕ → ℂ) × (ℕ → ℝ))).isNone && decide (1 < its)) = true := by simp [hits]
  rw [this, if_pos rfl]
  exact ⟨rfl, rfl⟩

/-- After an iteration that began with `l` converged vectors, the direction and the gradient norm of vector `j`. -/
def dirOf (st' : RSt E) (l j : ℕ) : E := st'.P (j - l)
def gamOf (st' : RSt E) (l j : ℕ) : ℂ := st'.gamma (j - l)

/-- **C164, the part that holds.**  In two consecutive iterations, if nothing converged in the first one, each vector continues with its own direction and gradient norm. -/
theorem C164_partial {st0 st1 st2 : RSt E} {rs0 : Option ((ℕ → ℕ → ℂ) × (ℕ → ℝ))} {rnd0 : ℕ → E} (h0 : iter c A K its rs0 rnd0 st0 = some (st1, false)) (hits : 0 < its)
    (h : iter c A K (its + 1) none rnd st1 = some (st2, false)) (hn : st1.nconv = st0.nconv) {j : ℕ} (h1 : st1.nconv ≤ j) (h2 : j < c.nv st1.nconv) :
    dirOf st2 st1.nconv j = Iter.gsCol st1.V j (K (grad A st1.V st2.eigr j) +
      (inner ℂ (grad A st1.V st2.eigr j) (K (grad A st1.V st2.eigr j)) / gamOf st1 st0.nconv j) • dirOf st1 st0.nconv j) := by
  have := (C164_position h (by omega) h1 h2).1
  unfold dirOf gamOf
  rw [← hn]
  exact this

/-- **C164 is false of the code:** after `d` vectors have converged, each vector continues with the direction and the gradient norm of the vector `d` places before it. -/
theorem C164_shift {st0 st1 st2 : RSt E} {rs0 : Option ((ℕ → ℕ → ℂ) × (ℕ → ℝ))} {rnd0 : ℕ → E} {d : ℕ} (h0 : iter c A K its rs0 rnd0 st0 = some (st1, false)) (hits : 0 < its)
    (h : iter c A K (its + 1) none rnd st1 = some (st2, false)) (hn : st1.nconv = st0.nconv + d) {j : ℕ} (h1 : st1.nconv ≤ j) (h2 : j < c.nv st1.nconv) :
    dirOf st2 st1.nconv j = Iter.gsCol st1.V j (K (grad A st1.V st2.eigr j) +
      (inner ℂ (grad A st1.V st2.eigr j) (K (grad A st1.V st2.eigr j)) / gamOf st1 st0.nconv (j - d)) • dirOf st1 st0.nconv (j - d)) := by
  have := (C164_position h (by omega) h1 h2).1
  unfold dirOf gamOf
  rw [show j - d - st0.nconv = j - st1.nconv by omega]
  exact this

end

end Verif.Cg
