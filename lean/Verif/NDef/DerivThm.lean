import Verif.NDef.DeflThm
import Verif.NDef.DerivLem

/-!
# C144: the Jacobian of the deflated problem, and C140 for multiple eigenvalues
-/

set_option linter.all false

namespace Verif.NDef
open Matrix Filter Topology

variable {ι : Type} [Fintype ι] [DecidableEq ι] {q mm : ℕ} {tgt : ℂ} {simpU : Bool} {P : Prob ι} {e : Ext ι} {ls : List ℂ}

/-- the Jacobian of the deflated problem as a matrix -/
noncomputable def deflJac (P : Prob ι) (e : Ext ι) (simpU : Bool) (l : ℂ) : Matrix (ι ⊕ Fin e.n) (ι ⊕ Fin e.n) ℂ :=
  let S := shell P e simpU true l
  defl S.T S.U (e.Xm e.n) S.A S.B

/-- **C144**.  For every state of the deflation context on which the functions are defined, every entry of the Jacobian is the derivative of the
    entry of the deflated operator, for both formulas for the coupling block and every minimality index. -/
theorem C144 (hd : DomP P (e.Hm e.n)) {l : ℂ} (hl : InΩ P l) (hs : simpU = true → simpOk (e.Hm e.n) l) (i j : ι ⊕ Fin e.n) :
    HasDerivAt (fun m => deflMat P e simpU m i j) (deflJac P e simpU l i j) l := by
  have hT : MDeriv (fun m => (shell P e simpU false m).T) (shell P e simpU true l).T l := by
    unfold shell
    simp only [Bool.false_eq_true, if_false, if_true]
    exact T_deriv P hl
  have hU : MDeriv (fun m => (shell P e simpU false m).U) (shell P e simpU true l).U l := by
    unfold shell
    cases simpU with
    | false =>
      simp only [Bool.false_eq_true, if_false]
      exact Uhat_deriv P hd hl
    | true =>
      simp only [if_true]
      exact Usimp_deriv P hl (hs rfl)
  have hA : MDeriv (fun m => (shell P e simpU false m).A) (shell P e simpU true l).A l := by
    unfold shell
    simp only [Bool.false_eq_true, if_false, if_true]
    exact Amat_deriv _ _ _ _
  have hB : MDeriv (fun m => (shell P e simpU false m).B) (shell P e simpU true l).B l := by
    unfold shell
    simp only [Bool.false_eq_true, if_false, if_true]
    exact Bmat_deriv _ _ _ _ _
  have hAX := hA.mul_right (e.Xm e.n)ᴴ
  unfold deflMat deflJac defl
  rcases i with i | i <;> rcases j with j | j
  · exact hT i j
  · exact hU i j
  · exact hAX i j
  · exact hB i j

/-- **C144** (the two formulas).  For an invariant pair and a parameter that is not an eigenvalue of `H` the two formulas give the same deflated operator and
    the same Jacobian. -/
theorem C144_formulas (hd : DomP P (e.Hm e.n)) (hp : InvPair P (e.Xm e.n) (e.Hm e.n)) {l : ℂ} (hl : InΩ P l) (hs : simpOk (e.Hm e.n) l) :
    deflMat P e true l = deflMat P e false l ∧ deflJac P e true l = deflJac P e false l := by
  have h1 : ∀ m, InΩ P m → simpOk (e.Hm e.n) m → deflMat P e true m = deflMat P e false m := by
    intro m hm hsm
    unfold deflMat shell
    simp only [Bool.false_eq_true, if_false, if_true]
    rw [Uhat_eq_Usimp P hd hm hp hsm]
  refine ⟨h1 l hl hs, ?_⟩
  ext i j
  have e1 := C144 (simpU := true) hd hl (fun _ => hs) i j
  have e2 := C144 (simpU := false) hd hl (by simp) i j
  have hcM : Continuous fun m : ℂ => m • (1 : Matrix (Fin e.n) (Fin e.n) ℂ) - e.Hm e.n := (continuous_id.smul continuous_const).sub continuous_const
  have hev : ∀ᶠ m in 𝓝 l, (m • (1 : Matrix (Fin e.n) (Fin e.n) ℂ) - e.Hm e.n).det ≠ 0 := hcM.matrix_det.continuousAt.eventually_ne hs
  have hev2 : ∀ᶠ m in 𝓝 l, InΩ P m := by
    unfold InΩ
    rw [eventually_all]
    exact fun j => (P.f j).isOpen.mem_nhds (hl j)
  have heq : (fun m => deflMat P e true m i j) =ᶠ[𝓝 l] fun m => deflMat P e false m i j := by
    filter_upwards [hev, hev2] with m hm hm2
    rw [h1 m hm2 hm]
  exact HasDerivAt.unique (e1.congr_of_eventuallyEq heq.symm) e2

theorem list_prod_split (ls : List ℂ) (mu : ℂ) (l : ℂ) :
    (ls.map fun m => l - m).prod = (l - mu) ^ ls.count mu * ((ls.filter (fun m => m ≠ mu)).map fun m => l - m).prod := by
  induction ls with
  | nil => simp
  | cons a as ih =>
    rw [List.map_cons, List.prod_cons, ih]
    by_cases h : a = mu
    · subst h
      simp only [List.count_cons_self, pow_succ, ne_eq, not_true_eq_false, decide_false, Bool.false_eq_true, not_false_eq_true, List.filter_cons_of_neg]
      ring
    · rw [List.count_cons_of_ne h, List.filter_cons_of_pos (by simpa using h), List.map_cons, List.prod_cons]
      ring

/-- **C140** (accepted eigenvalues are removed).  If an eigenvalue has been accepted as often as it is a zero of the determinant of the original operator, the deflated
    operator is nonsingular there. -/
theorem C140_removed (hm : mm ≤ 1) (h : Run P q mm tgt false e ls) (hn : e.n ≤ e.szd) {mu : ℂ} (hmu : InΩ P mu) {g : ℂ → ℂ}
    (hg : ContinuousAt g mu) (hg0 : g mu ≠ 0) (hT : ∀ᶠ l in 𝓝 mu, (P.T l).det = (l - mu) ^ ls.count mu * g l) :
    (deflMat P e false mu).det ≠ 0 := by
  have hI := inv_run h
  obtain ⟨c, hc, hdet⟩ := C140_partial hm h hn
  set r : ℂ → ℂ := fun l => ((ls.filter (fun m => m ≠ mu)).map fun m => l - m).prod with hr
  have hcont : ContinuousAt (fun l => (deflMat P e false l).det) mu := by
    have : ContinuousAt (fun l => deflMat P e false l) mu := by
      refine continuousAt_pi.2 fun i => continuousAt_pi.2 fun j => ?_
      exact (C144 (simpU := false) hI.dom hmu (by simp) i j).continuousAt
    exact (continuous_id.matrix_det.continuousAt).comp this
  have hrc : ContinuousAt r mu := by
    have : Continuous r := continuous_list_prod _ fun m hm => continuous_id.sub continuous_const
    exact this.continuousAt
  have hr0 : r mu ≠ 0 := by
    intro h0
    rw [hr] at h0
    simp only at h0
    rw [List.prod_eq_zero_iff] at h0
    obtain ⟨m, hm, hml⟩ := List.mem_map.1 h0
    rw [sub_eq_zero] at hml
    have := (List.mem_filter.1 hm).2
    simp [← hml] at this
  have hev2 : ∀ᶠ m in 𝓝 mu, InΩ P m := by
    unfold InΩ
    rw [eventually_all]
    exact fun j => (P.f j).isOpen.mem_nhds (hmu j)
  have heq : ∀ᶠ l in 𝓝[≠] mu, (deflMat P e false l).det * r l = c * g l := by
    filter_upwards [nhdsWithin_le_nhds hT, nhdsWithin_le_nhds hev2, self_mem_nhdsWithin] with l hTl hl hne
    have h1 := hdet l hl (by simp)
    rw [list_prod_split ls mu l, hTl] at h1
    have hp : (l - mu) ^ ls.count mu ≠ 0 := pow_ne_zero _ (sub_ne_zero.2 hne)
    refine mul_left_cancel₀ hp ?_
    calc (l - mu) ^ ls.count mu * ((deflMat P e false l).det * r l)
        = (deflMat P e false l).det * ((l - mu) ^ ls.count mu * r l) := by ring
      _ = c * ((l - mu) ^ ls.count mu * g l) := h1
      _ = _ := by ring
  have t1 : Tendsto (fun l => (deflMat P e false l).det * r l) (𝓝[≠] mu) (𝓝 ((deflMat P e false mu).det * r mu)) :=
    ((hcont.mul hrc).tendsto).mono_left nhdsWithin_le_nhds
  have t2 : Tendsto (fun l => c * g l) (𝓝[≠] mu) (𝓝 (c * g mu)) := ((continuousAt_const.mul hg).tendsto).mono_left nhdsWithin_le_nhds
  have t3 := tendsto_nhds_unique (t1.congr' heq) t2
  intro h0
  rw [h0, zero_mul] at t3
  exact mul_ne_zero hc hg0 t3.symm

end Verif.NDef
