import Verif.NDef.LockInv

/-!
# C139, C145: the locked solutions form an invariant pair and give eigenpairs of the original problem
-/

set_option linter.all false

namespace Verif.NDef
open Matrix

variable {ι : Type} [Fintype ι] [DecidableEq ι] {q mm : ℕ} {tgt : ℂ} {simpU : Bool} {P : Prob ι} {e : Ext ι} {ls : List ℂ}

theorem sum_fin (n : ℕ) (g : ℕ → ℂ) : ∑ k : Fin n, g k = ∑ j ∈ Finset.range n, g j := (Finset.sum_range g).symm

/-- an eigenvector of the triangular matrix gives an eigenvector of the problem -/
theorem pair_eig {κ : Type} [Fintype κ] [DecidableEq κ] {X : Matrix ι κ ℂ} {H : Matrix κ κ ℂ} (hd : DomP P H) (hp : InvPair P X H) {th : ℂ}
    (hth : InΩ P th) {z : κ → ℂ} (hz : H *ᵥ z = th • z) : P.T th *ᵥ (X *ᵥ z) = 0 := by
  have h1 : ∀ j, (P.f j).ev H * col1 z = (P.f j).at th • col1 z := by
    intro j
    have := (P.f j).inter H (th • (1 : Matrix (Fin 1) (Fin 1) ℂ)) (col1 z) (hd j) (dom_smul_one (hth j)) (by
      rw [mul_col1, hz, Matrix.mul_smul, Matrix.mul_one]; rfl)
    rw [this, ev_smul_one _ (hth j), Matrix.mul_smul, Matrix.mul_one]
  have h2 : (∑ j, P.A j * X * (P.f j).ev H) * col1 z = 0 := by
    unfold InvPair at hp; rw [hp, Matrix.zero_mul]
  rw [Matrix.sum_mul] at h2
  have h3 : ∀ j, P.A j * X * (P.f j).ev H * col1 z = (P.f j).at th • (P.A j * (X * col1 z)) := by
    intro j
    rw [Matrix.mul_assoc, h1, Matrix.mul_smul, Matrix.mul_assoc]
  rw [Finset.sum_congr rfl fun j _ => h3 j, ← T_mul, mul_col1, mul_col1] at h2
  funext i
  have := congrFun (congrFun h2 i) 0
  exact this

theorem inv_run (h : Run P q mm tgt simpU e ls) : Inv P mm e ls := by
  induction h with
  | init X sz => exact inv_init P mm X sz
  | accept hr hn hu hs hk ih => exact inv_step ih hn hs.1 hu (sol_row1 ih.dom ih.pair hs) hk
  | @extracted e e1 e' ls u u1 l x t z hr hn hu hs hx hz hzn hk ih =>
    have ih1 := inv_extract ih hx
    obtain ⟨h0, hn1, hsz, hm, hb, hG, hX, hH, hux, hut⟩ := extract_some hx
    -- the extracted vector is an eigenvector
    have hT : P.T l *ᵥ u1.x = 0 := by
      -- lock the solution itself to get the extended invariant pair
      obtain ⟨e2, hk2⟩ : ∃ e2, lock mm tgt e u l = some e2 := by
        unfold lock extend
        rw [if_neg h0]
        dsimp only
        by_cases h1 : e.n + 1 ≤ e.szd
        · rw [if_pos h1]; exact ⟨_, rfl⟩
        · rw [if_neg h1]; exact ⟨_, rfl⟩
      have hI2 := inv_step ih hn hs.1 hu (sol_row1 ih.dom ih.pair hs) hk2
      obtain ⟨_, hn2, hsz2, hX2, hH2⟩ := lock_some hk2
      have vH : e2.Hm (e.n + 1) = e1.Hm (e.n + 1) := by
        ext i j
        show e2.H j i = e1.H j i
        rw [hH2, hH]
      have hd2 := hI2.dom
      have hp2 := hI2.pair
      rw [hn2] at hd2 hp2
      have := pair_eig hd2 hp2 hs.1 (z := fun k => z k) (by rw [vH]; exact hz)
      rw [← this]
      congr 1
      funext i
      rw [hux]
      show (∑ j ∈ Finset.range e.n, e.X j i * z j) + z e.n * (u.x i * ((1 / nrm2 u.x : ℝ) : ℂ)) = ∑ k : Fin (e.n + 1), e2.X k i * z k
      rw [sum_fin (e.n + 1) (fun k => e2.X k i * z k), Finset.sum_range_succ]
      have hne : e2.X e.n = fun i => u.x i * ((1 / nrm2 u.x : ℝ) : ℂ) := by rw [hX2, if_pos rfl]
      rw [hne]
      congr 1
      · refine Finset.sum_congr rfl fun j hj => ?_
        rw [hX2, if_neg (by have := Finset.mem_range.1 hj; omega)]
      · exact mul_comm _ _
    refine inv_step (x := u1.x) (t := fun _ => 0) ih1 (by rw [hn1, hsz]; exact hn) hs.1 ⟨rfl, fun p k => ?_, fun p k _ => hut p k⟩ ?_ hk
    · rw [hut, zero_div]
    · rw [hT, zero_add]
      funext i; simp [mulVec, dotProduct]

/-- **C139** (partial).  After any number of accepted solutions, on any number of processes and for any bound on the minimality index,
    the pair `(X,H)` satisfies the nonlinear equation, `H` is upper triangular with the accepted eigenvalues on its diagonal in the order
    of acceptance, and the columns of `X` have unit norm.  Partial: exact arithmetic, exact solutions; the linear independence is
    `C139_independent`, its price is `C139_count` and `C139_false`. -/
theorem C139_partial (h : Run P q mm tgt simpU e ls) :
    (∑ j, P.A j * e.Xm e.n * (P.f j).ev (e.Hm e.n) = 0) ∧ ls.length = e.n ∧ (∀ i, i < e.n → ls[i]? = some (e.H i i)) ∧
      (∀ c r, c < e.n → c < r → e.H c r = 0) ∧ ∀ j, j < e.n → nrm2 (e.X j) = 1 :=
  let hI := inv_run h
  ⟨hI.pair, hI.len, hI.diag, hI.tri, hI.unit⟩

/-- the columns are linearly independent -/
def Indep (e : Ext ι) (n : ℕ) : Prop := ∀ c : ℕ → ℂ, (∀ i, ∑ j ∈ Finset.range n, e.X j i * c j = 0) → ∀ j, j < n → c j = 0

theorem orth_sum {x : ι → ℂ} {n : ℕ} (ho : (e.Xm n)ᴴ *ᵥ x = 0) {j : ℕ} (hj : j < n) : ∑ i, star (x i) * e.X j i = 0 := by
  have := congrFun ho ⟨j, hj⟩
  simp only [mulVec, dotProduct, conjTranspose_apply, Ext.Xm, Matrix.of_apply, Pi.zero_apply] at this
  have h2 := congrArg star this
  rw [star_sum, star_zero] at h2
  rw [← h2]
  refine Finset.sum_congr rfl fun i _ => ?_
  rw [star_mul', star_star, mul_comm]

theorem indep_step {e' : Ext ι} {n : ℕ} {x : ι → ℂ} {a : ℕ → ℂ} {b : ℂ} (hx : x ≠ 0) (ho : (e.Xm n)ᴴ *ᵥ x = 0) (hb : b ≠ 0)
    (hX : ∀ j, j < n → e'.X j = e.X j) (hn : ∀ i, e'.X n i = (∑ j ∈ Finset.range n, e.X j i * a j) + b * x i) (hI : Indep e n) :
    Indep e' (n + 1) := by
  intro c hc
  have h1 : ∀ i, (∑ j ∈ Finset.range n, e.X j i * (c j + a j * c n)) + b * c n * x i = 0 := by
    intro i
    have := hc i
    rw [Finset.sum_range_succ, hn] at this
    rw [← this]
    rw [Finset.sum_congr rfl (fun j hj => by rw [hX j (Finset.mem_range.1 hj)] :
      ∀ j ∈ Finset.range n, e'.X j i * c j = e.X j i * c j)]
    rw [add_mul, Finset.sum_mul, ← add_assoc, ← Finset.sum_add_distrib]
    congr 1
    · refine Finset.sum_congr rfl fun j _ => by ring
    · ring
  have h2 : ∑ i, star (x i) * ((∑ j ∈ Finset.range n, e.X j i * (c j + a j * c n)) + b * c n * x i) = 0 :=
    Finset.sum_eq_zero fun i _ => by rw [h1 i, mul_zero]
  have h3 : ∑ i, star (x i) * (∑ j ∈ Finset.range n, e.X j i * (c j + a j * c n)) = 0 := by
    simp only [Finset.mul_sum]
    rw [Finset.sum_comm]
    refine Finset.sum_eq_zero fun j hj => ?_
    have := orth_sum ho (Finset.mem_range.1 hj)
    calc ∑ i, star (x i) * (e.X j i * (c j + a j * c n)) = (∑ i, star (x i) * e.X j i) * (c j + a j * c n) := by
          rw [Finset.sum_mul]; exact Finset.sum_congr rfl fun i _ => by ring
      _ = 0 := by rw [this, zero_mul]
  simp only [mul_add] at h2
  rw [Finset.sum_add_distrib] at h2
  simp only [mul_add] at h3
  rw [h3, zero_add] at h2
  have h4 : ∑ i, star (x i) * (b * c n * x i) = b * c n * (nrm2 x : ℂ) ^ 2 := by
    rw [nrm2_sq, Finset.mul_sum]; exact Finset.sum_congr rfl fun i _ => by ring
  rw [h4] at h2
  have hnx : (nrm2 x : ℂ) ≠ 0 := by
    have : nrm2 x ≠ 0 := fun h => hx (nrm2_eq_zero.1 h)
    exact_mod_cast this
  have hcn : c n = 0 := by
    rcases mul_eq_zero.1 h2 with h | h
    · rcases mul_eq_zero.1 h with h | h
      · exact absurd h hb
      · exact h
    · exact absurd h (pow_ne_zero 2 hnx)
  intro j hj
  by_cases hjn : j = n
  · rw [hjn]; exact hcn
  · have := hI (fun j => c j + a j * c n) (fun i => by
      have := h1 i
      rw [hcn] at this ⊢
      simpa using this) j (by omega)
    simpa [hcn] using this

/-- **C139** (partial).  With the minimality index of the code (`MAX_MINIDX` is one) the columns of `X` are linearly independent. -/
theorem C139_independent (hm : mm ≤ 1) (h : Run P q mm tgt simpU e ls) :
    ∀ c : Fin e.n → ℂ, e.Xm e.n *ᵥ c = 0 → c = 0 := by
  have key : Indep e e.n := by
    induction h with
    | init X sz => intro c _ j hj; exact absurd hj (Nat.not_lt_zero _)
    | @accept e e' ls u l x t hr hn hu hs hk ih =>
      obtain ⟨h0, hn', _, hX, _⟩ := lock_some hk
      have hI := inv_run hr
      rw [hn']
      have ho := sol_orth (by rw [hI.midx hn]; omega) hs
      have hnu : nrm2 u.x ≠ 0 := h0
      refine indep_step (x := x) (a := fun _ => 0) (b := ((1 / nrm2 u.x : ℝ) : ℂ)) ?_ ho ?_ ?_ ?_ ih
      · intro hc; rw [← hu.1] at hc; exact h0 (nrm2_eq_zero.2 hc)
      · exact_mod_cast one_div_ne_zero hnu
      · intro j hj; rw [hX, if_neg (by omega)]
      · intro i; rw [hX, if_pos rfl, hu.1]; simp [mul_comm]
    | @extracted e e1 e' ls u u1 l x t z hr hn hu hs hx hz hzn hk ih =>
      obtain ⟨h0, hn1, hsz, hm', hb, hG, hX, hH, hux, hut⟩ := extract_some hx
      obtain ⟨h01, hn', _, hX', _⟩ := lock_some hk
      have hI := inv_run hr
      rw [hn', hn1]
      have ho := sol_orth (by rw [hI.midx hn]; omega) hs
      refine indep_step (e := e) (x := x) (a := fun j => z j * ((1 / nrm2 u1.x : ℝ) : ℂ))
        (b := z e.n * ((1 / nrm2 u.x : ℝ) : ℂ) * ((1 / nrm2 u1.x : ℝ) : ℂ)) ?_ ho ?_ ?_ ?_ ih
      · intro hc; rw [← hu.1] at hc; exact h0 (nrm2_eq_zero.2 hc)
      · have a1 : ((1 / nrm2 u.x : ℝ) : ℂ) ≠ 0 := by exact_mod_cast one_div_ne_zero h0
        have a2 : ((1 / nrm2 u1.x : ℝ) : ℂ) ≠ 0 := by exact_mod_cast one_div_ne_zero h01
        exact mul_ne_zero (mul_ne_zero hzn a1) a2
      · intro j hj; rw [hX', if_neg (by omega), hX j (by omega)]
      · intro i
        rw [hX', if_pos hn1.symm, show u1.x i = _ from congrFun hux i, hu.1, add_mul, Finset.sum_mul]
        congr 1
        · exact Finset.sum_congr rfl fun j _ => by ring
        · ring
  intro c hc
  have := key (fun j => if hj : j < e.n then c ⟨j, hj⟩ else 0) (fun i => by
    have h1 := congrFun hc i
    simp only [mulVec, dotProduct, Ext.Xm, Matrix.of_apply, Pi.zero_apply] at h1
    rw [← h1, ← sum_fin e.n]
    refine Finset.sum_congr rfl fun k _ => ?_
    rw [dif_pos k.2])
  funext k
  have h2 := this k k.2
  rw [dif_pos k.2] at h2
  exact h2

/-- **C139** (negation of the unrestricted claim).  No matter how many eigenvalues are requested and how many the problem has, the number of
    locked pairs never exceeds the dimension of the problem. -/
theorem C139_count (hm : mm ≤ 1) (h : Run P q mm tgt simpU e ls) : ls.length ≤ Fintype.card ι := by
  have hi := C139_independent hm h
  rw [(inv_run h).len]
  have hinj : Function.Injective (e.Xm e.n).mulVecLin := by
    rw [injective_iff_map_eq_zero]
    intro c hc
    exact hi c hc
  have := LinearMap.finrank_le_finrank_of_injective hinj
  simpa using this

/-- **C139** (orthogonality).  A solution of the deflated problem that is accepted directly is orthogonal to all columns locked before. -/
theorem C139_orthogonal (hm : mm ≤ 1) (h : Run P q mm tgt simpU e ls) (hn : e.n ≤ e.szd) {u : EVec ι q} {l : ℂ} {x : ι → ℂ} {t : Fin e.n → ℂ}
    (hu : Rep e.n u x t) (hs : Sol P e simpU l x t) {e' : Ext ι} (hk : lock mm tgt e u l = some e') (j : ℕ) (hj : j < e.n) :
    ∑ i, star (e'.X e.n i) * e'.X j i = 0 := by
  obtain ⟨h0, hn', _, hX, _⟩ := lock_some hk
  have ho := sol_orth (by rw [(inv_run h).midx hn]; omega) hs
  have := orth_sum ho hj
  rw [hX, if_pos rfl, hX, if_neg (by omega)]
  rw [hu.1] at *
  calc ∑ i, star (x i * ((1 / nrm2 x : ℝ) : ℂ)) * e.X j i = star ((1 / nrm2 x : ℝ) : ℂ) * ∑ i, star (x i) * e.X j i := by
        rw [Finset.mul_sum]; exact Finset.sum_congr rfl fun i _ => by rw [star_mul']; ring
    _ = 0 := by rw [this, mul_zero]

/-! ### C145 -/

/-- `NEPComputeVectors_Schur` (nepdefault.c:183-206): the vector is multiplied by the basis and normalized; `none`: division by zero -/
noncomputable def schurVec (e : Ext ι) (z : Fin e.n → ℂ) : Option (ι → ℂ) :=
  let y := e.Xm e.n *ᵥ z
  if nrm2 y = 0 then none else some fun i => y i * ((1 / nrm2 y : ℝ) : ℂ)

/-- **C145** (returned eigenpairs).  Every eigenvector of `H` gives, with its eigenvalue, an eigenpair of the original problem with a unit vector;
    the normalization never divides by zero.  The eigenvalues of `H` are the accepted ones. -/
theorem C145_returned (hm : mm ≤ 1) (h : Run P q mm tgt simpU e ls) {th : ℂ} {z : Fin e.n → ℂ} (hth : InΩ P th) (hz0 : z ≠ 0)
    (hz : e.Hm e.n *ᵥ z = th • z) : ∃ y, schurVec e z = some y ∧ nrm2 y = 1 ∧ IsEig P th y := by
  have hI := inv_run h
  have hy : e.Xm e.n *ᵥ z ≠ 0 := fun hc => hz0 (C139_independent hm h z hc)
  have hny : nrm2 (e.Xm e.n *ᵥ z) ≠ 0 := fun hc => hy (nrm2_eq_zero.1 hc)
  refine ⟨_, by unfold schurVec; exact if_neg hny, nrm2_scale hny, ?_, ?_⟩
  · intro hc
    have := nrm2_scale hny
    rw [hc] at this
    rw [nrm2_eq_zero.2 rfl] at this
    exact zero_ne_one this
  · have h1 := pair_eig hI.dom hI.pair hth hz
    have : (fun i => (e.Xm e.n *ᵥ z) i * ((1 / nrm2 (e.Xm e.n *ᵥ z) : ℝ) : ℂ)) = ((1 / nrm2 (e.Xm e.n *ᵥ z) : ℝ) : ℂ) • (e.Xm e.n *ᵥ z) := by
      funext i; simp [mul_comm]
    rw [this, mulVec_smul, h1, smul_zero]

theorem tri_det {n : ℕ} (e : Ext ι) (htri : ∀ c r, c < n → c < r → e.H c r = 0) (z : ℂ) :
    (z • (1 : Matrix (Fin n) (Fin n) ℂ) - e.Hm n).det = ∏ i : Fin n, (z - e.H i i) := by
  rw [det_of_upperTriangular]
  · refine Finset.prod_congr rfl fun i _ => ?_
    simp [Ext.Hm]
  · intro i j hij
    have hij' : j < i := hij
    simp only [Matrix.sub_apply, Matrix.smul_apply, Matrix.one_apply_ne (ne_of_gt hij'), smul_zero, zero_sub, neg_eq_zero]
    exact htri j i j.2 (Fin.lt_def.1 hij')

/-- **C145** (returned eigenvalues).  The eigenvalues of `H` are exactly the accepted ones, and each of them belongs to an eigenpair of the original
    problem. -/
theorem C145_values (hm : mm ≤ 1) (h : Run P q mm tgt simpU e ls) (th : ℂ) :
    (∃ z : Fin e.n → ℂ, z ≠ 0 ∧ e.Hm e.n *ᵥ z = th • z) ↔ th ∈ ls := by
  have hI := inv_run h
  have h1 : (∃ z : Fin e.n → ℂ, z ≠ 0 ∧ e.Hm e.n *ᵥ z = th • z) ↔ (th • (1 : Matrix (Fin e.n) (Fin e.n) ℂ) - e.Hm e.n).det = 0 := by
    rw [← exists_mulVec_eq_zero_iff]
    refine exists_congr fun z => and_congr_right fun _ => ?_
    rw [sub_mulVec, smul_mulVec, one_mulVec, sub_eq_zero, eq_comm]
  rw [h1, tri_det e hI.tri, Finset.prod_eq_zero_iff]
  constructor
  · rintro ⟨i, _, hi⟩
    rw [sub_eq_zero] at hi
    have := hI.diag i i.2
    rw [← hi] at this
    exact List.mem_of_getElem? this
  · intro hmem
    obtain ⟨i, hi, hie⟩ := List.getElem_of_mem hmem
    have hin : i < e.n := by rw [← hI.len]; exact hi
    refine ⟨⟨i, hin⟩, Finset.mem_univ _, ?_⟩
    have := hI.diag i hin
    rw [List.getElem?_eq_getElem hi, hie] at this
    rw [sub_eq_zero]; exact Option.some.inj this

end Verif.NDef
