import Verif.NDef.Wit

/-!
# C143: the projected problem of NEPNARNOLDI
-/

set_option linter.all false

namespace Verif.NDef
open Matrix

variable {ι : Type} [Fintype ι] [DecidableEq ι] {nv : ℕ}

/-- the additional entries multiplied by the matrix of term `i` (nepdefl.c:793-821); the inverses are those of the triangular solves -/
noncomputable def projW (P : Prob ι) (e : Ext ι) (q : ℕ) (simpU deriv : Bool) (l : ℂ) (V2 : Matrix (Fin e.n) (Fin nv) ℂ) (i : Fin P.nt) : Matrix (Fin e.n) (Fin nv) ℂ :=
  if simpU then
    let F := (e.Hm e.n - l • (1 : Matrix (Fin e.n) (Fin e.n) ℂ))⁻¹
    let ww := (-(if deriv then (P.f i).der l else (P.f i).at l)) • (F * (rt q • V2))
    if deriv then ww + F * ((-((P.f i).at l)) • (F * (rt q • V2))) else ww
  else rt q • ((if deriv then hfjp (P.f i) (e.Hm e.n) l else hfj (P.f i) (e.Hm e.n) l) * V2)

/-- `NEPDeflationDSNEPComputeMatrix` (nepdefl.c:750-855) on `q+1` processes; `V1` are the first parts of the basis, `V2` the additional entries stored by a process
    (nepdefl.c:887-895) -/
noncomputable def projM (P : Prob ι) (e : Ext ι) (q : ℕ) (simpU ref deriv : Bool) (l : ℂ) (V1 : Matrix ι (Fin nv) ℂ) (V2 : Matrix (Fin e.n) (Fin nv) ℂ) : Matrix (Fin nv) (Fin nv) ℂ :=
  let M0 := ∑ i, (if deriv then (P.f i).der l else (P.f i).at l) • (V1ᴴ * (P.A i * V1))
  if ref then M0
  else
    let v := if deriv then bder e.bc l else bval e.bc l
    M0 + (∑ i, V1ᴴ * (P.A i * e.Xm e.n) * projW P e q simpU deriv l V2 i)
      + V2ᴴ * (Amat e.bc (e.Hm e.n) e.midx deriv v * ((e.Xm e.n)ᴴ * V1))
      + V2ᴴ * (Bmat e.bc (e.Hm e.n) (e.Gm e.n) e.midx v * V2)

variable {P : Prob ι} {e : Ext ι} {q : ℕ} {simpU deriv : Bool} {l : ℂ}

theorem inv_neg' {n : ℕ} {M : Matrix (Fin n) (Fin n) ℂ} (h : M.det ≠ 0) : (-M)⁻¹ = -M⁻¹ := by
  refine Matrix.inv_eq_right_inv ?_
  rw [neg_mul_neg, mul_nonsing_inv _ (isUnit_iff_ne_zero.2 h)]

/-- the terms with the coupling block -/
theorem projW_sum (hs : simpU = true → simpOk (e.Hm e.n) l) (V2 : Matrix (Fin e.n) (Fin nv) ℂ) :
    ∑ i, P.A i * e.Xm e.n * projW P e q simpU deriv l V2 i = (shell P e simpU deriv l).U * (rt q • V2) := by
  unfold shell projW
  cases simpU with
  | false =>
    simp only [Bool.false_eq_true, if_false]
    unfold Uhat
    rw [Matrix.sum_mul]
    refine Finset.sum_congr rfl fun i _ => ?_
    rw [Matrix.mul_smul, Matrix.mul_smul, Matrix.mul_assoc _ _ V2]
  | true =>
    have hd := hs rfl
    have hF : (e.Hm e.n - l • (1 : Matrix (Fin e.n) (Fin e.n) ℂ))⁻¹ = -(l • (1 : Matrix (Fin e.n) (Fin e.n) ℂ) - e.Hm e.n)⁻¹ := by
      rw [← inv_neg' hd, neg_sub]
    simp only [if_true, hF]
    unfold Usimp Prob.T Prob.J
    dsimp only
    generalize (l • (1 : Matrix (Fin e.n) (Fin e.n) ℂ) - e.Hm e.n)⁻¹ = F
    generalize rt q • V2 = W
    cases deriv with
    | false =>
      simp only [Bool.false_eq_true, if_false, Matrix.sum_mul]
      refine Finset.sum_congr rfl fun i _ => ?_
      simp only [Matrix.smul_mul, Matrix.mul_smul, Matrix.neg_mul, Matrix.mul_neg, neg_smul, smul_neg, neg_neg, Matrix.mul_assoc]
    | true =>
      simp only [if_true, Matrix.sum_mul, Matrix.sub_mul]
      rw [← Finset.sum_sub_distrib]
      refine Finset.sum_congr rfl fun i _ => ?_
      simp only [Matrix.smul_mul, Matrix.mul_smul, Matrix.neg_mul, Matrix.mul_neg, neg_smul, smul_neg, neg_neg, Matrix.mul_assoc, Matrix.mul_add, sub_eq_add_neg]

/-- the deflated operator or its Jacobian -/
noncomputable def deflOp (P : Prob ι) (e : Ext ι) (simpU deriv : Bool) (l : ℂ) : Matrix (ι ⊕ Fin e.n) (ι ⊕ Fin e.n) ℂ :=
  if deriv then deflJac P e simpU l else deflMat P e simpU l

theorem deflOp_eq : deflOp P e simpU deriv l = defl (shell P e simpU deriv l).T (shell P e simpU deriv l).U (e.Xm e.n) (shell P e simpU deriv l).A
    (shell P e simpU deriv l).B := by
  unfold deflOp deflJac deflMat
  cases deriv <;> rfl

theorem sandwich (T : Matrix ι ι ℂ) (U X : Matrix ι (Fin n) ℂ) (A B : Matrix (Fin n) (Fin n) ℂ) (V1 W1 : Matrix ι (Fin nv) ℂ) (V2 W2 : Matrix (Fin n) (Fin nv) ℂ) :
    (fromRows W1 W2)ᴴ * defl T U X A B * fromRows V1 V2
      = W1ᴴ * (T * V1) + W1ᴴ * (U * V2) + W2ᴴ * (A * (Xᴴ * V1)) + W2ᴴ * (B * V2) := by
  unfold defl
  rw [conjTranspose_fromRows_eq_fromCols_conjTranspose, Matrix.mul_assoc, fromBlocks_mul_fromRows, fromCols_mul_fromRows]
  rw [Matrix.mul_add, Matrix.mul_add, Matrix.mul_assoc A, ← add_assoc, add_assoc (_ * _ + _ * _)]

theorem projM_eq (hs : simpU = true → simpOk (e.Hm e.n) l) (V1 : Matrix ι (Fin nv) ℂ) (V2 : Matrix (Fin e.n) (Fin nv) ℂ) :
    projM P e q simpU false deriv l V1 V2 = V1ᴴ * ((shell P e simpU deriv l).T * V1) + V1ᴴ * ((shell P e simpU deriv l).U * (rt q • V2))
      + V2ᴴ * ((shell P e simpU deriv l).A * ((e.Xm e.n)ᴴ * V1)) + V2ᴴ * ((shell P e simpU deriv l).B * V2) := by
  rw [← projW_sum hs]
  unfold projM
  simp only [Bool.false_eq_true, if_false]
  have hT : (shell P e simpU deriv l).T = if deriv then P.J l else P.T l := by unfold shell; rfl
  rw [hT]
  congr 1
  congr 1
  congr 1
  · cases deriv with
    | false =>
      simp only [Bool.false_eq_true, if_false]
      unfold Prob.T
      rw [Matrix.sum_mul, Matrix.mul_sum]
      refine Finset.sum_congr rfl fun i _ => ?_
      rw [Matrix.smul_mul, Matrix.mul_smul]
    | true =>
      simp only [if_true]
      unfold Prob.J
      rw [Matrix.sum_mul, Matrix.mul_sum]
      refine Finset.sum_congr rfl fun i _ => ?_
      rw [Matrix.smul_mul, Matrix.mul_smul]
  · rw [Matrix.mul_sum]
    refine Finset.sum_congr rfl fun i _ => ?_
    rw [Matrix.mul_assoc]

/-- **C143** (partial).  On one process the matrix function of the projected problem is `V* T(l) V` for the deflated operator, and its derivative is `V* T'(l) V` with the
    Jacobian (which is the derivative of the deflated operator by C144), for every basis, every minimality index and both formulas.  Partial: one process, see `C143_false`. -/
theorem C143_partial (hs : simpU = true → simpOk (e.Hm e.n) l) (V1 : Matrix ι (Fin nv) ℂ) (V2 : Matrix (Fin e.n) (Fin nv) ℂ) :
    projM P e 0 simpU false deriv l V1 V2 = (fromRows V1 V2)ᴴ * deflOp P e simpU deriv l * fromRows V1 V2 := by
  have hr : rt 0 = 1 := by unfold rt; simp
  rw [projM_eq hs, deflOp_eq, sandwich, hr, one_smul]

/-- **C143** (any number of processes).  `V2 = W / sqrt(np)` are the stored entries of a basis with additional parts `W`.  With the minimality index of the code the
    matrix is a projection with a different left basis, whose additional parts are divided by the root of the number of processes. -/
theorem C143_processes (hm : e.midx ≤ 1) (hs : simpU = true → simpOk (e.Hm e.n) l) (V1 : Matrix ι (Fin nv) ℂ) (W : Matrix (Fin e.n) (Fin nv) ℂ) :
    projM P e q simpU false deriv l V1 ((rt q)⁻¹ • W) = (fromRows V1 ((rt q)⁻¹ • W))ᴴ * deflOp P e simpU deriv l * fromRows V1 W := by
  have hB : (shell P e simpU deriv l).B = 0 := by
    have hI : Finset.Ico 1 e.midx = ∅ := by rw [Finset.Ico_eq_empty_iff]; omega
    unfold shell Bmat; simp [hI]
  rw [projM_eq hs, deflOp_eq, sandwich, smul_smul, mul_inv_cancel₀ (rt_ne q), one_smul, hB, Matrix.zero_mul, Matrix.zero_mul]

/-- **C143** (negation).  On more than one process the matrix is not `V* T(l) V` as soon as the additional parts and the products of the basis with the locked vectors are
    not orthogonal: the products with the additional parts lack the factor that the others have (nepdefl.c:839). -/
theorem C143_false (hq : 0 < q) (hm : e.midx ≤ 1) (V1 : Matrix ι (Fin nv) ℂ) (W : Matrix (Fin e.n) (Fin nv) ℂ)
    (hW : Wᴴ * ((e.Xm e.n)ᴴ * V1) ≠ 0) :
    projM P e q false false false l V1 ((rt q)⁻¹ • W) ≠ (fromRows V1 W)ᴴ * deflMat P e false l * fromRows V1 W := by
  intro h
  apply hW
  have h1 := C143_processes (P := P) (simpU := false) (deriv := false) (q := q) (l := l) hm (by simp) V1 W
  rw [h1, deflOp_eq, sandwich] at h
  unfold deflMat at h
  dsimp only at h
  rw [sandwich] at h
  have hI : Finset.Ico 1 e.midx = ∅ := by rw [Finset.Ico_eq_empty_iff]; omega
  have hA : (shell P e false false l).A = 1 := by unfold shell Amat; simp [hI]
  have hB : (shell P e false false l).B = 0 := by unfold shell Bmat; simp [hI]
  rw [hA, hB, Matrix.zero_mul, Matrix.mul_zero, Matrix.mul_zero, add_zero, add_zero, Matrix.one_mul] at h
  have h2 := add_left_cancel h
  have hst : ((rt q)⁻¹ • W)ᴴ = (rt q)⁻¹ • Wᴴ := by
    rw [conjTranspose_smul]
    congr 1
    unfold rt
    rw [star_inv₀]
    congr 1
    exact Complex.conj_ofReal _
  rw [hst, Matrix.smul_mul] at h2
  have h3 : ((rt q)⁻¹ - 1) • (Wᴴ * ((e.Xm e.n)ᴴ * V1)) = 0 := by rw [sub_smul, one_smul, h2, sub_self]
  refine (smul_eq_zero.1 h3).resolve_left ?_
  intro hc
  rw [sub_eq_zero, inv_eq_one] at hc
  unfold rt at hc
  have hc' : Real.sqrt ((q : ℝ) + 1) = 1 := by exact_mod_cast hc
  rw [Real.sqrt_eq_one] at hc'
  have : (q : ℝ) = 0 := by linarith
  have : q = 0 := by exact_mod_cast this
  omega

/-- **C143** (refinement mode and no locked pairs): the projection of the original problem -/
theorem C143_plain (V1 : Matrix ι (Fin nv) ℂ) (V2 : Matrix (Fin e.n) (Fin nv) ℂ) :
    projM P e q simpU true deriv l V1 V2 = V1ᴴ * ((if deriv then P.J l else P.T l) * V1) := by
  unfold projM
  simp only [if_true]
  cases deriv with
  | false =>
    simp only [Bool.false_eq_true, if_false]
    unfold Prob.T
    rw [Matrix.sum_mul, Matrix.mul_sum]
    refine Finset.sum_congr rfl fun i _ => ?_
    rw [Matrix.smul_mul, Matrix.mul_smul]
  | true =>
    simp only [if_true]
    unfold Prob.J
    rw [Matrix.sum_mul, Matrix.mul_sum]
    refine Finset.sum_congr rfl fun i _ => ?_
    rw [Matrix.smul_mul, Matrix.mul_smul]

/-- the basis with which NEPNARNOLDI starts (narnoldi.c:65-102): one column is computed, the number of columns is the number of initial vectors if there are any -/
def startCols (nini : ℕ) : ℕ := if nini = 0 then 1 else nini

/-- the columns of the start basis: the first is the computed vector, the others have not been set -/
def startV (nini : ℕ) (f : ι → ℂ) : Matrix ι (Fin (startCols nini)) ℂ := Matrix.of fun i j => if (j : ℕ) = 0 then f i else 0

/-- **C143** (negation for several initial vectors).  With two or more initial vectors the projected matrix of the first step is singular for every parameter. -/
theorem C143_initial_false {nini : ℕ} (h2 : 2 ≤ nini) (f : ι → ℂ) (X : ℕ → ι → ℂ) (sz : ℕ) (l : ℂ) :
    (projM P (initExt X sz) q simpU false false l (startV nini f) 0).det = 0 := by
  have hc : 1 < startCols nini := by unfold startCols; rw [if_neg (by omega)]; omega
  have hz : startV nini f *ᵥ Pi.single ⟨1, hc⟩ 1 = 0 := by
    rw [mulVec_single_one]
    funext i
    simp [startV]
  refine exists_mulVec_eq_zero_iff.1 ⟨Pi.single ⟨1, hc⟩ 1, ?_, ?_⟩
  · intro h; have := congrFun h ⟨1, hc⟩; simp at this
  · have hE : IsEmpty (Fin (initExt X sz).n) := Fin.isEmpty
    unfold projM
    simp only [Bool.false_eq_true, if_false]
    simp only [conjTranspose_zero, Matrix.zero_mul, add_zero]
    have e1 : ∑ i, (startV nini f)ᴴ * (P.A i * (initExt X sz).Xm (initExt X sz).n) * projW P (initExt X sz) q simpU false l (0 : Matrix _ (Fin (startCols nini)) ℂ) i = 0 := by
      refine Finset.sum_eq_zero fun i _ => ?_
      ext a b
      rw [Matrix.mul_apply, Matrix.zero_apply]
      exact Finset.sum_eq_zero fun k _ => hE.elim k
    rw [e1, add_zero, Matrix.sum_mulVec]
    refine Finset.sum_eq_zero fun i _ => ?_
    rw [smul_mulVec, ← mulVec_mulVec, ← mulVec_mulVec, hz, mulVec_zero, mulVec_zero, smul_zero]

/-- C143_false is met: one locked pair, two processes, the basis of one vector with first part the locked vector and additional part one -/
example : ∃ e : Ext (Fin 2), Run (diagProb fun j => (j : ℂ)) 1 1 0 false e [0] ∧ e.midx ≤ 1 ∧
    ∃ (V1 : Matrix (Fin 2) (Fin 1) ℂ) (W : Matrix (Fin e.n) (Fin 1) ℂ), Wᴴ * ((e.Xm e.n)ᴴ * V1) ≠ 0 := by
  obtain ⟨e, hr, hn, hz, hX, hH⟩ := diagRun (m := 2) (q := 1) (mm := 1) (tgt := 0) (d := fun j => (j : ℂ)) 2 1 (by omega) (by omega)
  refine ⟨e, by simpa using hr, by rw [(inv_run hr).midx (by omega)]; omega, Matrix.of fun i _ => uvec 0 i, Matrix.of fun _ _ => 1, ?_⟩
  intro h
  have h1 := congrFun (congrFun h 0) 0
  simp only [mul_apply, conjTranspose_apply, Matrix.of_apply, Ext.Xm, star_one, one_mul, Matrix.zero_apply] at h1
  rw [Finset.sum_eq_single ⟨0, by omega⟩ (by
    intro b _ hb
    exfalso
    apply hb
    have := b.2
    exact Fin.ext (by show (b : ℕ) = 0; omega)) (by simp)] at h1
  rw [show (((⟨0, by omega⟩ : Fin e.n) : ℕ)) = 0 from rfl, hX 0 (by omega)] at h1
  simp [uvec] at h1

end Verif.NDef
