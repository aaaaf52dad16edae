import Verif.NDef.MatFun

/-!
# Deflation of nonlinear eigenproblems by invariant pairs (src/nep/impls/nepdefl.c)

Arrays are functions of the indices: `X j i` is entry `i` of column `j` of the basis, `H c r` is the entry in column `c` and row `r`
(`extop->H[c*ld+r]`).  Numbers are complex and exact.  A vector of the extended problem consists of its part in the space of the
problem and of the `szd` additional entries, of which every process has a copy.
-/

set_option linter.all false

namespace Verif.NDef
open Matrix

variable {ι : Type} [Fintype ι] [DecidableEq ι] {q : ℕ}

/-- a problem in split form: the number of terms, the coefficient matrices `nep->A[j]` and the functions `nep->f[j]` -/
structure Prob (ι : Type) where
  nt : ℕ
  A : Fin nt → Matrix ι ι ℂ
  f : Fin nt → MatFun

/-- `NEPComputeFunction` for a problem in split form -/
def Prob.T (P : Prob ι) (l : ℂ) : Matrix ι ι ℂ := ∑ j, (P.f j).at l • P.A j

/-- `NEPComputeJacobian` for a problem in split form -/
def Prob.J (P : Prob ι) (l : ℂ) : Matrix ι ι ℂ := ∑ j, (P.f j).der l • P.A j

/-- deflation context, `struct _n_nep_ext_op` (nepdefl.h): number of locked pairs, size of the additional part, the invariant pair, the
    products `X^* X`, the roots of the polynomial basis, the minimality index -/
structure Ext (ι : Type) where
  n : ℕ
  szd : ℕ
  X : ℕ → ι → ℂ
  H : ℕ → ℕ → ℂ
  XpX : ℕ → ℕ → ℂ
  bc : ℕ → ℂ
  midx : ℕ

/-- the first `n` columns of the basis -/
def Ext.Xm (e : Ext ι) (n : ℕ) : Matrix ι (Fin n) ℂ := Matrix.of fun i j => e.X j i
/-- the leading block of order `n` of `H` -/
def Ext.Hm (e : Ext ι) (n : ℕ) : Matrix (Fin n) (Fin n) ℂ := Matrix.of fun i j => e.H j i
/-- the leading block of order `n` of `XpX` -/
def Ext.Gm (e : Ext ι) (n : ℕ) : Matrix (Fin n) (Fin n) ℂ := Matrix.of fun i j => e.XpX j i

/-- vector of the extended problem on `q+1` processes: the distributed part and, on every process, the additional entries
    (nepdefl.c:115-133: every process has `szd` more entries) -/
structure EVec (ι : Type) (q : ℕ) where
  x : ι → ℂ
  t : Fin (q + 1) → ℕ → ℂ

/-- the root of the number of processes, `PetscSqrtReal(np)` -/
noncomputable def rt (q : ℕ) : ℂ := ((Real.sqrt ((q : ℝ) + 1) : ℝ) : ℂ)

/-- 2-norm of a distributed vector (`BVNormColumn`, `VecNorm`) -/
noncomputable def nrm2 (x : ι → ℂ) : ℝ := Real.sqrt (∑ i, ‖x i‖ ^ 2)

/-- `NEPDeflationInitialize` (nepdefl.c:701-748): nothing locked, arrays cleared; `sz` is the number of wanted eigenvalues -/
def initExt (X : ℕ → ι → ℂ) (sz : ℕ) : Ext ι :=
  { n := 0, szd := sz - 1, X := X, H := fun _ _ => 0, XpX := fun _ _ => 0, bc := fun _ => 0, midx := 0 }

/-- `NEPDeflationExtendInvariantPair` (nepdefl.c:23-41).  The entries of the additional part are those of the last process (the
    broadcast of nepdefl.c:100).  `none`: the first part of the vector is zero and the code divides by zero (line 36). -/
noncomputable def extend (e : Ext ι) (u : EVec ι q) (l : ℂ) (k : ℕ) : Option (Ext ι) :=
  if nrm2 u.x = 0 then none
  else some { e with
    X := fun j => if j = k then fun i => u.x i * ((1 / nrm2 u.x : ℝ) : ℂ) else e.X j
    H := fun c r =>
      if c = k then
        if r = k then l
        else if r < k then (if r < e.szd then u.t (Fin.last q) r else e.H c r) * (rt q / (nrm2 u.x : ℂ))
        else if r < e.szd then u.t (Fin.last q) r else e.H c r
      else e.H c r }

/-- `NEPDeflationLocking` (nepdefl.c:219-240): `mm` is `extop->max_midx`, `tgt` the target of the problem.  The polynomial basis evaluated
    in `H` (line 237) is not stored here but computed where it is used, see `pmat`. -/
noncomputable def lock (mm : ℕ) (tgt : ℂ) (e : Ext ι) (u : EVec ι q) (l : ℂ) : Option (Ext ι) :=
  match extend e u l e.n with
  | none => none
  | some e1 =>
    if e1.n + 1 ≤ e1.szd then
      some { e1 with
        n := e1.n + 1
        XpX := fun c r =>
          if c = e1.n then (if r = e1.n then 1 else if r < e1.n then ∑ i, star (e1.X r i) * e1.X e1.n i else e1.XpX c r)
          else if r = e1.n ∧ c < e1.n then star (∑ i, star (e1.X c i) * e1.X e1.n i) else e1.XpX c r
        midx := min mm (e1.n + 1)
        bc := fun i => if i < min mm (e1.n + 1) then tgt else e1.bc i }
    else some { e1 with n := e1.n + 1 }

/-- `NEPDeflationExtractEigenpair` (nepdefl.c:43-74).  `z` is the vector returned by the dense eigensolver (a parameter, lines 52-66); the
    additional entries of the result are zero (the array `t` is cleared, line 54). -/
noncomputable def extract (e : Ext ι) (u : EVec ι q) (l : ℂ) (k : ℕ) (z : ℕ → ℂ) : Option (Ext ι × EVec ι q) :=
  match extend e u l k with
  | none => none
  | some e1 =>
    let x : ι → ℂ := fun i => (∑ j ∈ Finset.range k, e1.X j i * z j) + z k * e1.X k i
    some ({ e1 with X := fun j => if j = k then x else e1.X j }, { x := x, t := fun _ _ => 0 })

/-! ### Polynomial basis -/

/-- `NEPDeflationEvaluateBasis` without derivative (nepdefl.c:377-379) -/
def bval (bc : ℕ → ℂ) (l : ℂ) : ℕ → ℂ
  | 0 => 1
  | k + 1 => bval bc l k * (l - bc k)

/-- `NEPDeflationEvaluateBasis` with derivative (nepdefl.c:381-386); the variable `p` of the code is `bval` -/
def bder (bc : ℕ → ℂ) (l : ℂ) : ℕ → ℂ
  | 0 => 0
  | k + 1 => bder bc l k * (l - bc k) + bval bc l k

section mat
variable {κ : Type} [Fintype κ] [DecidableEq κ]

/-- `NEPDeflationEvaluateBasisMat` with negative index (nepdefl.c:198-215): the polynomials of the basis evaluated in `H` -/
def pmat (bc : ℕ → ℂ) (H : Matrix κ κ ℂ) : ℕ → Matrix κ κ ℂ
  | 0 => 1
  | k + 1 => (H - bc k • (1 : Matrix κ κ ℂ)) * pmat bc H k

/-- `NEPDeflationEvaluateBasisMat` with positive index and `hat` (nepdefl.c:202-205), called in the loop of lines 510-515; `v` are the
    values (or derivatives) of the basis, the matrix before the first one is zero (line 498) -/
def qmat (bc : ℕ → ℂ) (H : Matrix κ κ ℂ) (v : ℕ → ℂ) : ℕ → Matrix κ κ ℂ
  | 0 => 0
  | k + 1 => (H - bc k • (1 : Matrix κ κ ℂ)) * qmat bc H v k + v k • (1 : Matrix κ κ ℂ)

/-- the matrix `A` of the second block row (nepdefl.c:500-505) -/
def Amat (bc : ℕ → ℂ) (H : Matrix κ κ ℂ) (midx : ℕ) (jac : Bool) (v : ℕ → ℂ) : Matrix κ κ ℂ :=
  (if jac then 0 else 1) + ∑ k ∈ Finset.Ico 1 midx, v k • (pmat bc H k)ᴴ

/-- the matrix `B` of the second block row (nepdefl.c:508-515) -/
def Bmat (bc : ℕ → ℂ) (H G : Matrix κ κ ℂ) (midx : ℕ) (v : ℕ → ℂ) : Matrix κ κ ℂ :=
  ∑ k ∈ Finset.Ico 1 midx, (pmat bc H k)ᴴ * (G * qmat bc H v k)

/-! ### The coupling block -/

/-- the matrix on which the functions are evaluated (nepdefl.c:258-285 with derivative, order `3n`) -/
def hatArg (H : Matrix κ κ ℂ) (l : ℂ) : Matrix ((κ ⊕ κ) ⊕ κ) ((κ ⊕ κ) ⊕ κ) ℂ :=
  fromBlocks (fromBlocks H 1 0 (l • (1 : Matrix κ κ ℂ))) (fromRows 0 1) 0 (l • (1 : Matrix κ κ ℂ))

/-- `NEPDeflationEvaluateHatFunction`: the blocks `hfj` (nepdefl.c:289) -/
def hfj (f : MatFun) (H : Matrix κ κ ℂ) (l : ℂ) : Matrix κ κ ℂ := (f.ev (hatArg H l)).toBlocks₁₁.toBlocks₁₂

/-- `NEPDeflationEvaluateHatFunction`: the blocks `hfjp` (nepdefl.c:290) -/
def hfjp (f : MatFun) (H : Matrix κ κ ℂ) (l : ℂ) : Matrix κ κ ℂ := (f.ev (hatArg H l)).toBlocks₁₂.toRows₁

/-- the coupling block from the functions of block matrices (nepdefl.c:459-475) -/
def Uhat (P : Prob ι) (X : Matrix ι κ ℂ) (H : Matrix κ κ ℂ) (jac : Bool) (l : ℂ) : Matrix ι κ ℂ :=
  ∑ j, P.A j * X * (if jac then hfjp (P.f j) H l else hfj (P.f j) H l)

/-- the simple formula for the coupling block (nepdefl.c:478-496); the inverse is that of a triangular matrix (`LAPACKtrtri`), singular
    matrices are an error, see `simpOk` -/
noncomputable def Usimp (P : Prob ι) (X : Matrix ι κ ℂ) (H : Matrix κ κ ℂ) (jac : Bool) (l : ℂ) : Matrix ι κ ℂ :=
  let F := (l • (1 : Matrix κ κ ℂ) - H)⁻¹
  if jac then P.J l * X * F - P.T l * X * F * F else P.T l * X * F

/-- `LAPACKtrtri` reports an error unless the matrix is nonsingular -/
def simpOk (H : Matrix κ κ ℂ) (l : ℂ) : Prop := (l • (1 : Matrix κ κ ℂ) - H).det ≠ 0

end mat

/-- data of the shell matrix of the extended operator, `NEP_DEF_MATSHELL` -/
structure Shell (ι : Type) (n : ℕ) where
  T : Matrix ι ι ℂ
  U : Matrix ι (Fin n) ℂ
  A : Matrix (Fin n) (Fin n) ℂ
  B : Matrix (Fin n) (Fin n) ℂ

/-- `NEPDeflationComputeShellMat` (nepdefl.c:391-522) computed anew; the caching of its parts is in `CacheModel` -/
noncomputable def shell (P : Prob ι) (e : Ext ι) (simpU jac : Bool) (l : ℂ) : Shell ι e.n :=
  let v := if jac then bder e.bc l else bval e.bc l
  { T := if jac then P.J l else P.T l
    U := if simpU then Usimp P (e.Xm e.n) (e.Hm e.n) jac l else Uhat P (e.Xm e.n) (e.Hm e.n) jac l
    A := Amat e.bc (e.Hm e.n) e.midx jac v
    B := Bmat e.bc (e.Hm e.n) (e.Gm e.n) e.midx v }

/-- `MatMult_NEPDeflation` (nepdefl.c:299-340).  The entries `i` of the first part are computed by the process `own i` with its own copy of
    the additional entries; the products with `X` are sums over all processes.  In refinement mode (`ref`) only the original operator is
    applied and the additional entries are zero (line 314). -/
noncomputable def mulE (S : Shell ι n) (X : Matrix ι (Fin n) ℂ) (ref : Bool) (own : ι → Fin (q + 1)) (v y0 : EVec ι q) : EVec ι q :=
  if ref || decide (n = 0) then { x := S.T *ᵥ v.x, t := if ref then fun _ _ => 0 else y0.t }
  else
    { x := fun i => (S.T *ᵥ v.x) i + ∑ k : Fin n, S.U i k * (v.t (own i) k * rt q)
      t := fun p k =>
        if h : k < n then
          ((S.A *ᵥ (Xᴴ *ᵥ v.x)) ⟨k, h⟩ + ∑ j : Fin n, S.B ⟨k, h⟩ j * v.t p j) / rt q
        else y0.t p k }

/-- the matrix `M` of `NEPDeflationSolveSetUp` (nepdefl.c:558-589) before inversion; exact solves with `T` -/
noncomputable def schurM (S : Shell ι n) (X : Matrix ι (Fin n) ℂ) (H G : Matrix (Fin n) (Fin n) ℂ) (simpU : Bool) (l : ℂ) :
    Matrix (Fin n) (Fin n) ℂ :=
  S.B - S.A * (if simpU then -(G * (H - l • (1 : Matrix (Fin n) (Fin n) ℂ))⁻¹) else Xᴴ * (S.T⁻¹ * S.U))

/-- `NEPDeflationFunctionSolve` (nepdefl.c:596-651) with the operators prepared for `l`; `M` is the matrix of `schurM`.  The additional entries of
    the result are those of the last process (line 641). -/
noncomputable def solveE (S : Shell ι n) (X : Matrix ι (Fin n) ℂ) (H M : Matrix (Fin n) (Fin n) ℂ) (simpU ref : Bool) (l : ℂ)
    (own : ι → Fin (q + 1)) (b x0 : EVec ι q) : EVec ι q :=
  let x1 := S.T⁻¹ *ᵥ b.x
  if ref || decide (n = 0) then { x := x1, t := if ref then fun _ _ => 0 else x0.t }
  else
    let x2 : Fin (q + 1) → Fin n → ℂ := fun p => M⁻¹ *ᵥ ((fun k : Fin n => b.t p k * rt q) - S.A *ᵥ (Xᴴ *ᵥ x1))
    let w : Fin (q + 1) → Fin n → ℂ := fun p => -((H - l • (1 : Matrix (Fin n) (Fin n) ℂ))⁻¹ *ᵥ x2 p)
    { x := fun i => x1 i - (if simpU then (X *ᵥ w (own i)) i else ((S.T⁻¹ * S.U) *ᵥ x2 (own i)) i)
      t := fun p k => if h : k < n then x2 (Fin.last q) ⟨k, h⟩ / rt q else x0.t p k }

/-- `NEPDeflationSetRandomVec` (nepdefl.c:162-184): `r` are the random entries; the entries beyond the locked ones are cleared and the others are
    those of the first process -/
noncomputable def randE (n : ℕ) (r : EVec ι q) : EVec ι q :=
  { x := r.x, t := fun p k => if k < n then r.t 0 k / rt q else 0 }

/-- 2-norm of an extended vector (`VecNorm`): all entries of all processes -/
noncomputable def nrmE (szd : ℕ) (v : EVec ι q) : ℝ :=
  Real.sqrt ((∑ i, ‖v.x i‖ ^ 2) + ∑ p, ∑ k ∈ Finset.range szd, ‖v.t p k‖ ^ 2)

end Verif.NDef
