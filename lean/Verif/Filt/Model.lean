import Mathlib.Data.Real.Basic
import Mathlib.Analysis.Real.Pi.Bounds
import Mathlib.Algebra.Module.LinearMap.Defs

/-!
# Model of the kernels of the FILTLAN filter (STFILTER)

Source: `/repo/src/sys/classes/st/impls/filter/filtlan.c`.

Arrays are functions of the index; a write changes one entry.  Scalars are real numbers (exact
arithmetic); a division by zero sets the flag `nan` of the state.
-/

set_option linter.all false

namespace Verif.Filt

/-- An array of reals. -/
abbrev Arr := ℕ → ℝ

/-- The write `f[i] = v`. -/
def wr (f : Arr) (i : ℕ) (v : ℝ) : Arr := fun k => if k = i then v else f k

/-- `for (i=0;i<n;i++) s = f(i,s)`. -/
def loop {α : Type*} : ℕ → (ℕ → α → α) → α → α
  | 0, _, s => s
  | n + 1, f, s => f n (loop n f s)

/-- The inner loop of `FILTLAN_NewtonPolynomial`, filtlan.c:57-61, `k` running from `j+c-1` down
to `j` (`c` is the number of steps left). -/
noncomputable def newtonIn (x : Arr) (j : ℕ) : ℕ → Arr → Arr
  | 0, sf => sf
  | c + 1, sf =>
    let k := j + c
    let d := x k - x (k - j)
    newtonIn x j c (wr sf k (if d = 0 then 0 else (sf k - sf (k - 1)) / d))

/-- The outer loop of `FILTLAN_NewtonPolynomial`, filtlan.c:56-63 (`c` steps left, from `j`). -/
noncomputable def newtonOut (n : ℕ) (x : Arr) : ℕ → ℕ → Arr → Arr → Arr
  | 0, _, _, sa => sa
  | c + 1, j, sf, sa =>
    let sf' := newtonIn x j (n - j) sf
    newtonOut n x c (j + 1) sf' (wr sa j (sf' j))

/-- `FILTLAN_NewtonPolynomial`, filtlan.c:46-65; `sf0`, `sa0` are the contents of the work array
and of the output array before the call. -/
noncomputable def newton (n : ℕ) (x y sf0 sa0 : Arr) : Arr :=
  let sf : Arr := fun k => if k < n then y k else sf0 k
  newtonOut n x (n - 1) 1 sf (wr sa0 0 (sf 0))

/-- One step of the main loop of `FILTLAN_ExpandNewtonPolynomialInChebyshevBasis`,
filtlan.c:492-518; the pair is `(q,q2)`. -/
noncomputable def expandStep (n : ℕ) (c h : ℝ) (a x : Arr) (m : ℕ) (s : Arr × Arr) : Arr × Arr :=
  let h2 := h / 2
  let q := s.1
  let c2 := c - x (n - m - 1)
  let q2 := loop m (fun i w => wr w i (c2 * q i)) s.2
  let q2 := wr q2 m 0
  let q2 := wr q2 1 (q2 1 + h * q 0)
  let q2 := loop (m - 1) (fun i w => wr w i (w i + h2 * q (1 + i))) q2
  let q2 := loop (m - 1) (fun i w => wr w (2 + i) (w (2 + i) + h2 * q (1 + i))) q2
  let q := loop (m + 1) (fun i w => wr w i (q2 i)) q
  (wr q 0 (q 0 + a (n - m - 1)), q2)

/-- `FILTLAN_ExpandNewtonPolynomialInChebyshevBasis`, filtlan.c:476-521; returns the array `q`. -/
noncomputable def expand (n : ℕ) (aa bb : ℝ) (a x q0 q20 : Arr) : Arr :=
  let c := (aa + bb) / 2
  let h := (bb - aa) / 2
  (loop (n - 1) (fun i s => expandStep n c h a x (i + 1) s) (wr q0 0 (a (n - 1)), q20)).1

/-- State of `FILTLAN_HermiteBaseFilterInChebyshevBasis`: the output array and the position of
the pointer `sbf`. -/
structure HState where
  bf : Arr
  pos : ℕ

/-- One iteration of the loop over intervals of `FILTLAN_HermiteBaseFilterInChebyshevBasis`,
filtlan.c:114-174; `j` is the number of the interval, flags are integers.  The contents of the
work arrays before the call are `junk` (the loops write what they read). -/
noncomputable def hermiteStep (intv : Arr) (flags : ℕ → ℤ) (baseDeg : ℕ) (junk : Arr) (j : ℕ)
    (s : HState) : HState :=
  let m := 2 * baseDeg + 2
  let flag : ℝ := flags j
  if flag = -1 then
    let flag2 : ℝ := flags (j + 1)
    let flag0 := 1 - flag2
    let aa := intv j
    let bb := intv (j + 1)
    let y := loop (baseDeg + 1) (fun i w => wr w i flag0) junk
    let x := loop (baseDeg + 1) (fun i w => wr w i aa) junk
    let y := loop (baseDeg + 1) (fun i w => wr w (baseDeg + 1 + i) flag2) y
    let x := loop (baseDeg + 1) (fun i w => wr w (baseDeg + 1 + i) bb) x
    let pp := newton m x y junk junk
    let qq := expand m aa bb pp x junk junk
    ⟨loop m (fun i w => wr w (s.pos + i) (qq i)) s.bf, s.pos + m⟩
  else
    let bf := wr s.bf s.pos flag
    ⟨loop (2 * baseDeg + 1) (fun i w => wr w (s.pos + 1 + i) 0) bf, s.pos + 1 + (2 * baseDeg + 1)⟩

/-- `FILTLAN_HermiteBaseFilterInChebyshevBasis`, filtlan.c:102-177. -/
noncomputable def hermite (bf0 intv : Arr) (npoints : ℕ) (flags : ℕ → ℤ) (baseDeg : ℕ)
    (junk : Arr) : Arr :=
  (loop (npoints - 1) (hermiteStep intv flags baseDeg junk) ⟨bf0, 0⟩).bf

/-- The variable mapped to `[-1,1]` in `FILTLAN_PolynomialEvaluationInChebyshevBasis`,
filtlan.c:547-548. -/
noncomputable def mapped (z0 aa bb : ℝ) : ℝ :=
  if aa = -1 ∧ bb = 1 then z0 else if aa = bb then 0 else -1 + 2 * (z0 - aa) / (bb - aa)

/-- `FILTLAN_PolynomialEvaluationInChebyshevBasis`, filtlan.c:540-565; the state of the loop is
`(y,t1,t2)`, `idx` is one-based. -/
noncomputable def polyEval (pp : Arr) (m idx : ℕ) (z0 aa bb : ℝ) : ℝ :=
  let zz := mapped z0 aa bb
  let sc := (idx - 1) * m
  (loop (m - 1) (fun i (s : ℝ × ℝ × ℝ) =>
    let t0 := 2 * zz * s.2.1 - s.2.2
    (s.1 + pp (sc + 1 + i) * t0, t0, s.2.1)) (pp sc, 1, zz)).1

/-- The loop `while (++idx < npoints-1)` of
`FILTLAN_PiecewisePolynomialEvaluationInChebyshevBasis`, filtlan.c:605-608; `(idx,s)` with `s` the
position of `sintv`; `fuel` bounds the number of steps (`npoints` suffices). -/
noncomputable def srch (intv : Arr) (np : ℕ) (z0 : ℝ) : ℕ → ℕ → ℕ → ℕ × ℕ
  | 0, idx, s => (idx + 1, s)
  | fuel + 1, idx, s =>
    if idx + 1 < np - 1 then
      if z0 < intv s then (idx + 1, s) else srch intv np z0 fuel (idx + 1) (s + 1)
    else (idx + 1, s)

/-- The search of the interval, filtlan.c:601-609. -/
noncomputable def findIdx (intv : Arr) (np : ℕ) (z0 : ℝ) : ℕ × ℕ :=
  if 2 < np ∧ intv 1 ≤ z0 then srch intv np z0 np 1 2 else (1, 1)

/-- `FILTLAN_PiecewisePolynomialEvaluationInChebyshevBasis`, filtlan.c:594-626 (with
`basisTranslated` true as in line 567). -/
noncomputable def pieceEval (pp : Arr) (m : ℕ) (intv : Arr) (np : ℕ) (z0 : ℝ) : ℝ :=
  let r := findIdx intv np z0
  polyEval pp m r.1 z0 (intv (r.2 - 1)) (intv r.2)

/-- `FILTLAN_PiecewisePolynomialInnerProductInChebyshevBasis`, filtlan.c:654-674. -/
noncomputable def innerP (pp : Arr) (prows pcols ldp : ℕ) (qq : Arr) (qrows qcols ldq : ℕ)
    (w : Arr) : ℝ :=
  let deg1 := min prows qrows
  if deg1 = 0 then 0
  else
    let nintv := min pcols qcols
    (loop nintv (fun i ans =>
      let ans2 := loop deg1 (fun k a2 => a2 + pp (i * ldp + k) * qq (i * ldq + k))
        (pp (i * ldp) * qq (i * ldq))
      ans + ans2 * w i) 0) * Real.pi / 2

/-- One interval of `FILTLAN_PiecewisePolynomialInChebyshevBasisMultiplyX`,
filtlan.c:702-718. -/
noncomputable def mulXCol (pp : Arr) (deg1 ldp : ℕ) (intv : Arr) (ldq j : ℕ) (qq : Arr) : Arr :=
  let sp := j * ldp
  let sq := j * ldq
  let c := 1 / 2 * (intv j + intv (j + 1))
  let h := 1 / 2 * (intv (j + 1) - intv j)
  let h2 := 1 / 2 * h
  let qq := loop deg1 (fun i q => wr q (sq + i) (c * pp (sp + i))) qq
  let qq := wr qq (sq + deg1) 0
  let qq := wr qq (sq + 1) (qq (sq + 1) + h * pp sp)
  loop (deg1 - 1) (fun i q =>
    let tmp := h2 * pp (sp + 1 + i)
    let q := wr q (sq + i) (q (sq + i) + tmp)
    wr q (sq + 2 + i) (q (sq + 2 + i) + tmp)) qq

/-- `FILTLAN_PiecewisePolynomialInChebyshevBasisMultiplyX`, filtlan.c:695-721. -/
noncomputable def mulX (pp : Arr) (deg1 ldp : ℕ) (intv : Arr) (nintv : ℕ) (qq : Arr) (ldq : ℕ) :
    Arr :=
  loop nintv (fun j q => mulXCol pp deg1 ldp intv ldq j q) qq

/-- `Mat_AXPY_BLAS`, filtlan.c:732-745: `B := alpha*A + beta*B` on `n` rows, `k` columns. -/
noncomputable def axpy (n k : ℕ) (alpha : ℝ) (A : Arr) (lda : ℕ) (beta : ℝ) (B : Arr) (ldb : ℕ) :
    Arr :=
  if beta = 1 then
    loop k (fun j B => loop n (fun i B =>
      wr B (i + j * ldb) (B (i + j * ldb) + alpha * A (i + j * lda))) B) B
  else
    loop k (fun j B => loop n (fun i B =>
      wr B (i + j * ldb) (alpha * A (i + j * lda) + beta * B (i + j * ldb))) B) B

/-- Data of the conjugate residual iteration: leading dimension, intervals, weights, base
filter. -/
structure CrIn where
  ld : ℕ
  nintv : ℕ
  intv : Arr
  w : Arr
  bf : Arr
  nbase : ℕ

/-- State of the conjugate residual iteration in the polynomial space. -/
structure CrSt where
  p : Arr
  r : Arr
  c : Arr
  ap : Arr
  ar : Arr
  sp : ℕ
  sr : ℕ
  sc : ℕ
  sap : ℕ
  sar : ℕ
  rho : ℝ
  alp0 : ℝ := 0
  alp : ℝ := 0
  bet : ℝ := 0
  /-- a division by zero happened -/
  nan : Prop := False

/-- Initialization, filtlan.c:793-811 (and 889-907): all arrays zero (`PetscCalloc4`,
`PetscArrayzero`), the first entry of each column of `p`, `r`, `c` is one; the copy of
`appol` to `arpol`. -/
noncomputable def crInit (I : CrIn) : CrSt :=
  let one : Arr := loop I.nintv (fun j f => wr f (j * I.ld) 1) (fun _ => 0)
  let ap := mulX one 2 I.ld I.intv I.nintv (fun _ => 0) I.ld
  let ar : Arr := loop 3 (fun i f => loop I.nintv (fun j f => wr f (i + j * I.ld) (ap (i + j * I.ld))) f)
    (fun _ => 0)
  { p := one, r := one, c := one, ap := ap, ar := ar, sp := 2, sr := 2, sc := 2, sap := 3, sar := 3,
    rho := innerP one 2 I.nintv I.ld ar 3 I.nintv I.ld I.w }

/-- First part of an iteration, filtlan.c:813-820 (918-925, 1014-1021). -/
noncomputable def crA (I : CrIn) (s : CrSt) : CrSt :=
  let den := innerP s.ap s.sap I.nintv I.ld s.ap s.sap I.nintv I.ld I.w
  let alp0 := s.rho / den
  let rho1 := innerP I.bf I.nbase I.nintv I.nbase s.ap s.sap I.nintv I.ld I.w
  let alp := (s.rho - rho1) / den
  let sr := s.sr + 1
  let sc := s.sc + 1
  { s with
    sr := sr, sc := sc, alp0 := alp0, alp := alp,
    r := axpy sr I.nintv (-alp0) s.ap I.ld 1 s.r I.ld,
    c := axpy sc I.nintv (-alp) s.ap I.ld 1 s.c I.ld,
    nan := s.nan ∨ den = 0 }

/-- Second part, filtlan.c:822-826 (926-929, 937): product with `z`, new `rho` and `bet`. -/
noncomputable def crB (I : CrIn) (s : CrSt) : CrSt :=
  let sar := s.sar + 1
  let ar := mulX s.r s.sr I.ld I.intv I.nintv s.ar I.ld
  let rho := innerP s.r s.sr I.nintv I.ld ar sar I.nintv I.ld I.w
  { s with sar := sar, ar := ar, rho := rho, bet := rho / s.rho, nan := s.nan ∨ s.rho = 0 }

/-- Third part, filtlan.c:827-830 (938-941): new directions. -/
noncomputable def crC (I : CrIn) (s : CrSt) : CrSt :=
  let sp := s.sp + 1
  let sap := s.sap + 1
  { s with sp := sp, sap := sap,
           p := axpy sp I.nintv 1 s.r I.ld s.bet s.p I.ld,
           ap := axpy sap I.nintv 1 s.ar I.ld s.bet s.ap I.ld }

/-- One whole iteration. -/
noncomputable def crIter (I : CrIn) (s : CrSt) : CrSt := crC I (crB I (crA I s))

/-- `FILTLAN_FilteredConjugateResidualPolynomial`, filtlan.c:785-834: the loop stops in the
middle of the last iteration (line 821). The leading dimension is `niter+2`. -/
noncomputable def crPoly (bf : Arr) (nbase : ℕ) (intv : Arr) (m : ℕ) (w : Arr) (niter : ℕ) : CrSt :=
  let I : CrIn := ⟨niter + 2, m - 1, intv, w, bf, nbase⟩
  match niter with
  | 0 => crInit I
  | k + 1 => crA I (loop k (fun _ s => crIter I s) (crInit I))

section Vec
variable {V : Type*} [AddCommGroup V] [Module ℝ V]

/-- State of the vector iteration. -/
structure VSt (V : Type*) where
  s : CrSt
  x : V
  r : V
  p : V
  ap : V
  /-- the loop has been left by the test of line 934 -/
  done : Prop := False

/-- One iteration of `FILTLAN_FilteredConjugateResidualMatrixPolynomialVectorProduct`,
filtlan.c:917-949, with `tol` equal to zero (line 883); the vector `w` is `A r`. -/
noncomputable def vIter (I : CrIn) (A : V →ₗ[ℝ] V) (t : VSt V) : VSt V :=
  open Classical in
  if t.done then t
  else
    let s := crB I (crA I t.s)
    let x := t.x + s.alp • t.p
    if s.rho < 0 then { t with s := s, x := x, done := True }
    else
      let s' := crC I s
      let r := t.r + (-s.alp0) • t.ap
      let p := r + s.bet • t.p
      let w := A r
      { s := s', x := x, r := r, p := p, ap := w + s.bet • t.ap }

/-- `FILTLAN_FilteredConjugateResidualMatrixPolynomialVectorProduct`, filtlan.c:880-953; the
leading dimension is `niter+3`. -/
noncomputable def vProd (A : V →ₗ[ℝ] V) (b : V) (bf : Arr) (nbase : ℕ) (intv : Arr) (nintv : ℕ)
    (w : Arr) (niter : ℕ) : VSt V :=
  let I : CrIn := ⟨niter + 3, nintv, intv, w, bf, nbase⟩
  loop niter (fun _ t => vIter I A t) { s := crInit I, x := 0, r := b, p := b, ap := A b }

/-- `MatMult_FILTLAN`, filtlan.c:958-974. -/
noncomputable def matMult (T : V →ₗ[ℝ] V) (b : V) (bf : Arr) (baseDeg : ℕ) (intv : Arr)
    (npoints : ℕ) (w : Arr) (polyDegree : ℕ) : V :=
  T (vProd T b bf (2 * baseDeg + 2) intv (npoints - 1) w polyDegree).x

/-- One iteration of the block version, filtlan.c:1013-1045: the same statements for matrices,
`MatMatMult` applies `A` to every column. -/
noncomputable def bIter {ι : Type*} (I : CrIn) (A : V →ₗ[ℝ] V) (t : VSt (ι → V)) : VSt (ι → V) :=
  open Classical in
  if t.done then t
  else
    let s := crB I (crA I t.s)
    let x : ι → V := fun i => t.x i + s.alp • t.p i
    if s.rho < 0 then { t with s := s, x := x, done := True }
    else
      let s' := crC I s
      let r : ι → V := fun i => t.r i + (-s.alp0) • t.ap i
      let p : ι → V := fun i => s.bet • t.p i + r i
      let w : ι → V := fun i => A (r i)
      { s := s', x := x, r := r, p := p, ap := fun i => s.bet • t.ap i + w i }

/-- `FILTLAN_FilteredConjugateResidualMatrixPolynomialVectorProductBlock`, filtlan.c:977-1049. -/
noncomputable def bProd {ι : Type*} (A : V →ₗ[ℝ] V) (B : ι → V) (bf : Arr) (nbase : ℕ) (intv : Arr)
    (nintv : ℕ) (w : Arr) (niter : ℕ) : VSt (ι → V) :=
  let I : CrIn := ⟨niter + 3, nintv, intv, w, bf, nbase⟩
  loop niter (fun _ t => bIter I A t)
    { s := crInit I, x := 0, r := B, p := B, ap := fun i => A (B i) }

/-- `MatMatMult_FILTLAN`, filtlan.c:1054-1082 (work matrices not modelled). -/
noncomputable def matMatMult {ι : Type*} (T : V →ₗ[ℝ] V) (B : ι → V) (bf : Arr) (baseDeg : ℕ)
    (intv : Arr) (npoints : ℕ) (w : Arr) (polyDegree : ℕ) : ι → V :=
  fun i => T ((bProd T B bf (2 * baseDeg + 2) intv (npoints - 1) w polyDegree).x i)

end Vec

end Verif.Filt
