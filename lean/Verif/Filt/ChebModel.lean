import Verif.Filt.Model
import Mathlib.Analysis.SpecialFunctions.Trigonometric.Inverse

/-!
# Model of the Chebyshev filter (STFILTER)

Source: `/repo/src/sys/classes/st/impls/filter/chebyshev.c`.  Exact real arithmetic.
-/

set_option linter.all false

namespace Verif.Filt

variable {V : Type*} [AddCommGroup V] [Module ℝ V]

/-- `STFilterDamping`, include/slepcst.h. -/
inductive Damping
  | none | jackson | lanczos | fejer
  deriving DecidableEq

/-- Local variables of `MatMult_Chebyshev`: the output vector, the two work vectors, and their
indices, chebyshev.c:28-37. -/
structure CSt (V : Type*) where
  y : V
  wk : ℕ → V
  w0 : ℕ
  w1 : ℕ
  s1 : ℝ
  s2 : ℝ

/-- One iteration of the loop of `MatMult_Chebyshev`, chebyshev.c:43-56; `e k` is
`damping_coeffs[k]*coeffs[k]`. -/
noncomputable def cIter (T : V →ₗ[ℝ] V) (e : Arr) (degree : ℕ) (x : V) (i : ℕ) (s : CSt V) : CSt V :=
  let w0 := 1 - s.w0
  let w1 := 1 - s.w1
  let wk := Function.update s.wk w0 s.y
  let s1 := if i + 1 = degree then s.s1 / 2 else s.s1
  let s2 := if i + 1 = degree then s.s2 / 2 else s.s2
  let y := e (degree - i - 1) • x + (-1 : ℝ) • wk w1 + s2 • s.y
  let wk' := Function.update wk w1 (T (wk w0))
  { y := y + s1 • wk' w1, wk := wk', w0 := w0, w1 := w1, s1 := s1, s2 := s2 }

/-- `MatMult_Chebyshev`, chebyshev.c:23-58; `junk` is the contents of the work vectors before the
call. -/
noncomputable def chebMult (T : V →ₗ[ℝ] V) (d c : Arr) (left right : ℝ) (degree : ℕ) (junk : ℕ → V) (x : V) : V :=
  let e : Arr := fun k => d k * c k
  (loop degree (cIter T e degree x)
    { y := e degree • x, wk := Function.update junk 0 0, w0 := 0, w1 := 1,
      s1 := 4 / (right - left), s2 := -2 * (right + left) / (right - left) }).y

/-- One iteration of the loop of `MatMatMult_Chebyshev`, chebyshev.c:98-112 (blocks are families
of vectors). -/
noncomputable def cIterB {ι : Type*} (T : V →ₗ[ℝ] V) (e : Arr) (degree : ℕ) (B : ι → V) (i : ℕ) (s : CSt (ι → V)) :
    CSt (ι → V) :=
  let w0 := 1 - s.w0
  let w1 := 1 - s.w1
  let W := Function.update s.wk w0 s.y
  let s1 := if i + 1 = degree then s.s1 / 2 else s.s1
  let s2 := if i + 1 = degree then s.s2 / 2 else s.s2
  let C := s2 • s.y
  let C := C + (-1 : ℝ) • W w1
  let C := C + e (degree - i - 1) • B
  let W' := Function.update W w1 (fun j => T (W w0 j))
  { y := C + s1 • W' w1, wk := W', w0 := w0, w1 := w1, s1 := s1, s2 := s2 }

/-- `MatMatMult_Chebyshev`, chebyshev.c:64-114.  Reallocation of the work matrices is left out:
their contents are arbitrary. -/
noncomputable def chebMatMult {ι : Type*} (T : V →ₗ[ℝ] V) (d c : Arr) (left right : ℝ) (degree : ℕ)
    (junk : ℕ → ι → V) (B : ι → V) : ι → V :=
  let e : Arr := fun k => d k * c k
  (loop degree (cIterB T e degree B)
    { y := e degree • B, wk := Function.update junk 0 ((0 : ℝ) • junk 0), w0 := 0, w1 := 1,
      s1 := 4 / (right - left), s2 := -2 * (right + left) / (right - left) }).y

/-- `Chebyshev_Compute_Damping_Coefficients`, chebyshev.c:146-176. -/
noncomputable def damp (t : Damping) (degree : ℕ) : Arr := fun i =>
  if i = 0 then 1
  else match t with
    | .none => 1
    | .lanczos => (Real.sin (i * Real.pi / (degree + 1)) / (i * Real.pi / (degree + 1))) ^ 2
    | .jackson =>
      let invdeg := 1 / ((degree : ℝ) + 2)
      invdeg * (((degree : ℝ) + 2 - i) * Real.cos (Real.pi * i * invdeg) +
        Real.sin (Real.pi * i * invdeg) / Real.tan (Real.pi * invdeg))
    | .fejer => 1 - i / ((degree : ℝ) + 1)

/-- Loop of `Chebyshev_Compute_Coefficients`, chebyshev.c:133-138: the array, `t1`, `t2`. -/
noncomputable def coefLoop (d : Arr) (acosa acosb : ℝ) (degree : ℕ) (junk : Arr) : Arr × ℝ × ℝ :=
  let t := (acosa - acosb) / Real.pi
  loop degree (fun i s =>
    let co := wr s.1 (i + 1) (2 * (Real.sin ((i + 1) * acosa) - Real.sin ((i + 1) * acosb)) / ((i + 1) * Real.pi))
    (co, s.2.1 + d (i + 1) * co (i + 1) * Real.cos ((i + 1) * acosa),
      s.2.2 + d (i + 1) * co (i + 1) * Real.cos ((i + 1) * acosb))) (wr junk 0 t, t, t)

/-- The ends of the interval in `[-1,1]`, chebyshev.c:127. -/
noncomputable def sInta (inta left right : ℝ) : ℝ := max ((2 * inta - (right + left)) / (right - left)) (-1)

/-- chebyshev.c:128. -/
noncomputable def sIntb (intb left right : ℝ) : ℝ := min ((2 * intb - (right + left)) / (right - left)) 1

/-- The scale factor, chebyshev.c:139-141. -/
noncomputable def coefScale (sa sb t1 t2 : ℝ) : ℝ :=
  if sa = -1 then 0.5 / |t1|
  else if sb = 1 then 0.5 / min |t1| |t2|
  else 0.5 / min |t1| |t2|

/-- `Chebyshev_Compute_Coefficients`, chebyshev.c:116-144. -/
noncomputable def coefs (d : Arr) (inta intb left right : ℝ) (degree : ℕ) (junk : Arr) : Arr :=
  let sa := sInta inta left right
  let sb := sIntb intb left right
  let r := coefLoop d (Real.arccos sa) (Real.arccos sb) degree junk
  let s := coefScale sa sb r.2.1 r.2.2
  loop (degree + 1) (fun i co => wr co i (s * co i)) r.1

/-- `Chebyshev_Clenshaw_Damping_Real`, chebyshev.c:208-230; the pair is `(t1,t2)`. -/
noncomputable def clenshaw (d c : Arr) (degree : ℕ) (x0 : ℝ) : ℝ :=
  let x := 2 * x0
  let t := loop (degree / 2) (fun j (t : ℝ × ℝ) =>
    let i := degree - 2 * j
    let t2 := d i * c i + x * t.1 - t.2
    let t1 := d (i - 1) * c (i - 1) + x * t2 - t.1
    (t1, t2)) (0, 0)
  let t := if degree % 2 = 1 then
      let t2 := d 1 * c 1 + x * t.1 - t.2
      (t2, t2)
    else t
  d 0 * c 0 + 0.5 * x * t.1 - t.2

/-- `STFilterGetThreshold_Filter_Chebyshev`, chebyshev.c:238-249. -/
noncomputable def chebThreshold (d c : Arr) (inta left right : ℝ) (degree : ℕ) : ℝ :=
  let cc := (right + left) / 2
  let e := (right - left) / 2
  clenshaw d c degree ((inta - cc) / e)

/-- Set-up and threshold together, chebyshev.c:184-192 and 238-249. -/
noncomputable def filtThreshold (t : Damping) (inta intb left right : ℝ) (degree : ℕ) (junk : Arr) : ℝ :=
  chebThreshold (damp t degree) (coefs (damp t degree) inta intb left right degree junk) inta left right degree

end Verif.Filt
