import Verif.Filt.Model

/-!
# Model of the choice of the intervals of the FILTLAN filter

Source: `/repo/src/sys/classes/st/impls/filter/filtlan.c:207-453` (`FILTLAN_GetIntervals`), with the
options set in `STCreate_Filter_FILTLAN` (filtlan.c:1187-1226).  Exact real arithmetic: the point
reached after `k` additions of the grid size is `x0 + k*gridSize`.  The value at `x` of the
polynomial computed for the break points `intv` with `np` points is `pe np intv x`, any function.
-/

set_option linter.all false

namespace Verif.Filt

open Classical

/-- The fields of the work array `intv` in the order of their indices, filtlan.c:235-245, 280-284,
299-300, 314-315. -/
def mk6 (x0 x1 x2 x3 x4 x5 : ℝ) : Arr
  | 0 => x0 | 1 => x1 | 2 => x2 | 3 => x3 | 4 => x4 | 5 => x5 | _ => 0

/-- The bisection for the centre of the plateau, filtlan.c:294-312; `g c` is the difference of the
values at the two ends of the interval for centre `c`, the first argument the iterations left. -/
noncomputable def bis (g : ℝ → ℝ) : ℕ → ℝ → ℝ → ℝ → ℝ
  | 0, c1, c2, _ => (c1 + c2) / 2
  | n + 1, c1, c2, fc2 =>
    let c := (c1 + c2) / 2
    let fc := g c
    if n = 0 ∨ |fc| ≤ 1 / 10000 then c
    else if fc * fc2 < 0 then bis g n c c2 fc2
    else bis g n c1 c fc

/-- Smallest and largest value at the grid points inside the interval, filtlan.c:326-331: `y k` is
the value at the `k`-th grid point and `ins k` the condition of the loop; the first argument bounds
the number of iterations. -/
noncomputable def minScan (y : ℕ → ℝ) (ins : ℕ → Prop) : ℕ → ℕ → ℝ → ℝ → ℝ × ℝ
  | 0, _, lo, hi => (lo, hi)
  | n + 1, k, lo, hi =>
    if ins (k + 1) then
      minScan y ins n (k + 1) (if y (k + 1) < lo then y (k + 1) else lo) (if y (k + 1) > hi then y (k + 1) else hi)
    else (lo, hi)

/-- First loop outside the interval, filtlan.c:345-351 and 366-372: walk until the value increases;
index reached and smallest value. -/
noncomputable def phase1 (y : ℕ → ℝ) (ins : ℕ → Prop) : ℕ → ℕ → ℝ → ℕ × ℝ
  | 0, k, bot => (k, bot)
  | n + 1, k, bot =>
    if ins (k + 1) then
      if y (k + 1) < bot then phase1 y ins n (k + 1) (y (k + 1))
      else if y (k + 1) > bot then (k + 1, bot)
      else phase1 y ins n (k + 1) bot
    else (k + 1, bot)

/-- Second loop outside the interval, filtlan.c:352-363 and 373-384: `true` if a new largest value
exceeds `lim`; smallest value. -/
noncomputable def phase2 (y : ℕ → ℝ) (ins : ℕ → Prop) (lim : ℝ) : ℕ → ℕ → ℝ → ℝ → Bool × ℝ
  | 0, _, _, bot => (false, bot)
  | n + 1, k, top, bot =>
    if ins (k + 1) then
      if y (k + 1) > top then
        if y (k + 1) > lim then (true, bot)
        else phase2 y ins lim n (k + 1) (y (k + 1)) (if y (k + 1) < bot then y (k + 1) else bot)
      else phase2 y ins lim n (k + 1) top (if y (k + 1) < bot then y (k + 1) else bot)
    else (false, bot)

/-- One side outside the interval: both loops, filtlan.c:344-364 and 365-385. -/
noncomputable def sideScan (y : ℕ → ℝ) (ins : ℕ → Prop) (lim y0 : ℝ) (n : ℕ) : Bool × ℝ :=
  let p := phase1 y ins n 0 y0
  phase2 y ins lim n p.1 p.2 p.2

/-- Variables of the main loop, filtlan.c:209-213; `ok`, `q`, `best`, `yl` are the fields
`filterOK`, `filterQualityIndex`, the output `intervals` and `yLimit` of the information struct. -/
structure GSt where
  z1 : ℝ
  z2 : ℝ
  lD : ℝ
  rD : ℝ
  h : ℝ
  lMet : Bool
  rMet : Bool
  more : ℕ
  ok : ℕ
  q : ℝ
  best : Arr
  yl : ℝ

/-- The data fixed during the main loop: frame, number of grid points, and whether the filter is a
mid-pass filter (`filterType` 2). -/
structure GIn where
  a : ℝ
  a1 : ℝ
  b1 : ℝ
  b : ℝ
  N : ℕ
  two : Bool

/-- Grid size, filtlan.c:232. -/
noncomputable def GIn.gs (I : GIn) : ℝ := (I.b - I.a) / I.N

/-- Number of break points, filtlan.c:236, 241. -/
def GIn.np (I : GIn) : ℕ := if I.two then 6 else 4

/-- Clamping of `z1` and `z2` to the frame, filtlan.c:269-277. -/
noncomputable def gClamp (I : GIn) (s : GSt) : GSt :=
  let s := if s.z1 ≤ I.a then { s with z1 := I.a, lMet := true } else s
  if I.two ∧ I.b ≤ s.z2 then { s with z2 := I.b, rMet := true } else s

/-- The break points of this iteration, filtlan.c:278-318. -/
noncomputable def gIntv (I : GIn) (pe : ℕ → Arr → ℝ → ℝ) (s : GSt) : Arr :=
  if I.two then
    let iv := fun c : ℝ => mk6 I.a s.z1 (c - s.h) (c + s.h) s.z2 I.b
    let g := fun c : ℝ => pe 6 (iv c) I.b1 - pe 6 (iv c) I.a1
    let c1 := s.z1 + s.h
    let c2 := s.z2 - s.h
    let fc2 := pe 6 (mk6 I.a s.z1 (c2 - s.h) s.z2 s.z2 I.b) I.b1 - pe 6 (mk6 I.a s.z1 (c2 - s.h) s.z2 s.z2 I.b) I.a1
    iv (bis g 30 c1 c2 fc2)
  else mk6 I.a s.z1 (s.z1 + (I.b1 - s.z1) * (3 / 5)) I.b 0 0

/-- Outcome of the evaluation of one filter: smallest and largest value inside the interval, steps
needed to the left and to the right, smallest value outside; filtlan.c:322-389. -/
structure GEv where
  lo : ℝ
  hi : ℝ
  stepL : Bool
  stepR : Bool
  bottom : ℝ

/-- Evaluation of the filter `F` (one minus the polynomial), filtlan.c:322-385. -/
noncomputable def gEval (I : GIn) (F : ℝ → ℝ) : GEv :=
  let yL := F I.a1
  let yR := F I.b1
  let m := minScan (fun k => F (I.a1 + k * I.gs)) (fun k => I.a1 + k * I.gs < I.b1) I.N 0
    (if yL < yR then yL else yR) (if yL > yR then yL else yR)
  let bad : Prop := (m.1 < yL ∧ m.1 < yR) ∨ m.1 < 1 / 1000
  let sL0 : Bool := if bad then true else (I.two && decide (yL < yR) && decide (yR - yL > 1 / 10000))
  let sR0 : Bool := if bad then I.two else (I.two && !decide (yL < yR) && decide (yL - yR > 1 / 10000))
  let left := sideScan (fun k => F (I.a1 - k * I.gs)) (fun k => I.a ≤ I.a1 - k * I.gs) (m.1 * (4 / 5)) yL (I.N + 1)
  let right := sideScan (fun k => F (I.b1 + k * I.gs)) (fun k => I.b1 + k * I.gs ≤ I.b) (m.1 * (4 / 5)) yR (I.N + 1)
  { lo := m.1, hi := m.2, stepL := sL0 || left.1, stepR := sR0 || (I.two && right.1), bottom := if I.two then min left.2 right.2 else left.2 }

/-- The step of the break points, filtlan.c:417-446; `none` is the exit of the loop. -/
noncomputable def gStep (I : GIn) (s : GSt) (stepL stepR : Bool) : Option GSt :=
  if s.lMet ∧ (¬ I.two ∨ s.rMet) then none
  else
    let p : Bool × Bool := if s.lMet ∧ stepL then (false, true) else (stepL, stepR)
    let p : Bool × Bool := if s.rMet ∧ p.2 then (true, false) else p
    let s := if p.1 then
        let d := if I.two then s.lD * (3 / 2) else s.lD
        { s with lD := d, z1 := s.z1 - d }
      else s
    let s := if p.2 then { s with rD := s.rD * (3 / 2), z2 := s.z2 + s.rD * (3 / 2) } else s
    some (if I.two then { s with h := if p.1 ∧ p.2 then s.h / (3 / 2) else s.h / √(3 / 2) } else s)

/-- One iteration of the main loop, filtlan.c:268-447: the state and whether the loop goes on. -/
noncomputable def gIter (I : GIn) (pe : ℕ → Arr → ℝ → ℝ) (s0 : GSt) : GSt × Bool :=
  let s := gClamp I s0
  let iv := gIntv I pe s
  let e := gEval I (fun x => 1 - pe I.np iv x)
  if e.stepL || e.stepR then
    match gStep I s e.stepL e.stepR with
    | none => (s, false)
    | some t => (t, true)
  else
    let q := 1 - (e.lo - e.bottom) / (e.hi - e.bottom)
    if s.ok = 0 ∨ s.q < q then
      let s := { s with ok := 1, q := q, best := iv, yl := e.lo, more := 0 }
      match gStep I s true I.two with
      | none => (s, false)
      | some t => (t, true)
    else if s.more + 1 = 4 then ({ s with ok := 2, more := s.more + 1 }, false)
    else
      match gStep I { s with more := s.more + 1 } true I.two with
      | none => ({ s with more := s.more + 1 }, false)
      | some t => (t, true)

/-- The main loop, filtlan.c:268. -/
noncomputable def gLoop (I : GIn) (pe : ℕ → Arr → ℝ → ℝ) : ℕ → GSt → GSt
  | 0, s => s
  | n + 1, s => let r := gIter I pe s; if r.2 then gLoop I pe n r.1 else r.1

/-- State before the main loop, filtlan.c:228-265. -/
noncomputable def gInit (I : GIn) : GSt :=
  let d := (I.b1 - I.a1) * (1 / 100)
  { z1 := I.a1 - d, z2 := I.b1 + d, lD := d, rD := d, h := (1 / 2) * (I.b1 - I.a1) * (1 / 10), lMet := false, rMet := false, more := 0, ok := 0, q := 0, best := fun _ => 0, yl := 0 }

/-- Number of grid points required by the frame, filtlan.c:228, 231. -/
noncomputable def gridNeed (a a1 b1 b : ℝ) : ℕ := ⌊2 * (b - a) / ((1 / 2) * (b1 - a1) * (1 / 10))⌋₊

/-- `FILTLAN_GetIntervals`, filtlan.c:207-453: number of break points, break points and threshold,
or `none` for an error.  `grid` is the value of `numGridPoints` on entry (filtlan.c:231). -/
noncomputable def getIntervals (pe : ℕ → Arr → ℝ → ℝ) (a a1 b1 b : ℝ) (grid : ℕ) : Option (ℕ × Arr × ℝ) :=
  if ¬ (a ≤ a1 ∧ a1 ≤ b1 ∧ b1 ≤ b) then none
  else if a1 = b1 then none
  else if a = a1 then none
  else
    let I : GIn := { a := a, a1 := a1, b1 := b1, b := b, N := max grid (gridNeed a a1 b1 b), two := decide (b ≠ b1) }
    let s := gLoop I pe 50 (gInit I)
    if s.ok = 0 then none else some (I.np, s.best, s.yl)

end Verif.Filt
