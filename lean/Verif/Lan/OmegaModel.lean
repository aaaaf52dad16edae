import Mathlib.Tactic

/-!
# EPSLANCZOS: estimates of the loss of orthogonality

Models update_omega and compute_int (src/eps/impls/krylov/lanczos/lanczos.c:259-332) and the way
EPSPartialLanczos calls them (lines 365, 392-397), on arrays of real numbers.
-/
set_option linter.all false

namespace Verif.Lan

open Classical in
/-- Addition of the rounding term and scaling (lanczos.c:274-275, 280-281). -/
noncomputable def omAdd (T binv v : ℝ) : ℝ := if v > 0 then binv * (v + T) else binv * (v - T)

/-- Contents of `omega_old` after lines 269-283; `be` is the shifted pointer `beta-1` of the call
in line 393.  Each entry depends only on `omega` and on its own old contents. -/
noncomputable def omRow (om old : ℕ → ℝ) (j : ℕ) (al be : ℕ → ℝ) (eps1 anorm : ℝ) : ℕ → ℝ := fun k =>
  let T := eps1 * anorm
  let binv := 1 / be (j + 1)
  if k + 1 = j then binv * T
  else if k = 0 then omAdd T binv (be 1 * om 1 + (al 0 - al j) * om 0 - be j * old 0)
  else if k + 1 < j then omAdd T binv (be (k + 1) * om (k + 1) + (al k - al j) * om k + be k * om (k - 1) - be j * old k)
  else old k

/-- The loop commented "Swap omega and omega_old" (lanczos.c:286-289): first `k` passes. -/
def omSwap : ℕ → (ℕ → ℝ) × (ℕ → ℝ) → (ℕ → ℝ) × (ℕ → ℝ)
  | 0, s => s
  | k + 1, s =>
    let s := omSwap k s
    let om := Function.update s.1 k (s.2 k)
    (om, Function.update s.2 k (om k))

/-- update_omega (lanczos.c:259-292): new contents of `omega` and `omega_old`. -/
noncomputable def updateOmega (s : (ℕ → ℝ) × (ℕ → ℝ)) (j : ℕ) (al be : ℕ → ℝ) (eps1 anorm : ℝ) :
    (ℕ → ℝ) × (ℕ → ℝ) :=
  let t := omSwap j (s.1, omRow s.1 s.2 j al be eps1 anorm)
  (Function.update t.1 j eps1, t.2)

/-- Successive calls at steps `k+1, ..., k+n` of EPSPartialLanczos with `k` locked columns, when no
reorthogonalization takes place (lanczos.c:365, 370, 392-393); `anorm` is kept fixed. -/
noncomputable def omRun (al be : ℕ → ℝ) (eps1 anorm : ℝ) (k : ℕ) : ℕ → (ℕ → ℝ) × (ℕ → ℝ)
  | 0 => (fun _ => 0, fun _ => 0)
  | n + 1 => updateOmega (omRun al be eps1 anorm k n) (k + (n + 1)) al be eps1 anorm

/-- Test for reorthogonalization at step `k+n` (lanczos.c:391-396). -/
def omTest (delta : ℝ) (n : ℕ) (om : ℕ → ℝ) : Prop := ∃ i, i < n ∧ |om i| > delta

open Classical in
/-- First loop of compute_int (lanczos.c:302-314) up to index `i`: `(found, maxpos, max)`. -/
noncomputable def ciScan (mu : ℕ → ℝ) (delta : ℝ) : ℕ → Bool × ℕ × ℝ
  | 0 => (false, 0, 0)
  | i + 1 =>
    let s := ciScan mu delta i
    (if |mu i| ≥ delta then true else s.1, if |mu i| > s.2.2 then (i, |mu i|) else s.2)

open Classical in
/-- Contents of `which` before the intervals are extended (lanczos.c:305-315). -/
noncomputable def ciInit (mu : ℕ → ℝ) (delta : ℝ) (j : ℕ) : ℕ → Bool :=
  let s := ciScan mu delta j
  let w : ℕ → Bool := fun i => decide (i < j ∧ |mu i| ≥ delta)
  if s.1 then w else Function.update w s.2.1 true

open Classical in
/-- Left interval (lanczos.c:320-323), `k = c-1` downwards. -/
noncomputable def ciLeft (mu : ℕ → ℝ) (eta : ℝ) : ℕ → (ℕ → Bool) → (ℕ → Bool)
  | 0, w => w
  | c + 1, w => if |mu c| < eta ∨ w c = true then w else ciLeft mu eta c (Function.update w c true)

open Classical in
/-- Right interval (lanczos.c:325-328), `g` steps from `k` upwards. -/
noncomputable def ciRight (mu : ℕ → ℝ) (eta : ℝ) : ℕ → ℕ → (ℕ → Bool) → (ℕ → Bool)
  | 0, _, w => w
  | g + 1, k, w => if |mu k| < eta ∨ w k = true then w else ciRight mu eta g (k + 1) (Function.update w k true)

/-- Outer loop (lanczos.c:317-330), first `i` passes. -/
noncomputable def ciLoop (mu : ℕ → ℝ) (eta : ℝ) (j : ℕ) (w : ℕ → Bool) : ℕ → (ℕ → Bool)
  | 0 => w
  | i + 1 =>
    let v := ciLoop mu eta j w i
    if v i then ciRight mu eta (j - (i + 1)) (i + 1) (ciLeft mu eta (i + 1) v) else v

/-- compute_int (lanczos.c:294-332). -/
noncomputable def computeInt (mu : ℕ → ℝ) (j : ℕ) (delta eta : ℝ) : ℕ → Bool :=
  ciLoop mu eta j (ciInit mu delta j) j

end Verif.Lan
