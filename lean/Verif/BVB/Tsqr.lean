import Verif.BVB.Base
import Mathlib.LinearAlgebra.Matrix.ToLin
import Mathlib.LinearAlgebra.Matrix.NonsingularInverse
import Mathlib.Data.Nat.Log
/-!
Model of the parallel QR factorization `BVOrthogonalize_LAPACK_TSQR` (src/sys/classes/bv/interface/bvlapack.c:340-468), in exact arithmetic.

The QR factorizations of LAPACK (`geqrf` and `orgqr`) are parameters.  The exchange of messages at a level is one simultaneous step of all processes
(`MPI_Sendrecv`, `MPI_Send` and `MPI_Recv` with matching partners).  The array `A` of a process is its top and bottom half; `QQ` holds the orthogonal factors of the levels,
each with a top and a bottom half.  `PetscLog2Real` is exact.
-/
set_option linter.all false
namespace Verif.BVB.Tsqr
open Matrix
variable {𝕜 : Type} [Field 𝕜] [StarRing 𝕜] {n : ℕ}

abbrev Mat (𝕜 : Type) (n : ℕ) := Matrix (Fin n) (Fin n) 𝕜

/-- Result of `geqrf` and `orgqr` of two stacked square matrices: the halves of the orthogonal factor and the triangular factor. -/
structure QR (𝕜 : Type) (n : ℕ) where
  top : Mat 𝕜 n
  bot : Mat 𝕜 n
  r : Mat 𝕜 n

/-- Contract of the factorization. -/
structure IsQR (qr : Mat 𝕜 n → Mat 𝕜 n → QR 𝕜 n) : Prop where
  top : ∀ a b, (qr a b).top * (qr a b).r = a
  bot : ∀ a b, (qr a b).bot * (qr a b).r = b
  orth : ∀ a b, (qr a b).topᴴ * (qr a b).top + (qr a b).botᴴ * (qr a b).bot = 1
  upper : ∀ a b (i j : Fin n), j < i → (qr a b).r i j = 0

/-- State of a process: the two halves of `A`, and for each level the two halves of `QQ`. -/
structure PS (𝕜 : Type) (n : ℕ) where
  top : Mat 𝕜 n
  bot : Mat 𝕜 n
  q : ℕ → Mat 𝕜 n × Mat 𝕜 n

/-- `nlevels`, line 358. -/
def nlevels (size : ℕ) : ℕ := Nat.clog 2 size

/-- `powtwo`, line 359. -/
def powtwo (size : ℕ) : ℕ := 2 ^ Nat.log 2 size

/-- The partner of a process at a level, lines 402-403. -/
def partner (level rank : ℕ) : ℕ := 2 ^ level * (rank / 2 ^ level) + (rank + 2 ^ (level - 1)) % 2 ^ level

/-- Lines 406-411: the triangular matrices are stacked. -/
def exchange (size level : ℕ) (st : ℕ → PS 𝕜 n) : ℕ → PS 𝕜 n := fun rank =>
  let s := partner level rank
  if rank < s ∧ s < size then { st rank with bot := (st s).top }
  else if s < size then { st rank with top := (st s).top, bot := (st rank).top }
  else st rank

/-- Lines 412-418: when the number of processes is not a power of two. -/
def forward (size level : ℕ) (st : ℕ → PS 𝕜 n) : ℕ → PS 𝕜 n := fun rank =>
  if level < nlevels size ∧ size ≠ powtwo size then
    if rank < size - powtwo size then st rank
    else if powtwo size ≤ rank then { st rank with bot := (st (rank - powtwo size)).bot }
    else st rank
  else st rank

/-- Lines 420-430: QR factorization of the stacked matrices. -/
def factor (qr : Mat 𝕜 n → Mat 𝕜 n → QR 𝕜 n) (size level : ℕ) (st : ℕ → PS 𝕜 n) : ℕ → PS 𝕜 n := fun rank =>
  let s := partner level rank
  if level < nlevels size ∨ (level = nlevels size ∧ s < size) then
    let f := qr (st rank).top (st rank).bot
    { st rank with top := f.r, q := fun l => if l = level then (f.top, f.bot) else (st rank).q l }
  else if level = nlevels size then
    { st rank with q := fun l => if l = level then (1, 0) else (st rank).q l }
  else st rank

/-- The loop over the levels, lines 400-431: level `nlevels` first, level 1 last. -/
def levels (qr : Mat 𝕜 n → Mat 𝕜 n → QR 𝕜 n) (size : ℕ) (st : ℕ → PS 𝕜 n) : ℕ → PS 𝕜 n :=
  forN (nlevels size) (fun t st => factor qr size (nlevels size - t) (forward size (nlevels size - t) (exchange size (nlevels size - t) st))) st

/-- Lines 442-460 for one process with `m` rows: the products of the factors; the last product changes the local rows `Q`. -/
def accumulate {m : ℕ} (size rank : ℕ) (q : ℕ → Mat 𝕜 n × Mat 𝕜 n) (Q : Matrix (Fin m) (Fin n) 𝕜) : Matrix (Fin m) (Fin n) 𝕜 :=
  (forR 1 (nlevels size + 1) (fun level (st : (ℕ → Mat 𝕜 n × Mat 𝕜 n) × Matrix (Fin m) (Fin n) 𝕜) =>
    let half := if rank < partner level rank then (st.1 level).1 else (st.1 level).2
    if level < nlevels size then (fun l => if l = level + 1 then ((st.1 l).1 * half, (st.1 l).2 * half) else st.1 l, st.2)
    else (st.1, st.2 * half)) (q, Q)).2

/-- The upper triangle of a matrix, lines 434-439. -/
def upper (A : Mat 𝕜 n) : Mat 𝕜 n := fun i j => if i.1 ≤ j.1 then A i j else 0

/-- `BVOrthogonalize_LAPACK_TSQR`, bvlapack.c:340-468, after the local factorizations: the local rows (as left by `orgqr`, line 390) and triangular factors (lines 376-387)
are given, the result of each process is its rows of the orthogonal factor and its triangular factor. `g` is the content of the work space before. -/
def tsqr (qr : Mat 𝕜 n → Mat 𝕜 n → QR 𝕜 n) (size : ℕ) {m : ℕ → ℕ} (Q : (r : ℕ) → Matrix (Fin (m r)) (Fin n) 𝕜) (R : ℕ → Mat 𝕜 n) (g : Mat 𝕜 n)
    (rank : ℕ) : Matrix (Fin (m rank)) (Fin n) 𝕜 × Mat 𝕜 n :=
  if nlevels size = 0 then (Q rank, R rank)
  else
    let st := levels qr size (fun r => ⟨R r, g, fun _ => (g, g)⟩)
    (accumulate size rank (st rank).q (Q rank), upper (st rank).top)

/-! ### Numbers -/

theorem partner_lo {level rank : ℕ} (hl : 1 ≤ level) (h : rank % 2 ^ level < 2 ^ (level - 1)) : partner level rank = rank + 2 ^ (level - 1) := by
  unfold partner
  have e : 2 ^ level = 2 * 2 ^ (level - 1) := by
    conv_lhs => rw [show level = (level - 1) + 1 by omega, pow_succ]
    ring
  obtain ⟨H, hH⟩ : ∃ H, H = 2 ^ (level - 1) := ⟨_, rfl⟩
  rw [← hH] at e h ⊢
  rw [e] at h ⊢
  have hd := Nat.div_add_mod rank (2 * H)
  rw [Nat.add_mod, Nat.mod_eq_of_lt (show H < 2 * H by omega), Nat.mod_eq_of_lt (show rank % (2 * H) + H < 2 * H by omega)]
  omega

theorem partner_hi {level rank : ℕ} (hl : 1 ≤ level) (h : 2 ^ (level - 1) ≤ rank % 2 ^ level) : partner level rank = rank - 2 ^ (level - 1) ∧ 2 ^ (level - 1) ≤ rank := by
  unfold partner
  have e : 2 ^ level = 2 * 2 ^ (level - 1) := by
    conv_lhs => rw [show level = (level - 1) + 1 by omega, pow_succ]
    ring
  have hp : 0 < 2 ^ (level - 1) := Nat.two_pow_pos _
  obtain ⟨H, hH⟩ : ∃ H, H = 2 ^ (level - 1) := ⟨_, rfl⟩
  rw [← hH] at e h hp ⊢
  rw [e] at h ⊢
  have hd := Nat.div_add_mod rank (2 * H)
  have hlt := Nat.mod_lt rank (show 0 < 2 * H by omega)
  rw [Nat.add_mod, Nat.mod_eq_of_lt (show H < 2 * H by omega), Nat.mod_eq_sub_mod (show 2 * H ≤ rank % (2 * H) + H by omega),
    Nat.mod_eq_of_lt (show rank % (2 * H) + H - 2 * H < 2 * H by omega)]
  omega

theorem size_le {size : ℕ} : size ≤ 2 ^ nlevels size := Nat.le_pow_clog (by decide) size

theorem powtwo_le {size : ℕ} (h : 1 ≤ size) : powtwo size ≤ size := Nat.pow_log_le_self 2 (by omega)

theorem lt_two_powtwo {size : ℕ} : size < 2 * powtwo size := by
  unfold powtwo
  have := Nat.lt_pow_succ_log_self (b := 2) (by decide) size
  rw [Nat.succ_eq_add_one, pow_succ] at this
  omega

/-- A level below the first one: its power of two divides `powtwo`. -/
theorem pow_dvd_powtwo {size level : ℕ} (h1 : 1 ≤ size) (h : level < nlevels size) : 2 ^ level ∣ powtwo size := by
  unfold powtwo
  apply Nat.pow_dvd_pow
  by_contra hc
  push Not at hc
  have h2 : size < 2 ^ (Nat.log 2 size + 1) := Nat.lt_pow_succ_log_self (by decide) size
  have h3 : nlevels size ≤ level := by
    apply Nat.clog_le_of_le_pow
    exact le_trans h2.le (Nat.pow_le_pow_right (by decide) hc)
  omega

end Verif.BVB.Tsqr
