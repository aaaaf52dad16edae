import Verif.BVB.Tsqr
import Mathlib.Data.Real.Sqrt
/-!
C113: parallel QR factorization by a tree of small factorizations.
-/
set_option linter.all false
namespace Verif.BVB.Tsqr
open Matrix
variable {𝕜 : Type} [Field 𝕜] [StarRing 𝕜] {n : ℕ}

/-! ### What each process holds -/

/-- The half of the factor of a level that a process uses. -/
def halfOf (level rank : ℕ) (p : Mat 𝕜 n × Mat 𝕜 n) : Mat 𝕜 n := if rank < partner level rank then p.1 else p.2

/-- The triangular matrix of a class of processes after `t` levels. -/
def T (qr : Mat 𝕜 n → Mat 𝕜 n → QR 𝕜 n) (size : ℕ) (R : ℕ → Mat 𝕜 n) : ℕ → ℕ → Mat 𝕜 n
  | 0, c => R c
  | t + 1, c => if t = 0 ∧ size ≤ c + 2 ^ (nlevels size - 1) then R c
      else (qr (T qr size R t c) (T qr size R t (c + 2 ^ (nlevels size - (t + 1))))).r

/-- The pair of halves of a level. -/
def QP (qr : Mat 𝕜 n → Mat 𝕜 n → QR 𝕜 n) (size : ℕ) (R : ℕ → Mat 𝕜 n) (t c : ℕ) : Mat 𝕜 n × Mat 𝕜 n :=
  if t = 0 ∧ size ≤ c + 2 ^ (nlevels size - 1) then (1, 0)
  else ((qr (T qr size R t c) (T qr size R t (c + 2 ^ (nlevels size - (t + 1))))).top,
        (qr (T qr size R t c) (T qr size R t (c + 2 ^ (nlevels size - (t + 1))))).bot)

/-- Invariant of the loop over levels. -/
def Inv (qr : Mat 𝕜 n → Mat 𝕜 n → QR 𝕜 n) (size : ℕ) (R : ℕ → Mat 𝕜 n) (t : ℕ) (st : ℕ → PS 𝕜 n) : Prop :=
  ∀ r < size, (st r).top = T qr size R t (r % 2 ^ (nlevels size - t)) ∧
    ∀ u < t, (st r).q (nlevels size - u) = QP qr size R u (r % 2 ^ (nlevels size - (u + 1)))

theorem mod_cases (r h : ℕ) (hh : 0 < h) : (r % (2 * h) < h ∧ r % (2 * h) = r % h) ∨ (h ≤ r % (2 * h) ∧ r % (2 * h) = r % h + h) := by
  have e : r % h = (r % (2 * h)) % h := by rw [Nat.mod_mod_of_dvd]; exact Dvd.intro_left 2 rfl
  have hl := Nat.mod_lt r (show 0 < 2 * h by omega)
  by_cases hc : r % (2 * h) < h
  · left; exact ⟨hc, by rw [e, Nat.mod_eq_of_lt hc]⟩
  · right
    push Not at hc
    refine ⟨hc, ?_⟩
    rw [e, Nat.mod_eq_sub_mod hc, Nat.mod_eq_of_lt (show r % (2 * h) - h < h by omega)]
    omega

theorem two_pow_half {nl t : ℕ} (h : t < nl) : 2 ^ (nl - t) = 2 * 2 ^ (nl - (t + 1)) := by
  rw [show nl - t = (nl - (t + 1)) + 1 by omega, pow_succ]; ring

theorem mod_shift {r h : ℕ} (hh : 0 < h) (hl : r % (2 * h) < h) : (r + h) % (2 * h) = r % h + h := by
  have hm := (mod_cases r h hh)
  have e : r % (2 * h) = r % h := by rcases hm with ⟨_, e⟩ | ⟨h1, _⟩; exact e; omega
  have := Nat.mod_lt r hh
  rw [Nat.add_mod, e, Nat.mod_eq_of_lt (show h < 2 * h by omega), Nat.mod_eq_of_lt (by omega)]

theorem mod_unshift {r h : ℕ} (hh : 0 < h) (hl : h ≤ r % (2 * h)) : (r - h) % (2 * h) = r % h := by
  have hm := (mod_cases r h hh)
  have e : r % (2 * h) = r % h + h := by rcases hm with ⟨h1, _⟩ | ⟨_, e⟩; omega; exact e
  have hd := Nat.div_add_mod r (2 * h)
  have hlt := Nat.mod_lt r hh
  rw [show r - h = r % h + (2 * h) * (r / (2 * h)) by omega, Nat.add_mul_mod_self_left, Nat.mod_eq_of_lt (by omega)]

/-- After the exchange, when the partner exists. -/
theorem exchange_ok (qr : Mat 𝕜 n → Mat 𝕜 n → QR 𝕜 n) {size t : ℕ} (R : ℕ → Mat 𝕜 n) {st : ℕ → PS 𝕜 n} (ht : t < nlevels size) (hi : Inv qr size R t st)
    {r : ℕ} (hr : r < size) (hs : partner (nlevels size - t) r < size) :
    (exchange size (nlevels size - t) st r).top = T qr size R t (r % 2 ^ (nlevels size - (t + 1)))
    ∧ (exchange size (nlevels size - t) st r).bot = T qr size R t (r % 2 ^ (nlevels size - (t + 1)) + 2 ^ (nlevels size - (t + 1))) := by
  have e2 := two_pow_half ht
  have hp : 0 < 2 ^ (nlevels size - (t + 1)) := Nat.two_pow_pos _
  have hsub : nlevels size - t - 1 = nlevels size - (t + 1) := by omega
  unfold exchange
  dsimp only
  rcases mod_cases r _ hp with ⟨h1, h2⟩ | ⟨h1, h2⟩
  · have hpa : partner (nlevels size - t) r = r + 2 ^ (nlevels size - (t + 1)) := by
      rw [partner_lo (by omega) (by rw [e2, hsub]; exact h1), hsub]
    rw [hpa] at hs ⊢
    rw [if_pos (show r < r + 2 ^ (nlevels size - (t + 1)) ∧ r + 2 ^ (nlevels size - (t + 1)) < size from ⟨by omega, hs⟩)]
    refine ⟨?_, ?_⟩
    · show (st r).top = _
      rw [(hi r hr).1, e2, h2]
    · show (st _).top = _
      rw [(hi _ hs).1, e2, mod_shift hp h1]
  · have hpa := partner_hi (level := nlevels size - t) (rank := r) (by omega) (by rw [e2, hsub]; exact h1)
    rw [hsub] at hpa
    rw [hpa.1] at hs ⊢
    rw [if_neg (show ¬ (r < r - 2 ^ (nlevels size - (t + 1)) ∧ r - 2 ^ (nlevels size - (t + 1)) < size) by omega), if_pos hs]
    refine ⟨?_, ?_⟩
    · show (st _).top = _
      rw [(hi _ hs).1, e2, mod_unshift hp h1]
    · show (st r).top = _
      rw [(hi r hr).1, e2, h2]

theorem exchange_top (size level : ℕ) (st : ℕ → PS 𝕜 n) (r : ℕ) (hs : size ≤ partner level r) : exchange size level st r = st r := by
  unfold exchange
  dsimp only
  rw [if_neg (by omega), if_neg (by omega)]

theorem exchange_q (size level : ℕ) (st : ℕ → PS 𝕜 n) (r : ℕ) : (exchange size level st r).q = (st r).q := by
  unfold exchange
  dsimp only
  split_ifs <;> rfl

theorem forward_q (size level : ℕ) (st : ℕ → PS 𝕜 n) (r : ℕ) : (forward size level st r).q = (st r).q := by
  unfold forward
  split_ifs <;> rfl

theorem forward_top (size level : ℕ) (st : ℕ → PS 𝕜 n) (r : ℕ) : (forward size level st r).top = (st r).top := by
  unfold forward
  split_ifs <;> rfl

/-- The partner is in the same block. -/
theorem partner_block {P level r : ℕ} (hl : 1 ≤ level) (hd : 2 ^ level ∣ P) (hr : r < P) : partner level r < P := by
  obtain ⟨k, rfl⟩ := hd
  unfold partner
  have h1 : r / 2 ^ level < k := Nat.div_lt_of_lt_mul hr
  have h2 := Nat.mod_lt (r + 2 ^ (level - 1)) (Nat.two_pow_pos level)
  calc 2 ^ level * (r / 2 ^ level) + (r + 2 ^ (level - 1)) % 2 ^ level < 2 ^ level * (r / 2 ^ level) + 2 ^ level := by omega
    _ = 2 ^ level * (r / 2 ^ level + 1) := by ring
    _ ≤ 2 ^ level * k := Nat.mul_le_mul_left _ h1

/-- Before the factorization every process has the two matrices of its class, except in the first level without partner. -/
theorem stacked_ok (qr : Mat 𝕜 n → Mat 𝕜 n → QR 𝕜 n) {size t : ℕ} (R : ℕ → Mat 𝕜 n) {st : ℕ → PS 𝕜 n} (ht : t < nlevels size) (hi : Inv qr size R t st)
    {r : ℕ} (hr : r < size) (hs : 0 < t ∨ partner (nlevels size - t) r < size) :
    (forward size (nlevels size - t) (exchange size (nlevels size - t) st) r).top = T qr size R t (r % 2 ^ (nlevels size - (t + 1)))
    ∧ (forward size (nlevels size - t) (exchange size (nlevels size - t) st) r).bot
        = T qr size R t (r % 2 ^ (nlevels size - (t + 1)) + 2 ^ (nlevels size - (t + 1))) := by
  have e2 := two_pow_half ht
  have hp : 0 < 2 ^ (nlevels size - (t + 1)) := Nat.two_pow_pos _
  have hsub : nlevels size - t - 1 = nlevels size - (t + 1) := by omega
  by_cases h0 : t = 0
  · subst h0
    have hs' : partner (nlevels size - 0) r < size := by omega
    have : forward size (nlevels size - 0) (exchange size (nlevels size - 0) st) r = exchange size (nlevels size - 0) st r := by
      unfold forward
      rw [if_neg (by omega)]
    rw [this]
    exact exchange_ok qr R ht hi hr hs'
  · have hlt : nlevels size - t < nlevels size := by omega
    have hdv := pow_dvd_powtwo (size := size) (by omega) hlt
    have hdv' : 2 ^ (nlevels size - (t + 1)) ∣ powtwo size := dvd_trans (by rw [e2]; exact Dvd.intro_left 2 rfl) hdv
    have hple := powtwo_le (size := size) (by omega)
    have hlt2 := lt_two_powtwo (size := size)
    -- the process that sends its bottom part
    have hbot : powtwo size ≤ r → (exchange size (nlevels size - t) st (r - powtwo size)).bot
        = T qr size R t (r % 2 ^ (nlevels size - (t + 1)) + 2 ^ (nlevels size - (t + 1))) := by
      intro hge
      have hpb := partner_block (P := powtwo size) (level := nlevels size - t) (r := r - powtwo size) (by omega) hdv (by omega)
      have := (exchange_ok qr R ht hi (r := r - powtwo size) (by omega) (by omega)).2
      rw [this]
      congr 2
      obtain ⟨k, hk⟩ := hdv'
      conv_rhs => rw [show r = (r - powtwo size) + powtwo size by omega, hk, Nat.add_mul_mod_self_left]
      rw [hk]
    -- the own matrices
    have htop : (exchange size (nlevels size - t) st r).top = T qr size R t (r % 2 ^ (nlevels size - (t + 1))) := by
      by_cases hs' : partner (nlevels size - t) r < size
      · exact (exchange_ok qr R ht hi hr hs').1
      · rw [exchange_top _ _ _ _ (by omega), (hi r hr).1]
        rcases mod_cases r _ hp with ⟨h1, h2⟩ | ⟨h1, h2⟩
        · rw [e2, h2]
        · exfalso
          have := (partner_hi (level := nlevels size - t) (rank := r) (by omega) (by rw [e2, hsub]; exact h1)).1
          have h9 := Nat.sub_le r (2 ^ (nlevels size - t - 1))
          omega
    refine ⟨by rw [forward_top]; exact htop, ?_⟩
    unfold forward
    by_cases hsz : size = powtwo size
    · rw [if_neg (by omega)]
      have hpb := partner_block (P := powtwo size) (level := nlevels size - t) (r := r) (by omega) hdv (by omega)
      exact (exchange_ok qr R ht hi hr (by omega)).2
    · rw [if_pos ⟨hlt, hsz⟩]
      by_cases hc : r < size - powtwo size
      · rw [if_pos hc]
        have hpb := partner_block (P := powtwo size) (level := nlevels size - t) (r := r) (by omega) hdv (by omega)
        exact (exchange_ok qr R ht hi hr (by omega)).2
      · rw [if_neg hc]
        by_cases hg : powtwo size ≤ r
        · rw [if_pos hg]; exact hbot hg
        · rw [if_neg hg]
          have hpb := partner_block (P := powtwo size) (level := nlevels size - t) (r := r) (by omega) hdv (by omega)
          exact (exchange_ok qr R ht hi hr (by omega)).2

/-- One level. -/
theorem level_step (qr : Mat 𝕜 n → Mat 𝕜 n → QR 𝕜 n) {size t : ℕ} (R : ℕ → Mat 𝕜 n) {st : ℕ → PS 𝕜 n} (ht : t < nlevels size) (hi : Inv qr size R t st) :
    Inv qr size R (t + 1) (factor qr size (nlevels size - t) (forward size (nlevels size - t) (exchange size (nlevels size - t) st))) := by
  intro r hr
  have e2 := two_pow_half ht
  have hp : 0 < 2 ^ (nlevels size - (t + 1)) := Nat.two_pow_pos _
  have hsub : nlevels size - t - 1 = nlevels size - (t + 1) := by omega
  have hq : ((forward size (nlevels size - t) (exchange size (nlevels size - t) st)) r).q = (st r).q := by rw [forward_q, exchange_q]
  have hold := (hi r hr).2
  -- no partner in the first level
  have hno : (t = 0 ∧ size ≤ r % 2 ^ (nlevels size - (t + 1)) + 2 ^ (nlevels size - 1)) ↔ (t = 0 ∧ size ≤ partner (nlevels size - t) r) := by
    constructor
    · rintro ⟨h0, h1⟩
      subst h0
      refine ⟨rfl, ?_⟩
      have hrl : r < 2 ^ nlevels size := lt_of_lt_of_le hr size_le
      rw [show nlevels size - 0 = nlevels size by omega] at e2 hsub ⊢
      rw [show nlevels size - (0 + 1) = nlevels size - 1 by omega] at e2 hp h1
      rcases mod_cases r _ hp with ⟨h3, h4⟩ | ⟨h3, h4⟩
      · rw [partner_lo (by omega) (by rw [e2]; exact h3)]
        rw [← e2, Nat.mod_eq_of_lt hrl] at h4
        omega
      · rw [← e2, Nat.mod_eq_of_lt hrl] at h4
        omega
    · rintro ⟨h0, h1⟩
      subst h0
      refine ⟨rfl, ?_⟩
      have hrl : r < 2 ^ nlevels size := lt_of_lt_of_le hr size_le
      rw [show nlevels size - 0 = nlevels size by omega] at e2 hsub h1
      rw [show nlevels size - (0 + 1) = nlevels size - 1 by omega] at e2 hp ⊢
      rcases mod_cases r _ hp with ⟨h3, h4⟩ | ⟨h3, h4⟩
      · rw [partner_lo (by omega) (by rw [e2]; exact h3)] at h1
        rw [← e2, Nat.mod_eq_of_lt hrl] at h4
        omega
      · have := (partner_hi (level := nlevels size) (rank := r) (by omega) (by rw [e2]; exact h3)).1
        omega
  by_cases hc : t = 0 ∧ size ≤ partner (nlevels size - t) r
  · -- only one triangular matrix
    obtain ⟨h0, h1⟩ := id hc
    have hf : factor qr size (nlevels size - t) (forward size (nlevels size - t) (exchange size (nlevels size - t) st)) r
        = { (forward size (nlevels size - t) (exchange size (nlevels size - t) st)) r with
            q := fun l => if l = nlevels size - t then (1, 0) else ((forward size (nlevels size - t) (exchange size (nlevels size - t) st)) r).q l } := by
      unfold factor
      dsimp only
      rw [if_neg (by omega), if_pos (by omega)]
    rw [hf]
    have hrl : r < 2 ^ nlevels size := lt_of_lt_of_le hr size_le
    have hrmod : r % 2 ^ (nlevels size - (t + 1)) = r := by
      rcases mod_cases r _ hp with ⟨h3, h4⟩ | ⟨h3, h4⟩
      · rw [← h4, ← e2, h0]; exact Nat.mod_eq_of_lt hrl
      · exfalso
        have := (partner_hi (level := nlevels size - t) (rank := r) (by omega) (by rw [e2, hsub]; exact h3)).1
        have h9 := Nat.sub_le r (2 ^ (nlevels size - t - 1))
        omega
    refine ⟨?_, ?_⟩
    · show (forward size _ _ r).top = _
      rw [forward_top, exchange_top _ _ _ _ h1, (hi r hr).1]
      show _ = if _ then _ else _
      rw [if_pos (hno.2 hc), hrmod]
      subst h0
      rw [Nat.sub_zero, Nat.mod_eq_of_lt hrl]
      rfl
    · intro u hu
      show (if nlevels size - u = nlevels size - t then _ else _) = _
      have : u = t := by omega
      subst this
      rw [if_pos rfl]
      unfold QP
      rw [if_pos (hno.2 hc)]
  · have hs : 0 < t ∨ partner (nlevels size - t) r < size := by omega
    obtain ⟨k1, k2⟩ := stacked_ok qr R ht hi hr hs
    have hf : factor qr size (nlevels size - t) (forward size (nlevels size - t) (exchange size (nlevels size - t) st)) r
        = { (forward size (nlevels size - t) (exchange size (nlevels size - t) st)) r with
            top := (qr (T qr size R t (r % 2 ^ (nlevels size - (t + 1)))) (T qr size R t (r % 2 ^ (nlevels size - (t + 1)) + 2 ^ (nlevels size - (t + 1))))).r,
            q := fun l => if l = nlevels size - t then
              ((qr (T qr size R t (r % 2 ^ (nlevels size - (t + 1)))) (T qr size R t (r % 2 ^ (nlevels size - (t + 1)) + 2 ^ (nlevels size - (t + 1))))).top,
               (qr (T qr size R t (r % 2 ^ (nlevels size - (t + 1)))) (T qr size R t (r % 2 ^ (nlevels size - (t + 1)) + 2 ^ (nlevels size - (t + 1))))).bot)
              else ((forward size (nlevels size - t) (exchange size (nlevels size - t) st)) r).q l } := by
      unfold factor
      dsimp only
      rw [if_pos (by omega), k1, k2]
    rw [hf]
    refine ⟨?_, ?_⟩
    · show _ = if _ then _ else _
      rw [if_neg (fun h => hc (hno.1 h))]
    · intro u hu
      show (if nlevels size - u = nlevels size - t then _ else _) = _
      by_cases hut : u = t
      · subst hut
        rw [if_pos rfl]
        unfold QP
        rw [if_neg (fun h => hc (hno.1 h))]
      · rw [if_neg (by omega), hq]
        exact hold u (by omega)

theorem levels_inv (qr : Mat 𝕜 n → Mat 𝕜 n → QR 𝕜 n) {size : ℕ} (R : ℕ → Mat 𝕜 n) (st : ℕ → PS 𝕜 n) (h0 : ∀ r < size, (st r).top = R r) :
    Inv qr size R (nlevels size) (levels qr size st) := by
  unfold levels
  apply forN_inv (fun t st => Inv qr size R t st) (nlevels size)
  · intro r hr
    refine ⟨?_, fun u hu => absurd hu (by omega)⟩
    rw [h0 r hr, Nat.sub_zero, Nat.mod_eq_of_lt (lt_of_lt_of_le hr size_le)]
    rfl
  · intro t ht st hi
    exact level_step qr R ht hi

/-! ### The triangular factor -/

theorem T_upper {qr : Mat 𝕜 n → Mat 𝕜 n → QR 𝕜 n} (hq : IsQR qr) {size : ℕ} {R : ℕ → Mat 𝕜 n} (hR : ∀ r < size, ∀ i j : Fin n, j < i → R r i j = 0) (t : ℕ)
    {c : ℕ} (hc : c < size) (i j : Fin n) (hij : j < i) : T qr size R t c i j = 0 := by
  cases t with
  | zero => exact hR c hc i j hij
  | succ t =>
    show (if _ then _ else _ : Mat 𝕜 n) i j = 0
    by_cases h : t = 0 ∧ size ≤ c + 2 ^ (nlevels size - 1)
    · rw [if_pos h]; exact hR c hc i j hij
    · rw [if_neg h]; exact hq.upper _ _ i j hij

/-- Half of a pair by position. -/
def halfAt (t size r : ℕ) (p : Mat 𝕜 n × Mat 𝕜 n) : Mat 𝕜 n := halfOf (nlevels size - t) r p

theorem half_lo {size t r : ℕ} (ht : t < nlevels size) (h : r % (2 * 2 ^ (nlevels size - (t + 1))) < 2 ^ (nlevels size - (t + 1))) (p : Mat 𝕜 n × Mat 𝕜 n) :
    halfOf (nlevels size - t) r p = p.1 := by
  have hp : 0 < 2 ^ (nlevels size - (t + 1)) := Nat.two_pow_pos _
  unfold halfOf
  rw [partner_lo (by omega) (by rw [two_pow_half ht, show nlevels size - t - 1 = nlevels size - (t + 1) by omega]; exact h)]
  rw [show nlevels size - t - 1 = nlevels size - (t + 1) by omega, if_pos (by omega)]

theorem half_hi {size t r : ℕ} (ht : t < nlevels size) (h : 2 ^ (nlevels size - (t + 1)) ≤ r % (2 * 2 ^ (nlevels size - (t + 1)))) (p : Mat 𝕜 n × Mat 𝕜 n) :
    halfOf (nlevels size - t) r p = p.2 := by
  unfold halfOf
  have := partner_hi (level := nlevels size - t) (rank := r) (by omega) (by rw [two_pow_half ht, show nlevels size - t - 1 = nlevels size - (t + 1) by omega]; exact h)
  have h9 := Nat.sub_le r (2 ^ (nlevels size - t - 1))
  rw [this.1, if_neg (by omega)]

/-- A half times the next triangular matrix is the matrix before. -/
theorem half_mul {qr : Mat 𝕜 n → Mat 𝕜 n → QR 𝕜 n} (hq : IsQR qr) {size : ℕ} (R : ℕ → Mat 𝕜 n) {t : ℕ} (ht : t < nlevels size) {r : ℕ} (hr : r < size) :
    halfOf (nlevels size - t) r (QP qr size R t (r % 2 ^ (nlevels size - (t + 1)))) * T qr size R (t + 1) (r % 2 ^ (nlevels size - (t + 1)))
      = T qr size R t (r % 2 ^ (nlevels size - t)) := by
  have e2 := two_pow_half ht
  have hp : 0 < 2 ^ (nlevels size - (t + 1)) := Nat.two_pow_pos _
  have hrl : r < 2 ^ nlevels size := lt_of_lt_of_le hr size_le
  show _ * (if _ then _ else _ : Mat 𝕜 n) = _
  unfold QP
  rcases mod_cases r _ hp with ⟨h3, h4⟩ | ⟨h3, h4⟩
  · rw [half_lo ht h3]
    by_cases hc : t = 0 ∧ size ≤ r % 2 ^ (nlevels size - (t + 1)) + 2 ^ (nlevels size - 1)
    · rw [if_pos hc, if_pos hc, e2, h4, Matrix.one_mul]
      obtain ⟨rfl, _⟩ := hc
      rfl
    · rw [if_neg hc, if_neg hc, e2, h4]
      exact hq.top _ _
  · rw [half_hi ht h3]
    by_cases hc : t = 0 ∧ size ≤ r % 2 ^ (nlevels size - (t + 1)) + 2 ^ (nlevels size - 1)
    · exfalso
      obtain ⟨rfl, hc⟩ := hc
      rw [← e2, Nat.sub_zero, Nat.mod_eq_of_lt hrl] at h4
      simp only [Nat.zero_add] at h4 hc
      omega
    · rw [if_neg hc, if_neg hc, e2, h4]
      exact hq.bot _ _

/-- Product of the halves of the first `t` levels. -/
def Z (qr : Mat 𝕜 n → Mat 𝕜 n → QR 𝕜 n) (size : ℕ) (R : ℕ → Mat 𝕜 n) (r : ℕ) : ℕ → Mat 𝕜 n
  | 0 => 1
  | t + 1 => Z qr size R r t * halfOf (nlevels size - t) r (QP qr size R t (r % 2 ^ (nlevels size - (t + 1))))

theorem Z_mul {qr : Mat 𝕜 n → Mat 𝕜 n → QR 𝕜 n} (hq : IsQR qr) {size : ℕ} (R : ℕ → Mat 𝕜 n) {r : ℕ} (hr : r < size) (t : ℕ) (ht : t ≤ nlevels size) :
    Z qr size R r t * T qr size R t (r % 2 ^ (nlevels size - t)) = R r := by
  induction t with
  | zero =>
    rw [Nat.sub_zero, Nat.mod_eq_of_lt (lt_of_lt_of_le hr size_le)]
    exact Matrix.one_mul _
  | succ t ih =>
    show Z qr size R r t * _ * _ = _
    rw [Matrix.mul_assoc, half_mul hq R (by omega) hr]
    exact ih (by omega)

/-- The products made by the last loop. -/
theorem accumulate_eq {m : ℕ} {qr : Mat 𝕜 n → Mat 𝕜 n → QR 𝕜 n} {size : ℕ} (R : ℕ → Mat 𝕜 n) {r : ℕ} (q : ℕ → Mat 𝕜 n × Mat 𝕜 n) (Q : Matrix (Fin m) (Fin n) 𝕜)
    (hq : ∀ u < nlevels size, q (nlevels size - u) = QP qr size R u (r % 2 ^ (nlevels size - (u + 1)))) (hn : 0 < nlevels size) :
    accumulate size r q Q = Q * Z qr size R r (nlevels size) := by
  unfold accumulate
  obtain ⟨nl, hnl⟩ : ∃ nl, nl = nlevels size := ⟨_, rfl⟩
  rw [← hnl] at hn hq ⊢
  have key : ∀ P : (ℕ → Mat 𝕜 n × Mat 𝕜 n) × Matrix (Fin m) (Fin n) 𝕜,
      (∃ A : Mat 𝕜 n, Z qr size R r (nl - nl) * A = Z qr size R r nl ∧ P.2 = Q * A) → P.2 = Q * Z qr size R r nl := by
    rintro P ⟨A, h1, h2⟩
    rw [h2, ← h1, Nat.sub_self]
    show _ = Q * ((1 : Mat 𝕜 n) * A)
    rw [Matrix.one_mul]
  apply key
  have := forR_inv (f := fun level (st : (ℕ → Mat 𝕜 n × Mat 𝕜 n) × Matrix (Fin m) (Fin n) 𝕜) =>
      let half := if r < partner level r then (st.1 level).1 else (st.1 level).2
      if level < nl then (fun l => if l = level + 1 then ((st.1 l).1 * half, (st.1 l).2 * half) else st.1 l, st.2)
      else (st.1, st.2 * half)) (s := (q, Q))
    (fun level (st : (ℕ → Mat 𝕜 n × Mat 𝕜 n) × Matrix (Fin m) (Fin n) 𝕜) => ∃ A : Mat 𝕜 n, Z qr size R r (nl - (level - 1)) * A = Z qr size R r nl ∧
      (∀ l, level < l → st.1 l = q l) ∧ (level ≤ nl → st.1 level = ((q level).1 * A, (q level).2 * A) ∧ st.2 = Q) ∧ (level = nl + 1 → st.2 = Q * A))
    (l := 1) (k := nl + 1) (by omega)
    ⟨1, by rw [Matrix.mul_one]; rfl, fun l _ => rfl, fun _ => ⟨by rw [Matrix.mul_one, Matrix.mul_one], rfl⟩, fun h => absurd h (by omega)⟩
    (by
      rintro level h1 h2 st ⟨A, k1, k2, k3, k4⟩
      obtain ⟨k3, k5⟩ := k3 (by omega)
      obtain ⟨hf, hhf⟩ : ∃ hf, hf = if r < partner level r then (st.1 level).1 else (st.1 level).2 := ⟨_, rfl⟩
      have e1 : hf = halfOf level r (q level) * A := by
        rw [hhf, k3]
        unfold halfOf
        split_ifs <;> rfl
      have e2 : Z qr size R r (nl - (level - 1)) = Z qr size R r (nl - level) * halfOf level r (q level) := by
        rw [show nl - (level - 1) = (nl - level) + 1 by omega]
        show Z qr size R r (nl - level) * halfOf (nlevels size - (nl - level)) r _ = _
        rw [← hnl, ← hq (nl - level) (by omega), show nl - (nl - level) = level by omega]
      refine ⟨hf, ?_, ?_, ?_, ?_⟩
      · rw [e1, show level + 1 - 1 = level by omega, ← Matrix.mul_assoc, ← e2, k1]
      · intro l hl
        dsimp only
        rw [← hhf]
        by_cases hln : level < nl
        · rw [if_pos hln]
          dsimp only
          rw [if_neg (by omega)]
          exact k2 l (by omega)
        · rw [if_neg hln]
          exact k2 l (by omega)
      · intro hl
        dsimp only
        rw [← hhf, if_pos (by omega)]
        dsimp only
        rw [if_pos rfl, k2 (level + 1) (by omega)]
        exact ⟨rfl, k5⟩
      · intro hl
        dsimp only
        rw [← hhf, if_neg (by omega), k5])
  obtain ⟨A, k1, _, _, k4⟩ := this
  exact ⟨A, by simpa using k1, k4 rfl⟩

/-! ### Gram matrices -/

theorem half_lt_size {size : ℕ} (hn : 0 < nlevels size) : 2 ^ (nlevels size - 1) < size := by
  have h1 : 1 < size := by
    by_contra hc
    have : nlevels size = 0 := Nat.clog_of_right_le_one (by omega) 2
    omega
  have := Nat.pow_pred_clog_lt_self (b := 2) (by decide) h1
  exact this

theorem class_lt_size {size t c : ℕ} (ht : t < nlevels size) (hc : c < 2 ^ (nlevels size - (t + 1))) : c < size := by
  have h1 := half_lt_size (size := size) (by omega)
  have h2 : 2 ^ (nlevels size - (t + 1)) ≤ 2 ^ (nlevels size - 1) := Nat.pow_le_pow_right (by decide) (by omega)
  omega

/-- Gram matrix of the stacked matrices. -/
theorem qr_gram {qr : Mat 𝕜 n → Mat 𝕜 n → QR 𝕜 n} (hq : IsQR qr) (a b : Mat 𝕜 n) : (qr a b).rᴴ * (qr a b).r = aᴴ * a + bᴴ * b := by
  have h1 := hq.top a b
  have h2 := hq.bot a b
  have h3 := hq.orth a b
  calc (qr a b).rᴴ * (qr a b).r = (qr a b).rᴴ * ((qr a b).topᴴ * (qr a b).top + (qr a b).botᴴ * (qr a b).bot) * (qr a b).r := by rw [h3, Matrix.mul_one]
    _ = ((qr a b).top * (qr a b).r)ᴴ * ((qr a b).top * (qr a b).r) + ((qr a b).bot * (qr a b).r)ᴴ * ((qr a b).bot * (qr a b).r) := by
      rw [Matrix.conjTranspose_mul, Matrix.conjTranspose_mul, Matrix.mul_add, Matrix.add_mul]
      simp only [Matrix.mul_assoc]
    _ = _ := by rw [h1, h2]

theorem gram {qr : Mat 𝕜 n → Mat 𝕜 n → QR 𝕜 n} (hq : IsQR qr) {size : ℕ} (R : ℕ → Mat 𝕜 n) (t : ℕ) (ht : t ≤ nlevels size) :
    (∑ c ∈ Finset.range (2 ^ (nlevels size - t)), if c < size then (T qr size R t c)ᴴ * T qr size R t c else 0) = ∑ r ∈ Finset.range size, (R r)ᴴ * R r := by
  induction t with
  | zero =>
    rw [Nat.sub_zero, ← Finset.sum_filter]
    congr 1
    ext c
    have := size_le (size := size)
    simp only [Finset.mem_filter, Finset.mem_range]
    omega
  | succ t ih =>
    rw [← ih (by omega), two_pow_half (show t < nlevels size by omega), two_mul, Finset.sum_range_add, ← Finset.sum_add_distrib]
    apply Finset.sum_congr rfl
    intro c hc
    rw [Finset.mem_range] at hc
    have hcs := class_lt_size (show t < nlevels size by omega) hc
    rw [if_pos hcs, if_pos hcs]
    show (if _ then _ else _ : Mat 𝕜 n)ᴴ * (if _ then _ else _ : Mat 𝕜 n) = _
    by_cases h0 : t = 0 ∧ size ≤ c + 2 ^ (nlevels size - 1)
    · rw [if_pos h0]
      obtain ⟨rfl, h1⟩ := h0
      rw [if_neg (by rw [Nat.zero_add, Nat.add_comm]; omega), add_zero]
      rfl
    · rw [if_neg h0, qr_gram hq, Nat.add_comm _ c]
      have : c + 2 ^ (nlevels size - (t + 1)) < size := by
        by_cases ht0 : t = 0
        · subst ht0
          rw [Nat.zero_add]
          omega
        · have h1 := half_lt_size (size := size) (by omega)
          have h2 : 2 ^ (nlevels size - t) ≤ 2 ^ (nlevels size - 1) := Nat.pow_le_pow_right (by decide) (by omega)
          have h3 := two_pow_half (show t < nlevels size by omega)
          omega
      rw [if_pos this]

/-- The products of halves of the processes of a class form an orthogonal matrix. -/
theorem Z_orth {qr : Mat 𝕜 n → Mat 𝕜 n → QR 𝕜 n} (hq : IsQR qr) {size : ℕ} (R : ℕ → Mat 𝕜 n) (t : ℕ) (ht : t ≤ nlevels size) :
    ∀ c < 2 ^ (nlevels size - t), (∑ r ∈ Finset.range size, if r % 2 ^ (nlevels size - t) = c then (Z qr size R r t)ᴴ * Z qr size R r t else 0)
      = if c < size then 1 else 0 := by
  induction t with
  | zero =>
    intro c _
    have : ∀ r ∈ Finset.range size, (if r % 2 ^ (nlevels size - 0) = c then (Z qr size R r 0)ᴴ * Z qr size R r 0 else 0) = if r = c then (1 : Mat 𝕜 n) else 0 := by
      intro r hr
      rw [Finset.mem_range] at hr
      rw [Nat.sub_zero, Nat.mod_eq_of_lt (lt_of_lt_of_le hr size_le)]
      show (if r = c then (1 : Mat 𝕜 n)ᴴ * 1 else 0) = _
      rw [Matrix.conjTranspose_one, Matrix.mul_one]
    rw [Finset.sum_congr rfl this, Finset.sum_ite_eq']
    simp only [Finset.mem_range]
  | succ t ih =>
    intro c hc
    have htl : t < nlevels size := by omega
    have ih := ih (by omega)
    have e2 := two_pow_half htl
    have hp : 0 < 2 ^ (nlevels size - (t + 1)) := Nat.two_pow_pos _
    have hcs := class_lt_size htl hc
    obtain ⟨h, hh⟩ : ∃ h, h = 2 ^ (nlevels size - (t + 1)) := ⟨_, rfl⟩
    rw [e2] at ih
    rw [← hh] at hp hc ih ⊢
    have i1 := ih c (by omega)
    have i2 := ih (c + h) (by omega)
    rw [if_pos hcs] at i1 ⊢
    have split : ∀ r ∈ Finset.range size, (if r % h = c then (Z qr size R r (t + 1))ᴴ * Z qr size R r (t + 1) else 0)
        = (QP qr size R t c).1ᴴ * (if r % (2 * h) = c then (Z qr size R r t)ᴴ * Z qr size R r t else 0) * (QP qr size R t c).1
        + (QP qr size R t c).2ᴴ * (if r % (2 * h) = c + h then (Z qr size R r t)ᴴ * Z qr size R r t else 0) * (QP qr size R t c).2 := by
      intro r hr
      by_cases hrc : r % h = c
      · rw [if_pos hrc]
        show (Z qr size R r t * _)ᴴ * (Z qr size R r t * _) = _
        rw [← hh, hrc]
        rcases mod_cases r h hp with ⟨h3, h4⟩ | ⟨h3, h4⟩
        · rw [half_lo htl (by rw [← hh]; exact h3), if_pos (by omega), if_neg (by omega), Matrix.mul_zero, Matrix.zero_mul, add_zero, Matrix.conjTranspose_mul]
          simp only [Matrix.mul_assoc]
        · rw [half_hi htl (by rw [← hh]; exact h3), if_neg (by omega), if_pos (by omega), Matrix.mul_zero, Matrix.zero_mul, zero_add, Matrix.conjTranspose_mul]
          simp only [Matrix.mul_assoc]
      · rw [if_neg hrc]
        rcases mod_cases r h hp with ⟨h3, h4⟩ | ⟨h3, h4⟩
        · rw [if_neg (by omega), if_neg (by omega)]; simp
        · rw [if_neg (by omega), if_neg (by omega)]; simp
    rw [Finset.sum_congr rfl split, Finset.sum_add_distrib, ← Finset.sum_mul, ← Finset.mul_sum, ← Finset.sum_mul, ← Finset.mul_sum, i1, i2]
    unfold QP
    by_cases h0 : t = 0 ∧ size ≤ c + 2 ^ (nlevels size - 1)
    · rw [if_pos h0]
      simp
    · rw [if_neg h0, ← hh]
      have : c + h < size := by
        by_cases ht0 : t = 0
        · subst ht0
          rw [hh, Nat.zero_add]
          omega
        · have h1 := half_lt_size (size := size) (by omega)
          have h2 : 2 ^ (nlevels size - t) ≤ 2 ^ (nlevels size - 1) := Nat.pow_le_pow_right (by decide) (by omega)
          omega
      rw [if_pos this, Matrix.mul_one, Matrix.mul_one]
      exact hq.orth _ _

/-! ### The property -/

/-- Contract of the local factorization of the rows `V` of a process (lines 373-390): with fewer rows than columns the last columns of `Q` are arbitrary and the
last rows of `R` are zero. -/
structure IsLocal {m : ℕ} (V Q : Matrix (Fin m) (Fin n) 𝕜) (R : Mat 𝕜 n) : Prop where
  prod : Q * R = V
  gram : Rᴴ * R = Vᴴ * V
  upper : ∀ i j : Fin n, j < i → R i j = 0

/-- The rows `V r` of the processes `r < size` have linearly independent columns. -/
def FullRank (size : ℕ) {m : ℕ → ℕ} (V : (r : ℕ) → Matrix (Fin (m r)) (Fin n) 𝕜) : Prop :=
  ∀ x : Fin n → 𝕜, (∀ r < size, (V r) *ᵥ x = 0) → x = 0

/-- C113. For any number of processes and any distribution of the rows, all processes end with the same upper triangular matrix `S`; the rows of each process are its
new rows times `S`; `SᴴS` is the Gram matrix of the columns, and the new columns are orthonormal if the columns are linearly independent or if every process has
orthonormal local factors. -/
theorem tsqr_correct {qr : Mat 𝕜 n → Mat 𝕜 n → QR 𝕜 n} (hq : IsQR qr) {size : ℕ} (hs : 1 ≤ size) {m : ℕ → ℕ} (V Q : (r : ℕ) → Matrix (Fin (m r)) (Fin n) 𝕜)
    (R : ℕ → Mat 𝕜 n) (hl : ∀ r < size, IsLocal (V r) (Q r) (R r)) (g : Mat 𝕜 n) :
    ∃ S : Mat 𝕜 n, (∀ i j : Fin n, j < i → S i j = 0) ∧ Sᴴ * S = ∑ r ∈ Finset.range size, (V r)ᴴ * V r
      ∧ (∀ r < size, (tsqr qr size Q R g r).2 = S ∧ (tsqr qr size Q R g r).1 * S = V r)
      ∧ (FullRank size V ∨ (∀ r < size, (Q r)ᴴ * Q r = 1) →
          ∑ r ∈ Finset.range size, (tsqr qr size Q R g r).1ᴴ * (tsqr qr size Q R g r).1 = 1) := by
  have hRu : ∀ r < size, ∀ i j : Fin n, j < i → R r i j = 0 := fun r hr => (hl r hr).upper
  have hgr : ∑ r ∈ Finset.range size, (R r)ᴴ * R r = ∑ r ∈ Finset.range size, (V r)ᴴ * V r :=
    Finset.sum_congr rfl (fun r hr => (hl r (Finset.mem_range.1 hr)).gram)
  obtain ⟨S, hS⟩ : ∃ S, S = T qr size R (nlevels size) 0 := ⟨_, rfl⟩
  have hSu : ∀ i j : Fin n, j < i → S i j = 0 := fun i j hij => by rw [hS]; exact T_upper hq hRu _ (by omega) i j hij
  have hSg : Sᴴ * S = ∑ r ∈ Finset.range size, (V r)ᴴ * V r := by
    have := gram hq (size := size) R (nlevels size) le_rfl
    rw [Nat.sub_self, pow_zero, Finset.sum_range_one, if_pos (by omega), ← hS] at this
    rw [this, hgr]
  have hup : upper S = S := by
    ext i j
    unfold upper
    by_cases h : i.1 ≤ j.1
    · rw [if_pos h]
    · rw [if_neg h, hSu i j (by rw [Fin.lt_def]; omega)]
  -- the result of each process
  have hres : ∀ r < size, tsqr qr size Q R g r = (Q r * Z qr size R r (nlevels size), S) := by
    intro r hr
    unfold tsqr
    by_cases hn : nlevels size = 0
    · rw [if_pos hn]
      have h1 : size ≤ 2 ^ nlevels size := size_le
      rw [hn, pow_zero] at h1
      have : r = 0 := by omega
      subst this
      rw [hS, hn]
      show _ = (Q 0 * (1 : Mat 𝕜 n), R 0)
      rw [Matrix.mul_one]
    · rw [if_neg hn]
      dsimp only
      have hi := levels_inv qr (size := size) R (fun r => ⟨R r, g, fun _ => (g, g)⟩) (fun _ _ => rfl) r hr
      rw [accumulate_eq R _ _ hi.2 (by omega), hi.1, Nat.sub_self, pow_zero, Nat.mod_one, ← hS, hup]
  have hV : ∀ r < size, (tsqr qr size Q R g r).1 * S = V r := by
    intro r hr
    rw [hres r hr]
    have := Z_mul hq (size := size) R hr (nlevels size) le_rfl
    rw [Nat.sub_self, pow_zero, Nat.mod_one, ← hS] at this
    show Q r * Z qr size R r (nlevels size) * S = V r
    rw [Matrix.mul_assoc, this, (hl r hr).prod]
  refine ⟨S, hSu, hSg, fun r hr => ⟨by rw [hres r hr], hV r hr⟩, ?_⟩
  rintro (hf | hloc)
  · -- linearly independent columns: the triangular matrix is invertible
    have hinj : Function.Injective S.mulVec := by
      intro x y hxy
      have h0 : S *ᵥ (x - y) = 0 := by rw [Matrix.mulVec_sub]; exact sub_eq_zero.2 hxy
      refine sub_eq_zero.1 (hf (x - y) (fun r hr => ?_))
      rw [← hV r hr, ← Matrix.mulVec_mulVec, h0, Matrix.mulVec_zero]
    have hu : IsUnit S := Matrix.mulVec_injective_iff_isUnit.1 hinj
    have hu' : IsUnit Sᴴ := (Matrix.isUnit_conjTranspose S).2 hu
    have e : Sᴴ * (∑ r ∈ Finset.range size, (tsqr qr size Q R g r).1ᴴ * (tsqr qr size Q R g r).1) * S = Sᴴ * 1 * S := by
      rw [Matrix.mul_one, hSg, Finset.mul_sum, Finset.sum_mul]
      apply Finset.sum_congr rfl
      intro r hr
      conv_rhs => rw [← hV r (Finset.mem_range.1 hr), Matrix.conjTranspose_mul]
      simp only [Matrix.mul_assoc]
    exact hu'.mul_left_cancel (hu.mul_right_cancel e)
  · have := Z_orth hq (size := size) R (nlevels size) le_rfl 0 (by rw [Nat.sub_self]; simp)
    rw [if_pos (by omega)] at this
    rw [← this]
    apply Finset.sum_congr rfl
    intro r hr
    rw [hres r (Finset.mem_range.1 hr), if_pos (by rw [Nat.sub_self, pow_zero, Nat.mod_one])]
    show (Q r * _)ᴴ * (Q r * _) = _
    rw [Matrix.conjTranspose_mul, Matrix.mul_assoc, ← Matrix.mul_assoc (Q r)ᴴ, hloc r (Finset.mem_range.1 hr), Matrix.one_mul]

/-- The factorization of two numbers satisfies the contract. -/
noncomputable def qr1 (a b : Mat ℝ 1) : QR ℝ 1 :=
  let ρ := Real.sqrt (a 0 0 * a 0 0 + b 0 0 * b 0 0)
  if ρ = 0 then ⟨1, 0, 0⟩ else ⟨fun _ _ => a 0 0 / ρ, fun _ _ => b 0 0 / ρ, fun _ _ => ρ⟩

theorem qr1_ok : IsQR qr1 := by
  have hsum : ∀ x y : ℝ, x * x + y * y = 0 → x = 0 ∧ y = 0 := by
    intro x y h
    exact ⟨by nlinarith [mul_self_nonneg x, mul_self_nonneg y], by nlinarith [mul_self_nonneg x, mul_self_nonneg y]⟩
  have fin1 : ∀ (A B : Mat ℝ 1), A 0 0 = B 0 0 → A = B := by
    intro A B h; ext i j; rw [Subsingleton.elim i 0, Subsingleton.elim j 0]; exact h
  have h0 : ∀ a b : Mat ℝ 1, 0 ≤ a 0 0 * a 0 0 + b 0 0 * b 0 0 := fun a b => add_nonneg (mul_self_nonneg _) (mul_self_nonneg _)
  have hz : ∀ a b : Mat ℝ 1, Real.sqrt (a 0 0 * a 0 0 + b 0 0 * b 0 0) = 0 → a 0 0 = 0 ∧ b 0 0 = 0 := by
    intro a b h
    exact hsum _ _ ((Real.sqrt_eq_zero (h0 a b)).1 h)
  refine ⟨fun a b => ?_, fun a b => ?_, fun a b => ?_, fun a b i j hij => absurd hij (by rw [Subsingleton.elim i j]; exact lt_irrefl _)⟩
  · unfold qr1
    dsimp only
    by_cases h : Real.sqrt (a 0 0 * a 0 0 + b 0 0 * b 0 0) = 0
    · rw [if_pos h]
      apply fin1
      simp [(hz a b h).1]
    · rw [if_neg h]
      apply fin1
      rw [Matrix.mul_apply, Fin.sum_univ_one]
      exact div_mul_cancel₀ _ h
  · unfold qr1
    dsimp only
    by_cases h : Real.sqrt (a 0 0 * a 0 0 + b 0 0 * b 0 0) = 0
    · rw [if_pos h]
      apply fin1
      simp [(hz a b h).2]
    · rw [if_neg h]
      apply fin1
      rw [Matrix.mul_apply, Fin.sum_univ_one]
      exact div_mul_cancel₀ _ h
  · unfold qr1
    dsimp only
    by_cases h : Real.sqrt (a 0 0 * a 0 0 + b 0 0 * b 0 0) = 0
    · rw [if_pos h]
      simp
    · rw [if_neg h]
      apply fin1
      rw [Matrix.add_apply, Matrix.mul_apply, Matrix.mul_apply, Fin.sum_univ_one, Fin.sum_univ_one, Matrix.conjTranspose_apply, Matrix.conjTranspose_apply]
      simp only [star_trivial, Matrix.one_apply_eq]
      have := Real.mul_self_sqrt (h0 a b)
      rw [div_mul_div_comm, div_mul_div_comm, ← add_div, div_eq_one_iff_eq (mul_ne_zero h h)]
      exact this.symm

/-- Three processes with one row each, 3, 4 and 12, one column: the hypotheses hold. -/
example : ∃ S : Mat ℝ 1, Sᴴ * S = ∑ r ∈ Finset.range 3, ((![!![3], !![4], !![12]] : Fin 3 → Mat ℝ 1) (Fin.ofNat 3 r))ᴴ * (![!![3], !![4], !![12]] : Fin 3 → Mat ℝ 1) (Fin.ofNat 3 r) := by
  obtain ⟨S, _, h, _⟩ := tsqr_correct qr1_ok (size := 3) (by decide) (m := fun _ => 1)
    (fun r => (![!![3], !![4], !![12]] : Fin 3 → Mat ℝ 1) (Fin.ofNat 3 r)) (fun _ => 1)
    (fun r => (![!![3], !![4], !![12]] : Fin 3 → Mat ℝ 1) (Fin.ofNat 3 r))
    (fun r _ => ⟨Matrix.one_mul _, rfl, fun i j hij => absurd hij (by rw [Subsingleton.elim i j]; exact lt_irrefl _)⟩) 0
  exact ⟨S, h⟩

end Verif.BVB.Tsqr
