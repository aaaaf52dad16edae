import Verif.BVB.Biorth
import Mathlib.Analysis.SpecialFunctions.Log.Basic
import Mathlib.Analysis.SpecialFunctions.Trigonometric.Basic
/-!
Model of the generation of random columns (`src/sys/classes/bv/interface/bvops.c:360-591`) and of the creation of the generator (`bvbasic.c:828-871, 888-929`),
as executed by one process of a parallel run.  The generator of a process is the sequence of numbers it would give, with the number of those already given.
Real scalars.
-/
set_option linter.all false
namespace Verif.BVB.Random

/-- The three kinds of columns: BVSetRandom, BVSetRandomNormal, BVSetRandomSign. -/
inductive Kind | uniform | normal | sign
deriving DecidableEq

/-- How many numbers an entry takes (one call of PetscRandomGetValue in lines 372, 421; two in lines 393-394). -/
def per : Kind → ℕ
  | .uniform => 1
  | .normal => 2
  | .sign => 1

/-- The entry computed from the numbers, lines 373, 399 and 422. -/
noncomputable def value (g : ℕ → ℝ) (pos : ℕ) : Kind → ℝ
  | .uniform => g pos
  | .normal => Real.sqrt (-2 * Real.log (g pos)) * Real.cos (2 * Real.pi * g (pos + 1))
  | .sign => if g pos < 1 / 2 then -1 else 1

/-- The loops of BVSetRandomColumn_Private (371-374), BVSetRandomNormalColumn_Private (392-402) and BVSetRandomSignColumn_Private (420-423) with `rrandom`: the process owns
the rows `low..high-1`; it draws the numbers of all `N` rows and keeps its own.  State: local array and number of numbers drawn. -/
noncomputable def colLoop (kd : Kind) (g : ℕ → ℝ) (N low high : ℕ) (st : (ℕ → ℝ) × ℕ) : (ℕ → ℝ) × ℕ :=
  forN N (fun i (s : (ℕ → ℝ) × ℕ) => (if low ≤ i ∧ i < high then wr s.1 (i - low) (value g s.2 kd) else s.1, s.2 + per kd)) st

/-- Without `rrandom` (376, 426): VecSetRandom draws one number for each local row. -/
noncomputable def vecSetRandom (g : ℕ → ℝ) (nloc : ℕ) (st : (ℕ → ℝ) × ℕ) : (ℕ → ℝ) × ℕ :=
  forN nloc (fun i (s : (ℕ → ℝ) × ℕ) => (wr s.1 i (g s.2), s.2 + 1)) st

/-- bvops.c:452-467 BVSetRandom, 523-547 BVSetRandomNormal, 573-591 BVSetRandomSign with `rrandom`: all active columns `l..k-1`.  The state is the local part of all
columns and the number of numbers drawn.  BVSetRandomColumn(j) (482-497) is the case `l=j`, `k=j+1`. -/
noncomputable def setRandom (kd : Kind) (g : ℕ → ℝ) (N low high l k : ℕ) (st : (ℕ → ℕ → ℝ) × ℕ) : (ℕ → ℕ → ℝ) × ℕ :=
  forR l k (fun c (s : (ℕ → ℕ → ℝ) × ℕ) => let r := colLoop kd g N low high (s.1 c, s.2); (wr s.1 c r.1, r.2)) st

/-- The fields of the BV that decide the seed of the generator: the option, and the generator with its seed if it exists. -/
structure Ctx where
  rrandom : Bool
  rand : Option ℕ

/-- The seed given by PetscRandomCreate on a process (a function of the rank; this is in PETSc, `0x12345678 + 76543*rank`). -/
def defaultSeed (rank : ℕ) : ℕ := 0x12345678 + 76543 * rank

/-- bvbasic.c:855-871 BVGetRandomContext. -/
def getRandomContext (rank : ℕ) (c : Ctx) : Ctx :=
  match c.rand with
  | some s => c
  | none => { c with rand := some (if c.rrandom then 0x12345678 else defaultSeed rank) }

/-- bvbasic.c:921, the option read in BVSetFromOptions. -/
def setFromOptions (opt : Bool) (c : Ctx) : Ctx := { c with rrandom := opt }

/-! ### Specification -/

/-- A distribution of `N` rows among processes: contiguous ranges that cover all rows. -/
structure Distribution (N : ℕ) where
  np : ℕ
  low : ℕ → ℕ
  high : ℕ → ℕ
  cover : ∀ i < N, ∃ r < np, low r ≤ i ∧ i < high r

/-! ### Lemmas -/

theorem colLoop_ok (kd : Kind) (g : ℕ → ℝ) (N low high : ℕ) (px : ℕ → ℝ) (pos : ℕ) :
    (colLoop kd g N low high (px, pos)).2 = pos + N * per kd ∧
    (∀ i < N, low ≤ i → i < high → (colLoop kd g N low high (px, pos)).1 (i - low) = value g (pos + i * per kd) kd) := by
  have := forN_inv (f := fun i (s : (ℕ → ℝ) × ℕ) => (if low ≤ i ∧ i < high then wr s.1 (i - low) (value g s.2 kd) else s.1, s.2 + per kd)) (s := (px, pos))
    (fun (n : ℕ) (s : (ℕ → ℝ) × ℕ) => s.2 = pos + n * per kd ∧ ∀ i < n, low ≤ i → i < high → s.1 (i - low) = value g (pos + i * per kd) kd) N
    ⟨by simp, fun i hi => absurd hi (by omega)⟩
    (by
      rintro n hn ⟨px, q⟩ ⟨h1, h2⟩
      dsimp only at h1 h2
      refine ⟨by dsimp only; rw [h1, Nat.succ_mul]; ring, ?_⟩
      intro i hi hl hh
      dsimp only
      by_cases hin : i = n
      · subst hin
        rw [if_pos ⟨hl, hh⟩, Biorth.wr_same, h1]
      · by_cases hc : low ≤ n ∧ n < high
        · rw [if_pos hc, Biorth.wr_other _ _ _ (by omega)]; exact h2 i (by omega) hl hh
        · rw [if_neg hc]; exact h2 i (by omega) hl hh)
  exact this

theorem setRandom_ok (kd : Kind) (g : ℕ → ℝ) (N low high l k : ℕ) (hlk : l ≤ k) (a : ℕ → ℕ → ℝ) (pos : ℕ) :
    (setRandom kd g N low high l k (a, pos)).2 = pos + (k - l) * (N * per kd) ∧
    (∀ c, l ≤ c → c < k → ∀ i < N, low ≤ i → i < high → (setRandom kd g N low high l k (a, pos)).1 c (i - low) = value g (pos + (c - l) * (N * per kd) + i * per kd) kd) ∧
    (∀ c, ¬ (l ≤ c ∧ c < k) → (setRandom kd g N low high l k (a, pos)).1 c = a c) := by
  have := forR_inv (f := fun c (s : (ℕ → ℕ → ℝ) × ℕ) => let r := colLoop kd g N low high (s.1 c, s.2); (wr s.1 c r.1, r.2)) (s := (a, pos))
    (fun (n : ℕ) (s : (ℕ → ℕ → ℝ) × ℕ) => s.2 = pos + (n - l) * (N * per kd) ∧
      (∀ c, l ≤ c → c < n → ∀ i < N, low ≤ i → i < high → s.1 c (i - low) = value g (pos + (c - l) * (N * per kd) + i * per kd) kd) ∧
      (∀ c, ¬ (l ≤ c ∧ c < n) → s.1 c = a c)) hlk
    ⟨by simp, fun c h1 h2 => absurd h2 (by omega), fun c _ => rfl⟩
    (by
      rintro n hn hk ⟨b, q⟩ ⟨h1, h2, h3⟩
      dsimp only at h1 h2 h3
      obtain ⟨g1, g2⟩ := colLoop_ok kd g N low high (b n) q
      dsimp only
      refine ⟨?_, ?_, ?_⟩
      · rw [g1, h1, show n + 1 - l = (n - l) + 1 by omega, Nat.succ_mul]; ring
      · intro c hc1 hc2 i hi hl hh
        by_cases hcn : c = n
        · subst hcn; rw [Biorth.wr_same, g2 i hi hl hh, h1]
        · rw [Biorth.wr_other _ _ _ hcn]; exact h2 c hc1 (by omega) i hi hl hh
      · intro c hc
        rw [Biorth.wr_other _ _ _ (by omega)]; exact h3 c (by omega))
  exact this

/-! ### Theorems -/

/-- **C118 (columns).**  Consider two runs with different numbers of processes and distributions `D`, `D'` of the rows, all processes with the same sequence of random numbers and
the same number of them already used.  With reproducible random vectors, after filling the columns `l..k-1` (with any of the three kinds), each entry of these columns
has the same value in both runs; the processes have all used the same number of random numbers, so that the same is true of the following calls; the other columns
are not changed. -/
theorem reproducible (kd : Kind) (g : ℕ → ℝ) (N l k : ℕ) (hlk : l ≤ k) (pos : ℕ) (D D' : Distribution N)
    (a a' : ℕ → ℕ → ℕ → ℝ) :
    (∀ r r', (setRandom kd g N (D.low r) (D.high r) l k (a r, pos)).2 = (setRandom kd g N (D'.low r') (D'.high r') l k (a' r', pos)).2) ∧
    (∀ c, l ≤ c → c < k → ∀ i < N, ∀ r < D.np, D.low r ≤ i → i < D.high r → ∀ r' < D'.np, D'.low r' ≤ i → i < D'.high r' →
      (setRandom kd g N (D.low r) (D.high r) l k (a r, pos)).1 c (i - D.low r) = (setRandom kd g N (D'.low r') (D'.high r') l k (a' r', pos)).1 c (i - D'.low r')) ∧
    (∀ r c, ¬ (l ≤ c ∧ c < k) → (setRandom kd g N (D.low r) (D.high r) l k (a r, pos)).1 c = a r c) := by
  refine ⟨?_, ?_, ?_⟩
  · intro r r'
    rw [(setRandom_ok kd g N _ _ l k hlk (a r) pos).1, (setRandom_ok kd g N _ _ l k hlk (a' r') pos).1]
  · intro c h1 h2 i hi r _ hl hh r' _ hl' hh'
    rw [(setRandom_ok kd g N _ _ l k hlk (a r) pos).2.1 c h1 h2 i hi hl hh, (setRandom_ok kd g N _ _ l k hlk (a' r') pos).2.1 c h1 h2 i hi hl' hh']
  · intro r c hc
    exact (setRandom_ok kd g N _ _ l k hlk (a r) pos).2.2 c hc

/-- **C118 (entries).**  The entry in row `i` of column `c` is made of the random numbers that a single process would use for it, which are the `per` numbers from
its place in the sequence on; distinct entries use distinct numbers. -/
theorem entries (kd : Kind) (g : ℕ → ℝ) (N low high l k : ℕ) (hlk : l ≤ k) (pos : ℕ) (a : ℕ → ℕ → ℝ) :
    (∀ c, l ≤ c → c < k → ∀ i < N, low ≤ i → i < high →
      (setRandom kd g N low high l k (a, pos)).1 c (i - low) = value g (pos + ((c - l) * N + i) * per kd) kd) ∧
    (∀ p (g' : ℕ → ℝ), (∀ q, p ≤ q → q < p + per kd → g' q = g q) → value g' p kd = value g p kd) ∧
    (∀ c c' i i', i < N → i' < N → (c - l) * N + i = (c' - l) * N + i' → c - l = c' - l ∧ i = i') := by
  refine ⟨?_, ?_, ?_⟩
  · intro c h1 h2 i hi hl hh
    rw [(setRandom_ok kd g N low high l k hlk a pos).2.1 c h1 h2 i hi hl hh]
    congr 1; ring
  · intro p g' h
    cases kd with
    | uniform => exact h p le_rfl (by simp [per])
    | normal => show _ * _ = _ * _; rw [h p le_rfl (by simp [per]), h (p + 1) (by omega) (by simp [per])]
    | sign => show ite _ _ _ = ite _ _ _; rw [h p le_rfl (by simp [per])]
  · intro c c' i i' hi hi' h
    have := addr_inj (ld := N) (i := i) (i' := i') (j := c - l) (j' := c' - l) hi hi' (by omega)
    exact ⟨this.2, this.1⟩

/-- **C118 (seeds, partial).**  If the option is read before the generator is created, all processes get the same seed. -/
theorem same_seed_partial (c : Ctx) (hc : c.rand = none) (rank rank' : ℕ) :
    (getRandomContext rank (setFromOptions true c)).rand = (getRandomContext rank' (setFromOptions true c)).rand ∧
    (getRandomContext rank (setFromOptions true c)).rand ≠ none := by
  simp [getRandomContext, setFromOptions, hc]

/-- Negation: if the generator exists already when the option is read (BVGetRandomContext called before BVSetFromOptions), the seed is not changed and differs
between processes although the option for reproducible vectors is set. -/
theorem late_option : ∃ c : Ctx, c.rand = none ∧ ∀ rank rank', rank ≠ rank' →
    (getRandomContext rank (setFromOptions true (getRandomContext rank c))).rrandom = true ∧
    (getRandomContext rank (setFromOptions true (getRandomContext rank c))).rand ≠ (getRandomContext rank' (setFromOptions true (getRandomContext rank' c))).rand := by
  refine ⟨⟨false, none⟩, rfl, ?_⟩
  intro r r' h
  refine ⟨rfl, ?_⟩
  simp only [getRandomContext, setFromOptions, defaultSeed, Bool.false_eq_true, if_false, Ne, Option.some.injEq]
  omega

theorem vecSetRandom_ok (g : ℕ → ℝ) (n : ℕ) (px : ℕ → ℝ) (pos i : ℕ) (hi : i < n) : (vecSetRandom g n (px, pos)).1 i = g (pos + i) := by
  have := forN_inv (f := fun i (s : (ℕ → ℝ) × ℕ) => (wr s.1 i (g s.2), s.2 + 1)) (s := (px, pos))
    (fun (m : ℕ) (s : (ℕ → ℝ) × ℕ) => s.2 = pos + m ∧ ∀ i < m, s.1 i = g (pos + i)) n
    ⟨by simp, fun i hi => absurd hi (by omega)⟩
    (by
      rintro m hm ⟨b, q⟩ ⟨h1, h2⟩
      dsimp only at h1 h2
      refine ⟨by dsimp only; omega, ?_⟩
      intro i hi
      dsimp only
      by_cases him : i = m
      · subst him; rw [Biorth.wr_same, h1]
      · rw [Biorth.wr_other _ _ _ him]; exact h2 i (by omega))
  exact this.2 i hi

/-- The option is needed: without it, row 1 of a vector of two rows has a different value with one and with two processes, even if all have the same sequence. -/
theorem option_needed : ∃ g : ℕ → ℝ, (vecSetRandom g 2 (fun _ => 0, 0)).1 1 ≠ (vecSetRandom g 1 (fun _ => 0, 0)).1 0 := by
  refine ⟨fun i => i, ?_⟩
  rw [vecSetRandom_ok _ _ _ _ _ (by norm_num), vecSetRandom_ok _ _ _ _ _ (by norm_num)]
  norm_num

/-- Two distributions of 5 rows. -/
example : ∃ D D' : Distribution 5, D.np = 1 ∧ D'.np = 3 ∧ D'.low 2 = 4 :=
  ⟨⟨1, fun _ => 0, fun _ => 5, fun i hi => ⟨0, by norm_num, by omega, hi⟩⟩,
   ⟨3, fun r => 2 * r, fun r => min 5 (2 * r + 2), fun i hi => ⟨i / 2, by omega, by omega, by omega⟩⟩, rfl, rfl, rfl⟩

end Verif.BVB.Random
