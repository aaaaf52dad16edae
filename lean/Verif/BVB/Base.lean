import Mathlib.Tactic
import Mathlib.Data.Matrix.Mul
import Mathlib.LinearAlgebra.Matrix.ConjTranspose
import Mathlib.LinearAlgebra.Matrix.Hermitian
/-!
Loops and arrays for the models of operations with blocks of vectors (BV objects).  An array is a function from addresses to entries; a dense matrix with leading
dimension `ld` has its entry `(i,j)` at address `i + j*ld`.
-/
set_option linter.all false
namespace Verif.BVB

/-- `for (i=0;i<n;i++) body`. -/
def forN {σ : Type*} (n : ℕ) (f : ℕ → σ → σ) (s : σ) : σ := Nat.rec s (fun i s => f i s) n

/-- `for (i=l;i<k;i++) body`. -/
def forR {σ : Type*} (l k : ℕ) (f : ℕ → σ → σ) (s : σ) : σ := forN (k - l) (fun t => f (l + t)) s

/-- `a[p] = v`. -/
def wr {α : Type*} (a : ℕ → α) (p : ℕ) (v : α) : ℕ → α := fun x => if x = p then v else a x

/-- `PetscArraycpy(dst+off,src+soff,n)`. -/
def cpy {α : Type*} (dst : ℕ → α) (off : ℕ) (src : ℕ → α) (soff n : ℕ) : ℕ → α :=
  fun x => if off ≤ x ∧ x < off + n then src (soff + (x - off)) else dst x

variable {σ α : Type*}

@[simp] theorem forN_zero (f : ℕ → σ → σ) (s : σ) : forN 0 f s = s := rfl
@[simp] theorem forN_succ (n : ℕ) (f : ℕ → σ → σ) (s : σ) : forN (n + 1) f s = f n (forN n f s) := rfl

/-- Rule for loops. -/
theorem forN_inv {f : ℕ → σ → σ} {s : σ} (P : ℕ → σ → Prop) (n : ℕ) (h0 : P 0 s) (hs : ∀ i < n, ∀ t, P i t → P (i + 1) (f i t)) : P n (forN n f s) := by
  induction n with
  | zero => exact h0
  | succ n ih => exact hs n (Nat.lt_succ_self n) _ (ih (fun i hi t ht => hs i (Nat.lt_succ_of_lt hi) t ht))

/-- Rule for loops from `l` to `k`. -/
theorem forR_inv {f : ℕ → σ → σ} {s : σ} (P : ℕ → σ → Prop) {l k : ℕ} (hlk : l ≤ k) (h0 : P l s)
    (hs : ∀ i, l ≤ i → i < k → ∀ t, P i t → P (i + 1) (f i t)) : P k (forR l k f s) := by
  have := forN_inv (f := fun t => f (l + t)) (s := s) (fun i t => P (l + i) t) (k - l) (by simpa using h0)
    (fun i hi t ht => hs (l + i) (by omega) (by omega) t ht)
  simpa [Nat.add_sub_cancel' hlk, forR] using this

theorem forR_empty {f : ℕ → σ → σ} {s : σ} {l k : ℕ} (h : k ≤ l) : forR l k f s = s := by
  simp [forR, Nat.sub_eq_zero_of_le h]

/-- Addresses of a matrix determine the entry. -/
theorem addr_inj {ld i j i' j' : ℕ} (hi : i < ld) (hi' : i' < ld) (h : i + j * ld = i' + j' * ld) : i = i' ∧ j = j' := by
  have h1 : (i + j * ld) % ld = i := by rw [Nat.add_mul_mod_self_right, Nat.mod_eq_of_lt hi]
  have h2 : (i' + j' * ld) % ld = i' := by rw [Nat.add_mul_mod_self_right, Nat.mod_eq_of_lt hi']
  have he : i = i' := by rw [← h1, h, h2]
  subst he
  refine ⟨rfl, ?_⟩
  have : j * ld = j' * ld := by omega
  exact Nat.eq_of_mul_eq_mul_right (by omega) this

/-- Writing at the address of an entry. -/
theorem wr_addr {ld i i' : ℕ} (j j' : ℕ) (a : ℕ → α) (v : α) (hi : i < ld) (hi' : i' < ld) :
    wr a (i' + j' * ld) v (i + j * ld) = if i = i' ∧ j = j' then v else a (i + j * ld) := by
  unfold wr
  by_cases h : i = i' ∧ j = j'
  · rw [if_pos h, if_pos (by rw [h.1, h.2])]
  · rw [if_neg h, if_neg (fun he => h (addr_inj hi hi' he))]

/-- Copying part of a column. -/
theorem cpy_addr {ld i : ℕ} (j j' r0 n soff : ℕ) (a src : ℕ → α) (hi : i < ld) (hn : r0 + n ≤ ld) :
    cpy a (r0 + j' * ld) src soff n (i + j * ld) = if j = j' ∧ r0 ≤ i ∧ i < r0 + n then src (soff + (i - r0)) else a (i + j * ld) := by
  unfold cpy
  by_cases hn0 : n = 0
  · subst hn0
    rw [if_neg (by omega), if_neg (by omega)]
  by_cases h : j = j' ∧ r0 ≤ i ∧ i < r0 + n
  · obtain ⟨h1, h2, h3⟩ := h
    subst h1
    rw [if_pos (by constructor <;> omega), if_pos ⟨rfl, h2, h3⟩]
    congr 2
    omega
  · rw [if_neg h, if_neg]
    rintro ⟨ha, hb⟩
    apply h
    have hx : i + j * ld = (r0 + (i + j * ld - (r0 + j' * ld))) + j' * ld := by omega
    obtain ⟨h1, h2⟩ := addr_inj hi (by omega) hx
    exact ⟨h2, by omega, by omega⟩

/-- The grid of writes of a matrix product: entry `(i,j)` of an `m` by `n` result at `c0+i+j*ld`. -/
def grid (c0 ld m n : ℕ) (v : ℕ → ℕ → α) (a : ℕ → α) : ℕ → α :=
  forN n (fun j a => forN m (fun i a => wr a (c0 + i + j * ld) (v i j)) a) a

/-- A grid that starts at row `r0` and column `q0` of a matrix. -/
theorem grid_addr {ld r0 q0 m n i : ℕ} (j : ℕ) (v : ℕ → ℕ → α) (a : ℕ → α) (hi : i < ld) (hm : r0 + m ≤ ld) :
    grid (r0 + q0 * ld) ld m n v a (i + j * ld) =
      if (r0 ≤ i ∧ i < r0 + m) ∧ (q0 ≤ j ∧ j < q0 + n) then v (i - r0) (j - q0) else a (i + j * ld) := by
  have key := forN_inv (f := fun j a => forN m (fun i a => wr a (r0 + q0 * ld + i + j * ld) (v i j)) a) (s := a)
    (fun N t => ∀ i < ld, ∀ j, t (i + j * ld) = if (r0 ≤ i ∧ i < r0 + m) ∧ (q0 ≤ j ∧ j < q0 + N) then v (i - r0) (j - q0) else a (i + j * ld)) n
    (fun i hi j => by rw [if_neg (by omega)])
    (fun J hJ t ht => by
      have inner := forN_inv (f := fun i a => wr a (r0 + q0 * ld + i + J * ld) (v i J)) (s := t)
        (fun N u => ∀ i < ld, ∀ j, u (i + j * ld) = if (r0 ≤ i ∧ i < r0 + N) ∧ j = q0 + J then v (i - r0) J else t (i + j * ld)) m
        (fun i hi j => by rw [if_neg (by omega)])
        (fun I hI u hu i hi j => by
          have he : r0 + q0 * ld + I + J * ld = (r0 + I) + (q0 + J) * ld := by ring
          simp only [he]
          rw [wr_addr j (q0 + J) u _ hi (by omega)]
          by_cases h : i = r0 + I ∧ j = q0 + J
          · rw [if_pos h, if_pos (by omega)]
            have : i - r0 = I := by omega
            rw [this]
          · rw [if_neg h, hu i hi j]
            by_cases h2 : (r0 ≤ i ∧ i < r0 + I) ∧ j = q0 + J
            · rw [if_pos h2, if_pos (by omega)]
            · rw [if_neg h2, if_neg (by omega)])
      intro i hi j
      rw [inner i hi j]
      by_cases h : (r0 ≤ i ∧ i < r0 + m) ∧ j = q0 + J
      · rw [if_pos h, if_pos (by omega)]
        have : j - q0 = J := by omega
        rw [this]
      · rw [if_neg h, ht i hi j]
        by_cases h2 : (r0 ≤ i ∧ i < r0 + m) ∧ (q0 ≤ j ∧ j < q0 + J)
        · rw [if_pos h2, if_pos (by omega)]
        · rw [if_neg h2, if_neg (by omega)])
  exact key i hi j

/-- The conjugate of `u^* A v` is `v^* A^* u`. -/
theorem ip_adj {𝕜 N : Type*} [Field 𝕜] [StarRing 𝕜] [Fintype N] (A : Matrix N N 𝕜) (u v : N → 𝕜) :
    star (dotProduct (star u) (A.mulVec v)) = dotProduct (star v) (A.conjTranspose.mulVec u) := by
  rw [← Matrix.star_dotProduct, Matrix.star_mulVec, Matrix.dotProduct_mulVec]

end Verif.BVB
