import Verif.Lrep.Spec
import Verif.Lrep.Zhong

/-! Properties C178 to C183 (Krylov-Schur for linear response problems). -/
set_option linter.all false

namespace Verif.Lrep

open Finset Matrix Verif.Bse

variable {n : ℕ} {K M : Mt n}

theorem dec_teng (hM : Mᵀ = M) {k m : ℕ} {s : Tz n} (h : DecT K M k m s) :
    TengDec K M m s.V s.U (stored k s.a s.b) (lastCol m (s.b (m - 1))) (s.V m) where
  prod := h.prod
  orth i hi j hj := by rw [← sy hM, ← h.prod i hi]; exact h.bi i hi j hj
  sym i j := arrow_symm k s.a s.b i j
  rel j hj := by rw [h.rel j hj]; rfl
  res i hi := by rw [← sy hM, ← h.prod i hi]; exact h.fr i hi

theorem runT_inv (hK : Kᵀ = K) (hM : Spd M) (m : ℕ) (hm : 0 < m) (s0 : Tz n) (h0 : s0.V 0 ≠ 0) (k : ℕ) (s : Tz n)
    (hr : RunT K M m s0 k s) : k < m ∧ InvT K M k m s := by
  have hpos : PosF M := hM.pos
  induction hr with
  | first s hs =>
    obtain ⟨g1, g2, g3⟩ := invT_start (K := K) hpos s0 h0
    unfold teng0 at hs
    rw [if_neg g1, if_neg g2] at hs
    obtain ⟨out, ho, h3, _⟩ := lanczosT_spec hK hM.sym hpos 0 m 0 _ le_rfl g3
    rw [hs] at ho
    obtain rfl := Option.some.inj ho
    have := (h3 rfl).2
    rw [Nat.zero_add] at this
    exact ⟨hm, this⟩
  | next k p s s' Q th hr hQ hp hpm hl ih =>
    obtain ⟨hk, hi⟩ := ih
    have h4 := invT_restart hM.sym hk hpm.le hi Q th (fun i hi l hl => hQ.ortho i (by omega) l (by omega))
      (fun i hi r hr => hQ.eig i (by omega) r hr)
    obtain ⟨out, ho, h3, _⟩ := lanczosT_spec hK hM.sym hpos p (m - p) p _ le_rfl h4
    rw [hl] at ho
    obtain rfl := Option.some.inj ho
    have := (h3 rfl).2
    rw [Nat.add_sub_cancel' hpm.le] at this
    exact ⟨hpm, this⟩

/-- C178 (partial: exact arithmetic, no locked columns, dense solver by specification): after any number of restarts the bases satisfy
the decomposition with the stored matrix, and the further vector is normalized in the same form. -/
theorem C178_partial (hK : Kᵀ = K) (hM : Spd M) (m : ℕ) (hm : 0 < m) (s0 : Tz n) (h0 : s0.V 0 ≠ 0) (k : ℕ) (s : Tz n)
    (hr : RunT K M m s0 k s) :
    TengDec K M m s.V s.U (stored k s.a s.b) (lastCol m (s.b (m - 1))) (s.V m) ∧ s.V m ⬝ᵥ (M *ᵥ s.V m) = 1 ∧ s.U m = M *ᵥ s.V m := by
  obtain ⟨hk, hi⟩ := runT_inv hK hM m hm s0 h0 k s hr
  refine ⟨dec_teng hM.sym (decT_of_inv hk hi), ?_, hi.prod m le_rfl⟩
  have := hi.bi m le_rfl m le_rfl
  rw [if_pos rfl, hi.prod m le_rfl, sy hM.sym] at this
  exact this

theorem dec_teng0 (hM : Mᵀ = M) {k : ℕ} {o : OutT n} (h : DecT K M k o.m o.s) (hb : o.s.b (o.m - 1) = 0) :
    TengDec K M o.m o.s.V o.s.U (stored k o.s.a o.s.b) (fun _ => 0) 0 := by
  have h3 := dec_teng hM h
  refine ⟨h3.prod, h3.orth, h3.sym, ?_, by intro i _; simp⟩
  intro j hj
  rw [h3.rel j hj]
  unfold lastCol
  rw [hb]; simp

/-- C178, next factorization: from any state of the run it has a result (no root of a negative number); if it ends early, the
decomposition holds with the columns computed so far and without residual. -/
theorem C178_cycle (hK : Kᵀ = K) (hM : Spd M) (m : ℕ) (hm : 0 < m) (s0 : Tz n) (h0 : s0.V 0 ≠ 0) :
    (∃ out, teng0 K M m s0 = some out ∧ (out.bd = false → out.m = m) ∧ (out.bd = true → 0 < out.m ∧ out.m ≤ m ∧
      TengDec K M out.m out.s.V out.s.U (stored 0 out.s.a out.s.b) (fun _ => 0) 0 ∧ out.s.b (out.m - 1) = 0)) ∧
    (∀ k s Q th p, RunT K M m s0 k s → Diag (stored k s.a s.b) m Q th → 0 < p → p < m →
      ∃ out, lanczosT K M p (m - p) p (restartT Q th m p s) = some out ∧ (out.bd = false → out.m = m) ∧
        (out.bd = true → p < out.m ∧ out.m ≤ m ∧ TengDec K M out.m out.s.V out.s.U (stored p out.s.a out.s.b) (fun _ => 0) 0 ∧
          out.s.b (out.m - 1) = 0)) := by
  have hpos : PosF M := hM.pos
  constructor
  · obtain ⟨g1, g2, g3⟩ := invT_start (K := K) hpos s0 h0
    obtain ⟨out, ho, h3, h4⟩ := lanczosT_spec hK hM.sym hpos 0 m 0 _ le_rfl g3
    refine ⟨out, ?_, ?_, ?_⟩
    · unfold teng0; rw [if_neg g1, if_neg g2]; exact ho
    · intro hc; have := (h3 hc).1; omega
    · intro hc
      obtain ⟨a1, a2, a3, a4⟩ := h4 hc
      exact ⟨a1, by omega, dec_teng0 hM.sym a3 a4, a4⟩
  · intro k s Q th p hr hQ hp hpm
    obtain ⟨hk, hi⟩ := runT_inv hK hM m hm s0 h0 k s hr
    have h4 := invT_restart hM.sym hk hpm.le hi Q th (fun i hi l hl => hQ.ortho i (by omega) l (by omega))
      (fun i hi r hr => hQ.eig i (by omega) r hr)
    obtain ⟨out, ho, h3, h5⟩ := lanczosT_spec hK hM.sym hpos p (m - p) p _ le_rfl h4
    refine ⟨out, ho, ?_, ?_⟩
    · intro hc; have := (h3 hc).1; omega
    · intro hc
      obtain ⟨a1, a2, a3, a4⟩ := h5 hc
      exact ⟨a1, by omega, dec_teng0 hM.sym a3 a4, a4⟩

/-! ### Variant ZHONG -/

theorem dec_zhong (hK : Kᵀ = K) (hM : Mᵀ = M) {k m : ℕ} (hk : k < m) {s : Zz n} (h : InvZ K M k m m s) :
    ZhongDec K M m s.U s.V (bidi k s.a s.b) (lastCol m (s.b (m - 1))) (s.U m) where
  orthU i hi j hj := by rw [← sy hM, ← h.mu i hi.le]; exact h.ou i hi.le j hj.le
  orthV i hi j hj := by rw [← sy hK]; exact h.ov i hi j hj
  relU j hj := h.pu j hj
  relV j hj := by rw [mvZ_split hk h j hj]; rfl
  res i hi := by rw [← sy hM, ← h.mu i hi.le, h.ou i hi.le m le_rfl, if_neg (by omega)]

theorem runZ_inv (hK : Spd K) (hM : Spd M) (m : ℕ) (hm : 0 < m) (s0 : Zz n) (h0 : s0.U 0 ≠ 0) (k : ℕ) (s : Zz n)
    (hr : RunZ K M m s0 k s) : k < m ∧ InvZ K M k m m s := by
  induction hr with
  | first s hs =>
    obtain ⟨g1, g2, g3⟩ := invZ_start (K := K) (M := M) hM.pos s0 h0
    obtain ⟨out, e1, e2, e3, e4⟩ := lanczosZ_spec hK.sym hM.sym hM.pos hK.pos 0 m 0 _ le_rfl g3
    unfold zhong0 at hs
    rw [if_neg g1, if_neg g2, e1] at hs
    obtain rfl := Option.some.inj hs
    exact ⟨hm, (e3 rfl).2⟩
  | next k p s s' Z W sg hr' hS hp0 hpm hl ih =>
    obtain ⟨hk, hi⟩ := ih
    have hi' := invZ_restart hk hpm hi Z W sg hS
    obtain ⟨out, e1, e2, e3, e4⟩ := lanczosZ_spec hK.sym hM.sym hM.pos hK.pos p (m - p) p _ le_rfl hi'
    rw [hl] at e1
    obtain rfl := Option.some.inj e1
    exact ⟨hpm, (e3 rfl).2⟩

/-- C179 (partial: exact arithmetic, no locked columns, dense solver by specification): after the first factorization and after any number
of restarts both bases are orthonormal in their forms and both products are represented by the stored matrix. -/
theorem C179_partial (hK : Spd K) (hM : Spd M) (m : ℕ) (hm : 0 < m) (s0 : Zz n) (h0 : s0.U 0 ≠ 0) (k : ℕ) (s : Zz n)
    (hr : RunZ K M m s0 k s) :
    ZhongDec K M m s.U s.V (bidi k s.a s.b) (lastCol m (s.b (m - 1))) (s.U m) ∧ s.U m ⬝ᵥ (M *ᵥ s.U m) = 1 := by
  obtain ⟨hk, hi⟩ := runZ_inv hK hM m hm s0 h0 k s hr
  refine ⟨dec_zhong hK.sym hM.sym hk hi, ?_⟩
  have := hi.ou m le_rfl m le_rfl
  rw [if_pos rfl, hi.mu m le_rfl, sy hM.sym] at this
  exact this

/-- Early end of the loop: the decomposition has no residual. -/
theorem dec_zhong_end (hK : Kᵀ = K) (hM : Mᵀ = M) {k m : ℕ} (hm : 0 < m) (hk : k < m) {s : Zz n}
    (h : InvZ K M k (m - 1) m s) (hu : s.U m = K *ᵥ s.V (m - 1)) (hn : newZu (m - 1) s = 0) :
    ZhongDec K M m (stepZu M (m - 1) s).U (stepZu M (m - 1) s).V
      (bidi k (stepZu M (m - 1) s).a (stepZu M (m - 1) s).b) (fun _ => 0) 0 := by
  obtain ⟨j, rfl⟩ : ∃ j, m = j + 1 := ⟨m - 1, by omega⟩
  simp only [Nat.add_sub_cancel] at *
  obtain ⟨f0, _⟩ := newZu_facts hM (by omega : k ≤ j) h hu
  rw [hn] at f0
  have hU : ∀ i < j + 1, (stepZu M j s).U i = s.U i := by intro i hi; unfold stepZu; simp only []; rw [upd_lt _ _ hi]
  have hV : (stepZu M j s).V = s.V := rfl
  have ha : (stepZu M j s).a = s.a := rfl
  have hT : ∀ l i, l < j + 1 → i < j + 1 → bidi k (stepZu M j s).a (stepZu M j s).b l i = bidi k s.a s.b l i := by
    intro l i hl hi
    have : ∀ a < j, (stepZu M j s).b a = s.b a := by intro a ha; unfold stepZu; simp only []; rw [upd_lt _ _ ha]
    unfold bidi
    rw [ha]
    by_cases hli : l = i
    · rw [if_pos hli, if_pos hli]
    · rw [if_neg hli, if_neg hli]
      by_cases hc : (l < k ∧ i = k) ∨ (k ≤ l ∧ i = l + 1)
      · rw [if_pos hc, if_pos hc, this l (by omega)]
      · rw [if_neg hc, if_neg hc]
  refine ⟨?_, ?_, ?_, ?_, ?_⟩
  · intro i hi l hl
    rw [hU i hi, hU l hl, ← sy hM, ← h.mu i (by omega)]
    exact h.ou i (by omega) l (by omega)
  · intro i hi l hl
    rw [hV, ← sy hK]
    exact h.ov i hi l hl
  · intro i hi
    rw [hU i hi, h.pu i hi, hV]
    apply Finset.sum_congr rfl; intro l hl; rw [hT l i (Finset.mem_range.1 hl) hi]
  · intro i hi
    rw [hV, smul_zero, add_zero, Finset.sum_congr rfl (g := fun l => bidi k s.a s.b i l • s.U l)
      (by intro l hl; have := Finset.mem_range.1 hl; rw [hT i l hi this, hU l this])]
    rcases Nat.lt_succ_iff_lt_or_eq.1 hi with h3 | h3
    · rw [h.mv i h3]
    · subst h3
      rw [Finset.sum_range_succ, Finset.sum_eq_zero]
      · have : bidi k s.a s.b i i = s.a i := by unfold bidi; rw [if_pos rfl]
        rw [this, zero_add]
        exact sub_eq_zero.1 f0.symm
      · intro l hl
        have := Finset.mem_range.1 hl
        have : bidi k s.a s.b i l = 0 := by unfold bidi; rw [if_neg (by omega), if_neg (by omega)]
        rw [this, zero_smul]
  · intro i hi; simp

/-- C179, next factorization: it has a result (no root of a negative number), `alpha` never vanishes, and if `beta` vanishes the
decomposition holds with the columns computed and without residual. -/
theorem C179_cycle (hK : Spd K) (hM : Spd M) (m : ℕ) (hm : 0 < m) (s0 : Zz n) (h0 : s0.U 0 ≠ 0) :
    (∃ out, zhong0 K M m s0 = some out ∧ out.e ≠ .zero1 ∧ (out.e = .full → out.m = m) ∧
      (out.e = .zero2 → 0 < out.m ∧ out.m ≤ m ∧ ZhongDec K M out.m out.s.U out.s.V (bidi 0 out.s.a out.s.b) (fun _ => 0) 0)) ∧
    (∀ k s Z W sg p, RunZ K M m s0 k s → Svd (bidi k s.a s.b) m Z W sg → 0 < p → p < m →
      ∃ out, lanczosZ K M p (m - p) p (restartZ Z W sg m p s) = some out ∧ out.e ≠ .zero1 ∧ (out.e = .full → out.m = m) ∧
        (out.e = .zero2 → p < out.m ∧ out.m ≤ m ∧ ZhongDec K M out.m out.s.U out.s.V (bidi p out.s.a out.s.b) (fun _ => 0) 0)) := by
  constructor
  · obtain ⟨g1, g2, g3⟩ := invZ_start (K := K) (M := M) hM.pos s0 h0
    obtain ⟨out, e1, e2, e3, e4⟩ := lanczosZ_spec hK.sym hM.sym hM.pos hK.pos 0 m 0 _ le_rfl g3
    refine ⟨out, ?_, e2, ?_, ?_⟩
    · unfold zhong0; rw [if_neg g1, if_neg g2, e1]
    · intro hc; have := (e3 hc).1; omega
    · intro hc
      obtain ⟨a1, a2, s', a3, a4, a5, a6, a7⟩ := e4 hc
      rw [a6]
      exact ⟨a1, by omega, dec_zhong_end hK.sym hM.sym a1 a1 a3 a4 a5⟩
  · intro k s Z W sg p hr hS hp0 hpm
    obtain ⟨hk, hi⟩ := runZ_inv hK hM m hm s0 h0 k s hr
    obtain ⟨out, e1, e2, e3, e4⟩ := lanczosZ_spec hK.sym hM.sym hM.pos hK.pos p (m - p) p _ le_rfl (invZ_restart hk hpm hi Z W sg hS)
    refine ⟨out, e1, e2, ?_, ?_⟩
    · intro hc; have := (e3 hc).1; omega
    · intro hc
      obtain ⟨a1, a2, s', a3, a4, a5, a6, a7⟩ := e4 hc
      rw [a6]
      exact ⟨a1, by omega, dec_zhong_end hK.sym hM.sym (by omega) a1 a3 a4 a5⟩

/-! ### Assembly of vectors -/

theorem red_mul (K M : Mt n) (p q : Vr n) : Hred K M *ᵥ Sum.elim p q = Sum.elim (K *ᵥ q) (M *ᵥ p) := by
  unfold Hred
  rw [Matrix.fromBlocks_mulVec]
  simp

theorem orig_mul (A B : Mt n) (p q : Vr n) : Horig A B *ᵥ Sum.elim p q = Sum.elim (A *ᵥ p + B *ᵥ q) (-(B *ᵥ p) - A *ᵥ q) := by
  unfold Horig
  rw [Matrix.fromBlocks_mulVec]
  simp only [Sum.elim_comp_inl, Sum.elim_comp_inr, neg_mulVec]
  rw [sub_eq_add_neg]

theorem el_sub (l : ℝ) (a b c d : Vr n) : Sum.elim a b - l • Sum.elim c d = Sum.elim (a - l • c) (b - l • d) := by
  funext i; cases i <;> simp

theorem el_zero : (Sum.elim (0 : Vr n) 0 : Fin n ⊕ Fin n → ℝ) = 0 := by funext i; cases i <;> rfl

/-- C180, variant TENG: residual of the assembled vector, and it is not zero. -/
theorem C180_teng (K M : Mt n) (lam : ℝ) (u v : Vr n) (hu : u = M *ᵥ v) :
    Hred K M *ᵥ asmTeng lam v u - lam • asmTeng lam v u = Sum.elim (K *ᵥ u - (lam * lam) • v) 0 ∧
      (lam ≠ 0 → v ≠ 0 → asmTeng lam v u ≠ 0) := by
  constructor
  · unfold asmTeng
    rw [red_mul, el_sub, m_sm, ← hu, sub_self, smul_smul]
  · intro hl hv h0
    apply hv
    funext i
    have h1 := congrFun h0 (Sum.inl i)
    simp only [asmTeng, Sum.elim_inl, Pi.smul_apply, Pi.zero_apply, smul_eq_mul] at h1
    exact (mul_eq_zero.1 h1).resolve_left hl

/-- C180, variant ZHONG: residual of the assembled vector. -/
theorem C180_zhong (K M : Mt n) (lam : ℝ) (u v : Vr n) :
    Hred K M *ᵥ asmZhong u v - lam • asmZhong u v = Sum.elim (K *ᵥ v - lam • u) (M *ᵥ u - lam • v) ∧
      (u ≠ 0 → asmZhong u v ≠ 0) := by
  constructor
  · unfold asmZhong; rw [red_mul, el_sub]
  · intro hu h0
    apply hu
    funext i
    exact congrFun h0 (Sum.inl i)

/-- C180, original form: the transformed vector has the transformed residual with respect to the user's matrix. -/
theorem C180_unred (A B : Mt n) (lam : ℝ) (x : Fin n ⊕ Fin n → ℝ) :
    Horig A B *ᵥ unred x - lam • unred x = unred (Hred (redK A B) (redM A B) *ᵥ x - lam • x) ∧ (unred x = 0 ↔ x = 0) ∧
      nsq (unred x) = 2 * nsq x := by
  obtain ⟨u, w, rfl⟩ : ∃ u w : Vr n, x = Sum.elim u w := ⟨fun i => x (Sum.inl i), fun i => x (Sum.inr i), by funext i; cases i <;> rfl⟩
  have hx : unred (Sum.elim u w) = Sum.elim (u + w) (u - w) := rfl
  refine ⟨?_, ?_, ?_⟩
  · have hy : ∀ a b : Vr n, unred (Sum.elim a b) = Sum.elim (a + b) (a - b) := fun a b => rfl
    rw [red_mul, el_sub, hx, hy, orig_mul, el_sub]
    unfold redK redM
    congr 1
    · simp only [mulVec_add, mulVec_sub, add_mulVec, sub_mulVec, smul_add, smul_sub]; abel
    · simp only [mulVec_add, mulVec_sub, add_mulVec, sub_mulVec, smul_add, smul_sub]; abel
  · rw [hx]
    constructor
    · intro h0
      funext i
      have e : ∀ j, u j = 0 ∧ w j = 0 := by
        intro j
        have h1 := congrFun h0 (Sum.inl j)
        have h2 := congrFun h0 (Sum.inr j)
        simp at h1 h2
        constructor <;> linarith
      cases i with
      | inl j => exact (e j).1
      | inr j => exact (e j).2
    · intro h0
      have e1 : u = 0 := by funext j; exact congrFun h0 (Sum.inl j)
      have e2 : w = 0 := by funext j; exact congrFun h0 (Sum.inr j)
      rw [e1, e2]; funext i; cases i <;> simp
  · rw [hx]
    unfold nsq
    rw [Fintype.sum_sum_type, Fintype.sum_sum_type, ← Finset.sum_add_distrib, ← Finset.sum_add_distrib, Finset.mul_sum]
    apply Finset.sum_congr rfl
    intro i _
    simp only [Sum.elim_inl, Sum.elim_inr, Pi.add_apply, Pi.sub_apply]
    ring

/-- C180: exact Ritz pairs give eigenvectors of the user's matrix, in both variants and both forms. -/
theorem C180_exact (lam : ℝ) (hl : lam ≠ 0) (u v : Vr n) :
    (∀ K M : Mt n, v ≠ 0 → u = M *ᵥ v → K *ᵥ u = (lam * lam) • v →
      Hred K M *ᵥ asmTeng lam v u = lam • asmTeng lam v u ∧ asmTeng lam v u ≠ 0) ∧
    (∀ K M : Mt n, u ≠ 0 → M *ᵥ u = lam • v → K *ᵥ v = lam • u →
      Hred K M *ᵥ asmZhong u v = lam • asmZhong u v ∧ asmZhong u v ≠ 0) ∧
    (∀ A B : Mt n, v ≠ 0 → u = (A + B) *ᵥ v → (A - B) *ᵥ u = (lam * lam) • v →
      Horig A B *ᵥ unred (asmTeng lam v u) = lam • unred (asmTeng lam v u) ∧ unred (asmTeng lam v u) ≠ 0) ∧
    (∀ A B : Mt n, u ≠ 0 → (A + B) *ᵥ u = lam • v → (A - B) *ᵥ v = lam • u →
      Horig A B *ᵥ unred (asmZhong u v) = lam • unred (asmZhong u v) ∧ unred (asmZhong u v) ≠ 0) := by
  have t : ∀ K M : Mt n, v ≠ 0 → u = M *ᵥ v → K *ᵥ u = (lam * lam) • v →
      Hred K M *ᵥ asmTeng lam v u = lam • asmTeng lam v u ∧ asmTeng lam v u ≠ 0 := by
    intro K M hv hu he
    obtain ⟨h1, h2⟩ := C180_teng K M lam u v hu
    rw [he, sub_self, el_zero] at h1
    exact ⟨sub_eq_zero.1 h1, h2 hl hv⟩
  have z : ∀ K M : Mt n, u ≠ 0 → M *ᵥ u = lam • v → K *ᵥ v = lam • u →
      Hred K M *ᵥ asmZhong u v = lam • asmZhong u v ∧ asmZhong u v ≠ 0 := by
    intro K M hu h1 h2
    obtain ⟨h3, h4⟩ := C180_zhong K M lam u v
    rw [h1, h2, sub_self, sub_self, el_zero] at h3
    exact ⟨sub_eq_zero.1 h3, h4 hu⟩
  have un : ∀ (A B : Mt n) (x : Fin n ⊕ Fin n → ℝ), Hred (A - B) (A + B) *ᵥ x = lam • x ∧ x ≠ 0 →
      Horig A B *ᵥ unred x = lam • unred x ∧ unred x ≠ 0 := by
    intro A B x ⟨h1, h2⟩
    obtain ⟨h3, h4, _⟩ := C180_unred A B lam x
    have h5 : Hred (redK A B) (redM A B) *ᵥ x - lam • x = 0 := sub_eq_zero.2 h1
    rw [h5] at h3
    have h6 : unred (0 : Fin n ⊕ Fin n → ℝ) = 0 := ((C180_unred A B lam 0).2.1).2 rfl
    rw [h6] at h3
    exact ⟨sub_eq_zero.1 h3, fun hc => h2 (h4.1 hc)⟩
  exact ⟨t, z, fun A B hv hu he => un A B _ (t _ _ hv hu he), fun A B hu h1 h2 => un A B _ (z _ _ hu h1 h2)⟩

/-! ### Residuals -/

theorem nsq_smul {ι : Type} [Fintype ι] (r : ℝ) (a : ι → ℝ) : nsq (r • a) = r ^ 2 * nsq a := by
  unfold nsq
  rw [Finset.mul_sum]
  apply Finset.sum_congr rfl
  intro i _
  rw [Pi.smul_apply, smul_eq_mul, mul_pow]

theorem nsq_elim (a b : Vr n) : nsq (Sum.elim a b) = nsq a + nsq b := by
  unfold nsq; rw [Fintype.sum_sum_type]; simp

theorem comb_relT {m : ℕ} {U V : ℕ → Vr n} {T : ℕ → ℕ → ℝ} {b : ℝ} {f : Vr n} (hm : 0 < m)
    (h : TengDec K M m V U T (lastCol m b) f) {Q : ℕ → ℕ → ℝ} {th : ℕ → ℝ} (hQ : Diag T m Q th) (i : ℕ) (hi : i < m) :
    combT m Q U i = M *ᵥ combT m Q V i ∧ K *ᵥ combT m Q U i = th i • combT m Q V i + (b * Q (m - 1) i) • f := by
  unfold combT
  constructor
  · rw [m_sum]
    apply Finset.sum_congr rfl; intro r hr
    rw [m_sm, h.prod r (Finset.mem_range.1 hr)]
  · rw [m_sum, Finset.sum_congr rfl (g := fun r => Q r i • (∑ l ∈ range m, (fun a b => T b a) r l • V l)
      + (Q r i * (if r + 1 = m then b else 0)) • f)
      (by intro r hr; rw [m_sm, h.rel r (Finset.mem_range.1 hr), smul_add, smul_smul]; rfl), Finset.sum_add_distrib, s_comm,
      last_sum m hm (fun r => Q r i)]
    congr 1
    rw [Finset.smul_sum]
    apply Finset.sum_congr rfl; intro l hl
    rw [hQ.eig i hi l (Finset.mem_range.1 hl), smul_smul]

/-- C181 (partial): the exact residual of the vector that is returned (reduced form): its squared norm is the square of the estimate times
the squared norm of the further basis vector; the vector itself has squared norm `lambda^2 |v|^2 + |u|^2`. Neither norm enters the
estimate. -/
theorem C181_partial (K M : Mt n) (m : ℕ) (hm : 0 < m) (s : Tz n) (T : ℕ → ℕ → ℝ)
    (h : TengDec K M m s.V s.U T (lastCol m (s.b (m - 1))) (s.V m)) (Q : ℕ → ℕ → ℝ) (th : ℕ → ℝ) (hQ : Diag T m Q th) (i : ℕ) (hi : i < m)
    (hth : 0 ≤ th i) (x : Fin n ⊕ Fin n → ℝ) (hx : x = asmTeng (ritzT th i) (combT m Q s.V i) (combT m Q s.U i)) :
    nsq (Hred K M *ᵥ x - ritzT th i • x) = estT s m Q i ^ 2 * nsq (s.V m) ∧
      nsq x = ritzT th i ^ 2 * nsq (combT m Q s.V i) + nsq (combT m Q s.U i) := by
  obtain ⟨h1, h2⟩ := comb_relT hm h hQ i hi
  constructor
  · rw [hx, (C180_teng K M _ _ _ h1).1, h2]
    unfold ritzT
    rw [Real.mul_self_sqrt hth, add_sub_cancel_left, nsq_elim, nsq_smul]
    have : nsq (0 : Vr n) = 0 := by simp [nsq]
    rw [this]
    unfold estT
    rw [mul_pow, mul_pow, sq_abs]; ring
  · rw [hx]; unfold asmTeng; rw [nsq_elim, nsq_smul]

/-! ### Breakdown -/

/-- Pairs of a decomposition without residual are exact. -/
theorem exactT (hK : Spd K) {m : ℕ} {U V : ℕ → Vr n} {T : ℕ → ℕ → ℝ} (hm : 0 < m)
    (h : TengDec K M m V U T (fun _ => 0) 0) {Q : ℕ → ℕ → ℝ} {th : ℕ → ℝ} (hQ : Diag T m Q th) (i : ℕ) (hi : i < m) :
    0 < ritzT th i ∧ combT m Q V i ≠ 0 ∧ combT m Q U i = M *ᵥ combT m Q V i ∧
      K *ᵥ combT m Q U i = (ritzT th i * ritzT th i) • combT m Q V i := by
  have h' : TengDec K M m V U T (lastCol m 0) 0 :=
    ⟨h.prod, h.orth, h.sym, by intro j hj; rw [h.rel j hj]; simp, h.res⟩
  obtain ⟨h1, h2⟩ := comb_relT hm h' hQ i hi
  have h3 : combT m Q V i ⬝ᵥ combT m Q U i = 1 := by
    have ho := hQ.ortho i hi i hi
    rw [if_pos rfl] at ho
    rw [← ho]
    unfold combT
    rw [r_comb2 m V U _ _ (by intro a ha b hb; rw [h.prod b hb]; exact h.orth a ha b hb)]
  have hv : combT m Q V i ≠ 0 := by intro h0; rw [h0, r_comm, r_zero] at h3; norm_num at h3
  have hu : combT m Q U i ≠ 0 := by intro h0; rw [h0, r_zero] at h3; norm_num at h3
  rw [smul_zero, add_zero] at h2
  have hth : 0 < th i := by
    have := hK.pos _ hu
    rw [h2, r_smul, r_comm, h3, mul_one] at this
    exact this
  refine ⟨Real.sqrt_pos.2 hth, hv, h1, ?_⟩
  rw [h2]; unfold ritzT; rw [Real.mul_self_sqrt hth.le]

theorem firstFail_all0 (err : ℕ → ℝ) (tol : ℝ) : ∀ t k, (∀ i, k ≤ i → i < k + t → err i < tol) → firstFail err tol t k = k + t := by
  intro t
  induction t with
  | zero => intro k _; rfl
  | succ t ih =>
    intro k h
    unfold firstFail
    rw [if_neg (not_le.2 (h k le_rfl (by omega))), ih (k + 1) (fun i h1 h2 => h i (by omega) (by omega))]
    omega

/-- C183 (partial): at an early end of the first factorization all pairs are exact eigenpairs, they are all counted as converged, and the
solver ends successfully if they are enough. -/
theorem C183_partial (hK : Spd K) (hM : Spd M) (m : ℕ) (hm : 0 < m) (s0 : Tz n) (h0 : s0.V 0 ≠ 0) (out : OutT n)
    (ho : teng0 K M m s0 = some out) (hbd : out.bd = true) (Q : ℕ → ℕ → ℝ) (th : ℕ → ℝ)
    (hQ : Diag (stored 0 out.s.a out.s.b) out.m Q th) (tol : ℝ) (htol : 0 < tol) (nev its maxit : ℕ) :
    (∀ i < out.m, ∃ x, x = asmTeng (ritzT th i) (combT out.m Q out.s.V i) (combT out.m Q out.s.U i) ∧ x ≠ 0 ∧
      Hred K M *ᵥ x = ritzT th i • x ∧ estT out.s out.m Q i = 0) ∧
    firstFail (fun i => estT out.s out.m Q i / ritzT th i) tol out.m 0 = out.m ∧
    ((nev + 1) / 2 ≤ out.m → verdictL true out.m nev its maxit = Verdict.convergedTol) := by
  obtain ⟨⟨out', ho', _, h4⟩, _⟩ := C178_cycle hK.sym hM m hm s0 h0
  rw [ho] at ho'
  obtain rfl := Option.some.inj ho'
  obtain ⟨a1, a2, a3, a4⟩ := h4 hbd
  have he : ∀ i, estT out.s out.m Q i = 0 := by intro i; unfold estT; rw [a4, mul_zero]
  refine ⟨?_, ?_, ?_⟩
  · intro i hi
    obtain ⟨b1, b2, b3, b4⟩ := exactT hK a1 a3 hQ i hi
    obtain ⟨c1, c2⟩ := (C180_exact _ b1.ne' _ _).1 K M b2 b3 b4
    exact ⟨_, rfl, c2, c1, he i⟩
  · rw [firstFail_all0 _ _ _ _ (by intro i _ _; simp only [he]; simpa using htol), Nat.zero_add]
  · intro h; unfold verdictL; rw [if_pos h]

theorem spd_one : Spd (1 : Mt n) := by
  refine ⟨by simp, ?_⟩
  intro x hx
  rw [one_mulVec]
  obtain ⟨i, hi⟩ := Function.ne_iff.1 hx
  apply Finset.sum_pos'
  · intro j _; exact mul_self_nonneg _
  · exact ⟨i, Finset.mem_univ _, mul_self_pos.2 hi⟩

/-- With `K = M = I` the first factorization ends after one column, for every start vector. -/
theorem one_run (s0 : Tz n) (h0 : s0.V 0 ≠ 0) (m : ℕ) (hm : 0 < m) : ∃ s, teng0 (1 : Mt n) 1 m s0 = some ⟨s, 1, true⟩ ∧ s.a 0 = 1 := by
  obtain ⟨g1, g2, g3⟩ := invT_start (K := (1 : Mt n)) spd_one.pos s0 h0
  obtain ⟨hx, ha⟩ := newT_eq (by simp) le_rfl g3
  have e2 : (normT0 1 s0).U 0 = (normT0 1 s0).V 0 := by have := g3.prod 0 le_rfl; rw [one_mulVec] at this; exact this
  have e1 : (normT0 1 s0).V 0 ⬝ᵥ (normT0 1 s0).V 0 = 1 := by have := g3.bi 0 le_rfl 0 le_rfl; rw [if_pos rfl, e2] at this; exact this
  have hz : locV (1 : Mt n) 0 0 (normT0 1 s0) = 0 := by
    unfold locV
    rw [one_mulVec, e2, e1]; simp
  have hg : gamT (1 : Mt n) 1 0 0 (normT0 1 s0) = 0 := by unfold gamT; rw [hx, hz]; simp
  refine ⟨stepT 1 1 0 0 (normT0 1 s0), ?_, ?_⟩
  · unfold teng0
    rw [if_neg g1, if_neg g2]
    obtain ⟨t, rfl⟩ : ∃ t, m = t + 1 := ⟨m - 1, by omega⟩
    unfold lanczosT
    rw [hg, if_neg (lt_irrefl _), if_pos Real.sqrt_zero]
  · unfold stepT; simp only []; rw [Function.update_self, ha, one_mulVec, e2, e1]

/-- C183 is false of the code: `K = M = I` of order `n >= 2` has 2n eigenvalues; for every start vector the factorization ends after one
column and, when more than two eigenvalues are requested, EPSSolve fails with an error. -/
theorem C183_false (n : ℕ) (hn : 2 ≤ n) (s0 : Tz n) (h0 : s0.V 0 ≠ 0) (m : ℕ) (hm : 0 < m) (nev maxit : ℕ) (h3 : 3 ≤ nev) (hnev : nev ≤ 2 * n)
    (hit : 1 < maxit) :
    ∃ K M : Mt n, Spd K ∧ Spd M ∧ ∃ out, teng0 K M m s0 = some out ∧ out.bd = true ∧ out.m = 1 ∧
      verdictL out.bd out.m nev 1 maxit = Verdict.error := by
  obtain ⟨s, hs, _⟩ := one_run s0 h0 m hm
  refine ⟨1, 1, spd_one, spd_one, _, hs, rfl, rfl, ?_⟩
  show verdictL true 1 nev 1 maxit = _
  unfold verdictL
  rw [if_neg (by omega), if_neg (by omega), if_pos rfl]

/-! ### Spectral transformation -/

/-- C182 (partial: shift zero, exact pairs): the values returned for all indices, in pairs plus and minus, are eigenvalues. -/
theorem C182_partial (hK : Spd K) {m : ℕ} (hm : 0 < m) {U V : ℕ → Vr n} {T : ℕ → ℕ → ℝ}
    (h : TengDec K M m V U T (fun _ => 0) 0) (Q : ℕ → ℕ → ℝ) (th : ℕ → ℝ) (hQ : Diag T m Q th) (i : ℕ) (hi : i < 2 * m) :
    IsEig (Hred K M) (getVal (fun j => backShift 0 (ritzT th j)) i) := by
  obtain ⟨b1, b2, b3, b4⟩ := exactT hK hm h hQ (i / 2) (by omega)
  unfold getVal backShift
  simp only [add_zero]
  by_cases ho : i % 2 = 1
  · rw [if_pos ho]
    obtain ⟨c1, c2⟩ := (C180_exact (-ritzT th (i / 2)) (neg_ne_zero.2 b1.ne') _ _).1 K M b2 b3 (by rw [b4]; ring_nf)
    exact ⟨_, c2, c1⟩
  · rw [if_neg ho]
    obtain ⟨c1, c2⟩ := (C180_exact (ritzT th (i / 2)) b1.ne' _ _).1 K M b2 b3 b4
    exact ⟨_, c2, c1⟩

/-- Eigenvalues for `K = M = I`. -/
theorem one_eig (l : ℝ) (h : IsEig (Hred (1 : Mt n) 1) l) : l * l = 1 := by
  obtain ⟨x, hx, he⟩ := h
  obtain ⟨u, w, rfl⟩ : ∃ u w : Vr n, x = Sum.elim u w := ⟨fun i => x (Sum.inl i), fun i => x (Sum.inr i), by funext i; cases i <;> rfl⟩
  rw [red_mul, one_mulVec, one_mulVec] at he
  obtain ⟨i, hi⟩ := Function.ne_iff.1 hx
  have a1 : ∀ j, w j = l * u j := fun j => congrFun he (Sum.inl j)
  have a2 : ∀ j, u j = l * w j := fun j => congrFun he (Sum.inr j)
  cases i with
  | inl j =>
    have hu : u j ≠ 0 := hi
    have := a2 j
    rw [a1 j, ← mul_assoc] at this
    have h2 : (l * l - 1) * u j = 0 := by linarith
    have := (mul_eq_zero.1 h2).resolve_right hu
    linarith
  | inr j =>
    have hu : w j ≠ 0 := hi
    have := a1 j
    rw [a2 j, ← mul_assoc] at this
    have h2 : (l * l - 1) * w j = 0 := by linarith
    have := (mul_eq_zero.1 h2).resolve_right hu
    linarith

/-- C182 is false of the code: with `K = M = I` the solver finds the eigenvalue 1 exactly, and for every positive shift the value returned
for it is not an eigenvalue. -/
theorem C182_false (n : ℕ) (s0 : Tz n) (h0 : s0.V 0 ≠ 0) (m : ℕ) (hm : 0 < m) (sigma : ℝ) (hs : 0 < sigma) :
    ∃ K M : Mt n, Spd K ∧ Spd M ∧ ∃ s, teng0 K M m s0 = some ⟨s, 1, true⟩ ∧ ∀ Q th, Diag (stored 0 s.a s.b) 1 Q th →
      IsEig (Hred K M) (ritzT th 0) ∧ ¬ IsEig (Hred K M) (getVal (fun j => backShift sigma (ritzT th j)) 0) := by
  obtain ⟨s, hr, ha⟩ := one_run s0 h0 m hm
  refine ⟨1, 1, spd_one, spd_one, s, hr, ?_⟩
  intro Q th hQ
  have hri : ritzT th 0 = 1 := by
    have hq : Q 0 0 * Q 0 0 = 1 := by simpa using hQ.ortho 0 (by norm_num) 0 (by norm_num)
    have := hQ.eig 0 (by norm_num) 0 (by norm_num)
    simp only [Finset.range_one, Finset.sum_singleton] at this
    have hQ0 : Q 0 0 ≠ 0 := by intro h; rw [h] at hq; norm_num at hq
    have h2 := mul_right_cancel₀ hQ0 this
    unfold ritzT
    rw [← h2]
    have : stored 0 s.a s.b 0 0 = 1 := by rw [← ha]; unfold stored; simp
    rw [this, Real.sqrt_one]
  constructor
  · obtain ⟨b, _⟩ := C183_partial spd_one spd_one m hm s0 h0 _ hr rfl Q th hQ 1 one_pos 1 1 1
    obtain ⟨x, _, hx, he, _⟩ := b 0 (by norm_num)
    exact ⟨x, hx, he⟩
  · intro hc
    have := one_eig _ hc
    unfold getVal backShift at this
    norm_num [hri] at this
    nlinarith

/-- C178: the second orthogonalization makes an arbitrary vector orthogonal to the columns of `U`, whatever the first one left (in floating point it
is what keeps the bases biorthogonal), and does not change a vector that already is. -/
theorem C178_reorth (U V : ℕ → Vr n) (k : ℕ) (h : ∀ i, i < k → ∀ j, j < k → U i ⬝ᵥ V j = if i = j then 1 else 0) (x : Vr n) :
    (∀ i, i < k → U i ⬝ᵥ orthogT U V k x = 0) ∧ ((∀ i, i < k → U i ⬝ᵥ x = 0) → orthogT U V k x = x) := by
  constructor
  · intro i hi
    unfold orthogT
    rw [dotProduct_sub, dotProduct_sum]
    rw [Finset.sum_eq_single i]
    · rw [dotProduct_smul, h i hi i hi, if_pos rfl, smul_eq_mul, mul_one, sub_self]
    · intro j hj hne
      rw [dotProduct_smul, h i hi j (Finset.mem_range.1 hj), if_neg (Ne.symm hne), smul_zero]
    · intro hn; exact absurd (Finset.mem_range.2 hi) hn
  · intro hx
    unfold orthogT
    rw [Finset.sum_eq_zero, sub_zero]
    intro i hi
    rw [hx i (Finset.mem_range.1 hi), zero_smul]

/-- Hypotheses of C178_reorth: unit vectors. -/
example : ∀ i, i < 2 → ∀ j, j < 2 → (fun i => (Pi.single (Fin.ofNat 3 i) 1 : Vr 3)) i ⬝ᵥ (fun i => (Pi.single (Fin.ofNat 3 i) 1 : Vr 3)) j = if i = j then 1 else 0 := by
  intro i hi j hj
  interval_cases i <;> interval_cases j <;> simp [Fin.ofNat]

end Verif.Lrep
