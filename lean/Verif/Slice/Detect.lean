import Verif.Slice.Moves
/-!
With detection of zeros (`EPSKrylovSchurSetDetectZeros`) the assumptions on the shifts in C106, C107 are not needed: a shift that is an
eigenvalue is moved, and stays between its neighbours because only intervals that are not too narrow are divided.
-/
set_option linter.all false
namespace Verif.Slice
noncomputable section
open Classical
section
variable {P : Par} {spec : Multiset ℝ} {S : SR} {st : St}

/-- A shift that is an eigenvalue (and is not the last one, `L`) is far enough from its neighbours. -/
def Wide (P : Par) (spec : Multiset ℝ) (L : ℕ) (u v : Shift) : Prop :=
  (u.value ∈ spec → P.ptol * |u.value| < |v.value - u.value|) ∧ (v.value ∈ spec → v.id ≠ L → P.ptol * |v.value| < |v.value - u.value|)

def lastId (C : List Shift) : ℕ := (C.getLast?.map Shift.id).getD 0

def AllWide (P : Par) (spec : Multiset ℝ) (C : List Shift) : Prop := C.IsChain (Wide P spec (lastId C))

theorem wide_of_notin {L : ℕ} {u v : Shift} (hu : u.value ∉ spec) (hv : v.value ∉ spec) : Wide P spec L u v :=
  ⟨fun h => absurd h hu, fun h => absurd h hv⟩

theorem wide_chain_of_notin {L : ℕ} (C : List Shift) (h : ∀ e ∈ C, e.value ∉ spec) : C.IsChain (Wide P spec L) := by
  induction C with
  | nil => exact List.isChain_nil
  | cons a C ih =>
    rw [List.isChain_cons]
    exact ⟨fun y hy => wide_of_notin (h a List.mem_cons_self) (h y (List.mem_cons_of_mem _ (List.mem_of_mem_head? hy))),
      ih (fun e he => h e (List.mem_cons_of_mem _ he))⟩

/-- The shifts inserted in one iteration. -/
theorem work_shape (conv : List ℝ) (s3 : St) (hslot : st.slot = some st.cur.id) (hw : work P S conv st = .ok s3) :
    ∃ X Y, chain s3 = st.left.reverse ++ (X ++ s3.cur :: (Y ++ st.right)) ∧ s3.cur.id = st.cur.id ∧ s3.cur.value = st.cur.value
      ∧ (X = [] ∨ ∃ x n, X = [x] ∧ n ∈ st.left.head? ∧ x.value = middle P st.cur.value n.value ∧ x.value ≠ st.cur.value)
      ∧ (Y = [] ∨ ∃ y, Y = [y] ∧ ∀ n ∈ st.right.head?, y.value = middle P st.cur.value n.value ∧ y.value ≠ st.cur.value) := by
  unfold work at hw
  split_ifs at hw with g1 g2
  obtain ⟨s1, w1, w2⟩ := R.bind_ok hw
  obtain ⟨s2, w3, w4⟩ := R.bind_ok w2
  have hs1 : s1.left = st.left ∧ s1.right = st.right ∧ s1.cur.id = st.cur.id ∧ s1.cur.value = st.cur.value := by
    unfold store at w1
    dsimp only at w1
    split_ifs at w1
    injection w1 with w1
    subst w1
    exact ⟨rfl, rfl, rfl, rfl⟩
  obtain ⟨i1, i2, i3, i4⟩ := hs1
  have hs2 : ∃ Y, s2.left = st.left ∧ s2.right = Y ++ st.right ∧ s2.cur = s1.cur
      ∧ (Y = [] ∨ ∃ y, Y = [y] ∧ ∀ n ∈ st.right.head?, y.value = middle P st.cur.value n.value ∧ y.value ≠ st.cur.value) := by
    unfold doRight at w3
    split_ifs at w3 with hf
    · obtain ⟨⟨v, s'⟩, h1, h2⟩ := R.bind_ok w3
      obtain ⟨k, hk⟩ := newRight_state conv v s' h1
      subst hk
      dsimp only at h2
      unfold createRight at h2
      split_ifs at h2 with hv
      · unfold repush at h2
        cases hsl : ({ s1 with nleap := k } : St).slot with
        | none => rw [hsl] at h2; simp at h2
        | some p =>
          rw [hsl] at h2
          injection h2 with h2
          subst h2
          exact ⟨[], i1, i2, rfl, Or.inl rfl⟩
      · injection h2 with h2
        subst h2
        push Not at hv
        refine ⟨[⟨s1.next, v, 0, 0, 0⟩], i1, by show _ :: s1.right = _; rw [i2]; rfl, rfl, Or.inr ⟨_, rfl, ?_⟩⟩
        intro n hn
        refine ⟨?_, by rw [← i4]; exact hv.1⟩
        unfold newRight at h1
        cases hr : s1.right with
        | nil => rw [← i2, hr] at hn; simp at hn
        | cons a t =>
          rw [hr] at h1
          injection h1 with h1
          injection h1 with h1 h1'
          rw [← i2, hr] at hn
          simp at hn
          rw [← hn, ← i4]
          exact h1.symm
    · injection w3 with w3
      subst w3
      exact ⟨[], i1, i2, rfl, Or.inl rfl⟩
  obtain ⟨Y, j1, j2, j3, j4⟩ := hs2
  have hs3 : ∃ X, s3.left = X ++ st.left ∧ s3.right = s2.right ∧ s3.cur = s2.cur
      ∧ (X = [] ∨ ∃ x n, X = [x] ∧ n ∈ st.left.head? ∧ x.value = middle P st.cur.value n.value ∧ x.value ≠ st.cur.value) := by
    unfold doLeft at w4
    split_ifs at w4 with hf
    · obtain ⟨v, h1, h2⟩ := R.bind_ok w4
      unfold createLeft at h2
      split_ifs at h2 with hv
      · unfold repush at h2
        cases hsl : s2.slot with
        | none => rw [hsl] at h2; simp at h2
        | some p =>
          rw [hsl] at h2
          injection h2 with h2
          subst h2
          exact ⟨[], j1, rfl, rfl, Or.inl rfl⟩
      · injection h2 with h2
        subst h2
        push Not at hv
        unfold newLeft at h1
        cases hl : s2.left with
        | nil => rw [hl] at h1; simp at h1
        | cons n t =>
          rw [hl] at h1
          injection h1 with h1
          refine ⟨[⟨s2.next, v, 0, 0, 0⟩], by rw [← j1, hl]; rfl, rfl, rfl, Or.inr ⟨_, n, rfl, by rw [← j1, hl]; rfl, ?_, ?_⟩⟩
          · rw [← i4, ← j3]; exact h1.symm
          · rw [← i4, ← j3]; exact hv.2
    · injection w4 with w4
      subst w4
      exact ⟨[], j1, rfl, rfl, Or.inl rfl⟩
  obtain ⟨X, k1, k2, k3, k4⟩ := hs3
  refine ⟨X, Y, ?_, by rw [k3, j3, i3], by rw [k3, j3, i4], k4, j4⟩
  unfold chain
  rw [k1, k2, j2]
  rcases k4 with rfl | ⟨x, n, rfl, -⟩ <;> simp

/-- What is used of the constants: `ptol` is much smaller than `narrow`. -/
structure Consts (P : Par) : Prop where
  narrow : 0 < P.narrow
  ptol : 0 < P.ptol
  small : P.ptol * (1 + P.narrow) < P.narrow

theorem lastId_append (A B : List Shift) (h : B ≠ []) : lastId (A ++ B) = lastId B := by
  unfold lastId
  rw [List.getLast?_append_of_ne_nil _ h]

theorem work_wide (K : Consts P) (E : Env P spec S) (h : Inv P spec S st) (hW : AllWide P spec (chain st)) (conv : List ℝ) (s3 : St)
    (hw : work P S conv st = .ok s3) : AllWide P spec (chain s3) := by
  obtain ⟨X, Y, hC, hid, hval, hX, hY⟩ := work_shape conv s3 h.slot hw
  have hleft := left_good h.pi
  have hcur := h.good.1
  have hnb : ∀ n ∈ st.right.head?, n.value ∉ spec := by
    intro n hn
    have := (nbr_good E h.pi).1
    unfold nbr at this
    rw [Option.mem_def.mp hn] at this
    exact this
  unfold AllWide at hW ⊢
  rw [hC]
  unfold chain at hW
  rw [List.isChain_append, List.isChain_cons] at hW
  obtain ⟨-, ⟨-, w3⟩, -⟩ := hW
  have hT : st.right.IsChain (Wide P spec (lastId (st.left.reverse ++ (X ++ s3.cur :: (Y ++ st.right))))) := by
    cases hr : st.right with
    | nil => exact List.isChain_nil
    | cons a t =>
      have e1 : lastId (st.left.reverse ++ (X ++ s3.cur :: (Y ++ a :: t))) = lastId (a :: t) := by
        rw [show st.left.reverse ++ (X ++ s3.cur :: (Y ++ a :: t)) = (st.left.reverse ++ X ++ [s3.cur] ++ Y) ++ (a :: t) by simp]
        exact lastId_append _ _ (by simp)
      have e2 : lastId (st.left.reverse ++ st.cur :: st.right) = lastId (a :: t) := by
        rw [hr, show st.left.reverse ++ st.cur :: (a :: t) = (st.left.reverse ++ [st.cur]) ++ (a :: t) by simp]
        exact lastId_append _ _ (by simp)
      rw [e1]
      rw [e2, hr] at w3
      exact w3
  obtain ⟨L, hL⟩ : ∃ L, lastId (st.left.reverse ++ (X ++ s3.cur :: (Y ++ st.right))) = L := ⟨_, rfl⟩
  rw [hL] at hT ⊢
  have hc3 : s3.cur.value ∉ spec := by rw [hval]; exact hcur
  refine chain_build _ _ X Y s3.cur (wide_chain_of_notin _ (fun e he => (hleft e (List.mem_reverse.mp he)).1)) hT
    (by rcases hX with rfl | ⟨x, n, rfl, -⟩
        · exact Or.inl rfl
        · exact Or.inr ⟨_, rfl⟩)
    (by rcases hY with rfl | ⟨x, rfl, -⟩
        · exact Or.inl rfl
        · exact Or.inr ⟨_, rfl⟩) ?_ ?_ ?_ ?_
  · intro _ n hn
    rw [List.getLast?_reverse] at hn
    exact wide_of_notin (hleft n (List.mem_of_mem_head? hn)).1 hc3
  · intro x hx
    rcases hX with rfl | ⟨x', n, rfl, hn, hv, hne⟩
    · simp at hx
    · simp at hx
      subst hx
      have hb := bisected_wide P K.narrow K.ptol.le K.small st.cur.value n.value (by rw [← hv]; exact hne)
      rw [← hv] at hb
      refine ⟨?_, ?_⟩
      · intro n' hn'
        rw [List.getLast?_reverse] at hn'
        have hnn : n' = n := by
          rw [Option.mem_def.mp hn] at hn'
          simpa using hn'.symm
        rw [hnn]
        refine ⟨fun hm => absurd hm (hleft n (List.mem_of_mem_head? hn)).1, fun _ _ => ?_⟩
        rw [abs_sub_comm]; exact hb.2
      · refine ⟨fun _ => ?_, fun hm => absurd hm hc3⟩
        rw [hval, abs_sub_comm]; exact hb.1
  · intro _ n hn
    exact wide_of_notin hc3 (hnb n hn)
  · intro y hy
    rcases hY with rfl | ⟨y', rfl, hy2⟩
    · simp at hy
    · simp at hy
      subst hy
      cases hr : st.right with
      | nil =>
        refine ⟨⟨fun hm => absurd hm hc3, fun _ hne => ?_⟩, fun n hn => by simp at hn⟩
        exfalso
        apply hne
        rw [← hL, hr]
        rw [show st.left.reverse ++ (X ++ s3.cur :: ([y'] ++ [])) = (st.left.reverse ++ X ++ [s3.cur]) ++ [y'] by simp]
        rw [lastId_append _ _ (by simp)]
        rfl
      | cons a t =>
        obtain ⟨hv, hne⟩ := hy2 a (by rw [hr]; rfl)
        have hb := bisected_wide P K.narrow K.ptol.le K.small st.cur.value a.value (by rw [← hv]; exact hne)
        rw [← hv] at hb
        refine ⟨⟨fun hm => absurd hm hc3, fun _ _ => ?_⟩, ?_⟩
        · rw [hval]; exact hb.1
        · intro n hn
          simp at hn
          subst hn
          refine ⟨fun _ => hb.2, fun hm => absurd hm (hnb a (by rw [hr]; rfl))⟩

theorem zeros_iff (H : Hyp P spec) (hdet : P.detect = true) (h0 : (0 : ℝ) ∉ spec) (v : ℝ) : zerosAt P spec v = 0 ↔ v ∉ spec := by
  unfold zerosAt
  rw [if_pos hdet]
  by_cases h1 : P.maxReal ≤ v
  · rw [if_pos h1]
    refine ⟨fun _ hv => ?_, fun _ => rfl⟩
    have := H.bnd v hv
    have := le_abs_self v
    linarith
  · rw [if_neg h1]
    by_cases h2 : v ≤ -P.maxReal
    · rw [if_pos h2]
      refine ⟨fun _ hv => ?_, fun _ => rfl⟩
      have := H.bnd v hv
      have := neg_abs_le v
      linarith
    · rw [if_neg h2, Multiset.count_eq_zero]
      unfold nz
      by_cases hz : v = 0
      · rw [if_pos hz, hz]
        have hp := H.pos
        exact ⟨fun _ => h0, fun _ hm => H.tiny _ hm ⟨by positivity, le_refl _⟩⟩
      · rw [if_neg hz]

/-- The next shift. -/
theorem extract_detect (K : Consts P) (E : Env P spec S) (hdet : P.detect = true) (hz0 : (0 : ℝ) ∉ spec)
    (h : PI P spec S (chain st) st.pend st.next (st.eigr : Multiset ℝ)) (hg : Good P spec st.cur) (hW : AllWide P spec (chain st))
    (s2 : St) (hx : extract P spec S st = .ok (some s2)) :
    s2.cur.value ∉ spec ∧ Between S s2 ∧ AllWide P spec (chain s2) := by
  unfold extract at hx
  cases hp : st.pend with
  | nil => rw [hp] at hx; simp at hx
  | cons t ps =>
    rw [hp] at hx
    dsimp only at hx
    by_cases ht : t = st.cur.id
    · rw [if_pos ht] at hx
      injection hx with hx
      injection hx with hx
      subst hx
      refine ⟨hg.1, ?_, hW⟩
      have hlt := h.lt
      unfold chain at hlt
      rw [List.isChain_append, List.isChain_cons] at hlt
      obtain ⟨l1, ⟨l2, l3⟩, l4⟩ := hlt
      exact ⟨fun n hn => l4 n (by rw [List.getLast?_reverse]; exact hn) st.cur rfl, l2⟩
    · rw [if_neg ht] at hx
      cases hl : locate t [] (chain st) with
      | none => rw [hl] at hx; simp at hx
      | some q =>
        obtain ⟨l, e, r⟩ := q
        rw [hl] at hx
        dsimp only at hx
        obtain ⟨e', hpl, hx⟩ := R.bind_ok hx
        injection hx with hx
        injection hx with hx
        obtain ⟨q1, q2⟩ := locate_spec t [] (chain st) l r e hl
        obtain ⟨r1, r2, r3⟩ := place_spec l r e e' hpl
        rw [List.reverse_nil, List.nil_append] at q1
        -- facts on the neighbours
        obtain ⟨st', hst'⟩ : ∃ st' : St, st' = { st with left := l, cur := e, right := r, pend := ps } := ⟨_, rfl⟩
        have hch : chain st' = chain st := by rw [q1, hst']; rfl
        have h' : PI P spec S (chain st') (st'.cur.id :: st'.pend) st.next (st.eigr : Multiset ℝ) := by
          rw [hch, hst']
          show PI P spec S (chain st) (e.id :: ps) st.next (st.eigr : Multiset ℝ)
          rw [q2, ← hp]
          exact h
        have hleft : ∀ z ∈ l, z.value ∉ spec := by
          have := left_good h'
          rw [show st'.left = l by rw [hst']] at this
          exact fun z hz => (this z hz).1
        have hright : ∀ n ∈ r.head?, n.value ∉ spec := by
          intro n hn
          have := (nbr_good E h').1
          unfold nbr at this
          rw [show st'.right = r by rw [hst'], Option.mem_def.mp hn] at this
          exact this
        have hlt := h.lt
        rw [q1, List.isChain_append, List.isChain_cons] at hlt
        obtain ⟨l1, ⟨l2, l3⟩, l4⟩ := hlt
        have l4' : ∀ n ∈ l.head?, 0 < (S.dir : ℝ) * (e.value - n.value) :=
          fun n hn => l4 n (by rw [List.getLast?_reverse]; exact hn) e rfl
        have main : e'.value ∉ spec ∧ (∀ n ∈ l.head?, 0 < (S.dir : ℝ) * (e'.value - n.value)) ∧ (∀ n ∈ r.head?, 0 < (S.dir : ℝ) * (n.value - e'.value)) := by
          by_cases hev : e.value ∈ spec
          · have hze : zerosAt P spec e.value ≠ 0 := fun hh => (zeros_iff E.hyp hdet hz0 _).mp hh hev
            unfold place at hpl
            rw [if_pos hze] at hpl
            cases hl2 : l with
            | nil => rw [hl2] at hpl; simp at hpl
            | cons n0 l' =>
              cases hr2 : r with
              | nil => rw [hl2, hr2] at hpl; simp at hpl
              | cons n1 r' =>
                rw [hl2, hr2] at hpl
                dsimp only at hpl
                split_ifs at hpl with hzm
                injection hpl with hpl
                have hv' : e'.value = moved P S e.value n0.value n1.value := by rw [← hpl]
                have hzm' : zerosAt P spec e'.value = 0 := by rw [hv']; simpa using hzm
                have hlast : e.id ≠ lastId (chain st) := by
                  have hnd := h.nd
                  rw [q1, hr2] at hnd
                  rw [q1, hr2, show l.reverse ++ e :: n1 :: r' = (l.reverse ++ [e]) ++ (n1 :: r') by simp, lastId_append _ _ (by simp)]
                  have hmem : lastId (n1 :: r') ∈ (n1 :: r').map Shift.id := by
                    unfold lastId
                    rw [List.getLast?_eq_getLast_of_ne_nil (by simp : n1 :: r' ≠ [])]
                    simp only [Option.map_some, Option.getD_some]
                    exact List.mem_map.mpr ⟨_, List.getLast_mem _, rfl⟩
                  intro heq
                  rw [← heq] at hmem
                  rw [List.map_append, List.nodup_append] at hnd
                  have := hnd.2.1
                  rw [List.map_cons, List.nodup_cons] at this
                  exact this.1 hmem
                have hW' := hW
                unfold AllWide at hW'
                rw [q1, hl2, hr2] at hW'
                rw [q1, hl2, hr2] at hlast
                rw [List.isChain_append, List.isChain_cons] at hW'
                obtain ⟨-, ⟨w2, -⟩, w4⟩ := hW'
                have g1 := (w2 n1 rfl).1 hev
                have g0 := (w4 n0 (by rw [List.getLast?_reverse]; rfl) e rfl).2 hev hlast
                have hm := moved_between_partial P S E.hd K.ptol e.value n0.value n1.value (fun hh => hz0 (hh ▸ hev))
                  (l4' n0 (by rw [hl2]; rfl)) (l2 n1 (by rw [hr2]; rfl)) g0 g1
                rw [← hv'] at hm
                refine ⟨(zeros_iff E.hyp hdet hz0 _).mp hzm', ?_, ?_⟩
                · intro n hn; simp at hn; rw [← hn]; exact hm.1
                · intro n hn; simp at hn; rw [← hn]; exact hm.2.1
          · rw [r3 (Or.inr (Or.inr ((zeros_iff E.hyp hdet hz0 _).mpr hev)))]
            exact ⟨hev, l4', l2⟩
        subst hx
        refine ⟨main.1, ⟨main.2.1, main.2.2⟩, ?_⟩
        have hW' := hW
        unfold AllWide at hW' ⊢
        rw [q1] at hW'
        have hlid : lastId (l.reverse ++ e' :: r) = lastId (l.reverse ++ e :: r) := by
          rw [lastId_append _ _ (by simp), lastId_append _ _ (by simp)]
          cases r with
          | nil => show e'.id = e.id; exact r1
          | cons a t =>
            rw [show e' :: a :: t = [e'] ++ (a :: t) from rfl, show e :: a :: t = [e] ++ (a :: t) from rfl]
            rw [lastId_append _ _ (by simp), lastId_append _ _ (by simp)]
        show List.IsChain (Wide P spec (lastId (l.reverse ++ e' :: r))) (l.reverse ++ e' :: r)
        rw [hlid]
        rw [List.isChain_append, List.isChain_cons] at hW' ⊢
        obtain ⟨w1, ⟨w2, w3⟩, w4⟩ := hW'
        refine ⟨w1, ⟨?_, w3⟩, ?_⟩
        · intro n hn; exact wide_of_notin main.1 (hright n hn)
        · intro n hn y hy
          simp at hy
          rw [← hy]
          rw [List.getLast?_reverse] at hn
          exact wide_of_notin (hleft n (List.mem_of_mem_head? hn)) main.1

/-- Runs in which the Lanczos process is sound at every shift. -/
def SoundRun (P : Par) (spec : Multiset ℝ) (S : SR) : List (List ℝ) → St → Prop
  | [], _ => True
  | c :: cs, st => Sound P spec S st c ∧ ∀ s1, work P S c st = .ok s1 → ∀ s2, extract P spec S s1 = .ok (some s2) → SoundRun P spec S cs s2

theorem legal_of_sound (K : Consts P) (E : Env P spec S) (hdet : P.detect = true) (hz0 : (0 : ℝ) ∉ spec) (cs : List (List ℝ))
    (h : Inv P spec S st) (hW : AllWide P spec (chain st)) (hs : SoundRun P spec S cs st) : Legal P spec S cs st := by
  induction cs generalizing st with
  | nil => trivial
  | cons c cs ih =>
    obtain ⟨h1, h2⟩ := hs
    refine ⟨h1, fun s1 hw s2 hx => ?_⟩
    obtain ⟨i1, i2, i3⟩ := work_spec E h c h1 s1 hw
    have hW1 := work_wide K E h hW c s1 hw
    obtain ⟨d1, d2, d3⟩ := extract_detect K E hdet hz0 i1 i3 hW1 s2 hx
    exact ⟨d1, d2, ih (extract_spec E i1 i2 i3 s2 hx d1 d2) d3 (h2 s1 hw s2 hx)⟩

theorem setup_notin (H : Hyp P spec) (hdet : P.detect = true) (hz0 : (0 : ℝ) ∉ spec) (a b : ℝ) (S : SR) (hs : setup P spec a b = .ok S) :
    a ∉ spec ∧ b ∉ spec := by
  unfold setup at hs
  dsimp only at hs
  rw [← zeros_iff H hdet hz0, ← zeros_iff H hdet hz0]
  by_cases hf : -P.maxReal < a ∨ P.maxReal ≤ b
  · simp only [if_pos hf] at hs
    by_cases h1 : zerosAt P spec a ≠ 0
    · rw [if_pos h1] at hs; simp at hs
    · rw [if_neg h1] at hs
      by_cases h2 : zerosAt P spec b ≠ 0
      · rw [if_pos h2] at hs; simp at hs
      · exact ⟨not_not.mp h1, not_not.mp h2⟩
  · simp only [if_neg hf] at hs
    by_cases h1 : zerosAt P spec b ≠ 0
    · rw [if_pos h1] at hs; simp at hs
    · rw [if_neg h1] at hs
      by_cases h2 : zerosAt P spec a ≠ 0
      · rw [if_pos h2] at hs; simp at hs
      · exact ⟨not_not.mp h2, not_not.mp h1⟩

/-- **C106, C107** with detection of zeros (partial: exact arithmetic, the Lanczos process is assumed to be sound, zero is not an eigenvalue).  No
assumption is made on the shifts or the ends of the interval. -/
theorem slice_detect_partial (K : Consts P) (H : Hyp P spec) (hdet : P.detect = true) (hz0 : (0 : ℝ) ∉ spec) (a b : ℝ) (hab : a ≤ b)
    (cs : List (List ℝ)) (hs : ∀ S, setup P spec a b = .ok S → SoundRun P spec S cs (start S)) (out : List ℝ)
    (h : solve P spec a b cs = .ok out) :
    (out : Multiset ℝ) = spec.filter (fun l => a < l ∧ l < b) ∧ out.Pairwise (· ≤ ·) := by
  obtain ⟨S, hS, -⟩ := R.bind_ok (by unfold solve at h; exact h)
  obtain ⟨ha, hb⟩ := setup_notin H hdet hz0 a b S hS
  refine final_perm H a b hab ha hb cs ?_ out h
  intro S hS
  obtain ⟨E, -⟩ := setup_spec H a b hab ha hb S hS
  exact legal_of_sound K E hdet hz0 cs (start_inv E) (List.isChain_singleton _) (hs S hS)

end

/-! The constants of double precision, and a run with detection: eigenvalues 2 and 20, interval (1,10). -/
example : Consts (dblP true) := ⟨by norm_num [dblP], by norm_num [dblP], by norm_num [dblP]⟩

def deP : Par := ⟨1000, 1 / 100, 1 / 10, 1 / 10, 2, true⟩
def deSpec : Multiset ℝ := {2, 20}
def deS : SR := ⟨-1, 10, 1, true, 1, 0, 1⟩
def deSt : St := ⟨[], ⟨1, 10, 1, 0, 1⟩, [], [], some 1, 2, [2], [0], 0⟩

theorem de_hyp : Hyp deP deSpec := by
  refine ⟨by norm_num [deP], ?_, ?_⟩
  · intro l hl
    simp [deSpec] at hl
    rcases hl with rfl | rfl <;> norm_num [deP, abs_lt]
  · intro l hl
    simp [deSpec] at hl
    rcases hl with rfl | rfl <;> norm_num [deP]

theorem de_inertia (v : ℝ) (h0 : v ≠ 0) (h1 : -1000 < v) (h2 : v < 1000) :
    inertiaAt deP deSpec v = ((if 2 < v then 1 else 0) + (if 20 < v then 1 else 0) : ℤ) := by
  unfold inertiaAt
  rw [if_neg (by simp [deP]; linarith), if_neg (by simp [deP]; linarith)]
  unfold nz
  rw [if_neg h0]
  unfold deSpec
  simp only [Multiset.insert_eq_cons, Multiset.countP_cons, ← Multiset.cons_zero, Multiset.countP_zero]
  push_cast
  ring_nf

theorem de_setup : setup deP deSpec 1 10 = .ok deS := by
  have e1 := de_inertia 1 (by norm_num) (by norm_num) (by norm_num)
  have e2 := de_inertia 10 (by norm_num) (by norm_num) (by norm_num)
  norm_num at e1 e2
  have z0 : (0 : ℝ) ∉ deSpec := by norm_num [deSpec]
  have z1 := (zeros_iff de_hyp rfl z0 1).mpr (by norm_num [deSpec])
  have z2 := (zeros_iff de_hyp rfl z0 10).mpr (by norm_num [deSpec])
  unfold setup
  have hf : -deP.maxReal < 1 ∨ deP.maxReal ≤ 10 := by norm_num [deP]
  have hm : ¬ deP.maxReal ≤ 10 := by norm_num [deP]
  simp only [if_pos hf, e1, e2, z1, z2, decide_eq_false hm]
  simp [deS]

theorem de_work : work deP deS [2] (start deS) = .ok deSt := by
  have n0 : nsch0 deP deS (start deS) = 0 := rfl
  have n1 : nsch1 deP deS (start deS) = 1 := by simp [nsch1, start, deS]
  have f0 : found0 deS (start deS) [2] = 0 := by norm_num [found0, start, deS, ext0]
  have f1 : found1 deP deS (start deS) [2] = 1 := by norm_num [found1, start, deS, ext1]
  have hacc : accepted deP deS (start deS) [2] = [2] := by
    norm_num [accepted, sortReal, insRev, at', start, deS, ext0, ext1]
  have hst : store deP deS (start deS) [2] = .ok deSt := by
    unfold store
    rw [hacc]
    simp [start, deS, sortReal, insRev, deSt]
  unfold work
  rw [n0, n1, f0, f1, hst]
  simp [start, R.bind, doRight, doLeft]

theorem de_solve : solve deP deSpec 1 10 [[2]] = .ok [2] := by
  unfold solve
  rw [de_setup]
  show R.bind (solveLocal deP deSpec deS [[2]]) _ = _
  unfold solveLocal
  rw [if_neg (by norm_num [deS])]
  have : loop deP deSpec deS [[2]] (start deS) = .ok deSt := by
    unfold loop
    rw [de_work]
    simp only [R.bind]
    rw [show extract deP deSpec deS deSt = .ok none from rfl]
  rw [this]
  have hn : deS.numEigs.toNat = 1 := rfl
  show R.ok ((List.range deS.numEigs.toNat).map _) = _
  rw [hn]
  simp [List.range_succ, deSt, deS, at']

example : (([2] : List ℝ) : Multiset ℝ) = deSpec.filter (fun l => (1 : ℝ) < l ∧ l < 10) := by
  refine (slice_detect_partial ⟨by norm_num [deP], by norm_num [deP], by norm_num [deP]⟩ de_hyp rfl (by norm_num [deSpec]) 1 10 (by norm_num)
    [[2]] ?_ _ de_solve).1
  intro S hS
  rw [de_setup] at hS
  injection hS with hS
  subst hS
  refine ⟨?_, ?_⟩
  · unfold Sound
    have : deflated deP deS (start deS) = [] := by simp [deflated, tailVals, start]
    rw [this]
    unfold deSpec
    rw [Multiset.coe_nil, add_zero, Multiset.coe_singleton, Multiset.singleton_le]
    simp
  · intro s1 h1 s2 h2
    trivial

end
end Verif.Slice
