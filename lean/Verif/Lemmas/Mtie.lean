import Verif.Model.Mtie
import Verif.Lemmas.Run
import Verif.Lemmas.Simple

/-! # Lemmas for MTIE -/

namespace AT

open Spec Finset Real

theorem foldl_max_spec (l : List ℝ) (x : ℝ) :
    (l.foldl max x = x ∨ l.foldl max x ∈ l) ∧ x ≤ l.foldl max x ∧ ∀ a ∈ l, a ≤ l.foldl max x := by
  induction l generalizing x with
  | nil => simp
  | cons y l ih =>
    obtain ⟨h1, h2, h3⟩ := ih (max x y)
    simp only [List.foldl_cons]
    refine ⟨?_, le_trans (le_max_left _ _) h2, ?_⟩
    · rcases h1 with h1 | h1
      · rcases max_choice x y with h | h
        · left; rw [h1, h]
        · right; rw [h1, h]; exact List.mem_cons_self ..
      · right; exact List.mem_cons_of_mem _ h1
    · intro a ha
      rcases List.mem_cons.1 ha with rfl | ha
      · exact le_trans (le_max_right _ _) h2
      · exact h3 a ha

theorem foldl_min_spec (l : List ℝ) (x : ℝ) :
    (l.foldl min x = x ∨ l.foldl min x ∈ l) ∧ l.foldl min x ≤ x ∧ ∀ a ∈ l, l.foldl min x ≤ a := by
  induction l generalizing x with
  | nil => simp
  | cons y l ih =>
    obtain ⟨h1, h2, h3⟩ := ih (min x y)
    simp only [List.foldl_cons]
    refine ⟨?_, le_trans h2 (min_le_left _ _), ?_⟩
    · rcases h1 with h1 | h1
      · rcases min_choice x y with h | h
        · left; rw [h1, h]
        · right; rw [h1, h]; exact List.mem_cons_self ..
      · right; exact List.mem_cons_of_mem _ h1
    · intro a ha
      rcases List.mem_cons.1 ha with rfl | ha
      · exact le_trans h2 (min_le_right _ _)
      · exact h3 a ha

theorem npMax_spec {l : List ℝ} (hl : l ≠ []) :
    ∃ v, npMax l = .ok v ∧ v ∈ l ∧ ∀ a ∈ l, a ≤ v := by
  cases l with
  | nil => exact absurd rfl hl
  | cons x l =>
    obtain ⟨h1, h2, h3⟩ := foldl_max_spec l x
    refine ⟨_, rfl, ?_, ?_⟩
    · rcases h1 with h1 | h1
      · rw [h1]; exact List.mem_cons_self ..
      · exact List.mem_cons_of_mem _ h1
    · intro a ha
      rcases List.mem_cons.1 ha with rfl | ha
      · exact h2
      · exact h3 a ha

theorem npMin_spec {l : List ℝ} (hl : l ≠ []) :
    ∃ v, npMin l = .ok v ∧ v ∈ l ∧ ∀ a ∈ l, v ≤ a := by
  cases l with
  | nil => exact absurd rfl hl
  | cons x l =>
    obtain ⟨h1, h2, h3⟩ := foldl_min_spec l x
    refine ⟨_, rfl, ?_, ?_⟩
    · rcases h1 with h1 | h1
      · rw [h1]; exact List.mem_cons_self ..
      · exact List.mem_cons_of_mem _ h1
    · intro a ha
      rcases List.mem_cons.1 ha with rfl | ha
      · exact h2
      · exact h3 a ha

theorem npMax_tab {n : ℕ} (hn : 0 < n) (g : ℕ → ℝ) :
    ∃ v, npMax (tab n g) = .ok v ∧ (∃ k < n, v = g k) ∧ ∀ k < n, g k ≤ v := by
  have hl : tab n g ≠ [] := by
    rw [← List.length_pos_iff]; simpa using hn
  obtain ⟨v, h1, h2, h3⟩ := npMax_spec hl
  refine ⟨v, h1, ?_, fun k hk => h3 _ ((mem_tab _ _ _).2 ⟨k, hk, rfl⟩)⟩
  obtain ⟨k, hk, e⟩ := (mem_tab _ _ _).1 h2
  exact ⟨k, hk, e.symm⟩

theorem npMin_tab {n : ℕ} (hn : 0 < n) (g : ℕ → ℝ) :
    ∃ v, npMin (tab n g) = .ok v ∧ (∃ k < n, v = g k) ∧ ∀ k < n, v ≤ g k := by
  have hl : tab n g ≠ [] := by
    rw [← List.length_pos_iff]; simpa using hn
  obtain ⟨v, h1, h2, h3⟩ := npMin_spec hl
  refine ⟨v, h1, ?_, fun k hk => h3 _ ((mem_tab _ _ _).2 ⟨k, hk, rfl⟩)⟩
  obtain ⟨k, hk, e⟩ := (mem_tab _ _ _).1 h2
  exact ⟨k, hk, e.symm⟩

theorem mapM_tab {α β : Type} (n : ℕ) (g : ℕ → α) (f : α → Py β) (h : ℕ → β)
    (H : ∀ i < n, f (g i) = .ok (h i)) : (tab n g).mapM f = .ok (tab n h) := by
  unfold tab
  rw [List.mapM_map]
  apply mapM_ok
  intro i hi
  exact H i (by simpa using hi)

/-- the set whose supremum is MTIE -/
def Spec.tieSet (x : ℕ → ℝ) (N m : ℕ) : Set ℝ :=
  {d : ℝ | ∃ i j : ℕ, i ≤ j ∧ j ≤ i + m ∧ j < N ∧ d = |x j - x i|}

theorem mtie_of_greatest {x : ℕ → ℝ} {N m : ℕ} {d : ℝ} (h : IsGreatest (Spec.tieSet x N m) d) :
    Spec.mtie x N m = d := h.csSup_eq

/-- an explicit finite bound: the supremum is attained -/
theorem tieSet_finite (x : ℕ → ℝ) (N m : ℕ) : (Spec.tieSet x N m).Finite := by
  apply Set.Finite.subset (Finset.finite_toSet
    ((Finset.range N ×ˢ Finset.range N).image (fun p => |x p.2 - x p.1|)))
  rintro d ⟨i, j, h1, h2, h3, rfl⟩
  simp only [Finset.coe_image, Set.mem_image, Finset.mem_coe, Finset.mem_product, Finset.mem_range]
  exact ⟨(i, j), ⟨by omega, h3⟩, rfl⟩

theorem mtie_greatest {x : ℕ → ℝ} {N m : ℕ} (hN : 0 < N) :
    IsGreatest (Spec.tieSet x N m) (Spec.mtie x N m) := by
  have hne : (Spec.tieSet x N m).Nonempty := ⟨_, 0, 0, le_refl _, Nat.zero_le _, hN, rfl⟩
  have := (tieSet_finite x N m).isCompact.isGreatest_sSup hne
  exact this

theorem mtie_of_windows (x : ℕ → ℝ) (N m : ℕ) (hm : m < N) (A B : ℕ → ℝ)
    (hA : ∀ i < N - m, (∃ k < m + 1, A i = x (i + k)) ∧ ∀ k < m + 1, x (i + k) ≤ A i)
    (hB : ∀ i < N - m, (∃ k < m + 1, B i = x (i + k)) ∧ ∀ k < m + 1, B i ≤ x (i + k))
    (v : ℝ) (h2 : ∃ i < N - m, v = A i - B i) (h3 : ∀ i < N - m, A i - B i ≤ v) :
    v = Spec.mtie x N m := by
  symm
  obtain ⟨i, hi, h2⟩ := h2
  apply mtie_of_greatest
  constructor
  · obtain ⟨⟨a, ha, ea⟩, ua⟩ := hA i hi
    obtain ⟨⟨b, hb, eb⟩, ub⟩ := hB i hi
    have hnn : 0 ≤ A i - B i := by
      have := ua a ha
      have := ub a ha
      linarith
    rcases le_total a b with h | h
    · refine ⟨i + a, i + b, by omega, by omega, by omega, ?_⟩
      rw [h2, abs_sub_comm, ← ea, ← eb, abs_of_nonneg hnn]
    · refine ⟨i + b, i + a, by omega, by omega, by omega, ?_⟩
      rw [h2, ← ea, ← eb, abs_of_nonneg hnn]
  · rintro d ⟨p, q, h4, h5, h6, rfl⟩
    obtain ⟨i, hi, k, hk, l, hl, e1, e2⟩ : ∃ i < N - m, ∃ k < m + 1, ∃ l < m + 1, p = i + k ∧ q = i + l := by
      by_cases h : p < N - m
      · exact ⟨p, h, 0, by omega, q - p, by omega, by omega, by omega⟩
      · exact ⟨N - m - 1, by omega, p - (N - m - 1), by omega, q - (N - m - 1), by omega, by omega, by omega⟩
    refine le_trans ?_ (h3 i hi)
    obtain ⟨_, ua⟩ := hA i hi
    obtain ⟨_, ub⟩ := hB i hi
    rw [e1, e2, abs_le]
    have := ua k hk
    have := ua l hl
    have := ub k hk
    have := ub l hl
    constructor <;> linarith

theorem mtie_windows_eq (phase : List ℝ) (m : ℕ) (hm : m < phase.length) :
    mtie_windows phase m = .ok (Spec.mtie (seq phase) phase.length m) := by
  set N := phase.length with hN
  set x := seq phase with hx
  have hp : phase = tab N x := eq_tab_seq phase
  unfold mtie_windows mtie_rolling_window
  rw [if_neg (by omega), if_neg (by rw [← hN]; omega)]
  simp only [ok_bind]
  have e1 : ((phase.length : ℤ) - ((m : ℤ) + 1) + 1).toNat = N - m := by omega
  rw [e1]
  have e2 : tab (N - m) (fun i => slice phase (i : ℕ) ((i : ℤ) + ((m : ℤ) + 1)))
      = tab (N - m) (fun i => tab (m + 1) (fun k => x (i + k))) := by
    apply tab_congr
    intro i hi
    have : ((i : ℤ) + ((m : ℤ) + 1)) = ((i + m + 1 : ℕ) : ℤ) := by push_cast; ring
    rw [this, hp, slice_tab _ _ _ _ (by omega)]
    congr 1; omega
  rw [e2]
  have hmax : ∀ i, ∃ v, npMax (tab (m + 1) (fun k => x (i + k))) = .ok v ∧
      (∃ k < m + 1, v = x (i + k)) ∧ ∀ k < m + 1, x (i + k) ≤ v := fun i => npMax_tab (by omega) _
  have hmin : ∀ i, ∃ v, npMin (tab (m + 1) (fun k => x (i + k))) = .ok v ∧
      (∃ k < m + 1, v = x (i + k)) ∧ ∀ k < m + 1, v ≤ x (i + k) := fun i => npMin_tab (by omega) _
  choose A hA using hmax
  choose B hB using hmin
  rw [mapM_tab _ _ _ A (fun i _ => (hA i).1), mapM_tab _ _ _ B (fun i _ => (hB i).1)]
  simp only [ok_bind, vsub, vop_tab]
  obtain ⟨v, h1, ⟨i, hi, h2⟩, h3⟩ := npMax_tab (show 0 < N - m by omega) (fun i => A i - B i)
  rw [h1]
  rw [mtie_of_windows x N m hm A B (fun i _ => (hA i).2) (fun i _ => (hB i).2) v ⟨i, hi, h2⟩ h3]

/-! ## The fallback loop -/

/-- invariant of the fallback loop at window start `s`: both extremes are samples of
`x s .. x (s+m)`, and `dev` is a difference that MTIE also considers -/
def FallInv (x : ℕ → ℝ) (N m s : ℕ) (st : ℝ × ℝ × ℝ) : Prop :=
  (∃ a, s ≤ a ∧ a ≤ s + m ∧ a < N ∧ st.1 = x a) ∧ (∃ b, s ≤ b ∧ b ≤ s + m ∧ b < N ∧ st.2.1 = x b) ∧
    st.2.2 ≤ Spec.mtie x N m

theorem sub_le_mtie {x : ℕ → ℝ} {N m s a b : ℕ} (ha : s ≤ a) (ha' : a ≤ s + m) (ha'' : a < N)
    (hb : s ≤ b) (hb' : b ≤ s + m) (hb'' : b < N) : x a - x b ≤ Spec.mtie x N m := by
  have hg := (mtie_greatest (x := x) (N := N) (m := m) (by omega)).2
  refine le_trans (le_abs_self _) ?_
  rcases le_total a b with h | h
  · rw [abs_sub_comm]; exact hg ⟨a, b, h, by omega, hb'', rfl⟩
  · exact hg ⟨b, a, h, by omega, ha'', rfl⟩

theorem slice_seq (phase : List ℝ) (a b : ℕ) (h : b ≤ phase.length) :
    slice phase a b = tab (b - a) (fun k => seq phase (a + k)) := by
  conv_lhs => rw [eq_tab_seq phase]
  rw [slice_tab _ _ _ _ h]

theorem pyGet_seq (phase : List ℝ) (i : ℕ) (h : i < phase.length) :
    pyGet phase i = .ok (seq phase i) := by
  conv_lhs => rw [eq_tab_seq phase]
  rw [pyGet_tab_nat _ _ _ h]

theorem fallback_step_inv (phase : List ℝ) (m s : ℕ) (hm : 0 < m) (hs : m + (s + 1) < phase.length)
    (st : ℝ × ℝ × ℝ) (h : FallInv (seq phase) phase.length m s st) :
    ∃ st', mtie_fallback_step phase m st (s + 1) = .ok st' ∧
      FallInv (seq phase) phase.length m (s + 1) st' := by
  set x := seq phase with hx
  unfold mtie_fallback_step
  have e0 : (((s + 1 : ℕ) : ℤ) - 1) = (s : ℕ) := by push_cast; ring
  rw [e0, pyGet_seq phase s (by omega), pyGet_seq phase (m + (s + 1)) hs]
  simp only [ok_bind]
  unfold slide_max slide_min
  rw [slice_seq phase (s + 1) (m + (s + 1)) (by omega)]
  have e1 : m + (s + 1) - (s + 1) = m := by omega
  rw [e1, ← hx]
  obtain ⟨⟨a, a1, a2, a3, a4⟩, ⟨b, b1, b2, b3, b4⟩, h3⟩ := h
  have hA : ∃ v, (if st.1 = x s then npMax (tab m (fun k => x (s + 1 + k)))
      else if st.1 < x (m + (s + 1)) then (.ok (x (m + (s + 1))) : Py ℝ) else .ok st.1) = .ok v ∧
      ∃ a, s + 1 ≤ a ∧ a ≤ s + 1 + m ∧ a < phase.length ∧ v = x a := by
    split_ifs with c1 c2
    · obtain ⟨v, v1, ⟨k, hk, v2⟩, _⟩ := npMax_tab hm (fun k => x (s + 1 + k))
      exact ⟨v, v1, s + 1 + k, by omega, by omega, by omega, v2⟩
    · exact ⟨_, rfl, m + (s + 1), by omega, by omega, hs, rfl⟩
    · refine ⟨_, rfl, a, ?_, by omega, a3, a4⟩
      rcases Nat.lt_or_ge s a with h | h
      · exact h
      · have : a = s := by omega
        rw [this] at a4; exact absurd a4 c1
  have hB : ∃ v, (if st.2.1 = x s then npMin (tab m (fun k => x (s + 1 + k)))
      else if st.2.1 > x (m + (s + 1)) then (.ok (x (m + (s + 1))) : Py ℝ) else .ok st.2.1) = .ok v ∧
      ∃ a, s + 1 ≤ a ∧ a ≤ s + 1 + m ∧ a < phase.length ∧ v = x a := by
    split_ifs with c1 c2
    · obtain ⟨v, v1, ⟨k, hk, v2⟩, _⟩ := npMin_tab hm (fun k => x (s + 1 + k))
      exact ⟨v, v1, s + 1 + k, by omega, by omega, by omega, v2⟩
    · exact ⟨_, rfl, m + (s + 1), by omega, by omega, hs, rfl⟩
    · refine ⟨_, rfl, b, ?_, by omega, b3, b4⟩
      rcases Nat.lt_or_ge s b with h | h
      · exact h
      · have : b = s := by omega
        rw [this] at b4; exact absurd b4 c1
  obtain ⟨v, ev, a', a1', a2', a3', a4'⟩ := hA
  obtain ⟨w, ew, b', b1', b2', b3', b4'⟩ := hB
  rw [ev, ew]
  simp only [ok_bind]
  refine ⟨_, rfl, ⟨a', a1', a2', a3', a4'⟩, ⟨b', b1', b2', b3', b4'⟩, ?_⟩
  simp only
  split_ifs
  · rw [a4', b4']
    exact sub_le_mtie a1' a2' a3' b1' b2' b3'
  · exact h3

theorem forRange_inv {σ : Type} (n : ℕ) (init : σ) (f : σ → ℕ → Py σ) (Inv : ℕ → σ → Prop)
    (h0 : Inv 0 init) (hs : ∀ k < n, ∀ st, Inv k st → ∃ st', f st k = .ok st' ∧ Inv (k + 1) st') :
    ∃ st, forRange n init f = .ok st ∧ Inv n st := by
  induction n with
  | zero => exact ⟨init, rfl, h0⟩
  | succ n ih =>
    obtain ⟨st, h1, h2⟩ := ih (fun k hk => hs k (by omega))
    obtain ⟨st', h3, h4⟩ := hs n (by omega) st h2
    refine ⟨st', ?_, h4⟩
    unfold forRange at *
    rw [List.range_succ, List.foldlM_append, h1]
    simp only [ok_bind, List.foldlM_cons, List.foldlM_nil, h3]
    rfl

theorem mtie_fallback_le (phase : List ℝ) (m : ℕ) (hm : 0 < m) (hmN : m < phase.length) :
    ∃ d, mtie_fallback phase m = .ok d ∧ d ≤ Spec.mtie (seq phase) phase.length m := by
  unfold mtie_fallback
  rw [if_neg (by omega), if_neg (by omega)]
  simp only [slice_seq phase 0 m (by omega), Nat.sub_zero, Nat.zero_add]
  obtain ⟨v, v1, ⟨k, hk, v2⟩, _⟩ := npMax_tab hm (seq phase)
  obtain ⟨w, w1, ⟨l, hl, w2⟩, _⟩ := npMin_tab hm (seq phase)
  rw [v1, w1]
  simp only [ok_bind]
  obtain ⟨st, h1, h2⟩ := forRange_inv ((phase.length : ℤ) - m - 1).toNat (v, w, v - w)
    (fun st k => mtie_fallback_step phase m st (k + 1))
    (fun s st => FallInv (seq phase) phase.length m s st)
    ⟨⟨k, by omega, by omega, by omega, v2⟩, ⟨l, by omega, by omega, by omega, w2⟩, by
      simp only; rw [v2, w2]
      exact sub_le_mtie (s := 0) (by omega) (by omega) (by omega) (by omega) (by omega) (by omega)⟩
    (fun k hk st hst => fallback_step_inv phase m k hm (by omega) st hst)
  rw [h1]
  exact ⟨_, rfl, h2.2.2⟩

theorem mtie_fallback_one (phase : List ℝ) (hN : 2 ≤ phase.length) :
    mtie_fallback phase 1 = .ok 0 := by
  unfold mtie_fallback
  rw [if_neg (by omega), if_neg (by push_cast; omega)]
  have e := slice_seq phase 0 1 (by omega)
  have et : ∀ g : ℕ → ℝ, tab 1 g = [g 0] := fun g => rfl
  simp only [Nat.sub_zero, Nat.zero_add, et] at e
  rw [e]
  simp only [npMax, npMin, List.foldl_nil, ok_bind, sub_self]
  obtain ⟨st, h1, h2⟩ := forRange_inv ((phase.length : ℤ) - (1 : ℕ) - 1).toNat
    (seq phase 0, seq phase 0, (0 : ℝ))
    (fun st k => mtie_fallback_step phase 1 st (k + 1))
    (fun s st => st = (seq phase s, seq phase s, 0)) rfl
    (fun k hk st hst => by
      refine ⟨_, ?_, rfl⟩
      rw [hst]
      unfold mtie_fallback_step
      have e0 : (((k + 1 : ℕ) : ℤ) - 1) = (k : ℕ) := by push_cast; ring
      rw [e0, pyGet_seq phase k (by omega), pyGet_seq phase (1 + (k + 1)) (by omega)]
      simp only [ok_bind, slide_max, slide_min, if_true]
      rw [slice_seq phase (k + 1) (1 + (k + 1)) (by omega)]
      have e1 : 1 + (k + 1) - (k + 1) = 1 := by omega
      rw [e1, et]
      simp [npMax, npMin, ok_bind])
  rw [h1, h2]
  rfl

/-! ## The binary decomposition -/

/-- maximum over `2^k` points from `i` on, by doubling -/
noncomputable def dblMax (x : ℕ → ℝ) : ℕ → ℕ → ℝ
  | 0, i => x i
  | k + 1, i => max (dblMax x k i) (dblMax x k (i + 2 ^ k))

/-- minimum over `2^k` points from `i` on, by doubling -/
noncomputable def dblMin (x : ℕ → ℝ) : ℕ → ℕ → ℝ
  | 0, i => x i
  | k + 1, i => min (dblMin x k i) (dblMin x k (i + 2 ^ k))

theorem dblMax_spec (x : ℕ → ℝ) (k i : ℕ) :
    (∃ j < 2 ^ k, dblMax x k i = x (i + j)) ∧ ∀ j < 2 ^ k, x (i + j) ≤ dblMax x k i := by
  induction k generalizing i with
  | zero => simp [dblMax]
  | succ k ih =>
    obtain ⟨⟨j, hj, e⟩, u⟩ := ih i
    obtain ⟨⟨j', hj', e'⟩, u'⟩ := ih (i + 2 ^ k)
    have p2 : 2 ^ (k + 1) = 2 ^ k + 2 ^ k := by ring
    rw [p2]
    simp only [dblMax]
    constructor
    · rcases max_choice (dblMax x k i) (dblMax x k (i + 2 ^ k)) with h | h
      · exact ⟨j, by omega, by rw [h, e]⟩
      · exact ⟨2 ^ k + j', by omega, by rw [h, e', Nat.add_assoc]⟩
    · intro l hl
      by_cases h : l < 2 ^ k
      · exact le_trans (u l h) (le_max_left _ _)
      · have := u' (l - 2 ^ k) (by omega)
        rw [show i + 2 ^ k + (l - 2 ^ k) = i + l by omega] at this
        exact le_trans this (le_max_right _ _)

theorem dblMin_spec (x : ℕ → ℝ) (k i : ℕ) :
    (∃ j < 2 ^ k, dblMin x k i = x (i + j)) ∧ ∀ j < 2 ^ k, dblMin x k i ≤ x (i + j) := by
  induction k generalizing i with
  | zero => simp [dblMin]
  | succ k ih =>
    obtain ⟨⟨j, hj, e⟩, u⟩ := ih i
    obtain ⟨⟨j', hj', e'⟩, u'⟩ := ih (i + 2 ^ k)
    have p2 : 2 ^ (k + 1) = 2 ^ k + 2 ^ k := by ring
    rw [p2]
    simp only [dblMin]
    constructor
    · rcases min_choice (dblMin x k i) (dblMin x k (i + 2 ^ k)) with h | h
      · exact ⟨j, by omega, by rw [h, e]⟩
      · exact ⟨2 ^ k + j', by omega, by rw [h, e', Nat.add_assoc]⟩
    · intro l hl
      by_cases h : l < 2 ^ k
      · exact le_trans (min_le_left _ _) (u l h)
      · have := u' (l - 2 ^ k) (by omega)
        rw [show i + 2 ^ k + (l - 2 ^ k) = i + l by omega] at this
        exact le_trans (min_le_right _ _) this

/-- column of a result matrix after `i` of its entries have been written -/
def colAt (L : ℕ) (g : ℕ → ℝ) (i : ℕ) : List ℝ := tab L (fun j => if j < i then g j else 0)

theorem pySet_colAt (L : ℕ) (g : ℕ → ℝ) (i : ℕ) (h : i < L) :
    pySet (colAt L g i) i (g i) = .ok (colAt L g (i + 1)) := by
  unfold pySet colAt
  rw [if_pos (by simpa using h)]
  congr 1
  apply tab_ext
  · simp
  · intro j hj
    rw [List.getElem?_set]
    simp only [tab_length, tab_getElem?, hj, if_true]
    by_cases e : i = j
    · subst e; simp [h]
    · rw [if_neg e]
      by_cases c : j < i
      · simp [c, show j < i + 1 by omega]
      · simp [c, show ¬ j < i + 1 by omega]

theorem colAt_zero (L : ℕ) (g : ℕ → ℝ) : colAt L g 0 = List.replicate L 0 := by
  unfold colAt
  simp only [Nat.not_lt_zero, if_false, tab]
  rw [List.map_const', List.length_range]

theorem mtie_fast_column_eq (phase pmax pmin : List ℝ) (k imax : ℕ) (hk : 1 ≤ k)
    (hL : 2 ^ k ≤ phase.length) (him : imax = phase.length - 2 ^ k + 1)
    (hpmax : 2 ≤ k → pmax = colAt (phase.length - 1) (dblMax (seq phase) (k - 1))
      (phase.length - 2 ^ (k - 1) + 1))
    (hpmin : 2 ≤ k → pmin = colAt (phase.length - 1) (dblMin (seq phase) (k - 1))
      (phase.length - 2 ^ (k - 1) + 1)) :
    mtie_fast_column phase pmax pmin k =
      .ok (colAt (phase.length - 1) (dblMax (seq phase) k) imax,
        colAt (phase.length - 1) (dblMin (seq phase) k) imax,
        tab imax (fun i => dblMax (seq phase) k i - dblMin (seq phase) k i)) := by
  set N := phase.length with hN
  have p2 : 2 ^ k = 2 ^ (k - 1) + 2 ^ (k - 1) := by
    conv_lhs => rw [show k = k - 1 + 1 by omega, pow_succ]
    ring
  have p1 : 1 ≤ 2 ^ (k - 1) := Nat.one_le_two_pow
  unfold mtie_fast_column
  have e1 : ((phase.length : ℤ) - 2 ^ k + 1).toNat = imax := by
    have : ((2 ^ k : ℕ) : ℤ) = 2 ^ k := by push_cast; rfl
    rw [← this]
    omega
  rw [e1]
  have hfin : tab imax (fun i => dblMax (seq phase) k i - dblMin (seq phase) k i) =
      colAt imax (fun i => dblMax (seq phase) k i - dblMin (seq phase) k i) imax := by
    unfold colAt
    apply tab_congr
    intro i hi
    simp [hi]
  rw [hfin]
  simp only
  apply forRange_eq (fun i => (colAt (N - 1) (dblMax (seq phase) k) i,
    colAt (N - 1) (dblMin (seq phase) k) i,
    colAt imax (fun i => dblMax (seq phase) k i - dblMin (seq phase) k i) i))
  · rw [colAt_zero, colAt_zero, colAt_zero]
  · intro i hi
    have hval : mtie_fast_entry phase pmax pmin k i =
        .ok (dblMax (seq phase) k i, dblMin (seq phase) k i) := by
      unfold mtie_fast_entry
      split_ifs with h1
      · subst h1
        have e2 : ((i : ℤ) + 1) = ((i + 1 : ℕ) : ℤ) := by push_cast; rfl
        rw [e2, pyGet_seq phase i (by omega), pyGet_seq phase (i + 1) (by omega)]
        rfl
      · have e2 : ((i : ℤ) + (2 ^ (k - 1) : ℕ)) = ((i + 2 ^ (k - 1) : ℕ) : ℤ) := by push_cast; rfl
        rw [e2, hpmax (by omega), hpmin (by omega)]
        unfold colAt
        have l1 : i < N - 1 := by omega
        have l2 : i + 2 ^ (k - 1) < N - 1 := by
          have : 2 ≤ 2 ^ (k - 1) := by
            calc 2 = 2 ^ 1 := rfl
              _ ≤ 2 ^ (k - 1) := Nat.pow_le_pow_right (by norm_num) (by omega)
          omega
        rw [pyGet_tab_nat _ _ _ l1, pyGet_tab_nat _ _ _ l1, pyGet_tab_nat _ _ _ l2,
          pyGet_tab_nat _ _ _ l2]
        simp only [ok_bind]
        rw [if_pos (by omega), if_pos (by omega), if_pos (by omega), if_pos (by omega)]
        obtain ⟨k', rfl⟩ : ∃ k', k = k' + 1 := ⟨k - 1, by omega⟩
        rfl
    simp only [hval, ok_bind]
    rw [pySet_colAt _ _ _ (by omega), pySet_colAt _ _ _ (by omega)]
    simp only [ok_bind]
    have := pySet_colAt imax (fun i => dblMax (seq phase) k i - dblMin (seq phase) k i) i hi
    rw [this, ok_bind]

end AT
