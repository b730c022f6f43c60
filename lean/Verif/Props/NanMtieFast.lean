import Verif.Model.NanMtieFast
import Verif.Props.NanMtie

/-!
# C117: NaN in the data of `mtie_phase_fast`

Python's `max(a, b)` and `min(a, b)` are NaN exactly if the first argument is.  So an entry of the
columns is NaN exactly if the first sample of its window is, and a NaN later in the window hides
samples after it.
-/

namespace AT

open Spec

theorem pyMax2_spec (a b : NV) : (pyMax2 a b = none ↔ a = none) ∧
    (∀ v, pyMax2 a b = some v → (a = some v ∨ b = some v) ∧ (∀ u, a = some u → u ≤ v) ∧
      ∀ u, b = some u → u ≤ v) := by
  unfold pyMax2 nvLt
  cases a with
  | none =>
    rw [if_neg (by rintro ⟨u, v, h, _⟩; cases h)]
    exact ⟨Iff.rfl, nofun⟩
  | some u =>
    cases b with
    | none =>
      rw [if_neg (by rintro ⟨u, v, _, h, _⟩; cases h)]
      refine ⟨by simp, ?_⟩
      rintro v ⟨⟩
      exact ⟨Or.inl rfl, by rintro _ ⟨⟩; exact le_rfl, nofun⟩
    | some w =>
      by_cases h : u < w
      · rw [if_pos ⟨u, w, rfl, rfl, h⟩]
        refine ⟨by simp, ?_⟩
        rintro v ⟨⟩
        exact ⟨Or.inr rfl, by rintro _ ⟨⟩; exact h.le, by rintro _ ⟨⟩; exact le_rfl⟩
      · rw [if_neg (by rintro ⟨u', w', h1, h2, h3⟩; cases h1; cases h2; exact h h3)]
        refine ⟨by simp, ?_⟩
        rintro v ⟨⟩
        exact ⟨Or.inl rfl, by rintro _ ⟨⟩; exact le_rfl, by rintro _ ⟨⟩; exact not_lt.1 h⟩

theorem pyMin2_spec (a b : NV) : (pyMin2 a b = none ↔ a = none) ∧
    (∀ v, pyMin2 a b = some v → (a = some v ∨ b = some v) ∧ (∀ u, a = some u → v ≤ u) ∧
      ∀ u, b = some u → v ≤ u) := by
  unfold pyMin2 nvLt
  cases a with
  | none =>
    rw [if_neg (by rintro ⟨u, v, _, h, _⟩; cases h)]
    exact ⟨Iff.rfl, nofun⟩
  | some u =>
    cases b with
    | none =>
      rw [if_neg (by rintro ⟨u, v, h, _⟩; cases h)]
      refine ⟨by simp, ?_⟩
      rintro v ⟨⟩
      exact ⟨Or.inl rfl, by rintro _ ⟨⟩; exact le_rfl, nofun⟩
    | some w =>
      by_cases h : w < u
      · rw [if_pos ⟨w, u, rfl, rfl, h⟩]
        refine ⟨by simp, ?_⟩
        rintro v ⟨⟩
        exact ⟨Or.inr rfl, by rintro _ ⟨⟩; exact h.le, by rintro _ ⟨⟩; exact le_rfl⟩
      · rw [if_neg (by rintro ⟨w', u', h1, h2, h3⟩; cases h1; cases h2; exact h h3)]
        refine ⟨by simp, ?_⟩
        rintro v ⟨⟩
        exact ⟨Or.inl rfl, by rintro _ ⟨⟩; exact le_rfl, by rintro _ ⟨⟩; exact not_lt.1 h⟩

/-- entry `i` of the columns of maxima -/
noncomputable def nvDblMax (D : ℕ → NV) : ℕ → ℕ → NV
  | 0, i => D i
  | k + 1, i => pyMax2 (nvDblMax D k i) (nvDblMax D k (i + 2 ^ k))

/-- entry `i` of the columns of minima -/
noncomputable def nvDblMin (D : ℕ → NV) : ℕ → ℕ → NV
  | 0, i => D i
  | k + 1, i => pyMin2 (nvDblMin D k i) (nvDblMin D k (i + 2 ^ k))

theorem nvDblMax_spec (D : ℕ → NV) (k i : ℕ) : (nvDblMax D k i = none ↔ D i = none) ∧
    ∀ v, nvDblMax D k i = some v → (∃ l < 2 ^ k, D (i + l) = some v) ∧ (∀ u, D i = some u → u ≤ v) ∧
      ((∀ l < 2 ^ k, D (i + l) ≠ none) → ∀ l < 2 ^ k, ∀ u, D (i + l) = some u → u ≤ v) := by
  induction k generalizing i with
  | zero =>
    refine ⟨Iff.rfl, fun v hv => ⟨⟨0, by norm_num, hv⟩, fun u hu => ?_, fun _ l hl u hu => ?_⟩⟩
    · rw [nvDblMax, hu] at hv
      cases hv
      exact le_rfl
    · obtain rfl : l = 0 := by simpa using hl
      rw [nvDblMax] at hv
      rw [Nat.add_zero, hv] at hu
      cases hu
      exact le_rfl
  | succ k ih =>
    obtain ⟨a1, a2⟩ := ih i
    obtain ⟨b1, b2⟩ := ih (i + 2 ^ k)
    obtain ⟨c1, c2⟩ := pyMax2_spec (nvDblMax D k i) (nvDblMax D k (i + 2 ^ k))
    have hp : 2 ^ (k + 1) = 2 ^ k + 2 ^ k := by rw [pow_succ]; ring
    refine ⟨c1.trans a1, fun v hv => ?_⟩
    obtain ⟨d1, d2, d3⟩ := c2 v hv
    refine ⟨?_, ?_, ?_⟩
    · rcases d1 with d1 | d1
      · obtain ⟨⟨l, hl, e⟩, _⟩ := a2 v d1
        exact ⟨l, by omega, e⟩
      · obtain ⟨⟨l, hl, e⟩, _⟩ := b2 v d1
        exact ⟨2 ^ k + l, by omega, by rw [← e]; congr 1; omega⟩
    · intro u hu
      cases e : nvDblMax D k i with
      | none => rw [a1.1 e] at hu; cases hu
      | some w => exact le_trans ((a2 w e).2.1 u hu) (d2 w e)
    · intro hn l hl u hu
      by_cases h : l < 2 ^ k
      · cases e : nvDblMax D k i with
        | none => exact absurd (a1.1 e) (by simpa using hn 0 (by omega))
        | some w => exact le_trans ((a2 w e).2.2 (fun l hl => hn l (by omega)) l h u hu) (d2 w e)
      · cases e : nvDblMax D k (i + 2 ^ k) with
        | none => exact absurd (b1.1 e) (hn (2 ^ k) (by have : 0 < 2 ^ k := by positivity
                                                        omega))
        | some w =>
          refine le_trans ((b2 w e).2.2 (fun l hl => ?_) (l - 2 ^ k) (by omega) u ?_) (d3 w e)
          · have := hn (2 ^ k + l) (by omega)
            rwa [← Nat.add_assoc] at this
          · rw [← hu]; congr 1; omega

theorem nvDblMin_spec (D : ℕ → NV) (k i : ℕ) : (nvDblMin D k i = none ↔ D i = none) ∧
    ∀ v, nvDblMin D k i = some v → (∃ l < 2 ^ k, D (i + l) = some v) ∧ (∀ u, D i = some u → v ≤ u) ∧
      ((∀ l < 2 ^ k, D (i + l) ≠ none) → ∀ l < 2 ^ k, ∀ u, D (i + l) = some u → v ≤ u) := by
  induction k generalizing i with
  | zero =>
    refine ⟨Iff.rfl, fun v hv => ⟨⟨0, by norm_num, hv⟩, fun u hu => ?_, fun _ l hl u hu => ?_⟩⟩
    · rw [nvDblMin, hu] at hv
      cases hv
      exact le_rfl
    · obtain rfl : l = 0 := by simpa using hl
      rw [nvDblMin] at hv
      rw [Nat.add_zero, hv] at hu
      cases hu
      exact le_rfl
  | succ k ih =>
    obtain ⟨a1, a2⟩ := ih i
    obtain ⟨b1, b2⟩ := ih (i + 2 ^ k)
    obtain ⟨c1, c2⟩ := pyMin2_spec (nvDblMin D k i) (nvDblMin D k (i + 2 ^ k))
    have hp : 2 ^ (k + 1) = 2 ^ k + 2 ^ k := by rw [pow_succ]; ring
    refine ⟨c1.trans a1, fun v hv => ?_⟩
    obtain ⟨d1, d2, d3⟩ := c2 v hv
    refine ⟨?_, ?_, ?_⟩
    · rcases d1 with d1 | d1
      · obtain ⟨⟨l, hl, e⟩, _⟩ := a2 v d1
        exact ⟨l, by omega, e⟩
      · obtain ⟨⟨l, hl, e⟩, _⟩ := b2 v d1
        exact ⟨2 ^ k + l, by omega, by rw [← e]; congr 1; omega⟩
    · intro u hu
      cases e : nvDblMin D k i with
      | none => rw [a1.1 e] at hu; cases hu
      | some w => exact le_trans (d2 w e) ((a2 w e).2.1 u hu)
    · intro hn l hl u hu
      by_cases h : l < 2 ^ k
      · cases e : nvDblMin D k i with
        | none => exact absurd (a1.1 e) (by simpa using hn 0 (by omega))
        | some w => exact le_trans (d2 w e) ((a2 w e).2.2 (fun l hl => hn l (by omega)) l h u hu)
      · cases e : nvDblMin D k (i + 2 ^ k) with
        | none => exact absurd (b1.1 e) (hn (2 ^ k) (by have : 0 < 2 ^ k := by positivity
                                                        omega))
        | some w =>
          refine le_trans (d3 w e) ((b2 w e).2.2 (fun l hl => ?_) (l - 2 ^ k) (by omega) u ?_)
          · have := hn (2 ^ k + l) (by omega)
            rwa [← Nat.add_assoc] at this
          · rw [← hu]; congr 1; omega

/-- column of a result matrix after `i` of its entries have been written -/
def colNv (L : ℕ) (g : ℕ → NV) (i : ℕ) : List NV := tab L (fun j => if j < i then g j else some 0)

theorem pySet_colNv (L : ℕ) (g : ℕ → NV) (i : ℕ) (h : i < L) :
    pySet (colNv L g i) i (g i) = .ok (colNv L g (i + 1)) := by
  unfold pySet colNv
  rw [if_pos (by simpa using h)]
  congr 1
  apply tab_ext
  · simp
  · intro j hj
    rw [List.getElem?_set]
    simp only [tab_length, tab_getElem?, hj, if_true]
    by_cases e : i = j
    · subst e; simp [h]
    · rw [if_neg e]
      by_cases c : j < i
      · simp [c, show j < i + 1 by omega]
      · simp [c, show ¬ j < i + 1 by omega]

theorem colNv_zero (L : ℕ) (g : ℕ → NV) : colNv L g 0 = List.replicate L (some 0) := by
  unfold colNv
  simp only [Nat.not_lt_zero, if_false, tab]
  rw [List.map_const', List.length_range]

theorem mtie_fast_column_nv_eq (N : ℕ) (D : ℕ → NV) (pmax pmin : List NV) (k imax : ℕ) (hk : 1 ≤ k)
    (hL : 2 ^ k ≤ N) (him : imax = N - 2 ^ k + 1)
    (hpmax : 2 ≤ k → pmax = colNv (N - 1) (nvDblMax D (k - 1)) (N - 2 ^ (k - 1) + 1))
    (hpmin : 2 ≤ k → pmin = colNv (N - 1) (nvDblMin D (k - 1)) (N - 2 ^ (k - 1) + 1)) :
    mtie_fast_column_nv (tab N D) pmax pmin k =
      .ok (colNv (N - 1) (nvDblMax D k) imax, colNv (N - 1) (nvDblMin D k) imax,
        tab imax (fun i => nv2 (· - ·) (nvDblMax D k i) (nvDblMin D k i))) := by
  have p2 : 2 ^ k = 2 ^ (k - 1) + 2 ^ (k - 1) := by
    conv_lhs => rw [show k = k - 1 + 1 by omega, pow_succ]
    ring
  have p1 : 1 ≤ 2 ^ (k - 1) := Nat.one_le_two_pow
  unfold mtie_fast_column_nv
  rw [tab_length]
  have e1 : ((N : ℤ) - 2 ^ k + 1).toNat = imax := by
    have : ((2 ^ k : ℕ) : ℤ) = 2 ^ k := by push_cast; rfl
    rw [← this]
    omega
  rw [e1]
  have hfin : tab imax (fun i => nv2 (· - ·) (nvDblMax D k i) (nvDblMin D k i)) =
      colNv imax (fun i => nv2 (· - ·) (nvDblMax D k i) (nvDblMin D k i)) imax := by
    unfold colNv
    apply tab_congr
    intro i hi
    simp [hi]
  rw [hfin]
  simp only
  apply forRange_eq (fun i => (colNv (N - 1) (nvDblMax D k) i, colNv (N - 1) (nvDblMin D k) i,
    colNv imax (fun i => nv2 (· - ·) (nvDblMax D k i) (nvDblMin D k i)) i))
  · rw [colNv_zero, colNv_zero, colNv_zero]
  · intro i hi
    have hval : mtie_fast_entry_nv (tab N D) pmax pmin k i =
        .ok (nvDblMax D k i, nvDblMin D k i) := by
      unfold mtie_fast_entry_nv
      split_ifs with h1
      · subst h1
        have e2 : ((i : ℤ) + 1) = ((i + 1 : ℕ) : ℤ) := by push_cast; rfl
        rw [e2, pyGet_tab_nat _ _ i (by omega), pyGet_tab_nat _ _ (i + 1) (by omega)]
        rfl
      · have e2 : ((i : ℤ) + (2 ^ (k - 1) : ℕ)) = ((i + 2 ^ (k - 1) : ℕ) : ℤ) := by push_cast; rfl
        rw [e2, hpmax (by omega), hpmin (by omega)]
        unfold colNv
        have l1 : i < N - 1 := by omega
        have l2 : i + 2 ^ (k - 1) < N - 1 := by
          have : 2 ≤ 2 ^ (k - 1) := by
            calc 2 = 2 ^ 1 := rfl
              _ ≤ 2 ^ (k - 1) := Nat.pow_le_pow_right (by norm_num) (by omega)
          omega
        rw [pyGet_tab_nat _ _ _ l1, pyGet_tab_nat _ _ _ l1, pyGet_tab_nat _ _ _ l2,
          pyGet_tab_nat _ _ _ l2]
        simp only [ok_bind]
        rw [if_pos (by omega), if_pos (by omega), if_pos (by omega), if_pos (by omega)]
        obtain ⟨k', rfl⟩ : ∃ k', k = k' + 1 := ⟨k - 1, by omega⟩
        rfl
    simp only [hval, ok_bind]
    rw [pySet_colNv _ _ _ (by omega), pySet_colNv _ _ _ (by omega)]
    simp only [ok_bind]
    have := pySet_colNv imax (fun i => nv2 (· - ·) (nvDblMax D k i) (nvDblMin D k i)) i hi
    rw [this, ok_bind]

/-- the result on a list with NaN: `G k` is the maximum of the differences of the columns -/
theorem mtie_phase_fast_nv_run (N : ℕ) (D : ℕ → NV) (h0 : N ≠ 0) :
    ∃ G : ℕ → NV, mtie_phase_fast_nv (tab N D) =
      (if N < 4 then .error .userWarning
      else .ok ⟨tab (Nat.log 2 N - 1) (fun k => (2 : ℝ) ^ k), tab (Nat.log 2 N - 1) G,
        tab (Nat.log 2 N - 1) (fun _ => some 0),
        tab (Nat.log 2 N - 1) (fun k => (2 : ℤ) ^ Nat.log 2 N - 2 ^ (k + 1) + 1)⟩) ∧
      ∀ k < Nat.log 2 N, nvExt npMax (tab (2 ^ Nat.log 2 N - 2 ^ (k + 1) + 1)
        (fun i => nv2 (· - ·) (nvDblMax D (k + 1) i) (nvDblMin D (k + 1) i))) = .ok (G k) := by
  unfold mtie_phase_fast_nv
  simp only [tab_length, if_neg h0]
  set K := Nat.log 2 N with hK
  have hK1 : 2 ^ K ≤ N := Nat.pow_log_le_self 2 h0
  have hfl : ⌊Real.logb 2 N⌋.toNat = K := by
    have := floor_logb 2 (by norm_num) N (by omega)
    rw [Nat.cast_ofNat] at this
    rw [this]; rfl
  rw [hfl, slice_tab _ _ _ _ hK1]
  simp only [Nat.sub_zero, Nat.zero_add, tab_length]
  rw [pyAssert_true trivial]
  simp only [ok_bind]
  have hmx : ∀ k, ∃ v, nvExt npMax (tab (2 ^ K - 2 ^ (k + 1) + 1)
      (fun i => nv2 (· - ·) (nvDblMax D (k + 1) i) (nvDblMin D (k + 1) i))) = .ok v := by
    intro k
    obtain ⟨v, v1, _⟩ := nvMax_tab (show 0 < 2 ^ K - 2 ^ (k + 1) + 1 by omega)
        (fun i => nv2 (· - ·) (nvDblMax D (k + 1) i) (nvDblMin D (k + 1) i))
    exact ⟨v, v1⟩
  choose G hG using hmx
  obtain ⟨st, hst1, hst2⟩ := forRange_inv K (([], [], []) : List NV × List NV × List (NV × ℤ))
    (fun st kidx => do
      let (cmax, cmin, tie) ← mtie_fast_column_nv (tab (2 ^ K) D) st.1 st.2.1 (kidx + 1)
      let dev ← nvExt npMax tie
      .ok (cmax, cmin, st.2.2 ++ [(dev, ((2 ^ K : ℕ) : ℤ) - 2 ^ (kidx + 1) + 1)]))
    (fun k st => (1 ≤ k → st.1 = colNv (2 ^ K - 1) (nvDblMax D k) (2 ^ K - 2 ^ k + 1) ∧
        st.2.1 = colNv (2 ^ K - 1) (nvDblMin D k) (2 ^ K - 2 ^ k + 1)) ∧
      st.2.2 = tab k (fun k => (G k, ((2 ^ K : ℕ) : ℤ) - 2 ^ (k + 1) + 1)))
    ⟨fun h => absurd h (by norm_num), rfl⟩
    (by
      rintro k hk ⟨cm, cn, rows⟩ ⟨h1, h2⟩
      simp only at h1 h2
      have hp : 2 ^ (k + 1) ≤ 2 ^ K := Nat.pow_le_pow_right (by norm_num) hk
      have hcol := mtie_fast_column_nv_eq (2 ^ K) D cm cn (k + 1) (2 ^ K - 2 ^ (k + 1) + 1)
        (by omega) hp rfl
        (fun h => by simpa using (h1 (by omega)).1) (fun h => by simpa using (h1 (by omega)).2)
      simp only [hcol, ok_bind]
      rw [hG k]
      simp only [ok_bind]
      refine ⟨_, rfl, fun _ => ⟨rfl, rfl⟩, ?_⟩
      simp only
      rw [h2, tab_succ])
  rw [hst1]
  simp only [ok_bind]
  rw [hst2.2]
  refine ⟨G, ?_, fun k _ => hG k⟩
  set n : ℕ → ℤ := fun k => ((2 ^ K : ℕ) : ℤ) - 2 ^ (k + 1) + 1 with hn
  have hkeep : ∀ k < K, (1 < n k ↔ k < K - 1) := by
    intro k hk
    rw [hn]
    push_cast
    constructor
    · intro h
      by_contra hc
      have : k + 1 = K := by omega
      rw [this] at h
      omega
    · intro h
      have : (2 : ℤ) ^ (k + 1) < 2 ^ K := pow_lt_pow_right₀ (by norm_num) (by omega)
      omega
  have hr : (List.range K).filter (fun k => decide (1 < n k)) = List.range (K - 1) := by
    apply sorted_ext (List.pairwise_lt_range.filter _) List.pairwise_lt_range
    intro a
    simp only [List.mem_filter, List.mem_range, decide_eq_true_eq]
    constructor
    · rintro ⟨a1, a2⟩; exact (hkeep a a1).1 a2
    · intro a1; exact ⟨by omega, (hkeep a (by omega)).2 a1⟩
  rw [hn] at hr
  have hz : List.replicate K (some (0 : ℝ)) = (List.range K).map (fun _ => some (0 : ℝ)) := by
    rw [List.map_const', List.length_range]
  unfold remove_small_ns_nv tab
  simp only [hz, List.map_map, Function.comp_def, maskSel_map_map, ok_bind, hr, List.length_map,
    List.length_range]
  by_cases h4 : N < 4
  · have : K - 1 = 0 := by
      have : K < 2 := Nat.log_lt_of_lt_pow h0 (by omega)
      omega
    rw [if_pos this, if_pos h4]
  · have hK2 : 2 ≤ K := by
      rw [hK]
      exact (Nat.le_log_iff_pow_le (by norm_num) h0).2 (by omega)
    rw [if_neg (by omega), if_neg h4]
    congr 2
    · apply List.map_congr_left
      intro k _
      push_cast; rfl

/-- C117: on data with NaN, `mtie_phase_fast` raises what it raises on any completion, or returns the same taus,
error bars and counts.  Value `k` is NaN exactly if a window of `2^(k+1)` points starts with NaN; otherwise it is a number
between 0 and the value of any completion, and equal to it if the samples used have no NaN. -/
theorem mtie_phase_fast_nan {d : List NV} {x : List ℝ} (h : Completes d x) :
    (∃ e, mtie_phase_fast_nv d = .error e ∧ mtie_phase_fast x = .error e) ∨
    ∃ (g : ℕ → NV) (o : DevOut ℝ), mtie_phase_fast x = .ok o ∧ o.devs.length = Nat.log 2 x.length - 1 ∧
      o.errs = .arr (tab o.devs.length (fun _ => 0)) ∧
      mtie_phase_fast_nv d = .ok ⟨o.taus, tab o.devs.length g, tab o.devs.length (fun _ => some 0), o.ns⟩ ∧
      ∀ k < o.devs.length, (g k = none ↔ ∃ i, i + 2 ^ (k + 1) ≤ 2 ^ Nat.log 2 x.length ∧ d[i]? = some none) ∧
        ∀ v, g k = some v → 0 ≤ v ∧ v ≤ seq o.devs k ∧
          ((∀ i < 2 ^ Nat.log 2 x.length, d[i]? ≠ some none) → v = seq o.devs k) := by
  set N := x.length with hN
  obtain ⟨D, hD⟩ : ∃ D : ℕ → NV, ∀ i, D i = nanUnless (d[i]? ≠ some none) (seq x i) := ⟨_, fun _ => rfl⟩
  have hd : d = tab N D := by
    rw [h.eq_tab]
    exact tab_congr (fun i _ => by rw [hD])
  have hDx : ∀ i v, D i = some v → seq x i = v := by
    intro i v hv
    rw [hD, nanUnless] at hv
    split_ifs at hv
    exact Option.some.inj hv
  have hDn : ∀ i < N, (d[i]? = some none ↔ D i = none) := by
    intro i hi
    rw [hd, tab_getElem?, if_pos hi, Option.some.injEq]
  rw [mtie_phase_fast_eq_partial, ← hN]
  by_cases h0 : N = 0
  · left
    refine ⟨.overflowError, ?_, if_pos h0⟩
    rw [hd]
    unfold mtie_phase_fast_nv
    simp [h0]
  obtain ⟨G, g1, g2⟩ := mtie_phase_fast_nv_run N D h0
  rw [← hd] at g1
  rw [g1, if_neg h0]
  by_cases h4 : N < 4
  · left
    exact ⟨.userWarning, by rw [if_pos h4], by rw [if_pos h4]⟩
  right
  rw [if_neg h4, if_neg h4]
  set K := Nat.log 2 N with hK
  have hK1 : 2 ^ K ≤ N := Nat.pow_log_le_self 2 h0
  refine ⟨G, _, rfl, by simp, by simp, by simp, ?_⟩
  simp only [tab_length]
  intro k hk
  have sq : ∀ g : ℕ → ℝ, seq (tab (K - 1) g) k = g k := by
    intro g
    unfold seq
    rw [tab_getD, if_pos hk]
  rw [sq]
  have hp : 2 ^ (k + 1) ≤ 2 ^ K := Nat.pow_le_pow_right (by norm_num) (by omega)
  have pp : 0 < 2 ^ (k + 1) := by positivity
  obtain ⟨r, r1, r2, r3⟩ := nvMax_tab (show 0 < 2 ^ K - 2 ^ (k + 1) + 1 by omega)
    (fun i => nv2 (· - ·) (nvDblMax D (k + 1) i) (nvDblMin D (k + 1) i))
  rw [g2 k (by omega)] at r1
  cases r1
  have hnone : ∀ i, nv2 (· - ·) (nvDblMax D (k + 1) i) (nvDblMin D (k + 1) i) = none ↔ D i = none := by
    intro i
    have a := (nvDblMax_spec D (k + 1) i).1
    have b := (nvDblMin_spec D (k + 1) i).1
    constructor
    · intro e
      cases ea : nvDblMax D (k + 1) i with
      | none => exact a.1 ea
      | some u =>
        cases eb : nvDblMin D (k + 1) i with
        | none => exact b.1 eb
        | some v => rw [ea, eb] at e; cases e
    · intro e
      rw [a.2 e]
      rfl
  have hsome : ∀ i v, nv2 (· - ·) (nvDblMax D (k + 1) i) (nvDblMin D (k + 1) i) = some v →
      ∃ p q, nvDblMax D (k + 1) i = some p ∧ nvDblMin D (k + 1) i = some q ∧ v = p - q := by
    intro i v e
    cases ea : nvDblMax D (k + 1) i with
    | none => rw [ea] at e; cases e
    | some p =>
      cases eb : nvDblMin D (k + 1) i with
      | none => rw [ea, eb] at e; cases e
      | some q =>
        rw [ea, eb] at e
        cases e
        exact ⟨p, q, rfl, rfl, rfl⟩
  refine ⟨r2.trans ⟨?_, ?_⟩, fun v hv => ?_⟩
  · rintro ⟨i, hi, e⟩
    exact ⟨i, by omega, (hDn i (by omega)).2 ((hnone i).1 e)⟩
  · rintro ⟨i, hi, e⟩
    exact ⟨i, by omega, (hnone i).2 ((hDn i (by omega)).1 e)⟩
  · obtain ⟨⟨i, hi, e⟩, r5⟩ := r3 v hv
    obtain ⟨p, q, e1, e2, rfl⟩ := hsome i v e
    obtain ⟨⟨l, hl, a1⟩, a2, _⟩ := (nvDblMax_spec D (k + 1) i).2 p e1
    obtain ⟨⟨l', hl', b1⟩, b2, _⟩ := (nvDblMin_spec D (k + 1) i).2 q e2
    refine ⟨?_, ?_, ?_⟩
    · cases ed : D i with
      | none =>
        rw [(nvDblMax_spec D (k + 1) i).1.2 ed] at e1
        cases e1
      | some u => linarith [a2 u ed, b2 u ed]
    · rw [← hDx _ _ a1, ← hDx _ _ b1]
      exact sub_le_mtie (s := i) (by omega) (by omega) (by omega) (by omega) (by omega) (by omega)
    · intro hnan
      have hnn : ∀ i < 2 ^ K, D i ≠ none := fun i hi e => hnan i hi ((hDn i (by omega)).2 e)
      have hA : ∀ i < 2 ^ K - (2 ^ (k + 1) - 1), ∃ p, nvDblMax D (k + 1) i = some p := by
        intro i hi
        exact Option.ne_none_iff_exists'.1 (fun e => hnn i (by omega) ((nvDblMax_spec D (k + 1) i).1.1 e))
      have hB : ∀ i < 2 ^ K - (2 ^ (k + 1) - 1), ∃ p, nvDblMin D (k + 1) i = some p := by
        intro i hi
        exact Option.ne_none_iff_exists'.1 (fun e => hnn i (by omega) ((nvDblMin_spec D (k + 1) i).1.1 e))
      have full : ∀ j < 2 ^ K, D j = some (seq x j) := by
        intro j hj
        obtain ⟨u, hu⟩ := Option.ne_none_iff_exists'.1 (hnn j hj)
        rw [hu, hDx j u hu]
      apply mtie_of_windows (seq x) (2 ^ K) (2 ^ (k + 1) - 1) (by omega)
        (fun i => (nvDblMax D (k + 1) i).getD 0) (fun i => (nvDblMin D (k + 1) i).getD 0)
      · intro i hi
        obtain ⟨p, hp'⟩ := hA i hi
        obtain ⟨⟨l, hl, a1⟩, _, a3⟩ := (nvDblMax_spec D (k + 1) i).2 p hp'
        rw [show 2 ^ (k + 1) - 1 + 1 = 2 ^ (k + 1) by omega]
        simp only [hp', Option.getD_some]
        exact ⟨⟨l, hl, (hDx _ _ a1).symm⟩, fun l hl => a3 (fun l hl => hnn _ (by omega)) l hl _
          (full _ (by omega))⟩
      · intro i hi
        obtain ⟨p, hp'⟩ := hB i hi
        obtain ⟨⟨l, hl, a1⟩, _, a3⟩ := (nvDblMin_spec D (k + 1) i).2 p hp'
        rw [show 2 ^ (k + 1) - 1 + 1 = 2 ^ (k + 1) by omega]
        simp only [hp', Option.getD_some]
        exact ⟨⟨l, hl, (hDx _ _ a1).symm⟩, fun l hl => a3 (fun l hl => hnn _ (by omega)) l hl _
          (full _ (by omega))⟩
      · refine ⟨i, by omega, ?_⟩
        simp only [e1, e2, Option.getD_some]
      · intro j hj
        obtain ⟨p', hp'⟩ := hA j hj
        obtain ⟨q', hq'⟩ := hB j hj
        simp only [hp', hq', Option.getD_some]
        exact r5 j (by omega) _ (by simp only [hp', hq']; rfl)

/-- C117: a NaN hides the samples after it: the value for windows of four points of these data is 0 whatever the
last sample is, while the value of every completion is at least that sample -/
theorem mtie_phase_fast_nan_unbounded (c : ℝ) :
    (∃ o, mtie_phase_fast_nv [some 0, some 0, some 0, some 0, some 0, some 0, none, some c] = .ok o ∧
      o.taus = [1, 2] ∧ o.devs = [none, some 0]) ∧
    ∀ x, Completes [some 0, some 0, some 0, some 0, some 0, some 0, none, some c] x →
      ∃ o, mtie_phase_fast x = .ok o ∧ c ≤ seq o.devs 1 := by
  set d : List NV := [some 0, some 0, some 0, some 0, some 0, some 0, none, some c] with hd
  have hlog : Nat.log 2 8 = 3 := Nat.log_eq_of_pow_le_of_lt_pow (by norm_num) (by norm_num)
  constructor
  · obtain ⟨D, hD⟩ : ∃ D : ℕ → NV, D = fun i => d.getD i none := ⟨_, rfl⟩
    have ht : d = tab 8 D := by rw [hD]; exact eq_tab d none
    obtain ⟨G, g1, g2⟩ := mtie_phase_fast_nv_run 8 D (by norm_num)
    rw [← ht, if_neg (by norm_num), hlog] at g1
    rw [hlog] at g2
    have n1 : ∀ b, pyMax2 none b = none := fun b => (pyMax2_spec none b).1.2 rfl
    have n2 : ∀ b, pyMin2 none b = none := fun b => (pyMin2_spec none b).1.2 rfl
    have z1 : ∀ b : NV, (b = none ∨ b = some 0) → pyMax2 (some 0) b = some 0 := by
      rintro b (rfl | rfl) <;> unfold pyMax2 nvLt
      · rw [if_neg (by rintro ⟨u, v, _, h, _⟩; cases h)]
      · rw [ite_self]
    have z2 : ∀ b : NV, (b = none ∨ b = some 0) → pyMin2 (some 0) b = some 0 := by
      rintro b (rfl | rfl) <;> unfold pyMin2 nvLt
      · rw [if_neg (by rintro ⟨u, v, h, _⟩; cases h)]
      · rw [ite_self]
    have d0 : ∀ i < 6, D i = some 0 := by
      intro i hi
      rw [hD]
      interval_cases i <;> rfl
    have d6 : D 6 = none := by rw [hD]; rfl
    have hG0 : G 0 = none := by
      obtain ⟨r, r1, r2, _⟩ := nvMax_tab (show 0 < 2 ^ 3 - 2 ^ (0 + 1) + 1 by norm_num)
        (fun i => nv2 (· - ·) (nvDblMax D (0 + 1) i) (nvDblMin D (0 + 1) i))
      rw [g2 0 (by norm_num)] at r1
      cases r1
      refine r2.2 ⟨6, by norm_num, ?_⟩
      rw [(nvDblMax_spec D 1 6).1.2 d6]
      rfl
    have hG1 : G 1 = some 0 := by
      have all : ∀ i < 5, nv2 (· - ·) (nvDblMax D (1 + 1) i) (nvDblMin D (1 + 1) i) = some 0 := by
        intro i hi
        have a : nvDblMax D (1 + 1) i = some 0 := by
          simp only [nvDblMax]
          interval_cases i <;>
            simp [d0, d6, n1, z1]
        have b : nvDblMin D (1 + 1) i = some 0 := by
          simp only [nvDblMin]
          interval_cases i <;>
            simp [d0, d6, n2, z2]
        rw [a, b]
        simp [nv2]
      obtain ⟨r, r1, r2, r3⟩ := nvMax_tab (show 0 < 2 ^ 3 - 2 ^ (1 + 1) + 1 by norm_num)
        (fun i => nv2 (· - ·) (nvDblMax D (1 + 1) i) (nvDblMin D (1 + 1) i))
      rw [g2 1 (by norm_num)] at r1
      cases r1
      cases e : G 1 with
      | none =>
        obtain ⟨i, hi, h⟩ := r2.1 e
        rw [all i (by omega)] at h
        cases h
      | some v =>
        obtain ⟨⟨i, hi, h⟩, _⟩ := r3 v e
        rw [all i (by omega)] at h
        exact h.symm
    refine ⟨_, g1, ?_, ?_⟩
    · simp [tab, List.range_succ]
    · simp [tab, List.range_succ, hG0, hG1]
  · intro x hx
    have hl := hx.length_eq
    simp only [hd, List.length_cons, List.length_nil] at hl
    have e4 : seq x 4 = 0 ∧ seq x 7 = c := by
      unfold Completes at hx
      obtain ⟨_, _, _, k1, rfl⟩ := List.forall₂_cons_left_iff.1 hx
      obtain ⟨_, _, _, k2, rfl⟩ := List.forall₂_cons_left_iff.1 k1
      obtain ⟨_, _, _, k3, rfl⟩ := List.forall₂_cons_left_iff.1 k2
      obtain ⟨_, _, _, k4, rfl⟩ := List.forall₂_cons_left_iff.1 k3
      obtain ⟨u, _, hu, k5, rfl⟩ := List.forall₂_cons_left_iff.1 k4
      obtain ⟨_, _, _, k6, rfl⟩ := List.forall₂_cons_left_iff.1 k5
      obtain ⟨_, _, _, k7, rfl⟩ := List.forall₂_cons_left_iff.1 k6
      obtain ⟨w, _, hw, _, rfl⟩ := List.forall₂_cons_left_iff.1 k7
      simp only [reduceCtorEq, Option.some.injEq, false_or] at hu hw
      rw [hu, hw]
      exact ⟨rfl, rfl⟩
    have hx8 : x.length = 8 := by omega
    rw [mtie_phase_fast_eq_partial, hx8, if_neg (by norm_num), if_neg (by norm_num), hlog]
    refine ⟨_, rfl, ?_⟩
    have sq : ∀ g : ℕ → ℝ, seq (tab (3 - 1) g) 1 = g 1 := by
      intro g
      unfold seq
      rw [tab_getD, if_pos (by norm_num)]
    rw [sq]
    have := sub_le_mtie (x := seq x) (N := 2 ^ 3) (m := 2 ^ (1 + 1) - 1) (s := 4) (a := 7) (b := 4)
      (by omega) (by omega) (by omega) (by omega) (by omega) (by omega)
    rwa [e4.1, e4.2, sub_zero] at this

/-- the hypothesis is met, and here the value is a number although there is a NaN -/
example : Completes [some 0, some 3, some 1, none] [0, 3, 1, 7] ∧
    ∃ g : NV, mtie_phase_fast_nv [some 0, some 3, some 1, none] = .ok ⟨[1], [g], [some 0], [3]⟩ ∧ g ≠ none := by
  have h : Completes [some 0, some 3, some 1, none] [0, 3, 1, 7] := by simp [Completes]
  have hlog : Nat.log 2 4 = 2 := Nat.log_eq_of_pow_le_of_lt_pow (by norm_num) (by norm_num)
  refine ⟨h, ?_⟩
  rcases mtie_phase_fast_nan h with ⟨e, _, h2⟩ | ⟨g, o, h1, h2, _, h3, h4⟩
  · rw [mtie_phase_fast_eq_partial, if_neg (by norm_num), if_neg (by norm_num)] at h2
    cases h2
  · rw [mtie_phase_fast_eq_partial, if_neg (by norm_num), if_neg (by norm_num)] at h1
    cases h1
    refine ⟨g 0, ?_, ?_⟩
    · rw [h3]
      simp [hlog, tab]
    · have := (h4 0 (by simp [hlog])).1
      rw [Ne, this]
      rintro ⟨i, hi, e⟩
      simp only [List.length_cons, List.length_nil, Nat.zero_add, Nat.reduceAdd, hlog] at hi
      have : i < 3 := by omega
      interval_cases i <;> simp at e

end AT
