import Verif.Lemmas.Mtie
import Verif.Props.Simple

/-!
# C15–C17: MTIE
-/

namespace AT

open Spec Real

/-- the error bar of MTIE -/
noncomputable def Spec.mtieErr (x : ℕ → ℝ) (N m : ℕ) : ℝ := Spec.mtie x N m / √((N : ℝ) - m)

/-- C15: `mtie` returns exactly the table of the largest `|x[i]-x[j]|` over all pairs of
samples at most `m` apart. -/
theorem mtie_phase_eq (x : List ℝ) (rate : ℝ) (taus : TausArg) :
    mtie x rate "phase" taus =
      table x.length rate taus false x.length
        (fun m => Spec.mtie (seq x) x.length m)
        (fun m => Spec.mtie (seq x) x.length m / √((x.length : ℝ) - m))
        (fun m => (x.length : ℤ) - m) := by
  have h := driver_eq x rate taus false (-1) (fun mj => mtie_body (fun _ => false) x mj)
    (fun m => Spec.mtie (seq x) x.length m)
    (fun m => Spec.mtie (seq x) x.length m / √((x.length : ℝ) - m))
    (fun m => (x.length : ℤ) - m) ?_
  · rw [effMax_default] at h
    rw [← h]
    simp only [mtie, mtie_mem, input_to_phase, if_true, ok_bind, tau_generator_eq, effMax_default]
    cases factors x.length rate taus false x.length <;> simp only [ok_bind, error_bind]
  · intro hr m hm0 hmN _ _
    refine ⟨_, ?_, Iff.rfl, fun _ => rfl⟩
    simp only [mtie_body, Bool.false_eq_true, if_false, mtie_windows_eq x m hmN, ok_bind]
    push_cast
    rfl

/-- MTIE at factor `m` is the largest excursion: it is attained and bounds all others (C15). -/
theorem mtie_isGreatest (x : ℕ → ℝ) (N m : ℕ) (hN : 0 < N) :
    (∃ i j, i ≤ j ∧ j ≤ i + m ∧ j < N ∧ Spec.mtie x N m = |x j - x i|) ∧
      ∀ i j, i ≤ j → j ≤ i + m → j < N → |x j - x i| ≤ Spec.mtie x N m := by
  obtain ⟨h1, h2⟩ := mtie_greatest (x := x) (N := N) (m := m) hN
  exact ⟨h1, fun i j a b c => h2 ⟨i, j, a, b, c, rfl⟩⟩

theorem mtie_nonneg (x : ℕ → ℝ) (N m : ℕ) (hN : 0 < N) : 0 ≤ Spec.mtie x N m := by
  obtain ⟨⟨i, j, _, _, _, h⟩, _⟩ := mtie_isGreatest x N m hN
  rw [h]; positivity

theorem mtie_mono (x : ℕ → ℝ) (N m m' : ℕ) (hN : 0 < N) (h : m ≤ m') :
    Spec.mtie x N m ≤ Spec.mtie x N m' := by
  obtain ⟨⟨i, j, a, b, c, e⟩, _⟩ := mtie_isGreatest x N m hN
  rw [e]
  exact (mtie_isGreatest x N m' hN).2 i j a (by omega) c

theorem tierms_le_mtie (x : ℕ → ℝ) (N m : ℕ) (hm : m < N) :
    Spec.tierms x N m ≤ Spec.mtie x N m := by
  have h0 := mtie_nonneg x N m (by omega)
  unfold Spec.tierms rms
  have hpos : (0 : ℝ) < (N : ℝ) - m := by
    have : (m : ℝ) < N := by exact_mod_cast hm
    linarith
  apply Real.sqrt_le_iff.2
  refine ⟨h0, ?_⟩
  rw [div_le_iff₀ hpos]
  calc ∑ i ∈ Finset.range (N - m), (x (i + m) - x i) ^ 2
      ≤ ∑ _i ∈ Finset.range (N - m), Spec.mtie x N m ^ 2 := by
        apply Finset.sum_le_sum
        intro i hi
        rw [Finset.mem_range] at hi
        have := (mtie_isGreatest x N m (by omega)).2 i (i + m) (by omega) le_rfl (by omega)
        rw [← sq_abs]
        exact pow_le_pow_left₀ (abs_nonneg _) this 2
    _ = Spec.mtie x N m ^ 2 * ((N : ℝ) - m) := by
        rw [Finset.sum_const, Finset.card_range, nsmul_eq_mul, Nat.cast_sub hm.le]; ring

example := tierms_le_mtie (seq [0, 3, 1, 7]) 4 2 (by norm_num)

theorem table_ok {N : ℕ} {rate : ℝ} {taus : TausArg} {even : Bool} {maxM : ℝ} {dev err : ℕ → ℝ}
    {n : ℕ → ℤ} {o : DevOut ℝ} (h : table N rate taus even maxM dev err n = .ok o) :
    ∃ ms, factors N rate taus even maxM = .ok ms ∧ (ms.filter (fun m => decide (1 < n m))) ≠ [] ∧
      o = ⟨(ms.filter (fun m => decide (1 < n m))).map (fun (m : ℕ) => (m : ℝ) / rate),
        (ms.filter (fun m => decide (1 < n m))).map dev,
        .arr ((ms.filter (fun m => decide (1 < n m))).map err),
        (ms.filter (fun m => decide (1 < n m))).map n⟩ := by
  unfold table at h
  rcases factors_cases (N := N) (rate := rate) (taus := taus) (even := even) (mx := maxM) with
    ⟨e, he⟩ | ⟨ms, hms⟩
  · rw [he] at h; cases h
  · rw [hms] at h
    simp only [ok_bind, sweep] at h
    split_ifs at h with h0
    injection h with h
    exact ⟨ms, hms, h0, h.symm⟩

theorem factors_sorted {N : ℕ} {rate : ℝ} {taus : TausArg} {even : Bool} {maxM : ℝ} {ms : List ℕ}
    (h : factors N rate taus even maxM = .ok ms) : ms.Pairwise (· < ·) := by
  unfold factors at h
  split_ifs at h
  split at h
  · cases h
  · injection h with h
    rw [← h]
    exact List.pairwise_lt_range.filter _

/-- C15: the values returned by `mtie` never decrease with tau. -/
theorem mtie_devs_mono (x : List ℝ) (rate : ℝ) (taus : TausArg) (o : DevOut ℝ)
    (h : mtie x rate "phase" taus = .ok o) : o.devs.Pairwise (· ≤ ·) := by
  rw [mtie_phase_eq] at h
  obtain ⟨ms, h1, h2, rfl⟩ := table_ok h
  simp only
  rw [List.pairwise_map]
  apply List.Pairwise.imp_of_mem ?_ ((factors_sorted h1).filter _)
  intro a b ha hb hab
  have := (factors_mem h1 (List.mem_of_mem_filter ha)).2.1
  exact mtie_mono _ _ _ _ (by omega) hab.le

/-- C15: `mtie` and `tierms` succeed on the same inputs with the same taus and counts, and
at every tau MTIE is at least the rms TIE. -/
theorem tierms_le_mtie_out (x : List ℝ) (rate : ℝ) (taus : TausArg) :
    (∃ e, tierms x rate "phase" taus = .error e ∧ mtie x rate "phase" taus = .error e) ∨
    (∃ o₁ o₂, tierms x rate "phase" taus = .ok o₁ ∧ mtie x rate "phase" taus = .ok o₂ ∧
      o₁.taus = o₂.taus ∧ o₁.ns = o₂.ns ∧ List.Forall₂ (· ≤ ·) o₁.devs o₂.devs) := by
  rw [mtie_phase_eq, tierms_phase_eq]
  unfold table
  rcases factors_cases (N := x.length) (rate := rate) (taus := taus) (even := false)
    (mx := x.length) with ⟨e, he⟩ | ⟨ms, hms⟩
  · left; rw [he]; exact ⟨e, rfl, rfl⟩
  · rw [hms]
    simp only [ok_bind, sweep]
    split_ifs with h0
    · left; exact ⟨_, rfl, rfl⟩
    · right
      refine ⟨_, _, rfl, rfl, rfl, rfl, ?_⟩
      simp only
      rw [List.forall₂_map_left_iff, List.forall₂_map_right_iff, List.forall₂_same]
      intro m hm
      exact tierms_le_mtie _ _ _ (factors_mem hms (List.mem_of_mem_filter hm)).2.1

example : Spec.mtie (seq [0, 3, 1, 7]) 4 1 = 6 := by
  apply mtie_of_greatest
  refine ⟨⟨2, 3, by norm_num, by norm_num, by norm_num, by norm_num [seq]⟩, ?_⟩
  rintro d ⟨i, j, h1, h2, h3, rfl⟩
  have : j = i ∨ j = i + 1 := by omega
  rcases this with rfl | rfl
  · simp
  · have : i = 0 ∨ i = 1 ∨ i = 2 := by omega
    rcases this with rfl | rfl | rfl <;> norm_num [seq]

/-! ## C16

The property: "the low-memory path of `mtie` gives the same value as the normal path",
i.e. `∀ fails, mtie_mem fails x rate dt taus = mtie x rate dt taus`.  The code violates it:
the fallback starts with a window of `m` instead of `m+1` samples, and re-computes
extremes without the newest sample.  What holds is one inequality. -/

/-- C16 (partial): for every series and factor the fallback returns, raises nothing, and
never exceeds the true MTIE.  Missing: equality, which is false (`mtie_fallback_wrong`). -/
theorem mtie_fallback_le_partial (x : List ℝ) (m : ℕ) (hm : 1 ≤ m) (hmN : m < x.length) :
    ∃ d, mtie_fallback x m = .ok d ∧ d ≤ Spec.mtie (seq x) x.length m :=
  mtie_fallback_le x m hm hmN

example := mtie_fallback_le_partial [0, 3, 1, 7] 2 (by norm_num) (by norm_num)

/-- C16 is violated: at `m = 1` the fallback returns 0 for *every* series. -/
theorem mtie_fallback_zero (x : List ℝ) (hN : 2 ≤ x.length) : mtie_fallback x 1 = .ok 0 :=
  mtie_fallback_one x hN

/-- C16 is violated for every series that is not constant: the fallback at `m = 1` differs
from the normal path. -/
theorem mtie_fallback_wrong (x : List ℝ) (i : ℕ) (hi : i + 1 < x.length)
    (h : seq x (i + 1) ≠ seq x i) : mtie_fallback x 1 ≠ mtie_windows x 1 := by
  rw [mtie_fallback_one x (by omega), mtie_windows_eq x 1 (by omega)]
  intro hc
  injection hc with hc
  have h1 := (mtie_isGreatest (seq x) x.length 1 (by omega)).2 i (i + 1) (by omega) le_rfl hi
  rw [← hc] at h1
  have h2 := abs_nonpos_iff.1 h1
  exact h (by linarith)

example : mtie_fallback [0, 1, 5] 1 ≠ mtie_windows [0, 1, 5] 1 :=
  mtie_fallback_wrong _ 0 (by simp) (by simp [seq])

/-- a run of zeros with one value at its end -/
theorem mtie_fallback_last (N m : ℕ) (hm : 1 ≤ m) (hmN : m < N) (x : List ℝ) (hx : x.length = N)
    (h0 : ∀ i, i + 1 < N → seq x i = 0) : mtie_fallback x m = .ok 0 := by
  have hmax : ∀ a, a + m < N → npMax (tab m (fun k => seq x (a + k))) = .ok 0 := by
    intro a ha
    obtain ⟨v, v1, ⟨k, hk, v2⟩, _⟩ := npMax_tab hm (fun k => seq x (a + k))
    rw [v1, v2, h0 (a + k) (by omega)]
  have hmin : ∀ a, a + m < N → npMin (tab m (fun k => seq x (a + k))) = .ok 0 := by
    intro a ha
    obtain ⟨v, v1, ⟨k, hk, v2⟩, _⟩ := npMin_tab hm (fun k => seq x (a + k))
    rw [v1, v2, h0 (a + k) (by omega)]
  unfold mtie_fallback
  rw [if_neg (by omega), if_neg (by omega), slice_seq x 0 m (by omega), Nat.sub_zero,
    hmax 0 (by omega), hmin 0 (by omega)]
  simp only [ok_bind, sub_self]
  obtain ⟨st, h1, h2⟩ := forRange_inv ((x.length : ℤ) - m - 1).toNat ((0 : ℝ), (0 : ℝ), (0 : ℝ))
    (fun st k => mtie_fallback_step x m st (k + 1)) (fun _ st => st = (0, 0, 0)) rfl
    (fun k hk st hst => by
      refine ⟨_, ?_, rfl⟩
      rw [hst]
      unfold mtie_fallback_step
      have e0 : (((k + 1 : ℕ) : ℤ) - 1) = (k : ℕ) := by push_cast; ring
      rw [e0, pyGet_seq x k (by omega), pyGet_seq x (m + (k + 1)) (by omega), h0 k (by omega)]
      simp only [ok_bind, slide_max, slide_min, if_true]
      rw [slice_seq x (k + 1) (m + (k + 1)) (by omega), show m + (k + 1) - (k + 1) = m by omega,
        hmax (k + 1) (by omega), hmin (k + 1) (by omega)]
      simp [ok_bind])
  rw [h1, h2]
  rfl

/-- C16 is violated by any amount, for every factor and every series length: the fallback can
return 0 where the true MTIE is any given `K`; no lower bound complements
`mtie_fallback_le_partial`. -/
theorem mtie_fallback_unbounded (N m : ℕ) (hm : 1 ≤ m) (hmN : m < N) (K : ℝ) (hK : 0 ≤ K) :
    ∃ x : List ℝ, x.length = N ∧ mtie_fallback x m = .ok 0 ∧ mtie_windows x m = .ok K := by
  refine ⟨tab N (fun i => if i + 1 = N then K else 0), tab_length _ _, ?_, ?_⟩
  · refine mtie_fallback_last N m hm hmN _ (tab_length _ _) (fun i hi => ?_)
    unfold seq
    rw [tab_getD, if_pos (by omega), if_neg (by omega)]
  · rw [mtie_windows_eq _ m (by rw [tab_length]; exact hmN), tab_length]
    have hs : ∀ i < N, seq (tab N (fun i => if i + 1 = N then K else 0)) i
        = if i + 1 = N then K else 0 := by
      intro i hi
      unfold seq
      rw [tab_getD, if_pos hi]
    congr 1
    apply mtie_of_greatest
    refine ⟨⟨N - 2, N - 1, by omega, by omega, by omega, ?_⟩, ?_⟩
    · rw [hs _ (by omega), hs _ (by omega), if_pos (by omega), if_neg (by omega), sub_zero,
        abs_of_nonneg hK]
    · rintro d ⟨i, j, h1, h2, h3, rfl⟩
      rw [hs _ (by omega), hs _ (by omega)]
      split_ifs <;> simp [abs_of_nonneg hK, hK]

example := mtie_fallback_unbounded 10 3 (by norm_num) (by norm_num) 1000 (by norm_num)

/-- C16 (partial), for whole calls: whatever the memory situation, `mtie` succeeds on the
same inputs, with the same taus and counts, and reports at most the true MTIE; it reports
exactly that whenever no rolling window failed. -/
theorem mtie_mem_partial (fails : ℕ → Bool) (x : List ℝ) (rate : ℝ) (taus : TausArg) :
    (∃ e, mtie_mem fails x rate "phase" taus = .error e ∧ mtie x rate "phase" taus = .error e) ∨
    (∃ o₁ o₂, mtie_mem fails x rate "phase" taus = .ok o₁ ∧ mtie x rate "phase" taus = .ok o₂ ∧
      o₁.taus = o₂.taus ∧ o₁.ns = o₂.ns ∧ List.Forall₂ (· ≤ ·) o₁.devs o₂.devs) := by
  set dev : ℕ → ℝ := fun m => if fails m then (mtie_fallback x m).toOption.getD 0
    else Spec.mtie (seq x) x.length m with hdev
  have hle : ∀ m, 1 ≤ m → m < x.length → dev m ≤ Spec.mtie (seq x) x.length m := by
    intro m h1 h2
    rw [hdev]; simp only
    split_ifs
    · obtain ⟨d, h3, h4⟩ := mtie_fallback_le x m h1 h2
      rw [h3]; exact h4
    · exact le_rfl
  have h := driver_eq x rate taus false (-1) (fun mj => mtie_body fails x mj) dev
    (fun m => dev m / √((x.length : ℝ) - m)) (fun m => (x.length : ℤ) - m) ?_
  · rw [effMax_default] at h
    have h' : mtie_mem fails x rate "phase" taus = table x.length rate taus false x.length dev
        (fun m => dev m / √((x.length : ℝ) - m)) (fun m => (x.length : ℤ) - m) := by
      rw [← h]
      simp only [mtie_mem, input_to_phase, if_true, ok_bind, tau_generator_eq, effMax_default]
      cases factors x.length rate taus false x.length <;> simp only [ok_bind, error_bind]
    rw [h', mtie_phase_eq]
    unfold table
    rcases factors_cases (N := x.length) (rate := rate) (taus := taus) (even := false)
      (mx := x.length) with ⟨e, he⟩ | ⟨ms, hms⟩
    · left; rw [he]; exact ⟨e, rfl, rfl⟩
    · rw [hms]
      simp only [ok_bind, sweep]
      split_ifs with h0
      · left; exact ⟨_, rfl, rfl⟩
      · right
        refine ⟨_, _, rfl, rfl, rfl, rfl, ?_⟩
        simp only
        rw [List.forall₂_map_left_iff, List.forall₂_map_right_iff, List.forall₂_same]
        intro m hm
        have := factors_mem hms (List.mem_of_mem_filter hm)
        exact hle m this.1 this.2.1
  · intro hr m hm0 hmN _ _
    refine ⟨(dev m, dev m / √((x.length : ℝ) - m), (x.length : ℤ) - m), ?_, Iff.rfl, fun _ => rfl⟩
    rw [hdev]
    simp only [mtie_body]
    by_cases hf : fails m = true
    · obtain ⟨d, h3, h4⟩ := mtie_fallback_le x m hm0 hmN
      simp only [hf, if_true, h3, ok_bind]
      push_cast
      rfl
    · simp only [hf, if_false, mtie_windows_eq x m hmN, ok_bind]
      push_cast
      rfl

/-! ## C17

The property: for a series truncated to `2^K` points `mtie_phase_fast` reports for each `k`
the maximum peak-to-peak excursion over all windows of `2^(k+1)` points (proved:
`mtie_phase_fast_eq_partial`), and its values agree with `mtie` at the same tau (false for every
reported tau except the first: a window of `2^(k+1)` points spans `2^(k+1)-1` intervals, not
the reported `2^k`; see `mtie_phase_fast_disagrees`). -/

theorem colAt_congr_len {L : ℕ} {g : ℕ → ℝ} {i j : ℕ} (h : i = j) : colAt L g i = colAt L g j := by
  rw [h]

/-- C17 (partial): exact result of `mtie_phase_fast`: with `K = ⌊log2 N⌋`, entry `k < K-1` is
`2^k`, the MTIE of the first `2^K` samples over windows of `2^(k+1)` points, error 0 and
`n = 2^K - 2^(k+1) + 1`; fewer than 4 samples raise UserWarning, none OverflowError.
Missing: agreement with `mtie` at the reported tau, which is false. -/
theorem mtie_phase_fast_eq_partial (x : List ℝ) :
    mtie_phase_fast x =
      if x.length = 0 then .error .overflowError
      else if x.length < 4 then .error .userWarning
      else .ok ⟨tab (Nat.log 2 x.length - 1) (fun k => (2 : ℝ) ^ k),
        tab (Nat.log 2 x.length - 1) (fun k =>
          Spec.mtie (seq x) (2 ^ Nat.log 2 x.length) (2 ^ (k + 1) - 1)),
        .arr (tab (Nat.log 2 x.length - 1) (fun _ => 0)),
        tab (Nat.log 2 x.length - 1) (fun k => (2 : ℤ) ^ Nat.log 2 x.length - 2 ^ (k + 1) + 1)⟩ := by
  unfold mtie_phase_fast
  by_cases h0 : x.length = 0
  · simp [h0]
  simp only [if_neg h0]
  set K := Nat.log 2 x.length with hK
  have hK1 : 2 ^ K ≤ x.length := Nat.pow_log_le_self 2 h0
  have hfl : ⌊Real.logb 2 x.length⌋.toNat = K := by
    have := floor_logb 2 (by norm_num) x.length (by omega)
    rw [Nat.cast_ofNat] at this
    rw [this]; rfl
  rw [hfl]
  set phase := slice x (0 : ℕ) ((2 ^ K : ℕ) : ℤ) with hph
  have hpt : phase = tab (2 ^ K) (seq x) := by
    rw [hph, slice_seq x 0 _ hK1]
    simp
  have hlen : phase.length = 2 ^ K := by rw [hpt]; simp
  have hseq : ∀ i < 2 ^ K, seq phase i = seq x i := by
    intro i hi
    rw [hpt]
    unfold seq
    rw [tab_getD, if_pos hi]
  rw [pyAssert_true hlen]
  simp only [ok_bind]
  set D : ℕ → ℝ := fun k => Spec.mtie (seq phase) (2 ^ K) (2 ^ (k + 1) - 1) with hD
  obtain ⟨st, hst1, hst2⟩ := forRange_inv K (([], [], []) : List ℝ × List ℝ × List (ℝ × ℤ))
    (fun st kidx => do
      let (cmax, cmin, tie) ← mtie_fast_column phase st.1 st.2.1 (kidx + 1)
      let dev ← npMax tie
      .ok (cmax, cmin, st.2.2 ++ [(dev, (phase.length : ℤ) - 2 ^ (kidx + 1) + 1)]))
    (fun k st => (1 ≤ k → st.1 = colAt (phase.length - 1) (dblMax (seq phase) k)
        (phase.length - 2 ^ k + 1) ∧ st.2.1 = colAt (phase.length - 1) (dblMin (seq phase) k)
        (phase.length - 2 ^ k + 1)) ∧
      st.2.2 = tab k (fun k => (D k, (phase.length : ℤ) - 2 ^ (k + 1) + 1)))
    ⟨fun h => absurd h (by norm_num), rfl⟩
    (by
      rintro k hk ⟨cm, cn, rows⟩ ⟨h1, h2⟩
      simp only at h1 h2
      have hp : 2 ^ (k + 1) ≤ phase.length := by
        rw [hlen]; exact Nat.pow_le_pow_right (by norm_num) hk
      have hcol := mtie_fast_column_eq phase cm cn (k + 1) (phase.length - 2 ^ (k + 1) + 1)
        (by omega) hp rfl
        (fun h => by simpa using (h1 (by omega)).1) (fun h => by simpa using (h1 (by omega)).2)
      simp only [hcol, ok_bind]
      obtain ⟨v, v1, v2, v3⟩ := npMax_tab (show 0 < phase.length - 2 ^ (k + 1) + 1 by omega)
        (fun i => dblMax (seq phase) (k + 1) i - dblMin (seq phase) (k + 1) i)
      have pp : 0 < 2 ^ (k + 1) := by positivity
      have hv : v = D k := by
        rw [hD]
        apply mtie_of_windows (seq phase) (2 ^ K) (2 ^ (k + 1) - 1) (by omega)
          (dblMax (seq phase) (k + 1)) (dblMin (seq phase) (k + 1))
        · intro i _
          rw [show 2 ^ (k + 1) - 1 + 1 = 2 ^ (k + 1) by omega]
          exact dblMax_spec (seq phase) (k + 1) i
        · intro i _
          rw [show 2 ^ (k + 1) - 1 + 1 = 2 ^ (k + 1) by omega]
          exact dblMin_spec (seq phase) (k + 1) i
        · obtain ⟨i, hi, e⟩ := v2
          exact ⟨i, by omega, e⟩
        · intro i hi
          exact v3 i (by omega)
      rw [v1]
      simp only [ok_bind]
      refine ⟨_, rfl, fun _ => ⟨rfl, rfl⟩, ?_⟩
      simp only
      rw [h2, hv, tab_succ])
  rw [hst1]
  simp only [ok_bind]
  rw [hst2.2]
  -- the remaining step: drop the entries with n ≤ 1
  have hDx : ∀ k < K, D k = Spec.mtie (seq x) (2 ^ K) (2 ^ (k + 1) - 1) := by
    intro k hk
    rw [hD]
    simp only
    apply mtie_of_greatest
    have := mtie_greatest (x := seq x) (N := 2 ^ K) (m := 2 ^ (k + 1) - 1) (by positivity)
    have hset : Spec.tieSet (seq phase) (2 ^ K) (2 ^ (k + 1) - 1)
        = Spec.tieSet (seq x) (2 ^ K) (2 ^ (k + 1) - 1) := by
      ext d
      constructor
      · rintro ⟨i, j, a, b, c, e⟩
        exact ⟨i, j, a, b, c, by rw [e, hseq i (by omega), hseq j c]⟩
      · rintro ⟨i, j, a, b, c, e⟩
        exact ⟨i, j, a, b, c, by rw [e, hseq i (by omega), hseq j c]⟩
    rw [hset]
    exact this
  set n : ℕ → ℤ := fun k => (phase.length : ℤ) - 2 ^ (k + 1) + 1 with hn
  have hkeep : ∀ k < K, (1 < n k ↔ k < K - 1) := by
    intro k hk
    rw [hn]
    simp only [hlen]
    push_cast
    constructor
    · intro h
      by_contra hc
      have : k + 1 = K := by omega
      rw [this] at h
      omega
    · intro h
      have : (2 : ℤ) ^ (k + 1) < 2 ^ K := pow_lt_pow_right₀ (by norm_num) (by omega)
      omega
  have hr : (List.range K).filter (fun k => decide (1 < n k)) = List.range (K - 1) := by
    apply sorted_ext (List.pairwise_lt_range.filter _) List.pairwise_lt_range
    intro a
    simp only [List.mem_filter, List.mem_range, decide_eq_true_eq]
    constructor
    · rintro ⟨a1, a2⟩; exact (hkeep a a1).1 a2
    · intro a1; exact ⟨by omega, (hkeep a (by omega)).2 a1⟩
  rw [hn] at hr
  have hz : List.replicate K (0 : ℝ) = (List.range K).map (fun _ => (0 : ℝ)) := by
    rw [List.map_const', List.length_range]
  unfold remove_small_ns tab
  simp only [hz, List.map_map, Function.comp_def, maskSel_map_map, ok_bind, hr, List.length_map,
    List.length_range]
  by_cases h4 : x.length < 4
  · have : K - 1 = 0 := by
      have : K < 2 := Nat.log_lt_of_lt_pow h0 (by omega)
      omega
    rw [if_pos this, if_pos h4]
  · have hK2 : 2 ≤ K := by
      rw [hK]
      exact (Nat.le_log_iff_pow_le (by norm_num) h0).2 (by omega)
    rw [if_neg (by omega), if_neg h4]
    congr 2
    · apply List.map_congr_left
      intro k _
      push_cast; rfl
    · apply List.map_congr_left
      intro k hk
      exact hDx k (by rw [List.mem_range] at hk; omega)
    · apply List.map_congr_left
      intro k hk
      rw [hlen]
      push_cast; rfl

/-- five samples: one window of two points on the first four samples -/
example : mtie_phase_fast [0, 3, 1, 7, 9] = .ok ⟨[1], [Spec.mtie (seq [0, 3, 1, 7, 9]) 4 1], .arr [0], [3]⟩ := by
  rw [mtie_phase_fast_eq_partial]
  have h : Nat.log 2 5 = 2 := by decide
  simp [h, tab, List.range_succ]

/-- C17 is violated: on the ramp `0, 1, …, 7` the reported value at tau 2 is 3, while MTIE at
tau 2 is 2. -/
theorem mtie_phase_fast_disagrees :
    ∃ x : List ℝ, ∃ o, mtie_phase_fast x = .ok o ∧ o.taus[1]? = some 2 ∧ o.devs[1]? = some 3 ∧
      Spec.mtie (seq x) x.length 2 = 2 := by
  have hlog : Nat.log 2 8 = 3 := by
    rw [show (8 : ℕ) = 2 ^ 3 by norm_num, Nat.log_pow (by norm_num)]
  have ramp : ∀ i < 8, seq (tab 8 (fun i => (i : ℝ))) i = i := by
    intro i hi
    unfold seq
    rw [tab_getD, if_pos hi]
  have hm : ∀ m, m < 8 → Spec.mtie (seq (tab 8 (fun i => (i : ℝ)))) 8 m = m := by
    intro m hm
    apply mtie_of_greatest
    constructor
    · refine ⟨0, m, by omega, by omega, hm, ?_⟩
      rw [ramp 0 (by omega), ramp m hm]; simp
    · rintro d ⟨i, j, a, b, c, rfl⟩
      rw [ramp i (by omega), ramp j c]
      have h1 : (i : ℝ) ≤ j := by exact_mod_cast a
      have h2 : (j : ℝ) ≤ i + m := by exact_mod_cast b
      rw [abs_le]; constructor <;> linarith
  refine ⟨tab 8 (fun i => (i : ℝ)), _, by
    rw [mtie_phase_fast_eq_partial, if_neg (by simp), if_neg (by simp)], ?_, ?_, ?_⟩
  · simp only [tab_length, hlog]
    rw [tab_getElem?]; norm_num
  · simp only [tab_length, hlog]
    rw [tab_getElem?]
    norm_num
    rw [hm 3 (by norm_num)]; norm_num
  · rw [tab_length, hm 2 (by norm_num)]; norm_num

end AT
