import Verif.Lemmas.Mtot
import Verif.Props.Mdev
import Verif.Props.Adev

/-!
# C11, C12: MTOTDEV, TTOTDEV and HTOTDEV compute their defining formulas
-/

namespace AT

open Spec Real

theorem third_le {N m : ℕ} (h : (m : ℝ) ≤ (N : ℝ) / 3) : 3 * m ≤ N := by
  have : (3 : ℝ) * m ≤ N := by linarith
  exact_mod_cast this

/-- C11: `mtotdev` returns exactly the table of the modified total deviation over the
admissible factors with `3m ≤ N`; no assertion fires although the window sums are
updated incrementally. -/
theorem mtotdev_phase_eq (x : List ℝ) (rate : ℝ) (taus : TausArg) :
    mtotdev x rate "phase" taus =
      table x.length rate taus false ((x.length : ℝ) / 3)
        (fun m => Spec.mtotdev (seq x) x.length m (m / rate))
        (fun m => Spec.mtotdev (seq x) x.length m (m / rate) / √((x.length : ℝ) - 3 * m + 1))
        (fun m => (x.length : ℤ) - 3 * m + 1) := by
  have h := driver_eq x rate taus false ((x.length : ℝ) / 3) (fun mj => calc_mtotdev_phase x rate mj)
    (fun m => Spec.mtotdev (seq x) x.length m (m / rate))
    (fun m => Spec.mtotdev (seq x) x.length m (m / rate) / √((x.length : ℝ) - 3 * m + 1))
    (fun m => (x.length : ℤ) - 3 * m + 1) ?_
  · rw [effMax_third] at h
    rw [← h]
    simp only [mtotdev, input_to_phase, if_true, ok_bind, tau_generator_eq, effMax_third]
    cases factors x.length rate taus false ((x.length : ℝ) / 3) <;> simp only [ok_bind, error_bind]
  · intro hr m hm0 hmN hmax _
    rw [effMax_third] at hmax
    exact ⟨_, calc_mtotdev_phase_row x rate hr m hm0 (third_le hmax), Iff.rfl, fun _ => rfl⟩

example : mtotdev [0, 1, 0, 3] 2 "phase" (.list [(1 : ℕ) / 2])
    = .ok ⟨[(1 : ℕ) / 2], [√10], .arr [√10 / √2], [2]⟩ := by
  rw [mtotdev_phase_eq _ , table_single _ _ (by norm_num) _ _ _ _ _ 1 (by norm_num) (by simp)
    (by norm_num) (by simp) (by norm_num)]
  simp [Spec.mtotdev, totTerm, mirror, halfSlope, d2, seq, Finset.sum_range_succ]
  norm_num

/-- C11: `ttotdev` returns exactly the table of `τ/√3 · MTOTDEV`, with error `TTOTDEV/√n`. -/
theorem ttotdev_phase_eq (x : List ℝ) (rate : ℝ) (taus : TausArg) :
    ttotdev x rate "phase" taus =
      table x.length rate taus false ((x.length : ℝ) / 3)
        (fun m => (m / rate) / √3 * Spec.mtotdev (seq x) x.length m (m / rate))
        (fun m => (m / rate) / √3 * Spec.mtotdev (seq x) x.length m (m / rate)
          / √((x.length : ℝ) - 3 * m + 1))
        (fun m => (x.length : ℤ) - 3 * m + 1) := by
  have h : ttotdev x rate "phase" taus = (mtotdev x rate "phase" taus >>= scaleToTdev) := rfl
  rw [h, mtotdev_phase_eq, scaleToTdev_table]
  congr 1
  funext m
  push_cast
  rfl

theorem calc_ohdev_row (x : List ℝ) (rate : ℝ) (hr0 : rate ≠ 0) (m : ℕ)
    (hm0 : 0 < m) :
    ∃ row, calc_hdev_phase x rate m 1 = .ok row ∧ (1 < row.2.2 ↔ 1 < (x.length : ℤ) - 3 * m) ∧
      (1 < (x.length : ℤ) - 3 * m → row = (rateSign rate * Spec.ohdev (seq x) x.length m (m / rate),
        rateSign rate * Spec.ohdev (seq x) x.length m (m / rate) / √((x.length : ℝ) - 3 * m),
        (x.length : ℤ) - 3 * m)) := by
  obtain ⟨row, h1, h2, h3⟩ := calc_hdev_phase_row x rate hr0 m 1 one_pos
  have e : (x.length - 3 * m + 1 - 1) / 1 = x.length - 3 * m := by simp
  rw [e] at h2 h3
  refine ⟨row, h1, by rw [h2]; omega, fun hn => ?_⟩
  have hN : 3 * m < x.length := by omega
  obtain ⟨h4, h5⟩ := h3 (by omega)
  have hc : ((x.length - 3 * m : ℕ) : ℝ) = (x.length : ℝ) - 3 * m := by
    rw [Nat.cast_sub hN.le]; push_cast; ring
  have hpos : (0 : ℝ) < (x.length : ℝ) - 3 * m := by
    rw [← hc]; exact_mod_cast (by omega : 0 < x.length - 3 * m)
  have hd : row.1 = rateSign rate * Spec.ohdev (seq x) x.length m (m / rate) := by
    rw [h4, hc, hdev_norm _ _ hpos m hm0 rate hr0]
    unfold Spec.ohdev rms d3
    congr 3
    apply Finset.sum_congr rfl
    intro i _
    rw [mul_one, Nat.add_comm (3 * m), Nat.add_comm (2 * m), Nat.add_comm m]
  rw [hc, hd] at h5
  have h6 : row.2.2 = (x.length : ℤ) - 3 * m := by rw [h2]; omega
  exact Prod.ext hd (Prod.ext h5 h6)

theorem htot_body_row (x y : List ℝ) (rate : ℝ) (hr0 : rate ≠ 0) (m : ℕ)
    (hm0 : 0 < m) (h3 : 3 * m ≤ y.length) :
    ∃ row, (if m = 1 then calc_hdev_phase x rate m 1 else calc_htotdev_freq y m) = .ok row ∧
      (1 < row.2.2 ↔ 1 < Spec.htotCount x.length y.length m) ∧
      (1 < Spec.htotCount x.length y.length m → row =
        ((if m = 1 then rateSign rate else 1) *
            Spec.htotdev' (seq x) (seq y) x.length y.length m (m / rate),
         (if m = 1 then rateSign rate else 1) *
            Spec.htotdev' (seq x) (seq y) x.length y.length m (m / rate)
          / √(Spec.htotCount x.length y.length m : ℝ),
         Spec.htotCount x.length y.length m)) := by
  unfold Spec.htotdev' Spec.htotCount
  by_cases h1 : m = 1
  · subst h1
    simp only [if_true]
    obtain ⟨row, a, b, c⟩ := calc_ohdev_row x rate hr0 1 one_pos
    simp only [Nat.cast_one, mul_one] at b c
    refine ⟨row, a, b, fun hn => ?_⟩
    rw [c hn]
    push_cast
    rfl
  · simp only [if_neg h1, one_mul]
    refine ⟨_, calc_htotdev_freq_row y m hm0 h3, Iff.rfl, fun _ => ?_⟩
    push_cast
    rfl

/-- `htotdev` on phase data for any rate: a negative rate only changes the sign of the point
at `m = 1` -/
theorem htotdev_phase_any (x : List ℝ) (rate : ℝ) (taus : TausArg) :
    htotdev x rate "phase" taus =
      table (x.length - 1) rate taus false (((x.length - 1 : ℕ) : ℝ) / 3)
        (fun m => (if m = 1 then rateSign rate else 1) *
          Spec.htotdev' (seq x) (Spec.freqOf (seq x) rate) x.length (x.length - 1) m (m / rate))
        (fun m => (if m = 1 then rateSign rate else 1) *
          Spec.htotdev' (seq x) (Spec.freqOf (seq x) rate) x.length (x.length - 1) m (m / rate)
            / √(Spec.htotCount x.length (x.length - 1) m : ℝ))
        (fun m => Spec.htotCount x.length (x.length - 1) m) := by
  set y := phase2frequency x rate with hy
  have hyt : y = tab (x.length - 1) (Spec.freqOf (seq x) rate) := by
    rw [hy]
    unfold phase2frequency
    conv_lhs => rw [eq_tab_seq x]
    rw [npDiff_tab, vscale_tab]
    rfl
  have hyl : y.length = x.length - 1 := by rw [hyt]; simp
  have hcongr : ∀ m, 0 < m → 3 * m ≤ x.length - 1 →
      Spec.htotdev' (seq x) (seq y) x.length (x.length - 1) m (m / rate) =
      Spec.htotdev' (seq x) (Spec.freqOf (seq x) rate) x.length (x.length - 1) m (m / rate) := by
    intro m hm0 h3
    unfold Spec.htotdev'
    split_ifs with h1
    · rfl
    · exact htotdev_congr _ _ _ _ hm0 h3 (by
        intro i hi
        rw [hyt]
        unfold seq
        rw [tab_getD, if_pos hi])
  have h := driver_eq y rate taus false ((y.length : ℝ) / 3)
    (fun m => if m = 1 then calc_hdev_phase x rate m 1 else calc_htotdev_freq y m)
    (fun m => (if m = 1 then rateSign rate else 1) *
          Spec.htotdev' (seq x) (Spec.freqOf (seq x) rate) x.length (x.length - 1) m (m / rate))
    (fun m => (if m = 1 then rateSign rate else 1) *
          Spec.htotdev' (seq x) (Spec.freqOf (seq x) rate) x.length (x.length - 1) m (m / rate)
            / √(Spec.htotCount x.length (x.length - 1) m : ℝ))
    (fun m => Spec.htotCount x.length (x.length - 1) m) ?_
  · rw [effMax_third, hyl] at h
    rw [← h]
    unfold htotdev
    simp only [if_true, ok_bind, ← hy, tau_generator_eq, hyl, effMax_third]
    cases factors (x.length - 1) rate taus false (((x.length - 1 : ℕ) : ℝ) / 3) <;>
      simp only [ok_bind, error_bind]
  · intro hr0 m hm0 hmN hmax _
    rw [effMax_third, hyl] at hmax
    have h3 := third_le hmax
    obtain ⟨row, a, b, c⟩ := htot_body_row x y rate hr0 m hm0 (by omega)
    rw [hyl, hcongr m hm0 h3] at c
    rw [hyl] at b
    exact ⟨row, a, b, c⟩

/-- C12: `htotdev` on phase data: the frequency data are `rate · diff(phase)`. -/
theorem htotdev_phase_eq (x : List ℝ) (rate : ℝ) (hr : 0 ≤ rate) (taus : TausArg) :
    htotdev x rate "phase" taus =
      table (x.length - 1) rate taus false (((x.length - 1 : ℕ) : ℝ) / 3)
        (fun m =>
          Spec.htotdev' (seq x) (Spec.freqOf (seq x) rate) x.length (x.length - 1) m (m / rate))
        (fun m =>
          Spec.htotdev' (seq x) (Spec.freqOf (seq x) rate) x.length (x.length - 1) m (m / rate)
            / √(Spec.htotCount x.length (x.length - 1) m : ℝ))
        (fun m => Spec.htotCount x.length (x.length - 1) m) := by
  rw [htotdev_phase_any, rateSign_of_nonneg hr]
  simp only [ite_self, one_mul]

example : htotdev [0, 1, 0, 3, 1] 2 "phase" (.list [(1 : ℕ) / 2])
    = .ok ⟨[(1 : ℕ) / 2], [√39], .arr [√39 / √2], [2]⟩ := by
  rw [htotdev_phase_eq _ _ (by norm_num), table_single _ _ (by norm_num) _ _ _ _ _ 1 (by norm_num) (by simp)
    (by norm_num) (by simp) (by norm_num [htotCount])]
  simp [Spec.htotdev', htotCount, Spec.ohdev, rms, d3, seq, Finset.sum_range_succ]
  norm_num

/-- `htotdev` on frequency data for any rate -/
theorem htotdev_freq_any (y : List ℝ) (hy : y ≠ []) (rate : ℝ) (hr : rate ≠ 0) (taus : TausArg) :
    ∃ x, frequency2phase y rate = .ok x ∧ x.length = y.length + 1 ∧
    htotdev y rate "freq" taus =
      table y.length rate taus false ((y.length : ℝ) / 3)
        (fun m => (if m = 1 then rateSign rate else 1) *
          Spec.htotdev' (seq x) (seq y) x.length y.length m (m / rate))
        (fun m => (if m = 1 then rateSign rate else 1) *
          Spec.htotdev' (seq x) (seq y) x.length y.length m (m / rate)
          / √(Spec.htotCount x.length y.length m : ℝ))
        (fun m => Spec.htotCount x.length y.length m) := by
  have hx : ∃ x, frequency2phase y rate = .ok x ∧ x.length = y.length + 1 := by
    unfold frequency2phase
    rw [if_neg hr, if_neg hy]
    exact ⟨_, rfl, by simp [npCumsum]⟩
  obtain ⟨x, hx, hxl⟩ := hx
  refine ⟨x, hx, hxl, ?_⟩
  have h := driver_eq y rate taus false ((y.length : ℝ) / 3)
    (fun m => if m = 1 then calc_hdev_phase x rate m 1 else calc_htotdev_freq y m)
    (fun m => (if m = 1 then rateSign rate else 1) *
          Spec.htotdev' (seq x) (seq y) x.length y.length m (m / rate))
    (fun m => (if m = 1 then rateSign rate else 1) *
          Spec.htotdev' (seq x) (seq y) x.length y.length m (m / rate)
          / √(Spec.htotCount x.length y.length m : ℝ))
    (fun m => Spec.htotCount x.length y.length m) ?_
  · rw [effMax_third] at h
    rw [← h]
    unfold htotdev
    simp only [String.reduceEq, if_false, if_true, hx, ok_bind, tau_generator_eq, effMax_third]
    cases factors y.length rate taus false ((y.length : ℝ) / 3) <;>
      simp only [ok_bind, error_bind]
  · intro hr0 m hm0 hmN hmax _
    rw [effMax_third] at hmax
    exact htot_body_row x y rate hr0 m hm0 (third_le hmax)

/-- C12: `htotdev` on frequency data. -/
theorem htotdev_freq_eq (y : List ℝ) (hy : y ≠ []) (rate : ℝ) (hr : 0 < rate) (taus : TausArg) :
    ∃ x, frequency2phase y rate = .ok x ∧ x.length = y.length + 1 ∧
    htotdev y rate "freq" taus =
      table y.length rate taus false ((y.length : ℝ) / 3)
        (fun m => Spec.htotdev' (seq x) (seq y) x.length y.length m (m / rate))
        (fun m => Spec.htotdev' (seq x) (seq y) x.length y.length m (m / rate)
          / √(Spec.htotCount x.length y.length m : ℝ))
        (fun m => Spec.htotCount x.length y.length m) := by
  obtain ⟨x, h1, h2, h3⟩ := htotdev_freq_any y hy rate hr.ne' taus
  refine ⟨x, h1, h2, ?_⟩
  rw [h3, rateSign_of_nonneg hr.le]
  simp only [ite_self, one_mul]

end AT
