import Verif.Lemmas.Adev

/-!
# C06, C07, C09: ADEV, OADEV, HDEV and OHDEV compute their defining formulas
-/

namespace AT

open Spec Real

/-- one row of `oadev` -/
theorem calc_oadev_row (x : List ℝ) (rate : ℝ) (hr0 : rate ≠ 0) (m : ℕ)
    (hm0 : 0 < m) (hmN : m < x.length) :
    ∃ row, calc_adev_phase x rate m 1 = .ok row ∧ (1 < row.2.2 ↔ 1 < (x.length : ℤ) - 2 * m) ∧
      (1 < (x.length : ℤ) - 2 * m → row = (rateSign rate * Spec.oadev (seq x) x.length m (m / rate),
        rateSign rate * Spec.oadev (seq x) x.length m (m / rate) / √((x.length : ℝ) - 2 * m),
        (x.length : ℤ) - 2 * m)) := by
  obtain ⟨row, h1, h2, h3⟩ := calc_adev_phase_row x rate m 1 hm0 hmN one_pos
  have e : (x.length - 2 * m + 1 - 1) / 1 = x.length - 2 * m := by simp
  rw [e] at h2 h3
  refine ⟨row, h1, by rw [h2]; omega, fun hn => ?_⟩
  have hN : 2 * m < x.length := by omega
  obtain ⟨h4, h5⟩ := h3 (by omega)
  have hc : ((x.length - 2 * m : ℕ) : ℝ) = (x.length : ℝ) - 2 * m := by
    rw [Nat.cast_sub hN.le]; push_cast; ring
  have hpos : (0 : ℝ) < (x.length : ℝ) - 2 * m := by
    rw [← hc]; exact_mod_cast (by omega : 0 < x.length - 2 * m)
  have hd : row.1 = rateSign rate * Spec.oadev (seq x) x.length m (m / rate) := by
    rw [h4, hc, sqrt_norm _ 2 _ two_pos hpos m hm0 rate hr0]
    unfold Spec.oadev rms d2
    congr 3
    apply Finset.sum_congr rfl
    intro i _
    rw [mul_one, Nat.add_comm (2 * m), Nat.add_comm m]
  rw [hc, hd] at h5
  have h6 : row.2.2 = (x.length : ℤ) - 2 * m := by rw [h2]; omega
  exact Prod.ext hd (Prod.ext h5 h6)

/-- `oadev` for any rate: a negative rate only changes the sign -/
theorem oadev_phase_any (x : List ℝ) (rate : ℝ) (taus : TausArg) :
    oadev x rate "phase" taus =
      table x.length rate taus false x.length
        (fun m => rateSign rate * Spec.oadev (seq x) x.length m (m / rate))
        (fun m => rateSign rate * Spec.oadev (seq x) x.length m (m / rate) / √((x.length : ℝ) - 2 * m))
        (fun m => (x.length : ℤ) - 2 * m) := by
  have h := driver_eq x rate taus false (-1) (fun mj => calc_adev_phase x rate mj 1)
    (fun m => rateSign rate * Spec.oadev (seq x) x.length m (m / rate))
    (fun m => rateSign rate * Spec.oadev (seq x) x.length m (m / rate) / √((x.length : ℝ) - 2 * m))
    (fun m => (x.length : ℤ) - 2 * m) ?_
  · rw [effMax_default] at h
    rw [← h]
    simp only [oadev, input_to_phase, if_true, ok_bind, tau_generator_eq]
    cases factors x.length rate taus false (effMax x.length (-1)) <;> simp only [ok_bind, error_bind]
  · intro hr0 m hm0 hmN _ _
    exact calc_oadev_row x rate hr0 m hm0 hmN

/-- C07: `oadev` on phase data returns exactly the table of the overlapping Allan
deviation, with error `σ/√n` and `n = N - 2m`. -/
theorem oadev_phase_eq (x : List ℝ) (rate : ℝ) (hr : 0 ≤ rate) (taus : TausArg) :
    oadev x rate "phase" taus =
      table x.length rate taus false x.length
        (fun m => Spec.oadev (seq x) x.length m (m / rate))
        (fun m => Spec.oadev (seq x) x.length m (m / rate) / √((x.length : ℝ) - 2 * m))
        (fun m => (x.length : ℤ) - 2 * m) := by
  rw [oadev_phase_any, rateSign_of_nonneg hr]
  simp only [one_mul]

/-- 6 points at 2 Hz, averaging time 1 s (`m = 2`): two second differences, 3 and -10 -/
example : oadev [0, 1, 0, 1, 3, -9] 2 "phase" (.list [(2 : ℕ) / 2])
    = .ok ⟨[(2 : ℕ) / 2], [√(109 / 4)], .arr [√(109 / 4) / √2], [2]⟩ := by
  rw [oadev_phase_eq _ _ (by norm_num), table_single _ _ (by norm_num) _ _ _ _ _ 2 (by norm_num) (by simp)
    (by norm_num) (by simp) (by norm_num)]
  simp [Spec.oadev, rms, d2, seq, Finset.sum_range_succ]
  norm_num

/-- `adev` for any rate: a negative rate only changes the sign -/
theorem adev_phase_any (x : List ℝ) (rate : ℝ) (taus : TausArg) :
    adev x rate "phase" taus =
      table x.length rate taus false x.length
        (fun m => rateSign rate * Spec.adev (seq x) x.length m (m / rate))
        (fun m => rateSign rate * Spec.adev (seq x) x.length m (m / rate) / √((decimated x.length m : ℝ) - 2))
        (fun m => (decimated x.length m : ℤ) - 2) := by
  have h := driver_eq x rate taus false (-1) (fun mj => calc_adev_phase x rate mj mj)
    (fun m => rateSign rate * Spec.adev (seq x) x.length m (m / rate))
    (fun m => rateSign rate * Spec.adev (seq x) x.length m (m / rate) / √((decimated x.length m : ℝ) - 2))
    (fun m => (decimated x.length m : ℤ) - 2) ?_
  · rw [effMax_default] at h
    rw [← h]
    simp only [adev, input_to_phase, if_true, ok_bind, tau_generator_eq]
    cases factors x.length rate taus false (effMax x.length (-1)) <;> simp only [ok_bind, error_bind]
  · intro hr0 m hm0 hmN _ _
    obtain ⟨row, h1, h2, h3⟩ := calc_adev_phase_row x rate m m hm0 hmN hm0
    rw [adev_len _ _ hm0 hmN] at h2 h3
    refine ⟨row, h1, by rw [h2]; omega, fun hn => ?_⟩
    obtain ⟨h4, h5⟩ := h3 (by omega)
    have hc : ((decimated x.length m - 2 : ℕ) : ℝ) = (decimated x.length m : ℝ) - 2 := by
      rw [Nat.cast_sub (by omega)]; push_cast; ring
    have hpos : (0 : ℝ) < (decimated x.length m : ℝ) - 2 := by
      rw [← hc]; exact_mod_cast (by omega : 0 < decimated x.length m - 2)
    have hd : row.1 = rateSign rate * Spec.adev (seq x) x.length m (m / rate) := by
      rw [h4, hc, sqrt_norm _ 2 _ two_pos hpos m hm0 rate hr0]
      unfold Spec.adev rms d2
      congr 3
      apply Finset.sum_congr rfl
      intro i _
      congr 1
      ring_nf
    rw [hc, hd] at h5
    have h6 : row.2.2 = (decimated x.length m : ℤ) - 2 := by rw [h2]; omega
    exact Prod.ext hd (Prod.ext h5 h6)

/-- C06: `adev` on phase data returns exactly the table of the (non-overlapping) Allan
deviation of the data decimated by `m`, with `n = L - 2`, `L = ⌊(N-1)/m⌋ + 1`. -/
theorem adev_phase_eq (x : List ℝ) (rate : ℝ) (hr : 0 ≤ rate) (taus : TausArg) :
    adev x rate "phase" taus =
      table x.length rate taus false x.length
        (fun m => Spec.adev (seq x) x.length m (m / rate))
        (fun m => Spec.adev (seq x) x.length m (m / rate) / √((decimated x.length m : ℝ) - 2))
        (fun m => (decimated x.length m : ℤ) - 2) := by
  rw [adev_phase_any, rateSign_of_nonneg hr]
  simp only [one_mul]

/-- 9 points at 2 Hz, `m = 2`: the points 0, 0, 3, 1, 4 are used -/
example : adev [0, 1, 0, 1, 3, -9, 1, 7, 4] 2 "phase" (.list [(2 : ℕ) / 2])
    = .ok ⟨[(2 : ℕ) / 2], [√(59 / 6)], .arr [√(59 / 6) / √3], [3]⟩ := by
  rw [adev_phase_eq _ _ (by norm_num), table_single _ _ (by norm_num) _ _ _ _ _ 2 (by norm_num) (by simp)
    (by norm_num) (by simp) (by norm_num [decimated])]
  simp [Spec.adev, rms, d2, seq, Finset.sum_range_succ, decimated]
  norm_num

theorem hdev_norm (S n : ℝ) (hn : 0 < n) (m : ℕ) (hm : 0 < m) (rate : ℝ) (hr : rate ≠ 0) :
    √(S / 6 / n) / (1 / rate * m) = rateSign rate * √(S / (6 * ((m : ℝ) / rate) ^ 2 * n)) := by
  rw [← sqrt_norm S 6 n (by norm_num) hn m hm rate hr, div_div]
  have : (0 : ℝ) < m := by exact_mod_cast hm
  field_simp

/-- `ohdev` for any rate: a negative rate only changes the sign -/
theorem ohdev_phase_any (x : List ℝ) (rate : ℝ) (taus : TausArg) :
    ohdev x rate "phase" taus =
      table x.length rate taus false x.length
        (fun m => rateSign rate * Spec.ohdev (seq x) x.length m (m / rate))
        (fun m => rateSign rate * Spec.ohdev (seq x) x.length m (m / rate) / √((x.length : ℝ) - 3 * m))
        (fun m => (x.length : ℤ) - 3 * m) := by
  have h := driver_eq x rate taus false (-1) (fun mj => calc_hdev_phase x rate mj 1)
    (fun m => rateSign rate * Spec.ohdev (seq x) x.length m (m / rate))
    (fun m => rateSign rate * Spec.ohdev (seq x) x.length m (m / rate) / √((x.length : ℝ) - 3 * m))
    (fun m => (x.length : ℤ) - 3 * m) ?_
  · rw [effMax_default] at h
    rw [← h]
    simp only [ohdev, input_to_phase, if_true, ok_bind, tau_generator_eq]
    cases factors x.length rate taus false (effMax x.length (-1)) <;> simp only [ok_bind, error_bind]
  · intro hr0 m hm0 hmN _ _
    obtain ⟨row, h1, h2, h3⟩ := calc_hdev_phase_row x rate hr0 m 1 one_pos
    have e : (x.length - 3 * m + 1 - 1) / 1 = x.length - 3 * m := by simp
    rw [e] at h2 h3
    refine ⟨row, h1, by rw [h2]; omega, fun hn => ?_⟩
    have hN : 3 * m < x.length := by omega
    obtain ⟨h4, h5⟩ := h3 (by omega)
    have hc : ((x.length - 3 * m : ℕ) : ℝ) = (x.length : ℝ) - 3 * m := by
      rw [Nat.cast_sub hN.le]; push_cast; ring
    have hpos : (0 : ℝ) < (x.length : ℝ) - 3 * m := by
      rw [← hc]; exact_mod_cast (by omega : 0 < x.length - 3 * m)
    have hd : row.1 = rateSign rate * Spec.ohdev (seq x) x.length m (m / rate) := by
      rw [h4, hc, hdev_norm _ _ hpos m hm0 rate hr0]
      unfold Spec.ohdev rms d3
      congr 3
      apply Finset.sum_congr rfl
      intro i _
      congr 1
      ring_nf
    rw [hc, hd] at h5
    have h6 : row.2.2 = (x.length : ℤ) - 3 * m := by rw [h2]; omega
    exact Prod.ext hd (Prod.ext h5 h6)

/-- C09: `ohdev` on phase data returns exactly the table of the overlapping Hadamard
deviation, with `n = N - 3m`. -/
theorem ohdev_phase_eq (x : List ℝ) (rate : ℝ) (hr : 0 ≤ rate) (taus : TausArg) :
    ohdev x rate "phase" taus =
      table x.length rate taus false x.length
        (fun m => Spec.ohdev (seq x) x.length m (m / rate))
        (fun m => Spec.ohdev (seq x) x.length m (m / rate) / √((x.length : ℝ) - 3 * m))
        (fun m => (x.length : ℤ) - 3 * m) := by
  rw [ohdev_phase_any, rateSign_of_nonneg hr]
  simp only [one_mul]

example : ohdev [0, 1, 0, 1, 3, -9, 1, 7] 2 "phase" (.list [(2 : ℕ) / 2])
    = .ok ⟨[(2 : ℕ) / 2], [√(340 / 3)], .arr [√(340 / 3) / √2], [2]⟩ := by
  rw [ohdev_phase_eq _ _ (by norm_num), table_single _ _ (by norm_num) _ _ _ _ _ 2 (by norm_num) (by simp)
    (by norm_num) (by simp) (by norm_num [decimated])]
  simp [Spec.ohdev, rms, d3, seq, Finset.sum_range_succ]
  norm_num

/-- `hdev` for any rate: a negative rate only changes the sign -/
theorem hdev_phase_any (x : List ℝ) (rate : ℝ) (taus : TausArg) :
    hdev x rate "phase" taus =
      table x.length rate taus false x.length
        (fun m => rateSign rate * Spec.hdev (seq x) x.length m (m / rate))
        (fun m => rateSign rate * Spec.hdev (seq x) x.length m (m / rate) / √((decimated x.length m : ℝ) - 3))
        (fun m => (decimated x.length m : ℤ) - 3) := by
  have h := driver_eq x rate taus false (-1) (fun mj => calc_hdev_phase x rate mj mj)
    (fun m => rateSign rate * Spec.hdev (seq x) x.length m (m / rate))
    (fun m => rateSign rate * Spec.hdev (seq x) x.length m (m / rate) / √((decimated x.length m : ℝ) - 3))
    (fun m => (decimated x.length m : ℤ) - 3) ?_
  · rw [effMax_default] at h
    rw [← h]
    simp only [hdev, input_to_phase, if_true, ok_bind, tau_generator_eq]
    cases factors x.length rate taus false (effMax x.length (-1)) <;> simp only [ok_bind, error_bind]
  · intro hr0 m hm0 hmN _ _
    obtain ⟨row, h1, h2, h3⟩ := calc_hdev_phase_row x rate hr0 m m hm0
    rw [hdev_len _ _ hm0 hmN] at h2 h3
    refine ⟨row, h1, by rw [h2]; omega, fun hn => ?_⟩
    obtain ⟨h4, h5⟩ := h3 (by omega)
    have hc : ((decimated x.length m - 3 : ℕ) : ℝ) = (decimated x.length m : ℝ) - 3 := by
      rw [Nat.cast_sub (by omega)]; push_cast; ring
    have hpos : (0 : ℝ) < (decimated x.length m : ℝ) - 3 := by
      rw [← hc]; exact_mod_cast (by omega : 0 < decimated x.length m - 3)
    have hd : row.1 = rateSign rate * Spec.hdev (seq x) x.length m (m / rate) := by
      rw [h4, hc, hdev_norm _ _ hpos m hm0 rate hr0]
      unfold Spec.hdev rms d3
      congr 3
      apply Finset.sum_congr rfl
      intro i _
      congr 1
      ring_nf
    rw [hc, hd] at h5
    have h6 : row.2.2 = (decimated x.length m : ℤ) - 3 := by rw [h2]; omega
    exact Prod.ext hd (Prod.ext h5 h6)

/-- C09: `hdev` on phase data returns exactly the table of the (non-overlapping) Hadamard
deviation of the decimated data, with `n = L - 3`. -/
theorem hdev_phase_eq (x : List ℝ) (rate : ℝ) (hr : 0 ≤ rate) (taus : TausArg) :
    hdev x rate "phase" taus =
      table x.length rate taus false x.length
        (fun m => Spec.hdev (seq x) x.length m (m / rate))
        (fun m => Spec.hdev (seq x) x.length m (m / rate) / √((decimated x.length m : ℝ) - 3))
        (fun m => (decimated x.length m : ℤ) - 3) := by
  rw [hdev_phase_any, rateSign_of_nonneg hr]
  simp only [one_mul]

example : hdev [0, 1, 0, 1, 3, -9, 1, 7, 4] 2 "phase" (.list [(2 : ℕ) / 2])
    = .ok ⟨[(2 : ℕ) / 2], [√(41 / 3)], .arr [√(41 / 3) / √2], [2]⟩ := by
  rw [hdev_phase_eq _ _ (by norm_num), table_single _ _ (by norm_num) _ _ _ _ _ 2 (by norm_num) (by simp)
    (by norm_num) (by simp) (by norm_num [decimated])]
  simp [Spec.hdev, rms, d3, seq, Finset.sum_range_succ, decimated]
  norm_num

end AT
