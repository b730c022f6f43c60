import Verif.Props.RatioSettle
import Verif.Props.FlickerId
import Mathlib.Analysis.SpecialFunctions.Log.Deriv

/-!
# The ratios of the modified Allan variance and the Allan variance of flicker noise, against the boundaries
-/

namespace AT

open Spec Finset Filter Real

/-! ## Bounds of the sums of odd reciprocals -/

theorem log3_bounds : 1.0986 < log 3 ∧ log 3 < 1.09863 := by
  have e2 : log (531441 / 524288 : ℝ) = 12 * log 3 - 19 * log 2 := by
    rw [log_div (by norm_num) (by norm_num), show (531441 : ℝ) = 3 ^ 12 by norm_num, show (524288 : ℝ) = 2 ^ 19 by norm_num, log_pow, log_pow]
    norm_num
  have h1 := log_le_sub_one_of_pos (show (0 : ℝ) < 531441 / 524288 by norm_num)
  have h2 := one_sub_inv_le_log_of_pos (show (0 : ℝ) < 531441 / 524288 by norm_num)
  rw [e2] at h1 h2
  have h3 := log_two_gt_d9
  have h4 := log_two_lt_d9
  norm_num at h1 h2 h3 h4 ⊢
  constructor <;> linarith

theorem oddSum_log_anti : Antitone (fun n : ℕ => oddSum (n + 1) - log ((n + 1 : ℕ) : ℝ) / 2) := by
  refine antitone_nat_of_succ_le fun n => ?_
  rw [oddSum_succ (n + 1)]
  have hn : (0 : ℝ) < ((n + 1 : ℕ) : ℝ) := by positivity
  have h1 := le_log_one_add_of_nonneg (x := 1 / ((n + 1 : ℕ) : ℝ)) (by positivity)
  have e1 : 1 + 1 / ((n + 1 : ℕ) : ℝ) = ((n + 1 + 1 : ℕ) : ℝ) / ((n + 1 : ℕ) : ℝ) := by
    rw [eq_div_iff hn.ne']
    push_cast
    field_simp
  have e2 : 2 * (1 / ((n + 1 : ℕ) : ℝ)) / (1 / ((n + 1 : ℕ) : ℝ) + 2) = 2 * (1 / (2 * ((n + 1 : ℕ) : ℝ) + 1)) := by
    field_simp
    ring
  rw [e1, e2, log_div (by positivity) hn.ne'] at h1
  linarith

/-- the logarithm against the sum of the odd reciprocals -/
theorem oddSum_log_bounds {m : ℕ} (hm : 2 ≤ m) : log m ≤ 2 * oddSum m - 1.886 ∧ 2 * oddSum m - 1.97353 ≤ log m := by
  have h2 := log_two_gt_d9
  have h3 := log_two_lt_d9
  constructor
  · have h1 : Tendsto (fun n : ℕ => oddSum (n + 1) - log ((n + 1 : ℕ) : ℝ) / 2) atTop (nhds (eulerMascheroniConstant / 2 + log 2)) :=
      oddSum_log.comp (tendsto_add_atTop_nat 1)
    have h4 := oddSum_log_anti.le_of_tendsto h1 (m - 1)
    simp only [show m - 1 + 1 = m by omega] at h4
    have := one_half_lt_eulerMascheroniConstant
    norm_num at h2 ⊢
    linarith
  · have h4 := oddSum_log_anti (show 1 ≤ m - 1 by omega)
    simp only [show m - 1 + 1 = m by omega] at h4
    have e : oddSum (1 + 1) = 4 / 3 := by norm_num [oddSum, sum_range_succ]
    rw [e] at h4
    norm_num at h2 h3 h4 ⊢
    linarith

theorem log_pi_bounds : 1.113 ≤ log π ∧ log π ≤ 1.172 := by
  have h1 := log_ge_pow π pi_pos 2
  have h2 := log_le_pow π pi_pos 2
  have h3 := log_two_gt_d9
  have h4 := log_two_lt_d9
  have h5 := pi_gt_d6
  have h6 := pi_lt_d6
  have h7 : (2 : ℝ) ^ 2 / π ≤ 1.27324 := by
    rw [div_le_iff₀ pi_pos]
    norm_num at h5 ⊢
    linarith
  norm_num at h1 h2 h3 h4 h5 h6 h7 ⊢
  constructor <;> linarith

/-- `12 a₂ - 9/2 a₃` increases -/
theorem fpm_parts {m : ℕ} : 12 * (oddSum (2 * m) - oddSum m) - 9 / 2 * (oddSum (3 * m) - oddSum m) ≤ 1.688 ∧
    (3 ≤ m → 1.675 ≤ 12 * (oddSum (2 * m) - oddSum m) - 9 / 2 * (oddSum (3 * m) - oddSum m)) := by
  set g : ℕ → ℝ := fun m => 12 * (oddSum (2 * m) - oddSum m) - 9 / 2 * (oddSum (3 * m) - oddSum m) with hg
  have hmono : Monotone g := monotone_nat_of_le_succ fun n => by
    obtain ⟨h1, h2⟩ := odd_steps n
    simp only [hg]
    rw [h1, h2]
    have : 9 / 2 * (8 / (3 * ((6 * (n : ℝ) + 1) * (2 * n + 1) * (6 * n + 5)))) ≤ 12 * (1 / ((4 * (n : ℝ) + 1) * (4 * n + 3) * (2 * n + 1))) := by
      rw [← mul_div_assoc, ← mul_div_assoc, div_le_div_iff₀ (by positivity) (by positivity)]
      have hm : (0 : ℝ) ≤ n := by positivity
      have : 0 ≤ (2 * (n : ℝ) + 1) * (n ^ 2 + n) := by positivity
      nlinarith
    linarith
  have hlim : Tendsto g atTop (nhds (12 * (log (2 : ℕ) / 2) - 9 / 2 * (log (3 : ℕ) / 2))) :=
    ((oddSum_ratio (k := 2) (by norm_num)).const_mul 12).sub ((oddSum_ratio (k := 3) (by norm_num)).const_mul (9 / 2))
  refine ⟨(hmono.ge_of_tendsto hlim m).trans ?_, fun h => le_trans ?_ (hmono h)⟩
  · have h3 := log_two_lt_d9
    have h4 := log3_bounds.1
    push_cast
    norm_num at h3 h4 ⊢
    linarith
  · simp only [hg]
    norm_num [oddSum, sum_range_succ]

theorem parts_small {m : ℕ} : oddSum (2 * m) - oddSum m ≤ 0.34658 ∧ oddSum (3 * m) - oddSum m ≤ 0.54932 ∧
    (3 ≤ m → 0.344 ≤ oddSum (2 * m) - oddSum m) ∧ (2 ≤ m → 1 / 3 ≤ oddSum (2 * m) - oddSum m) := by
  have m2 : Monotone (fun m => oddSum (2 * m) - oddSum m) := monotone_nat_of_le_succ fun n => by
    rw [(odd_steps n).1]
    exact le_add_of_nonneg_right (by positivity)
  have m3 : Monotone (fun m => oddSum (3 * m) - oddSum m) := monotone_nat_of_le_succ fun n => by
    rw [(odd_steps n).2]
    exact le_add_of_nonneg_right (by positivity)
  have l2 := m2.ge_of_tendsto (oddSum_ratio (k := 2) (by norm_num)) m
  have l3 := m3.ge_of_tendsto (oddSum_ratio (k := 3) (by norm_num)) m
  have h3 := log_two_lt_d9
  have h4 := log3_bounds.2
  refine ⟨l2.trans ?_, l3.trans ?_, fun h => le_trans ?_ (m2 h), fun h => le_trans ?_ (m2 h)⟩
  · push_cast
    norm_num at h3 ⊢
    linarith
  · push_cast
    norm_num at h4 ⊢
    linarith
  · norm_num [oddSum, sum_range_succ]
  · norm_num [oddSum, sum_range_succ]

/-- `27/8 a₃ - 5.324 a₂` decreases -/
theorem ffm_ratio_parts {m : ℕ} (hm : 0 < m) : 0.0086 ≤ 27 / 8 * (oddSum (3 * m) - oddSum m) - 5.324 * (oddSum (2 * m) - oddSum m) := by
  set g : ℕ → ℝ := fun m => 27 / 8 * (oddSum (3 * m) - oddSum m) - 5.324 * (oddSum (2 * m) - oddSum m) with hg
  have hanti : Antitone (fun n => g (n + 1)) := antitone_nat_of_succ_le fun n => by
    obtain ⟨h1, h2⟩ := odd_steps (n + 1)
    simp only [hg]
    rw [h1, h2]
    have : 27 / 8 * (8 / (3 * ((6 * ((n + 1 : ℕ) : ℝ) + 1) * (2 * ((n + 1 : ℕ) : ℝ) + 1) * (6 * ((n + 1 : ℕ) : ℝ) + 5))))
        ≤ 5.324 * (1 / ((4 * ((n + 1 : ℕ) : ℝ) + 1) * (4 * ((n + 1 : ℕ) : ℝ) + 3) * (2 * ((n + 1 : ℕ) : ℝ) + 1))) := by
      rw [← mul_div_assoc, ← mul_div_assoc, div_le_div_iff₀ (by positivity) (by positivity)]
      have hm : (1 : ℝ) ≤ ((n + 1 : ℕ) : ℝ) := by exact_mod_cast Nat.succ_pos n
      generalize ((n + 1 : ℕ) : ℝ) = x at hm ⊢
      have : 0 ≤ (2 * x + 1) * (143 * (x ^ 2 + x) - 1) := mul_nonneg (by linarith) (by nlinarith)
      nlinarith
    linarith
  have hlim : Tendsto (fun n => g (n + 1)) atTop (nhds (27 / 8 * (log (3 : ℕ) / 2) - 5.324 * (log (2 : ℕ) / 2))) :=
    (((oddSum_ratio (k := 3) (by norm_num)).const_mul (27 / 8)).sub ((oddSum_ratio (k := 2) (by norm_num)).const_mul 5.324)).comp
      (tendsto_add_atTop_nat 1)
  have h1 := hanti.le_of_tendsto hlim (m - 1)
  simp only [show m - 1 + 1 = m by omega] at h1
  refine le_trans ?_ h1
  have h3 := log_two_lt_d9
  have h4 := log3_bounds.1
  push_cast
  norm_num at h3 h4 ⊢
  linarith

/-! ## The ratios -/

/-- the limit of R(n) for flicker phase noise -/
theorem fpm_ratio_eq {m : ℕ} (hm : 0 < m) : simMvar (-1) m / simAvar (-1) m
    = (12 * (oddSum (2 * m) - oddSum m) - 9 / 2 * (oddSum (3 * m) - oddSum m)
        + (5 / 4 * oddSum m - 3 / 4 * (oddSum (2 * m) - oddSum m) + (oddSum (3 * m) - oddSum m) / 8) / (m : ℝ) ^ 2)
      / (3 * oddSum m - (oddSum (2 * m) - oddSum m)) := by
  have hm' : (0 : ℝ) < m := by exact_mod_cast hm
  have hpi := pi_pos
  have h1 := parts_small (m := m)
  have h2 := oddSum_one_le hm
  have hd : 0 < 3 * oddSum m - (oddSum (2 * m) - oddSum m) := by
    have := h1.1
    norm_num at this
    linarith
  have ea : simAvar (-1) m = (8 * oddSum m - 2 * oddSum (2 * m)) / (π * m ^ 2) := by norm_num [simAvar]
  have em : simMvar (-1) m = 2 * (6 * oddG (2 * m) - 15 * oddG m - oddG (3 * m)) / (π * m ^ 4) := by norm_num [simMvar]
  have hd' : 8 * oddSum m - 2 * oddSum (2 * m) ≠ 0 := by
    have : 8 * oddSum m - 2 * oddSum (2 * m) = 2 * (3 * oddSum m - (oddSum (2 * m) - oddSum m)) := by ring
    rw [this]
    positivity
  rw [ea, em]
  simp only [oddG]
  push_cast
  rw [div_div_div_eq, div_eq_div_iff (mul_ne_zero (by positivity) hd') hd.ne']
  field_simp
  ring

/-- the limit of R(n) for flicker frequency noise -/
theorem ffm_ratio_eq {m : ℕ} (hm : 0 < m) : simMvar (-3) m / simAvar (-3) m
    = ((m : ℝ) ^ 4 * (27 / 8 * (oddSum (3 * m) - oddSum m) - 4 * (oddSum (2 * m) - oddSum m))
        + (m : ℝ) ^ 2 * (5 / 2 * (oddSum (2 * m) - oddSum m) - 15 / 16 * (oddSum (3 * m) - oddSum m))
        + (15 / 64 * oddSum m - 9 / 64 * (oddSum (2 * m) - oddSum m) + 3 / 128 * (oddSum (3 * m) - oddSum m)))
      / ((m : ℝ) ^ 2 * (2 * (m : ℝ) ^ 2 * (oddSum (2 * m) - oddSum m) - (oddSum (2 * m) - oddSum m) / 8 + 3 / 8 * oddSum m)) := by
  have hm' : (0 : ℝ) < m := by exact_mod_cast hm
  have hpi := pi_pos
  have h1 := (ffm_bounds hm).1
  have ea : simAvar (-3) m = 2 * (oddG (2 * m) - 4 * oddG m) / (π * m ^ 2) := by norm_num [simAvar]
  have em : simMvar (-3) m = 2 * (oddH (3 * m) - 6 * oddH (2 * m) + 15 * oddH m) / (π * m ^ 4) := by norm_num [simMvar]
  have e : oddG (2 * m) - 4 * oddG m
      = 2 * (m : ℝ) ^ 2 * (oddSum (2 * m) - oddSum m) - (oddSum (2 * m) - oddSum m) / 8 + 3 / 8 * oddSum m := by
    simp only [oddG]
    push_cast
    ring
  rw [ea, em, ← e]
  have e3 : oddH (3 * m) - 6 * oddH (2 * m) + 15 * oddH m
      = (m : ℝ) ^ 4 * (27 / 8 * (oddSum (3 * m) - oddSum m) - 4 * (oddSum (2 * m) - oddSum m))
        + (m : ℝ) ^ 2 * (5 / 2 * (oddSum (2 * m) - oddSum m) - 15 / 16 * (oddSum (3 * m) - oddSum m))
        + (15 / 64 * oddSum m - 9 / 64 * (oddSum (2 * m) - oddSum m) + 3 / 128 * (oddSum (3 * m) - oddSum m)) := by
    simp only [oddH]
    push_cast
    ring
  rw [e3]
  generalize oddG (2 * m) - 4 * oddG m = D at *
  field_simp

/-- R(n) of flicker phase noise settles below the upper boundary -/
theorem fpm_ratio_lt {m : ℕ} (hm : 2 ≤ m) : simMvar (-1) m / simAvar (-1) m < rn_boundary m (-1) := by
  have hm' : (2 : ℝ) ≤ m := by exact_mod_cast hm
  have h0 := (fpm_parts (m := m)).1
  obtain ⟨p1, p2, p3, p4⟩ := ffm_parts (m := m) (by omega)
  have h2 : (4 / 3 : ℝ) ≤ oddSum m := by
    have := oddSum_mono hm
    rwa [show oddSum 2 = 4 / 3 by norm_num [oddSum, sum_range_succ]] at this
  have h3 : oddSum m ≤ (m + 2) / 3 := by
    have h4 := oddSum_add_le 1 (m - 1)
    rw [show 1 + (m - 1) = m by omega, Nat.cast_sub (by omega), show oddSum 1 = 1 by simp [oddSum]] at h4
    push_cast at h4
    norm_num at h4
    linarith
  have h5 := (oddSum_log_bounds hm).1
  have h6 := log_pi_bounds.2
  have hlog : log (π * m) = log π + log m := log_mul pi_ne_zero (by positivity)
  rw [fpm_ratio_eq (by omega), rn_boundary_one]
  refine lt_sqrt_of_sq_lt ?_
  rw [rn_theory_flicker, hlog]
  have hlog0 : 0 ≤ log (m : ℝ) := log_nonneg (by linarith)
  have hpi0 := log_pi_bounds.1
  have h7 := log_ratio_bounds.1
  generalize oddSum m = o at *
  obtain ⟨a2, ha2⟩ : ∃ a, oddSum (2 * m) = o + a := ⟨oddSum (2 * m) - o, by ring⟩
  obtain ⟨a3, ha3⟩ : ∃ a, oddSum (3 * m) = o + a := ⟨oddSum (3 * m) - o, by ring⟩
  rw [ha2] at h0 p1 p2 p3 p4 ⊢
  rw [ha3] at h0 p3 p4 ⊢
  rw [add_sub_cancel_left] at h0 p1 p2 p3 p4 ⊢
  rw [add_sub_cancel_left] at h0 p3 p4 ⊢
  generalize log (m : ℝ) = l at *
  generalize log π = lp at *
  generalize log (256 / 27 : ℝ) = R at *
  have h8 : (5 / 4 * o - 3 / 4 * a2 + a3 / 8) / (m : ℝ) ^ 2 ≤ 0.417 := by
    rw [div_le_iff₀ (by positivity)]
    norm_num at *
    nlinarith
  have h9 : 0 ≤ (5 / 4 * o - 3 / 4 * a2 + a3 / 8) / (m : ℝ) ^ 2 := div_nonneg (by linarith) (by positivity)
  have h10 := ffm_low m
  rw [ha2, ha3] at h10
  generalize (5 / 4 * o - 3 / 4 * a2 + a3 / 8) / (m : ℝ) ^ 2 = c at *
  have hN : (12 * a2 - 9 / 2 * a3 + c) ^ 2 ≤ 4.4311 := by
    have : 12 * a2 - 9 / 2 * a3 + c ≤ 2.105 := by norm_num at *; linarith
    have h11 : 0 ≤ 12 * a2 - 9 / 2 * a3 + c := by linarith
    calc (12 * a2 - 9 / 2 * a3 + c) ^ 2 ≤ 2.105 ^ 2 := by gcongr
      _ ≤ 4.4311 := by norm_num
  have hD : 3 * o - 1 / 2 ≤ 3 * o - a2 := by linarith
  have hD0 : 0 < 3 * o - 1 / 2 := by linarith
  rw [div_pow, div_lt_div_iff₀ (pow_pos (by linarith) 2) (by norm_num at *; linarith)]
  have hT : 2 * (1.038 + 3 * (lp + l)) ≤ 12 * o - 2.208 := by norm_num at *; linarith
  have hT0 : 0 ≤ 2 * (1.038 + 3 * (lp + l)) := by norm_num at *; linarith
  calc (12 * a2 - 9 / 2 * a3 + c) ^ 2 * (2 * (1.038 + 3 * (lp + l))) ≤ 4.4311 * (12 * o - 2.208) := by gcongr
    _ < 3 * 2.2493 * (3 * o - 1 / 2) ^ 2 := by norm_num at *; nlinarith
    _ ≤ 3 * R * (3 * o - a2) ^ 2 := by gcongr

/-- and above the lower one -/
theorem fpm_ratio_gt {m : ℕ} (hm : 2 ≤ m) : rn_boundary m 0 < simMvar (-1) m / simAvar (-1) m := by
  rcases Nat.lt_or_ge m 3 with h | h3m
  · have : m = 2 := by omega
    subst this
    have h1 := flicker_lt_half (x := ((2 : ℕ) : ℝ)) (by norm_num)
    have e : simMvar (-1) 2 / simAvar (-1) 2 = 5 / 9 := by
      rw [fpm_ratio_eq (by norm_num)]
      norm_num [oddSum, sum_range_succ]
    rw [e, rn_boundary_zero, sqrt_lt' (by norm_num)]
    norm_num at h1 ⊢
    linarith
  have hm' : (3 : ℝ) ≤ m := by exact_mod_cast h3m
  have h0 := (fpm_parts (m := m)).2 h3m
  obtain ⟨p1, p2, p3, p4⟩ := ffm_parts (m := m) (by omega)
  have p5 := (parts_small (m := m)).2.2.2 hm
  have h2 : (23 / 15 : ℝ) ≤ oddSum m := by
    have := oddSum_mono h3m
    rwa [show oddSum 3 = 23 / 15 by norm_num [oddSum, sum_range_succ]] at this
  have h3 : 7 * oddSum m - 7.734 ≤ m := by
    have h4 := oddSum_add_le 3 (m - 3)
    rw [show 3 + (m - 3) = m by omega, Nat.cast_sub (by omega), show oddSum 3 = 23 / 15 by norm_num [oddSum, sum_range_succ]] at h4
    push_cast at h4
    norm_num at h4 ⊢
    linarith
  have h5 := (oddSum_log_bounds hm).2
  have h6 := log_pi_bounds.1
  have hlog : log (π * m) = log π + log m := log_mul pi_ne_zero (by positivity)
  rw [fpm_ratio_eq (by omega), rn_boundary_zero]
  have h10 := ffm_low m
  rw [rn_theory_flicker, hlog]
  have h7 := log_ratio_bounds
  generalize oddSum m = o at *
  obtain ⟨a2, ha2⟩ : ∃ a, oddSum (2 * m) = o + a := ⟨oddSum (2 * m) - o, by ring⟩
  obtain ⟨a3, ha3⟩ : ∃ a, oddSum (3 * m) = o + a := ⟨oddSum (3 * m) - o, by ring⟩
  rw [ha2] at h0 p1 p2 p3 p4 p5 h10 ⊢
  rw [ha3] at h0 p3 p4 h10 ⊢
  rw [add_sub_cancel_left] at h0 p1 p2 p3 p4 p5 h10 ⊢
  rw [add_sub_cancel_left] at h0 p3 p4 h10 ⊢
  generalize log (m : ℝ) = l at *
  generalize log π = lp at *
  generalize log (256 / 27 : ℝ) = R at *
  have h9 : 0 ≤ (5 / 4 * o - 3 / 4 * a2 + a3 / 8) / (m : ℝ) ^ 2 := div_nonneg (by linarith) (by positivity)
  generalize (5 / 4 * o - 3 / 4 * a2 + a3 / 8) / (m : ℝ) ^ 2 = c at *
  have hN1 : 1.675 ≤ 12 * a2 - 9 / 2 * a3 + c := by linarith
  have hN : 2.8056 ≤ (12 * a2 - 9 / 2 * a3 + c) ^ 2 := by
    calc (2.8056 : ℝ) ≤ 1.675 ^ 2 := by norm_num
      _ ≤ _ := by gcongr
  have hD : 3 * o - a2 ≤ 3 * o - 1 / 3 := by linarith
  have hD0 : 0 < 3 * o - a2 := by linarith
  have hT : 12 * o - 3.088 ≤ 2 * (1.038 + 3 * (lp + l)) := by norm_num at *; linarith
  have hT0 : 0 < 12 * o - 3.088 := by norm_num at *; linarith
  rw [sqrt_lt' (div_pos (by norm_num at *; linarith) hD0), div_pow, div_mul_div_comm, one_mul,
    div_lt_div_iff₀ (mul_pos (by linarith) (by linarith)) (by positivity)]
  have hM : 0 ≤ 7 * o - 7.734 := by norm_num at *; linarith
  calc 3 * R * (3 * o - a2) ^ 2 ≤ 3 * 2.2494 * (3 * o - 1 / 3) ^ 2 := by
        gcongr
        exact h7.2.le
    _ < 2.8056 * ((7 * o - 7.734) * (12 * o - 3.088)) := by norm_num at *; nlinarith
    _ ≤ (12 * a2 - 9 / 2 * a3 + c) ^ 2 * (m * (2 * (1.038 + 3 * (lp + l)))) := by gcongr

/-- R(n) of flicker frequency noise settles above the upper boundary from averaging factor 3 on -/
theorem ffm_ratio_gt {m : ℕ} (hm : 3 ≤ m) : rn_boundary m (-1) < simMvar (-3) m / simAvar (-3) m := by
  have hm' : (3 : ℝ) ≤ m := by exact_mod_cast hm
  have hb : rn_boundary m (-1) < 0.662 := by
    rw [rn_boundary_one, sqrt_lt' (by norm_num)]
    have h1 := log_ge_pow (π * 3) (by positivity) 3
    have h2 := log_two_gt_d9
    have h3 := pi_gt_d6
    have h4 : (2 : ℝ) ^ 3 / (π * 3) ≤ 0.8489 := by
      rw [div_le_iff₀ (by positivity)]
      norm_num at h3 ⊢
      linarith
    refine flicker_le (by norm_num : (0 : ℝ) < 3) hm' (d := 2.23) ?_ (by norm_num) (by norm_num)
    norm_num at h1 h2 h4 ⊢
    linarith
  refine hb.trans ?_
  have p1 := ffm_ratio_parts (m := m) (by omega)
  obtain ⟨q1, q2, q3, q4⟩ := parts_small (m := m)
  have q3 := q3 hm
  have h2 : (23 / 15 : ℝ) ≤ oddSum m := by
    have := oddSum_mono hm
    rwa [show oddSum 3 = 23 / 15 by norm_num [oddSum, sum_range_succ]] at this
  have h3 : 7 * oddSum m - 7.734 ≤ m := by
    have h4 := oddSum_add_le 3 (m - 3)
    rw [show 3 + (m - 3) = m by omega, Nat.cast_sub (by omega), show oddSum 3 = 23 / 15 by norm_num [oddSum, sum_range_succ]] at h4
    push_cast at h4
    norm_num at h4 ⊢
    linarith
  rw [ffm_ratio_eq (by omega)]
  generalize oddSum m = o at *
  generalize oddSum (2 * m) - o = a2 at *
  generalize oddSum (3 * m) - o = a3 at *
  generalize (m : ℝ) = x at *
  have hx2 : 9 ≤ x ^ 2 := by nlinarith
  have hd : 0 < x ^ 2 * (2 * x ^ 2 * a2 - a2 / 8 + 3 / 8 * o) := by
    refine mul_pos (by linarith) ?_
    norm_num at *
    nlinarith
  rw [lt_div_iff₀ hd, ← sub_pos]
  have e : x ^ 4 * (27 / 8 * a3 - 4 * a2) + x ^ 2 * (5 / 2 * a2 - 15 / 16 * a3) + (15 / 64 * o - 9 / 64 * a2 + 3 / 128 * a3)
      - 0.662 * (x ^ 2 * (2 * x ^ 2 * a2 - a2 / 8 + 3 / 8 * o))
      = x ^ 2 * (x ^ 2 * (27 / 8 * a3 - 5.324 * a2) + (2.58275 * a2 - 0.9375 * a3 - 0.24825 * o)) + (15 / 64 * o - 9 / 64 * a2 + 3 / 128 * a3) := by
    ring
  rw [e]
  have h5 : x ^ 2 * 0.0086 ≤ x ^ 2 * (27 / 8 * a3 - 5.324 * a2) := mul_le_mul_of_nonneg_left p1 (by positivity)
  have h6 : 0 ≤ x ^ 2 * (27 / 8 * a3 - 5.324 * a2) + (2.58275 * a2 - 0.9375 * a3 - 0.24825 * o) := by
    refine le_trans ?_ (add_le_add_left h5 _)
    norm_num at *
    nlinarith
  have h7 : 0 < 15 / 64 * o - 9 / 64 * a2 + 3 / 128 * a3 := by
    norm_num at *
    linarith
  have := mul_nonneg (by positivity : 0 ≤ x ^ 2) h6
  linarith

/-- with averaging factor 2 it settles below, where flicker phase noise is -/
theorem ffm_ratio_two : rn_boundary 2 0 < simMvar (-3) 2 / simAvar (-3) 2 ∧ simMvar (-3) 2 / simAvar (-3) 2 < rn_boundary 2 (-1) := by
  have e : simMvar (-3) 2 / simAvar (-3) 2 = 5 / 7 := by
    rw [ffm_ratio_eq (by norm_num)]
    norm_num [oddSum, sum_range_succ]
  rw [e]
  constructor
  · have h1 := flicker_lt_half (x := 2) (by norm_num)
    rw [rn_boundary_zero, sqrt_lt' (by norm_num)]
    norm_num at h1 ⊢
    linarith
  · rw [rn_boundary_one]
    refine lt_sqrt_of_sq_lt ?_
    refine flicker_ge (y := 2) (d := 1.839) (by norm_num) le_rfl ?_ (by norm_num) (by norm_num)
    have h1 := log_le_sub_one_of_pos (show 0 < π / 3 by positivity)
    rw [log_div pi_ne_zero (by norm_num)] at h1
    rw [log_mul pi_ne_zero (by norm_num)]
    have h2 := log_two_lt_d9
    have h3 := pi_lt_d6
    have h4 := log3_bounds.2
    norm_num at h2 h3 h4 ⊢
    linarith

end AT
