import Verif.Lemmas.FlickerSum
import Mathlib.NumberTheory.Harmonic.EulerMascheroni

/-!
# Asymptotics of the sums of reciprocals of odd numbers
-/

namespace AT

open Spec Finset Filter

theorem oddSum_harmonic (n : ℕ) : oddSum n = (harmonic (2 * n) : ℝ) - (harmonic n : ℝ) / 2 := by
  induction n with
  | zero => simp [oddSum]
  | succ n ih =>
    rw [oddSum_succ, ih, show 2 * (n + 1) = 2 * n + 1 + 1 by ring, harmonic_succ, harmonic_succ, harmonic_succ]
    push_cast
    have h1 : (n : ℝ) + 1 ≠ 0 := by positivity
    have h2 : 2 * (n : ℝ) + 1 ≠ 0 := by positivity
    have h3 : 2 * (n : ℝ) + 1 + 1 = 2 * (n + 1) := by ring
    rw [h3]
    field_simp
    ring

theorem oddSum_nonneg (n : ℕ) : 0 ≤ oddSum n := sum_nonneg fun j _ => by positivity

theorem oddSum_le (n : ℕ) : oddSum n ≤ n := by
  unfold oddSum
  refine (sum_le_card_nsmul (range n) _ 1 fun j _ => ?_).trans (by simp)
  rw [div_le_one (by positivity)]
  have : (0 : ℝ) ≤ j := by positivity
  linarith

/-- `1 + 1/3 + ... + 1/(2 n - 1)` grows like `½ log n` -/
theorem oddSum_log : Tendsto (fun n : ℕ => oddSum n - Real.log n / 2) atTop (nhds (Real.eulerMascheroniConstant / 2 + Real.log 2)) := by
  have h1 := Real.tendsto_harmonic_sub_log
  have h2 := h1.comp (tendsto_id.const_mul_atTop' (show 0 < 2 by norm_num))
  have h3 := (h2.sub (h1.div_const 2)).add_const (Real.log 2)
  rw [show Real.eulerMascheroniConstant - Real.eulerMascheroniConstant / 2 + Real.log 2
    = Real.eulerMascheroniConstant / 2 + Real.log 2 by ring] at h3
  refine h3.congr' ?_
  filter_upwards [eventually_gt_atTop 0] with n hn
  have hn' : (n : ℝ) ≠ 0 := by positivity
  simp only [Function.comp, id]
  rw [oddSum_harmonic]
  push_cast
  rw [Real.log_mul (by norm_num) hn']
  ring

theorem oddSum_ratio {k : ℕ} (hk : 0 < k) :
    Tendsto (fun m : ℕ => oddSum (k * m) - oddSum m) atTop (nhds (Real.log k / 2)) := by
  have h1 := oddSum_log
  have h2 := h1.comp (tendsto_id.const_mul_atTop' hk)
  have h3 := (h2.sub h1).add_const (Real.log k / 2)
  rw [sub_self, zero_add] at h3
  refine h3.congr' ?_
  filter_upwards [eventually_gt_atTop 0] with n hn
  have hn' : (n : ℝ) ≠ 0 := by positivity
  have hk' : (k : ℝ) ≠ 0 := by positivity
  simp only [Function.comp, id]
  push_cast
  rw [Real.log_mul hk' hn']
  ring

theorem inv_sq_lim : Tendsto (fun m : ℕ => 1 / (m : ℝ) ^ 2) atTop (nhds 0) :=
  tendsto_const_div_pow 1 2 (by norm_num)

theorem oddSum_sq : Tendsto (fun m : ℕ => oddSum m / (m : ℝ) ^ 2) atTop (nhds 0) := by
  refine squeeze_zero (fun m => div_nonneg (oddSum_nonneg m) (by positivity)) (fun m => ?_) tendsto_one_div_atTop_nhds_zero_nat
  rcases Nat.eq_zero_or_pos m with rfl | hm
  · simp
  · have hm' : (0 : ℝ) < m := by exact_mod_cast hm
    rw [div_le_div_iff₀ (by positivity) hm']
    have := oddSum_le m
    nlinarith

theorem oddG_two : Tendsto (fun m : ℕ => (oddG (2 * m) - 4 * oddG m) / (m : ℝ) ^ 2) atTop (nhds (Real.log 2)) := by
  have a := oddSum_ratio (k := 2) (by norm_num)
  have b := oddSum_sq
  have c := (a.const_mul 2).add ((b.const_mul (3 / 8)).sub ((a.mul inv_sq_lim).div_const 8))
  have e : 2 * (Real.log (2 : ℕ) / 2) + (3 / 8 * 0 - Real.log (2 : ℕ) / 2 * 0 / 8) = Real.log 2 := by push_cast; ring
  rw [e] at c
  refine c.congr' ?_
  filter_upwards [eventually_gt_atTop 0] with m hm
  have hm' : (m : ℝ) ≠ 0 := by positivity
  unfold oddG
  push_cast
  field_simp
  ring

theorem oddG_three : Tendsto (fun m : ℕ => (6 * oddG (2 * m) - 15 * oddG m - oddG (3 * m)) / (m : ℝ) ^ 2) atTop
    (nhds (6 * Real.log 2 - 9 / 4 * Real.log 3)) := by
  have a := oddSum_ratio (k := 2) (by norm_num)
  have a3 := oddSum_ratio (k := 3) (by norm_num)
  have b := oddSum_sq
  have c := ((a.const_mul 12).sub (a3.const_mul (9 / 2))).add ((b.const_mul (5 / 4)).add
    (((a3.mul inv_sq_lim).div_const 8).sub ((a.mul inv_sq_lim).const_mul (3 / 4))))
  have e : 12 * (Real.log (2 : ℕ) / 2) - 9 / 2 * (Real.log (3 : ℕ) / 2) + (5 / 4 * 0
      + (Real.log (3 : ℕ) / 2 * 0 / 8 - 3 / 4 * (Real.log (2 : ℕ) / 2 * 0))) = 6 * Real.log 2 - 9 / 4 * Real.log 3 := by push_cast; ring
  rw [e] at c
  refine c.congr' ?_
  filter_upwards [eventually_gt_atTop 0] with m hm
  have hm' : (m : ℝ) ≠ 0 := by positivity
  unfold oddG
  push_cast
  field_simp
  ring

theorem oddH_three : Tendsto (fun m : ℕ => (oddH (3 * m) - 6 * oddH (2 * m) + 15 * oddH m) / (m : ℝ) ^ 4) atTop
    (nhds ((27 * Real.log 3 - 32 * Real.log 2) / 16)) := by
  have a := oddSum_ratio (k := 2) (by norm_num)
  have a3 := oddSum_ratio (k := 3) (by norm_num)
  have b := oddSum_sq
  have i := inv_sq_lim
  have c := ((a3.const_mul (81 / 24)).sub (a.const_mul 4)).add
    ((((a3.mul i).const_mul (-(360 / 384))).add ((a.mul i).const_mul (960 / 384))).add
      ((((a3.mul i).mul i).const_mul (9 / 384)).add ((((a.mul i).mul i).const_mul (-(54 / 384))).add ((b.mul i).const_mul (90 / 384)))))
  have e : 81 / 24 * (Real.log (3 : ℕ) / 2) - 4 * (Real.log (2 : ℕ) / 2)
      + ((-(360 / 384) * (Real.log (3 : ℕ) / 2 * 0) + 960 / 384 * (Real.log (2 : ℕ) / 2 * 0))
      + (9 / 384 * (Real.log (3 : ℕ) / 2 * 0 * 0) + (-(54 / 384) * (Real.log (2 : ℕ) / 2 * 0 * 0) + 90 / 384 * (0 * 0))))
      = (27 * Real.log 3 - 32 * Real.log 2) / 16 := by push_cast; ring
  rw [e] at c
  refine c.congr' ?_
  filter_upwards [eventually_gt_atTop 0] with m hm
  have hm' : (m : ℝ) ≠ 0 := by positivity
  unfold oddH
  push_cast
  field_simp
  ring

end AT
