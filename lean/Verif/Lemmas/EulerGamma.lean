import Mathlib.NumberTheory.Harmonic.EulerMascheroni
import Mathlib.Analysis.SpecialFunctions.Log.Deriv
import Mathlib.Analysis.Complex.ExponentialBounds
import Mathlib.Tactic

/-!
# Numerical bounds for Euler's constant

`H_n - ln n - 1/(2n) + 1/(12n²)` decreases to `γ`, and with `- 1/(120n⁴)` it increases.
-/

namespace AT

open Real Filter Topology

/-- three terms of the series of `log (1 + 1/n)` in `z = 1/(2n+1)` and the geometric remainder -/
theorem log_one_add_inv_bounds {n : ℝ} (hn : 1 ≤ n) :
    2 * (1 / (2 * n + 1)) + 2 / 3 * (1 / (2 * n + 1)) ^ 3 ≤ log (1 + n⁻¹) ∧
    log (1 + n⁻¹) ≤ 2 * (1 / (2 * n + 1)) + 2 / 3 * (1 / (2 * n + 1)) ^ 3 + 2 / 5 * (1 / (2 * n + 1)) ^ 5
      + 2 / 7 * (1 / (2 * n + 1)) ^ 7 * (1 - (1 / (2 * n + 1)) ^ 2)⁻¹ := by
  have h := hasSum_log_one_add_inv (a := n) (by linarith)
  set z := 1 / (2 * n + 1)
  have hz0 : 0 < z := by positivity
  have hz1 : z ≤ 1 / 3 := by
    apply one_div_le_one_div_of_le (by norm_num); linarith
  refine ⟨?_, ?_⟩
  · have := sum_le_hasSum (Finset.range 2) (fun k _ => by positivity) h
    rw [Finset.sum_range_succ, Finset.sum_range_one] at this
    norm_num at this
    linarith
  · have hs := (hasSum_nat_add_iff' (f := fun k : ℕ => (2 : ℝ) * (1 / (2 * k + 1)) * z ^ (2 * k + 1)) 3).2 h
    have hg : HasSum (fun k : ℕ => 2 / 7 * z ^ 7 * (z ^ 2) ^ k) (2 / 7 * z ^ 7 * (1 - z ^ 2)⁻¹) :=
      (hasSum_geometric_of_lt_one (by positivity) (by nlinarith)).mul_left _
    have hle := hasSum_le (fun k => ?_) hs hg
    · simp only [Finset.sum_range_succ, Finset.sum_range_zero] at hle
      norm_num at hle
      linarith
    · push_cast
      have e : z ^ (2 * (k + 3) + 1) = z ^ 7 * (z ^ 2) ^ k := by rw [← pow_mul, ← pow_add]; congr 1; ring
      rw [e]
      have : 2 * (1 / (2 * ((k : ℝ) + 3) + 1)) ≤ 2 / 7 := by
        rw [mul_one_div, div_le_div_iff₀ (by positivity) (by norm_num)]
        have : (0 : ℝ) ≤ k := by positivity
        linarith
      calc _ ≤ 2 / 7 * (z ^ 7 * (z ^ 2) ^ k) := mul_le_mul_of_nonneg_right this (by positivity)
        _ = _ := by ring

noncomputable def gU (n : ℕ) : ℝ := harmonic n - log n - 1 / (2 * n) + 1 / (12 * (n : ℝ) ^ 2)

noncomputable def gV (n : ℕ) : ℝ := gU n - 1 / (120 * (n : ℝ) ^ 4)

theorem log_succ_div (n : ℕ) (hn : 1 ≤ n) : log ((n + 1 : ℕ) : ℝ) = log n + log (1 + (n : ℝ)⁻¹) := by
  have : (0 : ℝ) < n := by exact_mod_cast hn
  rw [← log_mul this.ne' (by positivity)]
  congr 1
  push_cast
  field_simp

theorem gU_anti (n : ℕ) (hn : 1 ≤ n) : gU (n + 1) ≤ gU n := by
  have hn' : (1 : ℝ) ≤ n := by exact_mod_cast hn
  have h := (log_one_add_inv_bounds hn').1
  unfold gU
  rw [log_succ_div n hn, harmonic_succ]
  push_cast
  have key : ((n : ℝ) + 1)⁻¹ - 1 / (2 * (n + 1)) + 1 / (12 * ((n : ℝ) + 1) ^ 2) + 1 / (2 * n) - 1 / (12 * (n : ℝ) ^ 2)
      ≤ 2 * (1 / (2 * n + 1)) + 2 / 3 * (1 / (2 * n + 1)) ^ 3 := by
    rw [← sub_nonneg]
    have e : 2 * (1 / (2 * (n : ℝ) + 1)) + 2 / 3 * (1 / (2 * n + 1)) ^ 3
        - (((n : ℝ) + 1)⁻¹ - 1 / (2 * (n + 1)) + 1 / (12 * ((n : ℝ) + 1) ^ 2) + 1 / (2 * n) - 1 / (12 * (n : ℝ) ^ 2))
        = ((2 * n + 1) ^ 2 + 1) / (24 * n ^ 2 * (n + 1) ^ 2 * (2 * n + 1) ^ 3) := by
      field_simp
      ring
    rw [e]
    positivity
  linarith

theorem gV_mono (n : ℕ) (hn : 1 ≤ n) : gV n ≤ gV (n + 1) := by
  have hn' : (1 : ℝ) ≤ n := by exact_mod_cast hn
  have h := (log_one_add_inv_bounds hn').2
  unfold gV gU
  rw [log_succ_div n hn, harmonic_succ]
  push_cast
  have key : 2 * (1 / (2 * (n : ℝ) + 1)) + 2 / 3 * (1 / (2 * n + 1)) ^ 3 + 2 / 5 * (1 / (2 * n + 1)) ^ 5
      + 2 / 7 * (1 / (2 * (n : ℝ) + 1)) ^ 7 * (1 - (1 / (2 * (n : ℝ) + 1)) ^ 2)⁻¹
      ≤ ((n : ℝ) + 1)⁻¹ - 1 / (2 * (n + 1)) + 1 / (12 * ((n : ℝ) + 1) ^ 2) + 1 / (2 * n) - 1 / (12 * (n : ℝ) ^ 2)
        - 1 / (120 * ((n : ℝ) + 1) ^ 4) + 1 / (120 * (n : ℝ) ^ 4) := by
    have hi : (1 - (1 / (2 * (n : ℝ) + 1)) ^ 2)⁻¹ = (2 * (n : ℝ) + 1) ^ 2 / (4 * n * (n + 1)) := by
      rw [inv_eq_one_div, div_eq_div_iff]
      · field_simp
        ring
      · have : (1 / (2 * (n : ℝ) + 1)) ^ 2 < 1 := by
          rw [div_pow, one_pow, div_lt_one (by positivity)]; nlinarith
        linarith
      · positivity
    rw [hi, ← sub_nonneg]
    have e : ((n : ℝ) + 1)⁻¹ - 1 / (2 * (n + 1)) + 1 / (12 * ((n : ℝ) + 1) ^ 2) + 1 / (2 * n) - 1 / (12 * (n : ℝ) ^ 2)
        - 1 / (120 * ((n : ℝ) + 1) ^ 4) + 1 / (120 * (n : ℝ) ^ 4)
        - (2 * (1 / (2 * (n : ℝ) + 1)) + 2 / 3 * (1 / (2 * n + 1)) ^ 3 + 2 / 5 * (1 / (2 * n + 1)) ^ 5
          + 2 / 7 * (1 / (2 * (n : ℝ) + 1)) ^ 7 * ((2 * n + 1) ^ 2 / (4 * n * (n + 1))))
        = (640 * n ^ 6 + 1920 * n ^ 5 + 2354 * n ^ 4 + 1508 * n ^ 3 + 532 * n ^ 2 + 98 * n + 7)
          / (840 * n ^ 4 * (n + 1) ^ 4 * (2 * n + 1) ^ 5) := by
      field_simp
      ring
    rw [e]
    positivity
  linarith

theorem gU_tendsto : Tendsto gU atTop (𝓝 eulerMascheroniConstant) := by
  have h := tendsto_harmonic_sub_log
  have h1 : Tendsto (fun n : ℕ => 1 / (n : ℝ)) atTop (𝓝 0) := tendsto_one_div_atTop_nhds_zero_nat
  have := (h.sub (h1.const_mul (1 / 2))).add ((h1.pow 2).const_mul (1 / 12))
  norm_num at this
  refine this.congr fun n => ?_
  unfold gU
  rcases Nat.eq_zero_or_pos n with rfl | hn
  · simp
  · have : (0 : ℝ) < n := by exact_mod_cast hn
    field_simp

theorem gV_tendsto : Tendsto gV atTop (𝓝 eulerMascheroniConstant) := by
  have h1 : Tendsto (fun n : ℕ => 1 / (n : ℝ)) atTop (𝓝 0) := tendsto_one_div_atTop_nhds_zero_nat
  have := gU_tendsto.sub ((h1.pow 4).const_mul (1 / 120))
  norm_num at this
  refine this.congr fun n => ?_
  unfold gV
  rcases Nat.eq_zero_or_pos n with rfl | hn
  · simp
  · have : (0 : ℝ) < n := by exact_mod_cast hn
    field_simp

theorem gU_ge (n : ℕ) (hn : 1 ≤ n) : eulerMascheroniConstant ≤ gU n := by
  apply le_of_tendsto gU_tendsto
  filter_upwards [eventually_ge_atTop n] with m hm
  induction m, hm using Nat.le_induction with
  | base => exact le_rfl
  | succ m hm ih => exact (gU_anti m (by omega)).trans ih

theorem gV_le (n : ℕ) (hn : 1 ≤ n) : gV n ≤ eulerMascheroniConstant := by
  apply ge_of_tendsto gV_tendsto
  filter_upwards [eventually_ge_atTop n] with m hm
  induction m, hm using Nat.le_induction with
  | base => exact le_rfl
  | succ m hm ih => exact ih.trans (gV_mono m (by omega))

theorem harmonic_32 : harmonic 32 = 586061125622639 / 144403552893600 := by
  unfold harmonic
  norm_num [Finset.sum_range_succ]

/-- eight digits of Euler's constant -/
theorem euler_bounds : 0.5772156490 < eulerMascheroniConstant ∧ eulerMascheroniConstant < 0.5772156750 := by
  have h1 := gU_ge 32 (by norm_num)
  have h2 := gV_le 32 (by norm_num)
  have l1 := log_two_gt_d9
  have l2 := log_two_lt_d9
  have hl : log ((32 : ℕ) : ℝ) = 5 * log 2 := by
    rw [show ((32 : ℕ) : ℝ) = 2 ^ 5 by norm_num, log_pow]; norm_num
  unfold gV at h2
  unfold gU at h1 h2
  rw [hl, harmonic_32] at h1 h2
  push_cast at h1 h2
  constructor
  · norm_num at *
    linarith
  · norm_num at *
    linarith

end AT
