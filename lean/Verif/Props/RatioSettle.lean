import Verif.Lemmas.InProb
import Verif.Props.NoiseIdOk
import Verif.Props.Bias
import Mathlib.Analysis.Complex.ExponentialBounds
import Mathlib.Analysis.Real.Pi.Bounds

/-!
# C80: the ratios R(n) and B1 of long noise series
-/

namespace AT

open Spec Finset MeasureTheory ProbabilityTheory Filter
open scoped NNReal ENNReal

/-- the value at which R(n) settles at the averaging factor `m` -/
noncomputable def Spec.rnSettled (m : ℕ) : Kind → ℝ
  | .wpm => 1 / m
  | .wfm => ((m : ℝ) ^ 2 + 1) / (2 * (m : ℝ) ^ 2)
  | .rwfm => 3 * (11 * (m : ℝ) ^ 4 + 5 * (m : ℝ) ^ 2 + 4) / (20 * (m : ℝ) ^ 2 * (2 * (m : ℝ) ^ 2 + 1))

/-- `N` samples of the phase `X`, with an offset of the phase and of the frequency -/
noncomputable def Spec.offsetData (a b : ℝ) (X : ℕ → ℝ) (N : ℕ) : List ℝ := tab N (fun i => a + b * i + X i)

/-- `N` samples of the phase of a noise of kind `k` driven by `z`, with an offset of the phase and of the frequency -/
noncomputable def Spec.noiseData (k : Kind) (a b : ℝ) (z : ℕ → ℝ) (N : ℕ) : List ℝ := offsetData a b (noise k z) N

/-! ## What the functions return for the data -/

/-- the Allan variance over `n` second differences -/
noncomputable def avarOf (x : ℕ → ℝ) (m n : ℕ) : ℝ := (∑ i ∈ range n, d2 x m (i * m) ^ 2) / n / (2 * (m : ℝ) ^ 2)

/-- the modified Allan variance over `n` sums -/
noncomputable def mvarOf (x : ℕ → ℝ) (m n : ℕ) : ℝ := (∑ j ∈ range n, (∑ i ∈ range m, d2 x m (j + i)) ^ 2) / n / (2 * (m : ℝ) ^ 4)

theorem d2_offset (x : ℕ → ℝ) (a b : ℝ) (m i : ℕ) : d2 (fun i => a + b * i + x i) m i = d2 x m i := by
  simp only [Spec.d2]
  push_cast
  ring

theorem d2_seq_tab (g : ℕ → ℝ) {N m i : ℕ} (h : i + 2 * m < N) : d2 (seq (tab N g)) m i = d2 g m i := by
  simp only [Spec.d2]
  rw [seq_tab _ _ h, seq_tab _ _ (by omega), seq_tab _ _ (by omega)]

theorem adev_data (a b : ℝ) (X : ℕ → ℝ) {N m : ℕ} (hm : 0 < m) (hN : 4 * m < N) :
    Spec.adev (seq (offsetData a b X N)) N m (m / 1) ^ 2 = avarOf X m ((N - 1) / m - 1) := by
  have hM : 4 ≤ (N - 1) / m := (Nat.le_div_iff_mul_le hm).2 (by omega)
  have hl : decimated N m - 2 = (N - 1) / m - 1 := by unfold decimated; omega
  have hl' : ((decimated N m : ℕ) : ℝ) - 2 = (((N - 1) / m - 1 : ℕ) : ℝ) := by
    rw [← hl, Nat.cast_sub (by unfold decimated; omega)]
    norm_num
  unfold Spec.adev avarOf
  simp only
  rw [rms, hl', Real.sq_sqrt (div_nonneg (sum_nonneg fun _ _ => sq_nonneg _) (by positivity)), hl]
  rw [div_div, div_one, mul_comm (((N - 1) / m - 1 : ℕ) : ℝ)]
  congr 1
  refine sum_congr rfl fun i hi => ?_
  rw [mem_range] at hi
  have e : d2 (fun k_1 => seq (offsetData a b X N) (k_1 * m)) 1 i = d2 (seq (offsetData a b X N)) m (i * m) := by
    simp only [Spec.d2, add_mul, mul_one, one_mul]
  have h1 : i * m + 2 * m < N := by
    have h2 : (i + 2) * m ≤ (N - 1) / m * m := Nat.mul_le_mul_right m (by omega)
    have h3 := Nat.div_mul_le_self (N - 1) m
    rw [add_mul] at h2
    omega
  rw [e, offsetData, d2_seq_tab _ h1, d2_offset]

theorem mdev_data (a b : ℝ) (X : ℕ → ℝ) {N m : ℕ} (hm : 0 < m) (hN : 4 * m < N) :
    Spec.mdev (seq (offsetData a b X N)) N m (m / 1) ^ 2 = mvarOf X m (N - 3 * m + 1) := by
  have hl' : (N : ℝ) - 3 * m + 1 = ((N - 3 * m + 1 : ℕ) : ℝ) := by
    rw [Nat.cast_add, Nat.cast_sub (by omega)]
    push_cast
    ring
  unfold Spec.mdev mvarOf
  rw [rms, hl', Real.sq_sqrt (div_nonneg (sum_nonneg fun _ _ => sq_nonneg _) (by positivity))]
  rw [div_div, div_one, show 2 * (m : ℝ) ^ 2 * (m : ℝ) ^ 2 * ((N - 3 * m + 1 : ℕ) : ℝ) = ((N - 3 * m + 1 : ℕ) : ℝ) * (2 * (m : ℝ) ^ 4) by ring]
  congr 1
  refine sum_congr rfl fun j hj => ?_
  rw [mem_range] at hj
  congr 1
  refine sum_congr rfl fun i hi => ?_
  rw [mem_range] at hi
  rw [offsetData, d2_seq_tab _ (by omega), d2_offset]

theorem sampleVar_shift (g : ℕ → ℝ) (b : ℝ) {M : ℕ} (hM : 0 < M) : sampleVar (fun i => g i + b) M = sampleVar g M := by
  have hM0 : (M : ℝ) ≠ 0 := by exact_mod_cast hM.ne'
  unfold sampleVar
  congr 1
  refine sum_congr rfl fun i _ => ?_
  rw [sum_add_distrib, sum_const, card_range, nsmul_eq_mul]
  congr 1
  field_simp
  ring

theorem sampleVar_congr {g f : ℕ → ℝ} {M : ℕ} (h : ∀ i < M, g i = f i) : sampleVar g M = sampleVar f M := by
  unfold sampleVar
  have e : ∑ j ∈ range M, g j = ∑ j ∈ range M, f j := sum_congr rfl fun i hi => h i (mem_range.1 hi)
  rw [e]
  congr 1
  exact sum_congr rfl fun i hi => by rw [h i (mem_range.1 hi)]

theorem sampleVar_data (a b : ℝ) (X : ℕ → ℝ) {N m : ℕ} (hm : 0 < m) (hN : 4 * m < N) :
    sampleVar (groupFreq (seq (offsetData a b X N)) m) ((N - 1) / m) = sampleVar (groupFreq X m) ((N - 1) / m) := by
  have hM : 4 ≤ (N - 1) / m := (Nat.le_div_iff_mul_le hm).2 (by omega)
  have hm0 : (m : ℝ) ≠ 0 := by exact_mod_cast hm.ne'
  rw [← sampleVar_shift (groupFreq X m) b (by omega)]
  refine sampleVar_congr fun i hi => ?_
  have h1 : i * m + m < N := by
    have h2 : (i + 1) * m ≤ (N - 1) / m * m := Nat.mul_le_mul_right m (by omega)
    have h3 := Nat.div_mul_le_self (N - 1) m
    rw [add_mul] at h2
    omega
  unfold groupFreq offsetData
  rw [seq_tab _ _ h1, seq_tab _ _ (by omega)]
  field_simp
  push_cast
  ring

theorem offsetData_length (a b : ℝ) (X : ℕ → ℝ) (N : ℕ) : (offsetData a b X N).length = N := by
  simp [offsetData]

theorem rn_data (a b : ℝ) (X : ℕ → ℝ) {N m : ℕ} (hm : 0 < m) (hN : 4 * m < N)
    (h0 : 0 < avarOf X m ((N - 1) / m - 1)) :
    rn (offsetData a b X N) m 1 = .ok (some (mvarOf X m (N - 3 * m + 1) / avarOf X m ((N - 1) / m - 1))) := by
  have hM : 4 ≤ (N - 1) / m := (Nat.le_div_iff_mul_le hm).2 (by omega)
  rw [rn_rate_one_partial _ m hm (by rw [offsetData_length]; unfold decimated; omega) (by rw [offsetData_length]; omega), rnRatio,
    offsetData_length, if_neg, div_pow, adev_data a b X hm hN, mdev_data a b X hm hN]
  intro h
  rw [← adev_data a b X hm hN, h] at h0
  norm_num at h0

theorem b1_data (a b : ℝ) (X : ℕ → ℝ) {N m : ℕ} (hm : 0 < m) (hN : 4 * m < N)
    (h0 : 0 < avarOf X m ((N - 1) / m - 1)) :
    b1 (offsetData a b X N) m 1 = .ok (some (sampleVar (groupFreq X m) ((N - 1) / m)
      / avarOf X m ((N - 1) / m - 1))) := by
  have hM : 4 ≤ (N - 1) / m := (Nat.le_div_iff_mul_le hm).2 (by omega)
  rw [b1_rate_one_partial _ m hm (by rw [offsetData_length]; unfold decimated; omega) (by rw [offsetData_length]; omega), b1Ratio,
    offsetData_length, if_neg, adev_data a b X hm hN, sampleVar_data a b X hm hN]
  rintro (h | h)
  · omega
  · rw [← adev_data a b X hm hN, h] at h0
    norm_num at h0

/-! ## The decision boundaries of R(n) -/

section bounds

open Real

theorem log_ratio_bounds : 2.2493 < log (256 / 27 : ℝ) ∧ log (256 / 27 : ℝ) < 2.2494 := by
  have e1 : log (256 / 27 : ℝ) = 8 * log 2 - 3 * log 3 := by
    rw [log_div (by norm_num) (by norm_num), show (256 : ℝ) = 2 ^ 8 by norm_num, show (27 : ℝ) = 3 ^ 3 by norm_num, log_pow, log_pow]
    norm_num
  have e2 : log (531441 / 524288 : ℝ) = 12 * log 3 - 19 * log 2 := by
    rw [log_div (by norm_num) (by norm_num), show (531441 : ℝ) = 3 ^ 12 by norm_num, show (524288 : ℝ) = 2 ^ 19 by norm_num, log_pow, log_pow]
    norm_num
  have h1 := log_le_sub_one_of_pos (show (0 : ℝ) < 531441 / 524288 by norm_num)
  have h2 := one_sub_inv_le_log_of_pos (show (0 : ℝ) < 531441 / 524288 by norm_num)
  rw [e2] at h1 h2
  have h3 := log_two_gt_d9
  have h4 := log_two_lt_d9
  rw [e1]
  norm_num at h1 h2 h3 h4 ⊢
  constructor <;> linarith

/-- logarithms in terms of the nearest power of two -/
theorem log_le_pow (x : ℝ) (hx : 0 < x) (k : ℕ) : log x ≤ k * log 2 + (x / 2 ^ k - 1) := by
  have h1 := log_le_sub_one_of_pos (div_pos hx (pow_pos two_pos k))
  rw [log_div hx.ne' (by positivity), log_pow] at h1
  linarith

theorem log_ge_pow (x : ℝ) (hx : 0 < x) (k : ℕ) : k * log 2 + (1 - 2 ^ k / x) ≤ log x := by
  have h1 := one_sub_inv_le_log_of_pos (div_pos hx (pow_pos two_pos k))
  rw [log_div hx.ne' (by positivity), log_pow, inv_div] at h1
  linarith

/-- the theory value of flicker phase noise -/
theorem rn_theory_flicker (x : ℝ) : rn_theory x (-1) = 3 * log (256 / 27) / (2 * (1.038 + 3 * log (π * x))) := by
  rw [rn_theory_eq, if_neg (by norm_num), if_pos rfl, div_div_div_eq]
  have : (π : ℝ) ^ 2 ≠ 0 := by positivity
  rw [show 3 * log (256 / 27) * (4 * π ^ 2) = (4 * π ^ 2) * (3 * log (256 / 27)) by ring,
    show 8 * π ^ 2 * (1.038 + 3 * log (π * x)) = (4 * π ^ 2) * (2 * (1.038 + 3 * log (π * x))) by ring,
    mul_div_mul_left _ _ (by positivity)]

theorem rn_boundary_zero (x : ℝ) : rn_boundary x 0 = √(1 / x * rn_theory x (-1)) := by
  unfold rn_boundary
  rw [rn_theory_eq x 0, if_pos rfl]
  norm_num

theorem rn_boundary_one (x : ℝ) : rn_boundary x (-1) = √(rn_theory x (-1)) := by
  unfold rn_boundary
  rw [rn_theory_eq x (-1 - 1), if_neg (by norm_num), if_neg (by norm_num), mul_one]

/-- an upper bound of the theory value from a lower bound at a smaller factor -/
theorem flicker_le {x y c d : ℝ} (hy : 0 < y) (hxy : y ≤ x) (hd : d ≤ log (π * y)) (hd0 : 0 ≤ d)
    (hc : 3 * 2.2494 ≤ c * (2 * (1.038 + 3 * d))) : rn_theory x (-1) < c := by
  have h1 : log (π * y) ≤ log (π * x) := log_le_log (by positivity) (by gcongr)
  rw [rn_theory_flicker, div_lt_iff₀ (by linarith)]
  have hc0 : 0 < c := by
    by_contra h
    have : c * (2 * (1.038 + 3 * d)) ≤ 0 := mul_nonpos_of_nonpos_of_nonneg (by linarith) (by linarith)
    linarith
  have h2 : c * (2 * (1.038 + 3 * d)) ≤ c * (2 * (1.038 + 3 * log (π * x))) := by gcongr; linarith
  linarith [log_ratio_bounds.2]

theorem flicker_ge {x y c d : ℝ} (hx : 1 ≤ x) (hxy : x ≤ y) (hd : log (π * y) ≤ d) (hc0 : 0 ≤ c)
    (hc : c * (2 * (1.038 + 3 * d)) ≤ 3 * 2.2493) : c < rn_theory x (-1) := by
  have h1 : log (π * x) ≤ log (π * y) := log_le_log (by positivity) (by gcongr)
  have h0 : 0 ≤ log (π * x) := log_nonneg (by nlinarith [two_le_pi])
  rw [rn_theory_flicker, lt_div_iff₀ (by linarith)]
  have h2 : c * (2 * (1.038 + 3 * log (π * x))) ≤ c * (2 * (1.038 + 3 * d)) := by gcongr; linarith
  linarith [log_ratio_bounds.1]

theorem flicker_lt_half {x : ℝ} (hx : 2 ≤ x) : rn_theory x (-1) < 0.53 := by
  have h1 := log_ge_pow (π * 2) (by positivity) 3
  have h2 := log_two_gt_d9
  have h3 := pi_gt_d6
  have h4 : (2 : ℝ) ^ 3 / (π * 2) ≤ 1.2733 := by
    rw [div_le_iff₀ (by positivity)]
    norm_num at h3 ⊢
    linarith
  refine flicker_le two_pos hx (d := 1.8) ?_ (by norm_num) (by norm_num)
  norm_num at h1 h2 h4 ⊢
  linarith

/-- the boundary lies above the limit for white phase noise -/
theorem rn_wpm_lt {m : ℕ} (hm : 2 ≤ m) : rnSettled m .wpm < rn_boundary m 0 := by
  have hm' : (2 : ℝ) ≤ m := by exact_mod_cast hm
  have hm0 : (0 : ℝ) < m := by linarith
  have h1 := log_le_pow (π * 2) (by positivity) 3
  have h2 := log_two_lt_d9
  have h3 := pi_lt_d6
  have h4 : log (π * m) ≤ log (π * 2) + (m / 2 - 1) := by
    have := log_le_sub_one_of_pos (show (0 : ℝ) < m / 2 by positivity)
    rw [show π * (m : ℝ) = (π * 2) * (m / 2) by ring, log_mul (by positivity) (by positivity)]
    linarith
  have h0 : 0 ≤ log (π * m) := log_nonneg (by nlinarith [two_le_pi])
  have h5 : 1 / (m : ℝ) < rn_theory m (-1) := by
    rw [rn_theory_flicker, div_lt_div_iff₀ hm0 (by linarith)]
    have := log_ratio_bounds.1
    have h6 : 3 * 2.2493 * (m : ℝ) ≤ 3 * log (256 / 27) * m := by gcongr
    norm_num at h1 h2 h3 h6 ⊢
    linarith
  rw [rn_boundary_zero]
  simp only [rnSettled]
  refine lt_sqrt_of_sq_lt ?_
  rw [pow_two]
  exact mul_lt_mul_of_pos_left h5 (by positivity)

theorem rn_wfm_gt {m : ℕ} (hm : 2 ≤ m) : rn_boundary m 0 < rnSettled m .wfm := by
  have hm' : (2 : ℝ) ≤ m := by exact_mod_cast hm
  have hm0 : (0 : ℝ) < m := by linarith
  have h1 := flicker_lt_half hm'
  rw [rn_boundary_zero]
  simp only [rnSettled]
  rw [sqrt_lt' (by positivity)]
  have h2 : 1 / (m : ℝ) * rn_theory m (-1) < 1 / m * 0.53 := by gcongr
  refine h2.trans_le ?_
  rcases Nat.lt_or_ge m 3 with h3 | h3
  · have : m = 2 := by omega
    subst this
    norm_num
  · have h3' : (3 : ℝ) ≤ m := by exact_mod_cast h3
    have h4 : (1 / 2 : ℝ) ≤ ((m : ℝ) ^ 2 + 1) / (2 * (m : ℝ) ^ 2) := by
      rw [div_le_div_iff₀ two_pos (by positivity)]
      linarith
    have h5 : 1 / (m : ℝ) ≤ 1 / 3 := by gcongr
    nlinarith

theorem rn_rwfm_gt {m : ℕ} (hm : 2 ≤ m) : rn_boundary m (-1) < rnSettled m .rwfm := by
  have hm' : (2 : ℝ) ≤ m := by exact_mod_cast hm
  have hm0 : (0 : ℝ) < m := by linarith
  have h1 := flicker_lt_half hm'
  rw [rn_boundary_one]
  simp only [rnSettled]
  have h2 : (0.8 : ℝ) ≤ 3 * (11 * (m : ℝ) ^ 4 + 5 * (m : ℝ) ^ 2 + 4) / (20 * (m : ℝ) ^ 2 * (2 * (m : ℝ) ^ 2 + 1)) := by
    rw [le_div_iff₀ (by positivity)]
    nlinarith [sq_nonneg ((m : ℝ) ^ 2)]
  refine lt_of_lt_of_le ?_ h2
  rw [sqrt_lt' (by norm_num)]
  norm_num at h1 ⊢
  linarith

theorem rn_boundaries_le {m : ℕ} (hm : 1 ≤ m) : rn_boundary m 0 ≤ rn_boundary m (-1) := by
  have hm' : (1 : ℝ) ≤ m := by exact_mod_cast hm
  rw [rn_boundary_zero, rn_boundary_one]
  refine sqrt_le_sqrt ?_
  have h1 : 1 / (m : ℝ) ≤ 1 := by rw [div_le_one (by linarith)]; exact hm'
  have := rn_theory_pos m hm' (-1)
  nlinarith

theorem wfm_antitone {x y : ℕ} (hx : 0 < x) (hxy : x ≤ y) : rnSettled y .wfm ≤ rnSettled x .wfm := by
  have hx' : (0 : ℝ) < x := by exact_mod_cast hx
  have hxy' : (x : ℝ) ≤ y := by exact_mod_cast hxy
  simp only [rnSettled]
  have : 0 < (y : ℝ) := by linarith
  rw [div_le_div_iff₀ (by positivity) (by positivity)]
  nlinarith [mul_nonneg (by linarith : (0 : ℝ) ≤ y - x) (by linarith : (0 : ℝ) ≤ (y : ℝ) + x)]

/-- from factor 20 on the boundary lies below the limit for white frequency noise -/
theorem rn_wfm_right {m : ℕ} (hm : 20 ≤ m) : rn_boundary m (-1) < rnSettled m .wfm := by
  have hm' : (20 : ℝ) ≤ m := by exact_mod_cast hm
  have h2 := log_two_gt_d9
  have h3 := pi_gt_d6
  rw [rn_boundary_one]
  have hp : (0 : ℝ) < rnSettled m .wfm := by simp only [rnSettled]; positivity
  rw [sqrt_lt' hp]
  rcases Nat.lt_or_ge m 21 with h | h
  · have : m = 20 := by omega
    subst this
    have h1 := log_ge_pow (π * 20) (by positivity) 6
    have h4 : (2 : ℝ) ^ 6 / (π * 20) ≤ 1.0186 := by
      rw [div_le_iff₀ (by positivity)]
      norm_num at h3 ⊢
      linarith
    push_cast
    refine flicker_le (by norm_num : (0 : ℝ) < 20) le_rfl (d := 4.14) ?_ (by norm_num) (by simp only [rnSettled]; norm_num)
    norm_num at h1 h2 h4 ⊢
    linarith
  · have h' : (21 : ℝ) ≤ m := by exact_mod_cast h
    have h1 := log_ge_pow (π * 21) (by positivity) 6
    have h4 : (2 : ℝ) ^ 6 / (π * 21) ≤ 0.9702 := by
      rw [div_le_iff₀ (by positivity)]
      norm_num at h3 ⊢
      linarith
    have h5 : rn_theory m (-1) < 1 / 4 := by
      refine flicker_le (by norm_num : (0 : ℝ) < 21) h' (d := 4.188) ?_ (by norm_num) (by norm_num)
      norm_num at h1 h2 h4 ⊢
      linarith
    have h6 : (1 / 2 : ℝ) ≤ rnSettled m .wfm := by
      simp only [rnSettled]
      rw [div_le_div_iff₀ two_pos (by positivity)]
      linarith
    nlinarith

/-- up to factor 19 it lies above -/
theorem rn_wfm_wrong {m : ℕ} (hm : 2 ≤ m) (hm2 : m ≤ 19) : rnSettled m .wfm < rn_boundary m (-1) := by
  have hm' : (2 : ℝ) ≤ m := by exact_mod_cast hm
  have h2 := log_two_lt_d9
  have h3 := pi_lt_d6
  rw [rn_boundary_one]
  have key : ∀ (lo hi : ℕ) (d : ℝ), 0 < lo → lo ≤ m → m ≤ hi → log (π * hi) ≤ d →
      rnSettled lo .wfm ^ 2 * (2 * (1.038 + 3 * d)) ≤ 3 * 2.2493 → rnSettled m .wfm < √(rn_theory m (-1)) := by
    intro lo hi d h0 h1 h2 h3 h4
    refine lt_sqrt_of_sq_lt ?_
    have h5 := wfm_antitone h0 h1
    have h6 : 0 ≤ rnSettled m .wfm := by simp only [rnSettled]; positivity
    refine lt_of_le_of_lt (pow_le_pow_left₀ h6 h5 2) ?_
    exact flicker_ge (by linarith) (by exact_mod_cast h2) h3 (sq_nonneg _) h4
  have l3 := log_le_pow (π * (3 : ℕ)) (by positivity) 3
  have l8 := log_le_pow (π * (8 : ℕ)) (by positivity) 5
  have l16 := log_le_pow (π * (16 : ℕ)) (by positivity) 6
  have l19 := log_le_pow (π * (19 : ℕ)) (by positivity) 6
  norm_num at h2 h3 l3 l8 l16 l19
  rcases Nat.lt_or_ge m 4 with h | h
  · exact key 2 3 2.26 (by norm_num) hm (by omega) (by norm_num; linarith) (by simp only [rnSettled]; norm_num)
  rcases Nat.lt_or_ge m 9 with h' | h'
  · exact key 4 8 3.26 (by norm_num) h (by omega) (by norm_num; linarith) (by simp only [rnSettled]; norm_num)
  rcases Nat.lt_or_ge m 17 with h'' | h''
  · exact key 9 16 3.95 (by norm_num) h' (by omega) (by norm_num; linarith) (by simp only [rnSettled]; norm_num)
  · exact key 17 19 4.0925 (by norm_num) h'' hm2 (by norm_num; linarith) (by simp only [rnSettled]; norm_num)

end bounds

/-! ## Limits -/

variable {Ω : Type} {W : ℕ → Ω → ℝ}

theorem d2_noise (k : Kind) (m : ℕ) : MF W 1 (fun i ω => d2 (noise k (fun j => W j ω)) m i) := by
  cases k
  · exact (((MF.eval (2 * m)).sub ((MF.eval m).smul 2)).add (MF.eval 0)).congr fun i ω => by
      simp [Spec.d2, noise]
  · refine (MF.sum 2 fun b _ => MF.sum m fun k _ => (MF.eval (b * m + k)).smul (if b = 0 then -1 else 1)).congr fun i ω => ?_
    rw [d2_step (u := fun i => W i ω) (wfm_steps ω)]
    simp only [mul_one, add_assoc]
  · refine (MF.sum m fun u _ => MF.sum m fun l _ => MF.eval (u + l)).congr fun i ω => ?_
    simp only [Spec.d2, noise, mul_one]
    rw [two_mul, ← add_assoc, sum_range_add _ (i + m) m, sum_range_add _ i m]
    have e : ∀ u, ∑ l ∈ range m, W (i + (u + l)) ω
        = ∑ k ∈ range (i + m + u), W k ω - ∑ k ∈ range (i + u), W k ω := fun u => by
      rw [show i + m + u = i + u + m by ring, sum_range_add]
      simp only [add_assoc]
      ring
    simp only [e]
    rw [sum_sub_distrib]
    ring

/-- the mean square of a second difference -/
noncomputable def d2Mean (m : ℕ) : Kind → ℝ
  | .wpm => 6
  | .wfm => 2 * m
  | .rwfm => m * (2 * m ^ 2 + 1) / 3

/-- the mean square of the sum of `m` second differences -/
noncomputable def d2SumMean (m : ℕ) : Kind → ℝ
  | .wpm => 6 * m
  | .wfm => m * (m ^ 2 + 1)
  | .rwfm => m * (11 * m ^ 4 + 5 * m ^ 2 + 4) / 20

variable [MeasurableSpace Ω] {P : Measure Ω} [IsProbabilityMeasure P] {s2 : ℝ≥0} (h : NormalNoise P W s2) {m : ℕ}

omit [MeasurableSpace Ω] in
theorem rwfm_second (ω : Ω) (i : ℕ) : noise .rwfm (fun i => W i ω) (i + 2) - 2 * noise .rwfm (fun i => W i ω) (i + 1)
    + noise .rwfm (fun i => W i ω) i = W i ω := by
  simp only [noise, sum_range_succ]
  ring

include h

theorem d2_mean (hm : 0 < m) (k : Kind) : MeanSq P (fun ω => d2 (noise k (fun j => W j ω)) m 0) (d2Mean m k * s2) := by
  cases k
  · exact d2_white (h.white (2 * m + 1)) hm (by omega)
  · exact meanSq_congr (fun ω => by rw [d2_deci, one_mul, zero_mul]) (wfm_moments h (m := m)).2.1
  · exact d2_run (N := 2 * m + 1) rwfm_second (h.white _) m 0 (by omega)

theorem d2Sum_mean (k : Kind) : MeanSq P (fun ω => ∑ i ∈ range m, d2 (noise k (fun j => W j ω)) m (0 + i)) (d2SumMean m k * s2) := by
  cases k
  · exact mdev_white (h.white (3 * m)) (by omega)
  · have h1 := blocks_white (h.white (3 * m)) (le_refl m) (j := 0) 3 (mdevWeight m)
      (fun b hb k hk _ => block_lt (show 0 + (3 - 1) * m + m ≤ 3 * m by omega) hb hk)
    rw [mdevWeight_sq, zero_pow two_ne_zero, zero_mul, add_zero, mul_comm] at h1
    exact meanSq_congr (fun ω => by rw [mdev_step (u := fun i => W i ω) (wfm_steps ω)]) h1
  · exact mdev_run (N := 3 * m) rwfm_second (h.white _) m 0 (by omega)

theorem avar_lim (hm : 0 < m) (k : Kind) :
    InProb P (fun n ω => avarOf (noise k (fun j => W j ω)) m n) (d2Mean m k * s2 / (2 * (m : ℝ) ^ 2)) := by
  have h1 := ((d2_noise (W := W) k m).hop m).inProb h (by omega) (v := d2Mean m k * s2) (by
    simp only [zero_mul]
    exact d2_mean h hm k)
  exact h1.map (fun x => x / (2 * (m : ℝ) ^ 2)) (by fun_prop)

theorem mvar_lim (k : Kind) :
    InProb P (fun n ω => mvarOf (noise k (fun j => W j ω)) m n) (d2SumMean m k * s2 / (2 * (m : ℝ) ^ 4)) := by
  have h1 := (MF.sum m fun u _ => (d2_noise (W := W) k m).shift u).inProb h one_pos (d2Sum_mean h k)
  exact h1.map (fun x => x / (2 * (m : ℝ) ^ 4)) (by fun_prop)

omit [MeasurableSpace Ω] [IsProbabilityMeasure P] h in
theorem d2Mean_pos (hm : 0 < m) (hs : 0 < s2) (k : Kind) : 0 < d2Mean m k * s2 / (2 * (m : ℝ) ^ 2) := by
  have hm0 : (0 : ℝ) < m := by exact_mod_cast hm
  have hs' : (0 : ℝ) < s2 := hs
  cases k <;> simp only [d2Mean] <;> positivity

omit [MeasurableSpace Ω] [IsProbabilityMeasure P] h in
theorem rnSettled_eq (hm : 0 < m) (hs : 0 < s2) (k : Kind) :
    d2SumMean m k * s2 / (2 * (m : ℝ) ^ 4) / (d2Mean m k * s2 / (2 * (m : ℝ) ^ 2)) = rnSettled m k := by
  have hm0 : (0 : ℝ) < m := by exact_mod_cast hm
  have hs' : (0 : ℝ) < s2 := hs
  cases k <;> simp only [d2Mean, d2SumMean, rnSettled] <;> field_simp

omit [IsProbabilityMeasure P] h in
theorem tendsto_groups (hm : 0 < m) : Tendsto (fun N : ℕ => (N - 1) / m) atTop atTop :=
  tendsto_atTop_atTop.2 fun b => ⟨b * m + 1, fun n hn => (Nat.le_div_iff_mul_le hm).2 (by omega)⟩

/-- C80: R(n) settles -/
theorem rn_settles (hs : 0 < s2) (hm : 0 < m) (k : Kind) (a b : Ω → ℝ) {ε δ : ℝ} (hε : 0 < ε) (hδ : 0 < δ) :
    ∀ᶠ N in atTop, P {ω | ¬ ∃ R, rn (noiseData k (a ω) (b ω) (fun i => W i ω) N) m 1 = .ok (some R) ∧ |R - rnSettled m k| < ε} ≤ ENNReal.ofReal δ := by
  have hA := (avar_lim h hm k).comp ((tendsto_sub_atTop 1).comp (tendsto_groups hm))
  have hB := (mvar_lim h (m := m) k).comp (u := fun N => N - 3 * m + 1)
    ((tendsto_add_atTop_nat 1).comp (tendsto_sub_atTop (3 * m)))
  have hp := d2Mean_pos (m := m) hm hs k
  have hR := hB.div hA hp.ne'
  rw [rnSettled_eq hm hs] at hR
  refine (((hR ε hε).and (hA.pos hp)).mono ?_) δ hδ
  filter_upwards [eventually_gt_atTop (4 * m)] with N hN ω hω
  exact ⟨_, rn_data (a ω) (b ω) _ hm hN hω.2, hω.1⟩

/-! ## B1 -/

/-- the mean frequencies over `m` intervals -/
noncomputable def freqOf (k : Kind) (W : ℕ → Ω → ℝ) (m i : ℕ) (ω : Ω) : ℝ := groupFreq (noise k (fun j => W j ω)) m i

omit [MeasurableSpace Ω] [IsProbabilityMeasure P] h in
theorem freqOf_deci (k : Kind) (i : ℕ) (ω : Ω) : freqOf k W m i ω = (m : ℝ)⁻¹ * (deci k W m (i + 1) ω - deci k W m i ω) := by
  simp only [freqOf, groupFreq, deci, add_mul, one_mul]
  ring

omit [IsProbabilityMeasure P] [MeasurableSpace Ω] h in
theorem sampleVar_eq (g : ℕ → ℝ) {M : ℕ} (hM : 1 < M) :
    sampleVar g M = (M : ℝ) / (M - 1) * ((∑ i ∈ range M, g i ^ 2) / M - ((∑ i ∈ range M, g i) / M) ^ 2) := by
  have hM0 : (0 : ℝ) < M := by exact_mod_cast (by omega : 0 < M)
  have hM1 : (M : ℝ) - 1 ≠ 0 := by
    have : (1 : ℝ) < M := by exact_mod_cast hM
    linarith
  have e : ∑ i ∈ range M, (g i - (∑ j ∈ range M, g j) / M) ^ 2 = (∑ i ∈ range M, g i ^ 2) - (∑ i ∈ range M, g i) ^ 2 / M := by
    have : ∀ i, (g i - (∑ j ∈ range M, g j) / M) ^ 2 = g i ^ 2 - 2 * ((∑ j ∈ range M, g j) / M) * g i + ((∑ j ∈ range M, g j) / M) ^ 2 :=
      fun i => by ring
    simp only [this]
    rw [sum_add_distrib, sum_sub_distrib, ← mul_sum, sum_const, card_range, nsmul_eq_mul]
    field_simp
    ring
  rw [sampleVar, e]
  field_simp

/-- the sample variance settles at the mean square -/
theorem sampleVar_lim {f : ℕ → Ω → ℝ} {S : ℕ} (hf : MF W S f) (hS : 0 < S) {v : ℝ} (hv : MeanSq P (f 0) v) :
    InProb P (fun n ω => sampleVar (fun i => f i ω) n) v := by
  have h1 := (hf.inProb h hS hv).sub ((hf.mean_inProb h hS).map (fun x => x ^ 2) (by fun_prop))
  have h2 : Tendsto (fun n : ℕ => (n : ℝ) / (n - 1)) atTop (nhds 1) := by
    have := tendsto_natCast_div_add_atTop (𝕜 := ℝ) (-1)
    simpa only [← sub_eq_add_neg] using this
  have h3 := (InProb.of_tendsto (P := P) h2).mul h1
  simp only [one_mul, ne_eq, OfNat.ofNat_ne_zero, not_false_eq_true, zero_pow, sub_zero] at h3
  refine h3.congr ?_
  filter_upwards [eventually_gt_atTop 1] with n hn ω
  exact sampleVar_eq _ hn

/-- C80: B1 of white phase noise settles at 2/3 and B1 of white frequency noise at 1 -/
theorem b1_settles (hs : 0 < s2) (hm : 0 < m) (k : Kind) (hk : k ≠ .rwfm) (a b : Ω → ℝ) {ε δ : ℝ} (hε : 0 < ε) (hδ : 0 < δ) :
    ∀ᶠ N in atTop, P {ω | ¬ ∃ R, b1 (noiseData k (a ω) (b ω) (fun i => W i ω) N) m 1 = .ok (some R) ∧
      |R - (if k = .wpm then 2 / 3 else 1)| < ε} ≤ ENNReal.ofReal δ := by
  have hm0 : (0 : ℝ) < m := by exact_mod_cast hm
  have hs' : (0 : ℝ) < s2 := hs
  have hA := (avar_lim h hm k).comp ((tendsto_sub_atTop 1).comp (tendsto_groups hm))
  have hp := d2Mean_pos (m := m) hm hs k
  obtain ⟨v, hQ, hv⟩ : ∃ v, InProb P (fun n ω => sampleVar (fun i => freqOf k W m i ω) n) v ∧
      v / (d2Mean m k * s2 / (2 * (m : ℝ) ^ 2)) = if k = .wpm then 2 / 3 else 1 := by
    cases k
    · refine ⟨_, sampleVar_lim h (f := freqOf .wpm W m)
        (((((deci_wpm (W := W) m).shift 1).sub (deci_wpm m)).smul (m : ℝ)⁻¹).congr fun i ω => freqOf_deci _ i ω) hm
        (meanSq_congr (fun ω => by rw [freqOf_deci]) (meanSq_const_mul (m : ℝ)⁻¹ (wpm_moments h hm).2.1)), ?_⟩
      rw [if_pos rfl]
      simp only [d2Mean]
      field_simp
      norm_num
    · refine ⟨_, sampleVar_lim h (f := freqOf .wfm W m)
        (((deci_wfm (W := W) m).smul (m : ℝ)⁻¹).congr fun i ω => freqOf_deci _ i ω) hm
        (meanSq_congr (fun ω => by rw [freqOf_deci]) (meanSq_const_mul (m : ℝ)⁻¹ (wfm_moments h).1)), ?_⟩
      rw [if_neg (by decide)]
      simp only [d2Mean]
      field_simp
    · exact absurd rfl hk
  have hR := (hQ.comp (tendsto_groups hm)).div hA hp.ne'
  rw [hv] at hR
  refine (((hR ε hε).and (hA.pos hp)).mono ?_) δ hδ
  filter_upwards [eventually_gt_atTop (4 * m)] with N hN ω hω
  exact ⟨_, b1_data (a ω) (b ω) _ hm hN hω.2, hω.1⟩

/-! ## The random walk of the frequency -/

omit [MeasurableSpace Ω] [IsProbabilityMeasure P] h in
/-- differences of the mean frequencies of a random walk -/
theorem walk_diff (L i : ℕ) (ω : Ω) : freqOf .rwfm W m (i + L) ω - freqOf .rwfm W m i ω
    = (∑ u ∈ range m, ∑ l ∈ range (L * m), W (i * m + (u + l)) ω) / m := by
  simp only [freqOf, groupFreq, noise]
  rw [sum_range_add _ ((i + L) * m) m, sum_range_add _ (i * m) m]
  have e : ∀ u, ∑ l ∈ range (L * m), W (i * m + (u + l)) ω
      = ∑ k ∈ range ((i + L) * m + u), W k ω - ∑ k ∈ range (i * m + u), W k ω := fun u => by
    rw [show (i + L) * m + u = i * m + u + L * m by ring, sum_range_add]
    simp only [add_assoc]
    ring
  simp only [e]
  rw [sum_sub_distrib]
  ring

/-- the mean squares of the differences over many intervals are large -/
theorem walk_spread (hm : 0 < m) (L n : ℕ) (hn : 0 < n) :
    P {ω | ∑ i ∈ range n, (freqOf .rwfm W m (i + L) ω - freqOf .rwfm W m i ω) ^ 2 < n * (s2 * (L ^ 2 * m / (2 * (L + 1))))}
      ≤ ENNReal.ofReal (8 * (1 + 2 * L) / n) := by
  have hm0 : (0 : ℝ) < m := by exact_mod_cast hm
  have hn0 : (0 : ℝ) < n := by exact_mod_cast hn
  have hl : LF ((L + 1) * m) (fun x => (∑ u ∈ range m, ∑ l ∈ range (L * m), x (u + l)) / m) := by
    refine LF.div (LF.sum _ fun u hu => LF.sum _ fun l hl => LF.eval ?_) _
    rw [mem_range] at hu hl
    rw [add_mul, one_mul]
    omega
  obtain ⟨c, hc⟩ := hl
  have h1 : (∑ k ∈ range ((L + 1) * m), c k) = L * m := by
    have := hc (fun _ => 1)
    simp only [mul_one, sum_const, card_range, nsmul_eq_mul] at this
    rw [← this]
    push_cast
    field_simp
  set v : ℝ := ∑ k ∈ range ((L + 1) * m), c k ^ 2 with hv
  have hv1 : (L : ℝ) ^ 2 * m ≤ (L + 1) * v := by
    have := sq_sum_le_card_mul_sum_sq (s := range ((L + 1) * m)) (f := c)
    rw [h1, card_range] at this
    push_cast at this
    have h2 : (m : ℝ) * (L ^ 2 * m) ≤ m * ((L + 1) * v) := by
      refine le_trans (le_of_eq ?_) (this.trans_eq ?_) <;> ring
    exact le_of_mul_le_mul_left h2 hm0
  set D : Ω → ℝ := fun ω => √(1 / n * ∑ i ∈ range n, (freqOf .rwfm W m (i + L) ω - freqOf .rwfm W m i ω) ^ 2)
  have hD : ∀ ω, D ω ^ 2 = 1 / n * ∑ i ∈ range n, (freqOf .rwfm W m (i + L) ω - freqOf .rwfm W m i ω) ^ 2 := fun ω =>
    Real.sq_sqrt (mul_nonneg (by positivity) (sum_nonneg fun _ _ => sq_nonneg _))
  have hU : QF ((L + 1) * m) (fun x => (∑ k ∈ range ((L + 1) * m), c k * x k) ^ 2) := LF.sq ⟨c, fun _ => rfl⟩
  have hlin : ∀ i ω, freqOf .rwfm W m (i + L) ω - freqOf .rwfm W m i ω = ∑ k ∈ range ((L + 1) * m), c k * W (i * m + k) ω := fun i ω => by
    rw [walk_diff, ← hc fun k => W (i * m + k) ω]
  obtain ⟨u, hu⟩ := relVar_blocks hU
  obtain ⟨m1, m2⟩ := hu Ω P W s2 h m n L hn le_rfl D (fun ω => by rw [hD]; simp only [hlin])
  have eu : (s2 : ℝ) * u = s2 * v := by
    have h1 := (hu Ω P W s2 h m 1 L one_pos le_rfl (fun ω => |∑ k ∈ range ((L + 1) * m), c k * W k ω|) (fun ω => by
      rw [sq_abs]; simp)).1.2
    have h2 := lin_prod h ((L + 1) * m) c c
    simp only [sq_abs] at h1
    rw [← h1, hv]
    simpa only [Lin, ← pow_two] using h2
  rw [eu] at m1
  have hv0 : 0 ≤ v := sum_nonneg fun _ _ => sq_nonneg _
  have hs0 : (0 : ℝ) ≤ s2 := s2.2
  have hlow : (s2 : ℝ) * (L ^ 2 * m / (2 * (L + 1))) ≤ s2 * v / 2 := by
    rw [show (s2 : ℝ) * v / 2 = s2 * (v / 2) by ring]
    refine mul_le_mul_of_nonneg_left ?_ hs0
    rw [div_le_div_iff₀ (by positivity) two_pos]
    nlinarith
  rcases eq_or_lt_of_le (mul_nonneg hs0 hv0) with h0 | h0
  · have e : {ω | ∑ i ∈ range n, (freqOf .rwfm W m (i + L) ω - freqOf .rwfm W m i ω) ^ 2 < n * (s2 * (L ^ 2 * m / (2 * (L + 1))))} = ∅ := by
      ext ω
      simp only [Set.mem_ofPred_eq, Set.mem_empty_iff_false, iff_false, not_lt]
      refine le_trans ?_ (sum_nonneg fun _ _ => sq_nonneg _)
      rw [← h0] at hlow
      nlinarith
    rw [e, measure_empty]
    exact zero_le
  have hch := meas_ge_le_variance_div_sq m2.1 (half_pos h0)
  refine (measure_mono fun ω hω => ?_).trans (hch.trans (ENNReal.ofReal_le_ofReal ?_))
  · simp only [Set.mem_ofPred_eq] at hω ⊢
    rw [m1.2, hD]
    have h2 : 1 / (n : ℝ) * ∑ i ∈ range n, (freqOf .rwfm W m (i + L) ω - freqOf .rwfm W m i ω) ^ 2 < s2 * v / 2 := by
      rw [one_div, ← div_eq_inv_mul, div_lt_iff₀ hn0]
      nlinarith
    rw [abs_of_neg (by linarith)]
    linarith
  · have h2 := m2.2
    rw [m1.2] at h2
    rw [div_le_iff₀ (by positivity)]
    refine h2.trans_eq ?_
    field_simp
    ring

omit [MeasurableSpace Ω] [IsProbabilityMeasure P] h in
/-- differences are at most twice the deviations from any value -/
theorem spread_le (y : ℕ → ℝ) (c : ℝ) {M L : ℕ} :
    ∑ i ∈ range (M - L), (y (i + L) - y i) ^ 2 ≤ 4 * ∑ i ∈ range M, (y i - c) ^ 2 := by
  rcases Nat.lt_or_ge M L with hL | hL
  · rw [show M - L = 0 by omega, sum_range_zero]
    exact mul_nonneg (by norm_num) (sum_nonneg fun _ _ => sq_nonneg _)
  have h1 : ∑ i ∈ range (M - L), (y (i + L) - c) ^ 2 ≤ ∑ i ∈ range M, (y i - c) ^ 2 := by
    have e := sum_range_add (fun i => (y i - c) ^ 2) L (M - L)
    rw [show L + (M - L) = M by omega] at e
    rw [e]
    simp only [add_comm L]
    linarith [sum_nonneg (s := range L) fun i _ => sq_nonneg (y i - c)]
  have h2 : ∑ i ∈ range (M - L), (y i - c) ^ 2 ≤ ∑ i ∈ range M, (y i - c) ^ 2 :=
    sum_le_sum_of_subset_of_nonneg (range_subset_range.2 (Nat.sub_le M L)) fun _ _ _ => sq_nonneg _
  have h3 : ∑ i ∈ range (M - L), (y (i + L) - y i) ^ 2
      ≤ ∑ i ∈ range (M - L), (2 * (y (i + L) - c) ^ 2 + 2 * (y i - c) ^ 2) := sum_le_sum fun i _ => by
    nlinarith [sq_nonneg (y (i + L) - c + (y i - c))]
  rw [sum_add_distrib, ← mul_sum, ← mul_sum] at h3
  linarith

omit [MeasurableSpace Ω] [IsProbabilityMeasure P] h in
/-- the mean is the value nearest to all -/
theorem spread_mean_le (y : ℕ → ℝ) (c : ℝ) {M : ℕ} (hM : 0 < M) :
    ∑ i ∈ range M, (y i - (∑ j ∈ range M, y j) / M) ^ 2 ≤ ∑ i ∈ range M, (y i - c) ^ 2 := by
  have hM0 : (0 : ℝ) < M := by exact_mod_cast hM
  set μ := (∑ j ∈ range M, y j) / M with hμ
  have hs : ∑ j ∈ range M, y j = M * μ := by rw [hμ]; field_simp
  have e : ∑ i ∈ range M, (y i - c) ^ 2 = ∑ i ∈ range M, (y i - μ) ^ 2 + M * (μ - c) ^ 2 := by
    have h1 : ∀ i, (y i - c) ^ 2 = (y i - μ) ^ 2 + (2 * (μ - c) * y i - 2 * (μ - c) * μ + (μ - c) ^ 2) := fun i => by ring
    simp only [h1]
    rw [sum_add_distrib, sum_add_distrib, sum_sub_distrib, ← mul_sum, hs]
    simp only [sum_const, card_range, nsmul_eq_mul]
    ring
  rw [e]
  nlinarith [sq_nonneg (μ - c)]

omit [MeasurableSpace Ω] [IsProbabilityMeasure P] h in
/-- `q` is about the fourth root of `M` -/
theorem fourth_root (M : ℕ) : ∃ q : ℕ, q = Nat.sqrt (Nat.sqrt M) ∧ q ^ 4 ≤ M ∧ M < (q + 1) ^ 4 := by
  refine ⟨_, rfl, ?_, ?_⟩
  · have h1 := Nat.sqrt_le' (Nat.sqrt M)
    have h2 := Nat.sqrt_le' M
    calc Nat.sqrt (Nat.sqrt M) ^ 4 = (Nat.sqrt (Nat.sqrt M) ^ 2) ^ 2 := by ring
      _ ≤ Nat.sqrt M ^ 2 := Nat.pow_le_pow_left h1 2
      _ ≤ M := h2
  · have h1 := Nat.succ_le_of_lt (Nat.lt_succ_sqrt' (Nat.sqrt M))
    have h2 := Nat.lt_succ_sqrt' M
    calc M < (Nat.sqrt M + 1) ^ 2 := h2
      _ ≤ ((Nat.sqrt (Nat.sqrt M) + 1) ^ 2) ^ 2 := Nat.pow_le_pow_left h1 2
      _ = (Nat.sqrt (Nat.sqrt M) + 1) ^ 4 := by ring

omit [MeasurableSpace Ω] [IsProbabilityMeasure P] h in
theorem tendsto_fourth : Tendsto (fun M : ℕ => Nat.sqrt (Nat.sqrt M)) atTop atTop :=
  tendsto_atTop_atTop.2 fun b => ⟨b ^ 4, fun n hn => by
    rw [Nat.le_sqrt', Nat.le_sqrt']
    calc (b ^ 2) ^ 2 = b ^ 4 := by ring
      _ ≤ n := hn⟩

/-- the sample variance of a random walk is not small -/
theorem walk_lower (hm : 0 < m) : Whp P (fun M ω => (s2 : ℝ) * m / 32 * (Nat.sqrt (Nat.sqrt M) : ℝ) ^ 3
    ≤ sampleVar (fun i => freqOf .rwfm W m i ω) M) := by
  intro δ hδ
  have hm0 : (0 : ℝ) < m := by exact_mod_cast hm
  have hs0 : (0 : ℝ) ≤ s2 := s2.2
  obtain ⟨B, hB⟩ := exists_nat_gt (48 / δ)
  filter_upwards [tendsto_fourth.eventually (eventually_ge_atTop (B + 2))] with M hM
  obtain ⟨q, hq, h1, -⟩ := fourth_root M
  rw [← hq] at hM ⊢
  have hq2 : 2 ≤ q := by omega
  have hL : 2 * q ^ 3 ≤ M := by
    calc 2 * q ^ 3 ≤ q * q ^ 3 := Nat.mul_le_mul_right _ hq2
      _ = q ^ 4 := by ring
      _ ≤ M := h1
  have hq3 : 1 ≤ q ^ 3 := Nat.one_le_pow _ _ (by omega)
  have hn : 0 < M - q ^ 3 := by omega
  have hnR : (M : ℝ) / 2 ≤ ((M - q ^ 3 : ℕ) : ℝ) := by
    rw [Nat.cast_sub (by omega)]
    have : (2 : ℝ) * ((q ^ 3 : ℕ) : ℝ) ≤ M := by exact_mod_cast hL
    linarith
  have hM1 : (1 : ℝ) < M := by exact_mod_cast (by omega : 1 < M)
  refine le_trans (measure_mono fun ω hω => ?_) ((walk_spread h hm (q ^ 3) (M - q ^ 3) hn).trans (ENNReal.ofReal_le_ofReal ?_))
  · simp only [Set.mem_ofPred_eq, not_le] at hω ⊢
    have h2 := spread_le (fun i => freqOf .rwfm W m i ω) ((∑ j ∈ range M, freqOf .rwfm W m j ω) / M) (M := M) (L := q ^ 3)
    refine lt_of_le_of_lt h2 ?_
    rw [sampleVar, div_lt_iff₀ (by linarith)] at hω
    have hL1 : (1 : ℝ) ≤ ((q ^ 3 : ℕ) : ℝ) := by exact_mod_cast hq3
    have e : ((q ^ 3 : ℕ) : ℝ) = (q : ℝ) ^ 3 := by push_cast; ring
    rw [e] at hL1 ⊢
    set L : ℝ := (q : ℝ) ^ 3
    have h3 : L * m / 4 ≤ L ^ 2 * m / (2 * (L + 1)) := by
      rw [div_le_div_iff₀ (by norm_num) (by linarith)]
      nlinarith [mul_nonneg (mul_nonneg (by linarith : (0 : ℝ) ≤ L) hm0.le) (by linarith : (0 : ℝ) ≤ L - 1)]
    have h4 : (M : ℝ) / 2 * (s2 * (L * m / 4)) ≤ ((M - q ^ 3 : ℕ) : ℝ) * (s2 * (L ^ 2 * m / (2 * (L + 1)))) := by
      have : (0 : ℝ) ≤ L * m / 4 := by positivity
      gcongr
    have h5 : (s2 : ℝ) * m / 32 * L * (M - 1) ≤ s2 * m / 32 * L * M := by
      have : (0 : ℝ) ≤ s2 * m / 32 * L := by positivity
      nlinarith
    linarith
  · have hMq : (q : ℝ) ^ 4 ≤ M := by exact_mod_cast h1
    have hq0 : (0 : ℝ) < q := by exact_mod_cast (by omega : 0 < q)
    have hq1 : (1 : ℝ) ≤ (q : ℝ) ^ 3 := by exact_mod_cast hq3
    have hδq : 48 ≤ δ * q := by
      rw [div_lt_iff₀ hδ] at hB
      have : (B : ℝ) ≤ q := by exact_mod_cast (by omega : B ≤ q)
      nlinarith
    push_cast
    rw [div_le_iff₀ (by linarith)]
    calc 8 * (1 + 2 * (q : ℝ) ^ 3) ≤ 48 * q ^ 3 / 2 := by linarith
      _ ≤ δ * q * q ^ 3 / 2 := by gcongr
      _ = δ * (q ^ 4 / 2) := by ring
      _ ≤ δ * (M / 2) := by gcongr
      _ ≤ _ := by gcongr

/-- the sample variance of a random walk does not grow much faster than the number of samples -/
theorem walk_upper (hm : 0 < m) {ε : ℝ} (hε : 0 < ε) :
    Whp P (fun M ω => sampleVar (fun i => freqOf .rwfm W m i ω) M < ε * (M * √M)) := by
  have hd : MF W m (fun i ω => freqOf .rwfm W m (i + 1) ω - freqOf .rwfm W m i ω) :=
    ((deci_rwfm m).smul (m : ℝ)⁻¹).congr fun j ω => by
      simp only [freqOf_deci, Spec.d2, mul_one, show j + 1 + 1 = j + 2 from rfl]
      ring
  obtain ⟨V, hV0, hV⟩ := hd.sum_sq h hm
  have hsum : ∀ i ω, ∑ j ∈ range i, (freqOf .rwfm W m (j + 1) ω - freqOf .rwfm W m j ω) = freqOf .rwfm W m i ω - freqOf .rwfm W m 0 ω :=
    fun i ω => sum_range_sub (fun j => freqOf .rwfm W m j ω) i
  simp only [hsum] at hV
  set X : ℕ → Ω → ℝ := fun M ω => (∑ i ∈ range M, (freqOf .rwfm W m i ω - freqOf .rwfm W m 0 ω) ^ 2) / ((M : ℝ) ^ 2 * √M) with hX
  have ht : Tendsto (fun n : ℕ => V / √n) atTop (nhds 0) :=
    tendsto_const_nhds.div_atTop (Real.tendsto_sqrt_atTop.comp tendsto_natCast_atTop_atTop)
  have h1 := whp_of_mean (P := P) (X := X) (c := fun n : ℕ => V / √n)
    (fun n ω => div_nonneg (sum_nonneg fun _ _ => sq_nonneg _) (by positivity))
    (fun n => (integrable_finsetSum _ fun i _ => (hV i).1).div_const _) (fun n => by
      simp only [hX]
      rw [integral_div, integral_finsetSum _ fun i _ => (hV i).1]
      rcases Nat.eq_zero_or_pos n with rfl | hn
      · simp
      have hn0 : (0 : ℝ) < n := by exact_mod_cast hn
      have hsq : 0 < √(n : ℝ) := Real.sqrt_pos.2 hn0
      have : ∑ i ∈ range n, ∫ ω, (freqOf .rwfm W m i ω - freqOf .rwfm W m 0 ω) ^ 2 ∂P ≤ V * (n : ℝ) ^ 2 := by
        refine (sum_le_sum (g := fun _ => V * (n : ℝ)) fun i hi => (hV i).2.trans ?_).trans_eq ?_
        · have : (i : ℝ) ≤ n := by exact_mod_cast (mem_range.1 hi).le
          gcongr
        · rw [sum_const, card_range, nsmul_eq_mul]
          ring
      rw [div_le_div_iff₀ (by positivity) hsq]
      nlinarith) ht (half_pos hε)
  refine h1.mono ?_
  filter_upwards [eventually_gt_atTop 1] with M hM ω hω
  have hM1 : (2 : ℝ) ≤ M := by exact_mod_cast hM
  have hsq : 0 < √(M : ℝ) := Real.sqrt_pos.2 (by linarith)
  have h2 := spread_mean_le (fun i => freqOf .rwfm W m i ω) (freqOf .rwfm W m 0 ω) (M := M) (by omega)
  simp only [hX] at hω
  rw [div_lt_iff₀ (by positivity)] at hω
  rw [sampleVar, div_lt_iff₀ (by linarith)]
  have h3 : ε / 2 * ((M : ℝ) ^ 2 * √M) ≤ ε * (M * √M) * (M - 1) := by
    have : 0 ≤ ε * (M * √M) * (M / 2 - 1) := mul_nonneg (by positivity) (by linarith)
    nlinarith
  linarith

/-! ## The decision boundaries of B1 -/

/-- the exponent of the noise in the numbering of `b1_boundary`; white phase noise has the same B1 as the flicker
phase noise with the exponent -1 -/
def Spec.bExponent : Kind → ℤ
  | .wpm => -1
  | .wfm => -2
  | .rwfm => -4

omit [MeasurableSpace Ω] [IsProbabilityMeasure P] h in
theorem b1_boundary_values {M : ℕ} (hM : 2 ≤ M) :
    b1_boundary (-1) M = .ok (some √(1 * (((M : ℝ) ^ 2 - 1) / (1.5 * M * (M - 1))))) ∧
    b1_boundary (-2) M = .ok (some √((M : ℝ) * Real.log M / (2 * (M - 1) * Real.log 2) * 1)) ∧
    b1_boundary (-3) M = .ok (some √((M : ℝ) / 2 * ((M : ℝ) * Real.log M / (2 * (M - 1) * Real.log 2)))) ∧
    b1_boundary (-4) M = .ok (some √((M : ℝ) * (M + 1) / 6 * ((M : ℝ) / 2))) := by
  have hM' : (2 : ℝ) ≤ M := by exact_mod_cast hM
  have hden : (1.5 : ℝ) * M * (M - 1) ≠ 0 := mul_ne_zero (mul_ne_zero (by norm_num) (by linarith)) (by linarith)
  have t2 : b1_theory M 2 = .ok (some ((M : ℝ) * (M + 1) / 6)) := by simp [b1_theory]
  have t1 : b1_theory M 1 = .ok (some ((M : ℝ) / 2)) := by simp [b1_theory]
  have t0 : b1_theory M 0 = .ok (some ((M : ℝ) * Real.log M / (2 * (M - 1) * Real.log 2))) := by
    unfold b1_theory
    rw [if_neg (by norm_num), if_neg (by norm_num), if_pos rfl, if_neg (by omega)]
  have tm1 : b1_theory M (-1) = .ok (some 1) := by simp [b1_theory]
  have tm2 : b1_theory M (-2) = .ok (some (((M : ℝ) ^ 2 - 1) / (1.5 * M * (M - 1)))) := by
    unfold b1_theory
    rw [if_neg (by norm_num), if_neg (by norm_num), if_neg (by norm_num), if_neg (by norm_num), if_pos rfl, pyDiv_ne hden]
    rfl
  have main : ∀ (b mulo muhi : ℤ) (lo hi : ℝ), -5 ≤ b → b ≤ 0 → b_to_mu (b - 1) = .ok mulo → b_to_mu b = .ok muhi →
      b1_theory M mulo = .ok (some lo) → b1_theory M muhi = .ok (some hi) → b1_boundary b M = .ok (some √(lo * hi)) := by
    intro b mulo muhi lo hi hb0 hb1 e1 e2 e3 e4
    obtain ⟨mulo', muhi', lo', hi', v, f1, f2, f3, f4, f5, f6, -⟩ := b1_boundary_between M hM b hb0 hb1
    rw [e1] at f1
    rw [e2] at f2
    cases f1
    cases f2
    rw [e3] at f3
    rw [e4] at f4
    cases f3
    cases f4
    rw [f5, f6]
  exact ⟨main (-1) (-1) (-2) _ _ (by norm_num) (by norm_num) rfl rfl tm1 tm2,
    main (-2) 0 (-1) _ _ (by norm_num) (by norm_num) rfl rfl t0 tm1,
    main (-3) 1 0 _ _ (by norm_num) (by norm_num) rfl rfl t1 t0,
    main (-4) 2 1 _ _ (by norm_num) (by norm_num) rfl rfl t2 t1⟩

omit [MeasurableSpace Ω] [IsProbabilityMeasure P] h in
/-- the boundary between phase noise and white frequency noise lies between 0.8 and 0.95 -/
theorem b1_low_bound {M : ℕ} (hM : 8 ≤ M) : (0.8 : ℝ) < √(1 * (((M : ℝ) ^ 2 - 1) / (1.5 * M * (M - 1)))) ∧
    √(1 * (((M : ℝ) ^ 2 - 1) / (1.5 * M * (M - 1)))) < 0.95 := by
  have hM' : (8 : ℝ) ≤ M := by exact_mod_cast hM
  have hd : (0 : ℝ) < 1.5 * M * (M - 1) := mul_pos (by linarith) (by linarith)
  constructor
  · refine Real.lt_sqrt_of_sq_lt ?_
    rw [one_mul, lt_div_iff₀ hd]
    nlinarith
  · rw [Real.sqrt_lt' (by norm_num), one_mul, div_lt_iff₀ hd]
    nlinarith

omit [MeasurableSpace Ω] [IsProbabilityMeasure P] h in
/-- the boundary between white and flicker frequency noise is greater than 2 -/
theorem b1_mid_bound {M : ℕ} (hM : 256 < M) : (2 : ℝ) < √((M : ℝ) * Real.log M / (2 * (M - 1) * Real.log 2) * 1) := by
  have hM' : (256 : ℝ) < M := by exact_mod_cast hM
  have hl2 : 0 < Real.log 2 := Real.log_pos one_lt_two
  have hd : (0 : ℝ) < 2 * (M - 1) * Real.log 2 := mul_pos (mul_pos two_pos (by linarith)) hl2
  have h1 : 8 * Real.log 2 ≤ Real.log M := by
    have : Real.log (2 ^ 8 : ℝ) ≤ Real.log M := Real.log_le_log (by norm_num) (by norm_num; linarith)
    rwa [Real.log_pow] at this
  refine Real.lt_sqrt_of_sq_lt ?_
  rw [mul_one, lt_div_iff₀ hd]
  have h2 : (M : ℝ) * (8 * Real.log 2) ≤ M * Real.log M := by gcongr
  nlinarith

omit [MeasurableSpace Ω] [IsProbabilityMeasure P] h in
/-- the boundary between flicker noise and random walk of the frequency grows slower than the 3/4-th power -/
theorem b1_high_bound (K : ℝ) : ∀ᶠ M : ℕ in atTop,
    K * √((M : ℝ) / 2 * ((M : ℝ) * Real.log M / (2 * (M - 1) * Real.log 2))) < (Nat.sqrt (Nat.sqrt M) : ℝ) ^ 3 := by
  obtain ⟨B, hB⟩ := exists_nat_gt (128 * K ^ 2)
  filter_upwards [tendsto_fourth.eventually (eventually_ge_atTop (B + 1)), eventually_ge_atTop 2] with M hM hM2
  obtain ⟨q, hq, -, h2⟩ := fourth_root M
  rw [← hq] at hM ⊢
  have hq1 : (1 : ℝ) ≤ q := by exact_mod_cast (by omega : 1 ≤ q)
  have hqB : 128 * K ^ 2 < q := by
    have : (B : ℝ) ≤ q := by exact_mod_cast (by omega : B ≤ q)
    linarith
  have hM' : (2 : ℝ) ≤ M := by exact_mod_cast hM2
  have hl2 := Real.log_two_gt_d9
  have hlog0 : 0 ≤ Real.log M := Real.log_nonneg (by linarith)
  have hMq : (M : ℝ) ≤ (q + 1) ^ 4 := by exact_mod_cast h2.le
  have hlog : Real.log M ≤ 4 * q := by
    have h3 : Real.log M ≤ Real.log (((q : ℝ) + 1) ^ 4) := Real.log_le_log (by linarith) hMq
    rw [Real.log_pow] at h3
    have h4 := Real.log_le_sub_one_of_pos (show (0 : ℝ) < q + 1 by linarith)
    push_cast at h3
    linarith
  have h5 : (M : ℝ) / 2 * ((M : ℝ) * Real.log M / (2 * (M - 1) * Real.log 2)) ≤ M * Real.log M := by
    rw [div_mul_div_comm, div_le_iff₀ (mul_pos two_pos (mul_pos (mul_pos two_pos (by linarith)) (by linarith)))]
    have h6 : (M : ℝ) ≤ 2 * (2 * (M - 1) * Real.log 2) := by nlinarith
    have h7 : 0 ≤ (M : ℝ) * Real.log M := by positivity
    nlinarith
  have h8 : (M : ℝ) * Real.log M ≤ (q + 1) ^ 4 * (4 * q) := by gcongr
  have h9 : ((q : ℝ) + 1) ^ 4 ≤ (2 * q) ^ 4 := by gcongr; linarith
  refine lt_of_le_of_lt (le_abs_self _) (abs_lt_of_sq_lt_sq ?_ (by positivity))
  rw [mul_pow, Real.sq_sqrt (mul_nonneg (by positivity)
    (div_nonneg (by positivity) (mul_nonneg (mul_nonneg two_pos.le (by linarith)) (by linarith))))]
  have h10 : (M : ℝ) / 2 * ((M : ℝ) * Real.log M / (2 * (M - 1) * Real.log 2)) ≤ 64 * (q : ℝ) ^ 5 := by
    have : ((q : ℝ) + 1) ^ 4 * (4 * q) ≤ (2 * q) ^ 4 * (4 * q) := by gcongr
    nlinarith
  have h11 : K ^ 2 * ((M : ℝ) / 2 * ((M : ℝ) * Real.log M / (2 * (M - 1) * Real.log 2))) ≤ K ^ 2 * (64 * (q : ℝ) ^ 5) := by gcongr
  have h12 : 128 * K ^ 2 * (q : ℝ) ^ 5 < q * q ^ 5 := by gcongr
  have h13 : 0 ≤ K ^ 2 * (q : ℝ) ^ 5 := by positivity
  rw [show ((q : ℝ) ^ 3) ^ 2 = q * q ^ 5 by ring]
  linarith

/-- C80: the decision boundaries of B1 identify the noise -/
theorem b1_identifies (hs : 0 < s2) (hm : 0 < m) (k : Kind) (a b : Ω → ℝ) {δ : ℝ} (hδ : 0 < δ) :
    ∀ᶠ N in atTop, P {ω | ¬ ∃ R hi, b1 (noiseData k (a ω) (b ω) (fun i => W i ω) N) m 1 = .ok (some R) ∧
      b1_boundary (bExponent k) ((N - 1) / m) = .ok (some hi) ∧ R < hi ∧
      (k ≠ .wpm → ∃ lo, b1_boundary (bExponent k + 1) ((N - 1) / m) = .ok (some lo) ∧ lo < R)} ≤ ENNReal.ofReal δ := by
  have hG := tendsto_groups (m := m) hm
  cases k
  · refine (Whp.mono (E := fun N ω => ∃ R, b1 (noiseData .wpm (a ω) (b ω) (fun i => W i ω) N) m 1 = .ok (some R) ∧
      |R - (if Kind.wpm = .wpm then 2 / 3 else 1)| < 0.1) (fun δ hδ => b1_settles h hs hm .wpm (by decide) a b (by norm_num) hδ) ?_) δ hδ
    filter_upwards [hG.eventually (eventually_ge_atTop 8)] with N hN ω
    rintro ⟨R, h1, h2⟩
    rw [if_pos rfl] at h2
    refine ⟨R, _, h1, (b1_boundary_values (by omega)).1, ?_, fun h => absurd rfl h⟩
    have := (b1_low_bound hN).1
    linarith [(abs_lt.1 h2).2]
  · refine (Whp.mono (E := fun N ω => ∃ R, b1 (noiseData .wfm (a ω) (b ω) (fun i => W i ω) N) m 1 = .ok (some R) ∧
      |R - (if Kind.wfm = .wpm then 2 / 3 else 1)| < 0.05) (fun δ hδ => b1_settles h hs hm .wfm (by decide) a b (by norm_num) hδ) ?_) δ hδ
    filter_upwards [hG.eventually (eventually_gt_atTop 256)] with N hN ω
    rintro ⟨R, h1, h2⟩
    rw [if_neg (by decide)] at h2
    refine ⟨R, _, h1, (b1_boundary_values (by omega)).2.1, ?_, fun _ => ⟨_, (b1_boundary_values (by omega)).1, ?_⟩⟩
    · have := b1_mid_bound hN
      linarith [(abs_lt.1 h2).2]
    · have := (b1_low_bound (by omega : 8 ≤ (N - 1) / m)).2
      linarith [(abs_lt.1 h2).1]
  · have hm0 : (0 : ℝ) < m := by exact_mod_cast hm
    have hs' : (0 : ℝ) < s2 := hs
    have hA := (avar_lim h hm .rwfm).comp ((tendsto_sub_atTop 1).comp hG)
    have hp := d2Mean_pos (m := m) hm hs .rwfm
    set v := d2Mean m .rwfm * s2 / (2 * (m : ℝ) ^ 2)
    have hU := (walk_upper h hm (ε := v / 8) (by positivity)).comp hG
    have hL := (walk_lower h hm).comp hG
    refine (((hA (v / 2) (by positivity)).and (hU.and hL)).mono ?_) δ hδ
    filter_upwards [hG.eventually (b1_high_bound (2 * v * 32 / (s2 * m))), hG.eventually (eventually_ge_atTop 2),
      eventually_gt_atTop (4 * m)] with N hN hN2 hN4 ω hω
    obtain ⟨h1, h2, h3⟩ := hω
    have h1' := abs_lt.1 h1
    have hA0 : 0 < avarOf (noise .rwfm fun j => W j ω) m ((N - 1) / m - 1) := by
      have := h1'.1
      simp only [Function.comp] at this
      linarith
    refine ⟨_, _, b1_data (a ω) (b ω) _ hm hN4 hA0, (b1_boundary_values hN2).2.2.2, ?_, fun _ => ⟨_, (b1_boundary_values hN2).2.2.1, ?_⟩⟩
    · have h4 := h1'.1
      simp only [Function.comp] at h4
      have hM : (2 : ℝ) ≤ (((N - 1) / m : ℕ) : ℝ) := by exact_mod_cast hN2
      generalize (((N - 1) / m : ℕ) : ℝ) = M at *
      have hsq : 0 < √M := Real.sqrt_pos.2 (by linarith)
      have hsq2 : √M ^ 2 = M := Real.sq_sqrt (by linarith)
      have h5 : M * √M / 4 ≤ √(M * (M + 1) / 6 * (M / 2)) := by
        refine Real.le_sqrt_of_sq_le ?_
        rw [div_pow, mul_pow, hsq2]
        nlinarith [sq_nonneg M]
      refine lt_of_lt_of_le ?_ h5
      rw [div_lt_iff₀ hA0]
      refine lt_of_lt_of_le h2 ?_
      have : 0 ≤ M * √M := by positivity
      nlinarith
    · have h4 := h1'.2
      simp only [Function.comp] at h4
      rw [lt_div_iff₀ hA0]
      refine lt_of_lt_of_le ?_ h3
      have hb := Real.sqrt_nonneg ((((N - 1) / m : ℕ) : ℝ) / 2 * ((((N - 1) / m : ℕ) : ℝ) * Real.log (((N - 1) / m : ℕ) : ℝ)
        / (2 * ((((N - 1) / m : ℕ) : ℝ) - 1) * Real.log 2)))
      generalize √((((N - 1) / m : ℕ) : ℝ) / 2 * ((((N - 1) / m : ℕ) : ℝ) * Real.log (((N - 1) / m : ℕ) : ℝ)
        / (2 * ((((N - 1) / m : ℕ) : ℝ) - 1) * Real.log 2))) = β at *
      have h5 : 2 * v * β < s2 * m / 32 * (Nat.sqrt (Nat.sqrt ((N - 1) / m)) : ℝ) ^ 3 := by
        rw [div_mul_eq_mul_div, div_lt_iff₀ (by positivity)] at hN
        linarith
      refine lt_of_le_of_lt ?_ h5
      nlinarith

/-! ## R(n) -/

theorem rn_side (hs : 0 < s2) (hm : 0 < m) (k : Kind) (a b : Ω → ℝ) {lo hi δ : ℝ} (h1 : lo < rnSettled m k) (h2 : rnSettled m k < hi) (hδ : 0 < δ) :
    ∀ᶠ N in atTop, P {ω | ¬ ∃ R, rn (noiseData k (a ω) (b ω) (fun i => W i ω) N) m 1 = .ok (some R) ∧ lo < R ∧ R < hi} ≤ ENNReal.ofReal δ := by
  refine (Whp.mono (E := fun N ω => ∃ R, rn (noiseData k (a ω) (b ω) (fun i => W i ω) N) m 1 = .ok (some R) ∧
    |R - rnSettled m k| < min (rnSettled m k - lo) (hi - rnSettled m k))
    (fun δ hδ => rn_settles h hs hm k a b (lt_min (by linarith) (by linarith)) hδ) ?_) δ hδ
  filter_upwards with N ω
  rintro ⟨R, e, hR⟩
  rw [abs_lt] at hR
  refine ⟨R, e, ?_, ?_⟩
  · linarith [hR.1, min_le_left (rnSettled m k - lo) (hi - rnSettled m k)]
  · linarith [hR.2, min_le_right (rnSettled m k - lo) (hi - rnSettled m k)]

/-- C80: R(n) of white phase noise falls below the boundary to flicker phase noise -/
theorem rn_white_phase (hs : 0 < s2) (hm : 2 ≤ m) (a b : Ω → ℝ) {δ : ℝ} (hδ : 0 < δ) :
    ∀ᶠ N in atTop, P {ω | ¬ ∃ R, rn (noiseData .wpm (a ω) (b ω) (fun i => W i ω) N) m 1 = .ok (some R) ∧ 0 < R ∧ R < rn_boundary m 0}
      ≤ ENNReal.ofReal δ :=
  rn_side h hs (by omega) .wpm a b (by
    have : (0 : ℝ) < m := by exact_mod_cast (by omega : 0 < m)
    simp only [rnSettled]
    positivity) (rn_wpm_lt hm) hδ

/-- C80: R(n) of a random walk of the frequency falls above the boundary between flicker phase noise and frequency noise -/
theorem rn_random_walk (hs : 0 < s2) (hm : 2 ≤ m) (a b : Ω → ℝ) {δ : ℝ} (hδ : 0 < δ) :
    ∀ᶠ N in atTop, P {ω | ¬ ∃ R, rn (noiseData .rwfm (a ω) (b ω) (fun i => W i ω) N) m 1 = .ok (some R) ∧
      rn_boundary m (-1) < R ∧ R < rnSettled m .rwfm + 1} ≤ ENNReal.ofReal δ :=
  rn_side h hs (by omega) .rwfm a b (rn_rwfm_gt hm) (by linarith) hδ

/-- C80: so does R(n) of white frequency noise, from averaging factor 20 on -/
theorem rn_white_freq_partial (hs : 0 < s2) (hm : 20 ≤ m) (a b : Ω → ℝ) {δ : ℝ} (hδ : 0 < δ) :
    ∀ᶠ N in atTop, P {ω | ¬ ∃ R, rn (noiseData .wfm (a ω) (b ω) (fun i => W i ω) N) m 1 = .ok (some R) ∧
      rn_boundary m (-1) < R ∧ R < rnSettled m .wfm + 1} ≤ ENNReal.ofReal δ :=
  rn_side h hs (by omega) .wfm a b (rn_wfm_right hm) (by linarith) hδ

/-- C80 fails: with averaging factors from 2 to 19, white frequency noise falls between the boundaries of flicker phase noise -/
theorem rn_white_freq_wrong (hs : 0 < s2) (hm : 2 ≤ m) (hm2 : m ≤ 19) (a b : Ω → ℝ) {δ : ℝ} (hδ : 0 < δ) :
    ∀ᶠ N in atTop, P {ω | ¬ ∃ R, rn (noiseData .wfm (a ω) (b ω) (fun i => W i ω) N) m 1 = .ok (some R) ∧
      rn_boundary m 0 < R ∧ R < rn_boundary m (-1)} ≤ ENNReal.ofReal δ :=
  rn_side h hs (by omega) .wfm a b (rn_wfm_gt hm) (rn_wfm_wrong hm hm2) hδ

omit [MeasurableSpace Ω] [IsProbabilityMeasure P] h

/-- a random walk with drifting phase, over ten intervals -/
example : ∀ᶠ N in atTop, gaussNoise {ω | ¬ ∃ R, rn (noiseData .rwfm 1 2 (fun i => ω i) N) ((10 : ℕ) : ℝ) 1 = .ok (some R) ∧
    |R - 3 * (11 * 10 ^ 4 + 5 * 10 ^ 2 + 4) / (20 * 10 ^ 2 * (2 * 10 ^ 2 + 1))| < 0.01} ≤ ENNReal.ofReal 0.001 := by
  have := rn_settles normal_gauss one_pos (m := 10) (by norm_num) .rwfm (fun _ => 1) (fun _ => 2) (ε := 0.01) (δ := 0.001) (by norm_num) (by norm_num)
  simpa only [rnSettled, Nat.cast_ofNat] using this

/-- white frequency noise over four intervals is taken for flicker phase noise by R(n), but not by B1 -/
example : (∀ᶠ N in atTop, gaussNoise {ω | ¬ ∃ R, rn (noiseData .wfm 1 2 (fun i => ω i) N) ((4 : ℕ) : ℝ) 1 = .ok (some R) ∧
      rn_boundary ((4 : ℕ) : ℝ) 0 < R ∧ R < rn_boundary ((4 : ℕ) : ℝ) (-1)} ≤ ENNReal.ofReal 0.001) ∧
    ∀ᶠ N in atTop, gaussNoise {ω | ¬ ∃ R hi, b1 (noiseData .wfm 1 2 (fun i => ω i) N) 4 1 = .ok (some R) ∧
      b1_boundary (-2) ((N - 1) / 4) = .ok (some hi) ∧ R < hi ∧
      (Kind.wfm ≠ .wpm → ∃ lo, b1_boundary (-2 + 1) ((N - 1) / 4) = .ok (some lo) ∧ lo < R)} ≤ ENNReal.ofReal 0.001 :=
  ⟨rn_white_freq_wrong normal_gauss one_pos (by norm_num) (by norm_num) (fun _ => 1) (fun _ => 2) (by norm_num),
    b1_identifies normal_gauss one_pos (by norm_num) .wfm (fun _ => 1) (fun _ => 2) (by norm_num)⟩

example := b1_settles normal_gauss one_pos (m := 4) (by norm_num) .wpm (by decide) (fun _ => 1) (fun _ => 2) (ε := 0.01) (δ := 0.001) (by norm_num) (by norm_num)
example := rn_white_phase normal_gauss one_pos (m := 2) (by norm_num) (fun _ => 1) (fun _ => 2) (δ := 0.001) (by norm_num)
example := rn_random_walk normal_gauss one_pos (m := 2) (by norm_num) (fun _ => 1) (fun _ => 2) (δ := 0.001) (by norm_num)
example := rn_white_freq_partial normal_gauss one_pos (m := 20) (by norm_num) (fun _ => 1) (fun _ => 2) (δ := 0.001) (by norm_num)

end AT
