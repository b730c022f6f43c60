import Verif.Props.KasdinMean
import Verif.Props.Noise

/-!
# C72: the Allan deviation of the coloured noises

`h_a` is the coefficient of the frequency PSD `S_y(f) = h_a f^a`; phase noise with the PSD `S_x(f)` has
the frequency PSD `(2π f)² S_x(f)`.  The textbook Allan variances are `3 h_2 f_h / (4π² τ²)` for white
phase noise of bandwidth `f_h`, `h_0/(2τ)` for white and `2π²/3 h_-2 τ` for random walk frequency noise.
-/

namespace AT

open Spec Finset MeasureTheory ProbabilityTheory Real

variable {Ω : Type} [MeasurableSpace Ω] {P : Measure Ω} [IsProbabilityMeasure P]

/-- C72: white noise of density `b0`, taken as frequency (`h_0 = b0`) and as phase (`h_2 = 4π² b0`,
bandwidth `fs/2`) -/
theorem white_allan (Z : ℕ → Ω → ℝ) (n : ℕ) (hZ : White P Z n 0 1) {b0 fs : ℝ} (hb : 0 ≤ b0) (hf : 0 < fs) :
    ∃ X : Ω → List ℝ, (∀ ω, white (fun i => Z i ω) n b0 fs = .ok (X ω)) ∧
      Expects P .adev X fs "freq" (fun m => b0 / (2 * (m / fs))) ∧
      Expects P .oadev X fs "freq" (fun m => b0 / (2 * (m / fs))) ∧
      Expects P .adev X fs "phase" (fun m => 3 * (4 * π ^ 2 * b0) * (fs / 2) / (4 * π ^ 2 * (m / fs) ^ 2)) ∧
      Expects P .oadev X fs "phase" (fun m => 3 * (4 * π ^ 2 * b0) * (fs / 2) / (4 * π ^ 2 * (m / fs) ^ 2)) := by
  have hW : White P (fun i ω => √(b0 * fs / 2) * Z i ω) n 0 (b0 * fs / 2) := by
    have h := hZ.const_mul √(b0 * fs / 2)
    rwa [mul_zero, mul_one, Real.sq_sqrt (by positivity)] at h
  refine ⟨fun ω => tab n (fun i => √(b0 * fs / 2) * Z i ω), fun ω => white_eq _ n b0 fs (by positivity), ?_⟩
  have hf1 := white_freq_mean hW hf
  have hp1 := white_phase_mean hW hf
  refine ⟨expects_congr hf1.1 fun m hm => ?_, expects_congr hf1.2.1 fun m hm => ?_,
    expects_congr hp1.1 fun m hm => ?_, expects_congr hp1.2.1 fun m hm => ?_⟩ <;>
  · have : (0 : ℝ) < m := by exact_mod_cast hm
    have := Real.pi_pos
    field_simp
    try ring

example := white_allan (P := gaussNoise) (fun i ω => ω i) 100 (white_gauss 100) (b0 := 2) (fs := 10)
  (by norm_num) (by norm_num)

/-- C72: brown noise of density `b f⁻²`, taken as phase (`h_0 = 4π² b`) and as frequency (`h_-2 = b`;
sampling adds the part `1/(2m²)`) -/
theorem brown_allan (Z : ℕ → Ω → ℝ) (n : ℕ) (hZ : White P Z n 0 1) {b fs : ℝ} (hb : 0 ≤ b) (hf : 0 < fs) :
    ∃ X : Ω → List ℝ, (∀ ω, brown (fun i => Z i ω) n b fs = .ok (X ω)) ∧
      Expects P .adev X fs "phase" (fun m => 4 * π ^ 2 * b / (2 * (m / fs))) ∧
      Expects P .oadev X fs "phase" (fun m => 4 * π ^ 2 * b / (2 * (m / fs))) ∧
      Expects P .adev X fs "freq" (fun m => 2 * π ^ 2 / 3 * b * (m / fs) * (1 + 1 / (2 * m ^ 2))) ∧
      Expects P .oadev X fs "freq" (fun m => 2 * π ^ 2 / 3 * b * (m / fs) * (1 + 1 / (2 * m ^ 2))) := by
  set k : ℝ := √b * (2 * π / √(2 * fs)) with hk
  have hk2 : k ^ 2 = 2 * π ^ 2 * b / fs := by
    rw [hk, mul_pow, div_pow, Real.sq_sqrt hb, Real.sq_sqrt (by positivity)]
    field_simp
    try ring
  have hW : White P (fun i ω => k * Z i ω) n 0 (2 * π ^ 2 * b / fs) := by
    have h := hZ.const_mul k
    rwa [mul_zero, mul_one, hk2] at h
  refine ⟨fun ω => tab n (fun i => k * ∑ j ∈ range (i + 1), Z j ω), fun ω => brown_draws _ n b fs hb hf, ?_⟩
  have hX : ∀ (ω : Ω) (i : ℕ), k * ∑ j ∈ range (i + 1 + 1), Z j ω - k * ∑ j ∈ range (i + 1), Z j ω
      = k * Z (i + 1) ω := by
    intro ω i
    rw [sum_range_succ _ (i + 1)]; ring
  have hp1 := walk_phase_mean (X := fun ω i => k * ∑ j ∈ range (i + 1), Z j ω) hX (hW.shift 1) hf
  have hf1 := walk_freq_mean (Y := fun i ω => k * ∑ j ∈ range (i + 1), Z j ω) (fun i ω => hX ω i) (hW.shift 1) hf
  refine ⟨expects_congr hp1.1 fun m hm => ?_, expects_congr hp1.2.1 fun m hm => ?_,
    expects_congr hf1.1 fun m hm => ?_, expects_congr hf1.2.1 fun m hm => ?_⟩ <;>
  · have : (0 : ℝ) < m := by exact_mod_cast hm
    field_simp
    try ring

example := brown_allan (P := gaussNoise) (fun i ω => ω i) 100 (white_gauss 100) (b := 2) (fs := 10)
  (by norm_num) (by norm_num)

/-- C72: violet noise of density `b f²`, taken as frequency: `h_2 = b`, bandwidth `fs/2` -/
theorem violet_allan (Z : ℕ → Ω → ℝ) (n : ℕ) (hZ : White P Z (n + 1) 0 1) {b fs : ℝ} (hb : 0 ≤ b) (hf : 0 < fs) :
    ∃ X : Ω → List ℝ, (∀ ω, violet (fun i => Z i ω) n b fs = .ok (X ω)) ∧
      Expects P .adev X fs "freq" (fun m => 3 * b * (fs / 2) / (4 * π ^ 2 * (m / fs) ^ 2)) ∧
      Expects P .oadev X fs "freq" (fun m => 3 * b * (fs / 2) / (4 * π ^ 2 * (m / fs) ^ 2)) ∧
      Expects P .mdev X fs "freq" (fun m => 3 * b * (fs / 2) / (4 * π ^ 2 * m * (m / fs) ^ 2)) := by
  set k : ℝ := √b * (fs * √(fs / 2) / (2 * π)) with hk
  have hpi := Real.pi_pos
  have hk2 : (k / fs) ^ 2 = b * fs / (8 * π ^ 2) := by
    rw [hk, div_pow, mul_pow, div_pow, mul_pow, Real.sq_sqrt hb, Real.sq_sqrt (by positivity)]
    field_simp
    norm_num
  have hW : White P (fun i ω => k / fs * Z i ω) (n + 1) 0 (b * fs / (8 * π ^ 2)) := by
    have h := hZ.const_mul (k / fs)
    rwa [mul_zero, mul_one, hk2] at h
  refine ⟨fun ω => tab n (fun i => k * (Z (i + 1) ω - Z i ω)), fun ω => violet_draws _ n b fs hb hf.le, ?_⟩
  -- the phase is the white noise, up to a constant phase and frequency
  have hval : ∀ (fn : DevName), fn ≠ .tierms → fn ≠ .mtie → ∀ m, Usable fn (n + 1) m → ∀ ω,
      value fn (phaseOf (fun i => k * (Z (i + 1) ω - Z i ω)) n fs) (n + 1) fs m
        = value fn (fun i => k / fs * Z i ω) (n + 1) fs m := by
    intro fn h1 h2 m hu ω
    set M : ℝ := (∑ j ∈ range n, k * (Z (j + 1) ω - Z j ω)) / n with hM
    rw [← value_affine fn h1 h2 (fun i => k / fs * Z i ω) (-(k / fs * Z 0 ω)) (-(M / fs)) fs hu]
    congr 1
    funext i
    unfold phaseOf
    rw [← hM, sum_sub_distrib, ← mul_sum, sum_range_sub (fun i => Z i ω)]
    simp
    ring
  refine ⟨expects_freq _ _ _ _ hf _ fun m hu => ?_, expects_freq _ _ _ _ hf _ fun m hu => ?_,
    expects_freq _ _ _ _ hf _ fun m hu => ?_⟩
  · refine meanSq_congr (fun ω => by rw [hval _ (by simp) (by simp) m hu]) ?_
    have := adev_value_white hW hf m hu
    have hm : (0 : ℝ) < m := by exact_mod_cast hu.1
    have e : 3 * (b * fs / (8 * π ^ 2)) / (m / fs) ^ 2 = 3 * b * (fs / 2) / (4 * π ^ 2 * (m / fs) ^ 2) := by
      field_simp; ring
    rwa [e] at this
  · refine meanSq_congr (fun ω => by rw [hval _ (by simp) (by simp) m hu]) ?_
    have := oadev_value_white hW hf m hu
    have hm : (0 : ℝ) < m := by exact_mod_cast hu.1
    have e : 3 * (b * fs / (8 * π ^ 2)) / (m / fs) ^ 2 = 3 * b * (fs / 2) / (4 * π ^ 2 * (m / fs) ^ 2) := by
      field_simp; ring
    rwa [e] at this
  · refine meanSq_congr (fun ω => by rw [hval _ (by simp) (by simp) m hu]) ?_
    have := mdev_value_white hW hf m hu.1 hu.2.2.2.2
    have hm : (0 : ℝ) < m := by exact_mod_cast hu.1
    have e : 3 * (b * fs / (8 * π ^ 2)) / (m * (m / fs) ^ 2) = 3 * b * (fs / 2) / (4 * π ^ 2 * m * (m / fs) ^ 2) := by
      field_simp; ring
    rw [e] at this
    exact this

example := violet_allan (P := gaussNoise) (fun i ω => ω i) 100 (white_gauss 101) (b := 2) (fs := 10)
  (by norm_num) (by norm_num)

end AT
