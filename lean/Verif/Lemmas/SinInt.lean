import Mathlib.Analysis.SpecialFunctions.Gamma.Basic
import Mathlib.Analysis.SpecialFunctions.ImproperIntegrals
import Mathlib.MeasureTheory.Integral.IntegralEqImproper
import Mathlib.MeasureTheory.Measure.Prod

/-!
# Integrals `∫₀^∞ sin^k z / z^n dz`

`1/z^(p+1)` is the Laplace transform of `t^p/p!`; exchanging the integrals turns them into
integrals of rational functions.
-/

namespace AT

open MeasureTheory Set Real Filter Topology

theorem laplace_pow (p : ℕ) {z : ℝ} (hz : 0 < z) :
    IntegrableOn (fun t : ℝ => t ^ p / p.factorial * exp (-(t * z))) (Ioi 0) ∧
      ∫ t in Ioi (0 : ℝ), t ^ p / p.factorial * exp (-(t * z)) = 1 / z ^ (p + 1) := by
  have h := integral_rpow_mul_exp_neg_mul_Ioi (a := p + 1) (r := z) (by positivity) hz
  have e : ∀ t : ℝ, t ^ ((p : ℝ) + 1 - 1) * exp (-(z * t)) = t ^ p * exp (-(t * z)) := by
    intro t
    rw [add_sub_cancel_right, rpow_natCast, mul_comm z t]
  simp only [e] at h
  rw [Gamma_nat_eq_factorial, show ((p : ℝ) + 1) = ((p + 1 : ℕ) : ℝ) by push_cast; rfl, rpow_natCast] at h
  have hf : (0 : ℝ) < p.factorial := by exact_mod_cast p.factorial_pos
  have hi : ∫ t in Ioi (0 : ℝ), t ^ p / p.factorial * exp (-(t * z)) = 1 / z ^ (p + 1) := by
    have e2 : ∀ t : ℝ, t ^ p / p.factorial * exp (-(t * z)) = (1 / p.factorial) * (t ^ p * exp (-(t * z))) := by
      intro t; ring
    simp only [e2]
    rw [integral_const_mul, h, div_pow, one_pow]
    field_simp
  exact ⟨.of_integral_ne_zero (by rw [hi]; positivity), hi⟩

/-- exchange of the integrals -/
theorem laplace_integral (f L : ℝ → ℝ) (hf : Continuous f) (h0 : ∀ z, 0 ≤ f z)
    (hL : ∀ t, 0 < t → IntegrableOn (fun z => f z * exp (-(t * z))) (Ioi 0) ∧
      ∫ z in Ioi (0 : ℝ), f z * exp (-(t * z)) = L t) (p : ℕ)
    (hint : IntegrableOn (fun t => t ^ p / p.factorial * L t) (Ioi 0)) :
    IntegrableOn (fun z => f z / z ^ (p + 1)) (Ioi 0) ∧
      ∫ z in Ioi (0 : ℝ), f z / z ^ (p + 1) = ∫ t in Ioi (0 : ℝ), t ^ p / p.factorial * L t := by
  have hLn : ∀ t, 0 < t → 0 ≤ L t := by
    intro t ht
    rw [← (hL t ht).2]
    exact setIntegral_nonneg measurableSet_Ioi (fun z _ => mul_nonneg (h0 z) (exp_pos _).le)
  have hzn : 0 ≤ᵐ[volume.restrict (Ioi (0 : ℝ))] (fun z => f z / z ^ (p + 1)) := by
    rw [EventuallyLE, ae_restrict_iff' measurableSet_Ioi]
    exact ae_of_all _ (fun z (hz : 0 < z) => div_nonneg (h0 z) (by positivity))
  have htn : 0 ≤ᵐ[volume.restrict (Ioi (0 : ℝ))] (fun t => t ^ p / p.factorial * L t) := by
    rw [EventuallyLE, ae_restrict_iff' measurableSet_Ioi]
    exact ae_of_all _ (fun t (ht : 0 < t) => mul_nonneg (by positivity) (hLn t ht))
  have hm : AEStronglyMeasurable (fun z => f z / z ^ (p + 1)) (volume.restrict (Ioi (0 : ℝ))) := by
    apply Measurable.aestronglyMeasurable
    exact hf.measurable.div (by fun_prop)
  have key : ∫⁻ z in Ioi (0 : ℝ), ENNReal.ofReal (f z / z ^ (p + 1))
      = ∫⁻ t in Ioi (0 : ℝ), ENNReal.ofReal (t ^ p / p.factorial * L t) := by
    have e1 : ∫⁻ z in Ioi (0 : ℝ), ENNReal.ofReal (f z / z ^ (p + 1))
        = ∫⁻ z in Ioi (0 : ℝ), ∫⁻ t in Ioi (0 : ℝ),
            ENNReal.ofReal (f z * (t ^ p / p.factorial * exp (-(t * z)))) := by
      apply setLIntegral_congr_fun measurableSet_Ioi
      intro z (hz : 0 < z)
      obtain ⟨g1, g2⟩ := laplace_pow p hz
      have : f z / z ^ (p + 1) = ∫ t in Ioi (0 : ℝ), f z * (t ^ p / p.factorial * exp (-(t * z))) := by
        rw [integral_const_mul, g2]; ring
      simp only
      rw [this, ofReal_integral_eq_lintegral_ofReal (g1.const_mul _)]
      rw [EventuallyLE, ae_restrict_iff' measurableSet_Ioi]
      exact ae_of_all _ (fun t (ht : 0 < t) => mul_nonneg (h0 z) (by positivity))
    have e2 : ∫⁻ t in Ioi (0 : ℝ), ENNReal.ofReal (t ^ p / p.factorial * L t)
        = ∫⁻ t in Ioi (0 : ℝ), ∫⁻ z in Ioi (0 : ℝ),
            ENNReal.ofReal (f z * (t ^ p / p.factorial * exp (-(t * z)))) := by
      apply setLIntegral_congr_fun measurableSet_Ioi
      intro t (ht : 0 < t)
      obtain ⟨g1, g2⟩ := hL t ht
      have e3 : ∀ z, f z * (t ^ p / p.factorial * exp (-(t * z)))
          = t ^ p / p.factorial * (f z * exp (-(t * z))) := fun z => by ring
      have : t ^ p / p.factorial * L t
          = ∫ z in Ioi (0 : ℝ), f z * (t ^ p / p.factorial * exp (-(t * z))) := by
        simp only [e3]
        rw [integral_const_mul, g2]
      simp only
      rw [this, ofReal_integral_eq_lintegral_ofReal]
      · simp only [e3]
        exact g1.const_mul _
      · exact ae_of_all _ (fun z => mul_nonneg (h0 z) (by positivity))
    rw [e1, e2]
    apply lintegral_lintegral_swap
    apply Measurable.aemeasurable
    apply Measurable.ennreal_ofReal
    apply Continuous.measurable
    fun_prop
  refine ⟨⟨hm, ?_⟩, ?_⟩
  · rw [hasFiniteIntegral_iff_ofReal hzn, key, ← hasFiniteIntegral_iff_ofReal htn]
    exact hint.2
  · rw [integral_eq_lintegral_of_nonneg_ae hzn hm, integral_eq_lintegral_of_nonneg_ae htn hint.1, key]

/-- Laplace transform of `cos` -/
theorem laplace_cos (a : ℝ) {t : ℝ} (ht : 0 < t) :
    IntegrableOn (fun z => cos (a * z) * exp (-(t * z))) (Ioi 0) ∧
      ∫ z in Ioi (0 : ℝ), cos (a * z) * exp (-(t * z)) = t / (t ^ 2 + a ^ 2) := by
  have hexp : IntegrableOn (fun z => exp (-(t * z))) (Ioi 0) := by
    have := integrableOn_exp_mul_Ioi (neg_lt_zero.2 ht) 0
    simpa [neg_mul] using this
  have hi : IntegrableOn (fun z => cos (a * z) * exp (-(t * z))) (Ioi 0) := by
    apply Integrable.mono' hexp
    · exact (by fun_prop : Continuous fun z => cos (a * z) * exp (-(t * z))).aestronglyMeasurable
    · refine ae_of_all _ (fun z => ?_)
      rw [norm_mul, norm_eq_abs, norm_eq_abs, abs_of_pos (exp_pos _)]
      exact mul_le_of_le_one_left (exp_pos _).le (abs_cos_le_one _)
  refine ⟨hi, ?_⟩
  have hne : t ^ 2 + a ^ 2 ≠ 0 := by positivity
  have hd : ∀ z ∈ Ici (0 : ℝ), HasDerivAt
      (fun z => exp (-(t * z)) * (a * sin (a * z) - t * cos (a * z)) / (t ^ 2 + a ^ 2))
      (cos (a * z) * exp (-(t * z))) z := by
    intro z _
    have h1 : HasDerivAt (fun z => -(t * z)) (-t) z := by
      have := ((hasDerivAt_id z).const_mul (-t))
      simpa [neg_mul] using this
    have h2 : HasDerivAt (fun z => a * z) a z := by simpa using (hasDerivAt_id z).const_mul a
    have h3 := ((h1.exp).mul ((h2.sin.const_mul a).sub (h2.cos.const_mul t))).div_const (t ^ 2 + a ^ 2)
    refine h3.congr_deriv ?_
    simp only [Pi.sub_apply]
    field_simp
    ring
  have hlim : Tendsto (fun z => exp (-(t * z)) * (a * sin (a * z) - t * cos (a * z)) / (t ^ 2 + a ^ 2))
      atTop (𝓝 0) := by
    have hz : Tendsto (fun z => exp (-(t * z))) atTop (𝓝 0) := by
      apply tendsto_exp_atBot.comp
      exact tendsto_neg_atTop_atBot.comp (tendsto_id.const_mul_atTop ht)
    have := (hz.zero_mul_isBoundedUnder_le (g := fun z => a * sin (a * z) - t * cos (a * z)) ?_).div_const
      (t ^ 2 + a ^ 2)
    · simpa using this
    · refine isBoundedUnder_of ⟨|a| + t, fun z => ?_⟩
      simp only [Function.comp, norm_eq_abs]
      calc |a * sin (a * z) - t * cos (a * z)| ≤ |a * sin (a * z)| + |t * cos (a * z)| := abs_sub _ _
        _ ≤ |a| + t := by
          rw [abs_mul, abs_mul, abs_of_pos ht]
          exact add_le_add (mul_le_of_le_one_right (abs_nonneg _) (abs_sin_le_one _))
            (mul_le_of_le_one_right ht.le (abs_cos_le_one _))
  rw [integral_Ioi_of_hasDerivAt_of_tendsto' hd hi hlim]
  simp
  ring

theorem laplace_one {t : ℝ} (ht : 0 < t) :
    IntegrableOn (fun z => exp (-(t * z))) (Ioi 0) ∧
      ∫ z in Ioi (0 : ℝ), exp (-(t * z)) = 1 / t := by
  have h := laplace_cos 0 ht
  simp only [zero_mul, cos_zero, one_mul] at h
  refine ⟨h.1, h.2.trans ?_⟩
  field_simp
  simp

theorem sin_pow_four (z : ℝ) : sin z ^ 4 = 3 / 8 - cos (2 * z) / 2 + cos (4 * z) / 8 := by
  have h4 : cos (4 * z) = 2 * cos (2 * z) ^ 2 - 1 := by
    rw [← cos_two_mul]; ring_nf
  have hs := sin_sq_add_cos_sq z
  have : sin z ^ 2 = 1 - cos z ^ 2 := by linarith
  rw [h4, cos_two_mul, show sin z ^ 4 = (sin z ^ 2) ^ 2 by ring, this]
  ring

theorem sin_pow_six (z : ℝ) :
    sin z ^ 6 = 5 / 16 - 15 / 32 * cos (2 * z) + 6 / 32 * cos (4 * z) - 1 / 32 * cos (6 * z) := by
  have h4 : cos (4 * z) = 2 * cos (2 * z) ^ 2 - 1 := by
    rw [← cos_two_mul]; ring_nf
  have h6 : cos (6 * z) = 4 * cos (2 * z) ^ 3 - 3 * cos (2 * z) := by
    rw [← cos_three_mul]; ring_nf
  have hs := sin_sq_add_cos_sq z
  have : sin z ^ 2 = 1 - cos z ^ 2 := by linarith
  rw [h4, h6, cos_two_mul, show sin z ^ 6 = (sin z ^ 2) ^ 3 by ring, this]
  ring

theorem laplace_sin4 {t : ℝ} (ht : 0 < t) :
    IntegrableOn (fun z => sin z ^ 4 * exp (-(t * z))) (Ioi 0) ∧
      ∫ z in Ioi (0 : ℝ), sin z ^ 4 * exp (-(t * z))
        = 24 / (t * (t ^ 2 + 4) * (t ^ 2 + 16)) := by
  obtain ⟨i0, v0⟩ := laplace_one ht
  obtain ⟨i2, v2⟩ := laplace_cos 2 ht
  obtain ⟨i4, v4⟩ := laplace_cos 4 ht
  have e : ∀ z, sin z ^ 4 * exp (-(t * z)) = 3 / 8 * exp (-(t * z))
      - 1 / 2 * (cos (2 * z) * exp (-(t * z))) + 1 / 8 * (cos (4 * z) * exp (-(t * z))) := by
    intro z; rw [sin_pow_four]; ring
  simp only [e]
  have j0 := i0.const_mul (3 / 8)
  have j2 := i2.const_mul (1 / 2)
  have j4 := i4.const_mul (1 / 8)
  refine ⟨(j0.sub j2).add j4, ?_⟩
  have j02 : Integrable (fun z => 3 / 8 * exp (-(t * z)) - 1 / 2 * (cos (2 * z) * exp (-(t * z))))
      (volume.restrict (Ioi 0)) := j0.sub j2
  rw [integral_add j02 j4, integral_sub j0 j2, integral_const_mul, integral_const_mul,
    integral_const_mul, v0, v2, v4]
  field_simp
  ring

theorem laplace_sin6 {t : ℝ} (ht : 0 < t) :
    IntegrableOn (fun z => sin z ^ 6 * exp (-(t * z))) (Ioi 0) ∧
      ∫ z in Ioi (0 : ℝ), sin z ^ 6 * exp (-(t * z))
        = 720 / (t * (t ^ 2 + 4) * (t ^ 2 + 16) * (t ^ 2 + 36)) := by
  obtain ⟨i0, v0⟩ := laplace_one ht
  obtain ⟨i2, v2⟩ := laplace_cos 2 ht
  obtain ⟨i4, v4⟩ := laplace_cos 4 ht
  obtain ⟨i6, v6⟩ := laplace_cos 6 ht
  have e : ∀ z, sin z ^ 6 * exp (-(t * z)) = 5 / 16 * exp (-(t * z))
      - 15 / 32 * (cos (2 * z) * exp (-(t * z))) + 6 / 32 * (cos (4 * z) * exp (-(t * z)))
      - 1 / 32 * (cos (6 * z) * exp (-(t * z))) := by
    intro z; rw [sin_pow_six]; ring
  simp only [e]
  have j0 := i0.const_mul (5 / 16)
  have j2 := i2.const_mul (15 / 32)
  have j4 := i4.const_mul (6 / 32)
  have j6 := i6.const_mul (1 / 32)
  refine ⟨((j0.sub j2).add j4).sub j6, ?_⟩
  have j02 : Integrable (fun z => 5 / 16 * exp (-(t * z)) - 15 / 32 * (cos (2 * z) * exp (-(t * z))))
      (volume.restrict (Ioi 0)) := j0.sub j2
  have j024 : Integrable (fun z => 5 / 16 * exp (-(t * z)) - 15 / 32 * (cos (2 * z) * exp (-(t * z)))
      + 6 / 32 * (cos (4 * z) * exp (-(t * z)))) (volume.restrict (Ioi 0)) := j02.add j4
  rw [integral_sub j024 j6, integral_add j02 j4, integral_sub j0 j2,
    integral_const_mul, integral_const_mul, integral_const_mul, integral_const_mul, v0, v2, v4, v6]
  field_simp
  ring

/-- `∫₀^∞ dt/(t² + k²) = π/(2k)` -/
theorem integral_inv_sq_add (k : ℝ) (hk : 0 < k) :
    IntegrableOn (fun t : ℝ => 1 / (t ^ 2 + k ^ 2)) (Ioi 0) ∧
      ∫ t in Ioi (0 : ℝ), 1 / (t ^ 2 + k ^ 2) = π / (2 * k) := by
  have hd : ∀ t ∈ Ici (0 : ℝ), HasDerivAt (fun t => arctan (t / k) / k) (1 / (t ^ 2 + k ^ 2)) t := by
    intro t _
    have h1 := (((hasDerivAt_id t).div_const k).arctan).div_const k
    refine h1.congr_deriv ?_
    simp only [id]
    field_simp
    ring
  have hl : Tendsto (fun t => arctan (t / k) / k) atTop (𝓝 (π / 2 / k)) := by
    apply Tendsto.div_const
    exact (tendsto_arctan_atTop.mono_right nhdsWithin_le_nhds).comp (tendsto_id.atTop_div_const hk)
  have hn : ∀ t ∈ Ioi (0 : ℝ), 0 ≤ 1 / (t ^ 2 + k ^ 2) := fun t _ => by positivity
  refine ⟨integrableOn_Ioi_deriv_of_nonneg' hd hn hl, ?_⟩
  rw [integral_Ioi_of_hasDerivAt_of_nonneg' hd hn hl]
  simp
  field_simp

theorem rat_atan (g : ℝ → ℝ) (a b c : ℝ)
    (h : ∀ t, 0 < t → g t = a / (t ^ 2 + 4) + b / (t ^ 2 + 16) + c / (t ^ 2 + 36)) :
    IntegrableOn g (Ioi 0) ∧ ∫ t in Ioi (0 : ℝ), g t = (a / 2 + b / 4 + c / 6) * (π / 2) := by
  obtain ⟨i2, v2⟩ := integral_inv_sq_add 2 (by norm_num)
  obtain ⟨i4, v4⟩ := integral_inv_sq_add 4 (by norm_num)
  obtain ⟨i6, v6⟩ := integral_inv_sq_add 6 (by norm_num)
  have j2 := i2.const_mul a
  have j4 := i4.const_mul b
  have j6 := i6.const_mul c
  have e : EqOn (fun t => a * (1 / (t ^ 2 + 2 ^ 2)) + b * (1 / (t ^ 2 + 4 ^ 2))
      + c * (1 / (t ^ 2 + 6 ^ 2))) g (Ioi 0) := by
    intro t ht
    simp only
    rw [h t ht]
    norm_num
    ring
  have j24 : Integrable (fun t => a * (1 / (t ^ 2 + 2 ^ 2)) + b * (1 / (t ^ 2 + 4 ^ 2)))
      (volume.restrict (Ioi 0)) := j2.add j4
  have j246 : IntegrableOn (fun t => a * (1 / (t ^ 2 + 2 ^ 2)) + b * (1 / (t ^ 2 + 4 ^ 2))
      + c * (1 / (t ^ 2 + 6 ^ 2))) (Ioi 0) := j24.add j6
  refine ⟨j246.congr_fun e measurableSet_Ioi, ?_⟩
  rw [← setIntegral_congr_fun measurableSet_Ioi e, integral_add j24 j6, integral_add j2 j4,
    integral_const_mul, integral_const_mul, integral_const_mul, v2, v4, v6]
  ring

theorem rat_log (g : ℝ → ℝ) (a b c : ℝ) (h0 : a + b + c = 0)
    (h : ∀ t, 0 < t → g t = t * (a / (t ^ 2 + 4) + b / (t ^ 2 + 16) + c / (t ^ 2 + 36)))
    (hn : ∀ t, 0 < t → 0 ≤ g t) :
    IntegrableOn g (Ioi 0) ∧
      ∫ t in Ioi (0 : ℝ), g t = -((a * log 4 + b * log 16 + c * log 36) / 2) := by
  have hlog : ∀ k t : ℝ, 0 < k → HasDerivAt (fun t => log (t ^ 2 + k)) (2 * t / (t ^ 2 + k)) t := by
    intro k t hk
    have h1 : HasDerivAt (fun t : ℝ => t ^ 2 + k) (2 * t) t := by
      simpa using ((hasDerivAt_id t).pow 2).add_const k
    exact h1.log (by positivity)
  set G : ℝ → ℝ := fun t => (a * log (t ^ 2 + 4) + b * log (t ^ 2 + 16) + c * log (t ^ 2 + 36)) / 2
  have hd0 : ∀ t, HasDerivAt G (t * (a / (t ^ 2 + 4) + b / (t ^ 2 + 16) + c / (t ^ 2 + 36))) t := by
    intro t
    have := ((((hlog 4 t (by norm_num)).const_mul a).add ((hlog 16 t (by norm_num)).const_mul b)).add
      ((hlog 36 t (by norm_num)).const_mul c)).div_const 2
    refine this.congr_deriv ?_
    ring
  have hd : ∀ t ∈ Ioi (0 : ℝ), HasDerivAt G (g t) t := by
    intro t ht
    rw [h t ht]
    exact hd0 t
  have hl : Tendsto G atTop (𝓝 0) := by
    have hr : ∀ k : ℝ, 0 < k → Tendsto (fun t : ℝ => log (t ^ 2 + k) - 2 * log t) atTop (𝓝 0) := by
      intro k hk
      have h1 : Tendsto (fun t : ℝ => log (1 + k / t ^ 2)) atTop (𝓝 0) := by
        have : Tendsto (fun t : ℝ => 1 + k / t ^ 2) atTop (𝓝 (1 + 0)) :=
          tendsto_const_nhds.add (tendsto_const_nhds.div_atTop (tendsto_pow_atTop (by norm_num)))
        rw [add_zero] at this
        have h2 := (continuousAt_log (by norm_num : (1 : ℝ) ≠ 0)).tendsto.comp this
        simpa [Function.comp_def] using h2
      refine h1.congr' ?_
      filter_upwards [eventually_gt_atTop 0] with t ht
      rw [show 1 + k / t ^ 2 = (t ^ 2 + k) / t ^ 2 by field_simp, log_div (by positivity) (by positivity),
        log_pow]
      norm_num
    have := ((((hr 4 (by norm_num)).const_mul a).add ((hr 16 (by norm_num)).const_mul b)).add
      ((hr 36 (by norm_num)).const_mul c)).div_const 2
    simp only [mul_zero, add_zero, zero_div] at this
    refine this.congr (fun t => ?_)
    simp only [G]
    have hc : c = -a - b := by linarith
    rw [hc]
    ring
  have hcont : ContinuousWithinAt G (Ici 0) 0 := (hd0 0).continuousAt.continuousWithinAt
  have hn' : ∀ t ∈ Ioi (0 : ℝ), 0 ≤ g t := fun t ht => hn t ht
  refine ⟨integrableOn_Ioi_deriv_of_nonneg hcont hd hn' hl, ?_⟩
  rw [integral_Ioi_of_hasDerivAt_of_nonneg hcont hd hn' hl]
  simp [G]

theorem log_4_16_36 : log (4 : ℝ) = 2 * log 2 ∧ log (16 : ℝ) = 4 * log 2 ∧
    log (36 : ℝ) = 2 * log 2 + 2 * log 3 := by
  refine ⟨?_, ?_, ?_⟩
  · rw [show (4 : ℝ) = 2 ^ 2 by norm_num, log_pow]; norm_num
  · rw [show (16 : ℝ) = 2 ^ 4 by norm_num, log_pow]; norm_num
  · rw [show (36 : ℝ) = 2 ^ 2 * 3 ^ 2 by norm_num, log_mul (by norm_num) (by norm_num), log_pow, log_pow]
    norm_num

theorem sin4_int (p : ℕ) (v : ℝ)
    (h : IntegrableOn (fun t : ℝ => t ^ p / p.factorial * (24 / (t * (t ^ 2 + 4) * (t ^ 2 + 16)))) (Ioi 0) ∧
      ∫ t in Ioi (0 : ℝ), t ^ p / p.factorial * (24 / (t * (t ^ 2 + 4) * (t ^ 2 + 16))) = v) :
    IntegrableOn (fun z => sin z ^ 4 / z ^ (p + 1)) (Ioi 0) ∧
      ∫ z in Ioi (0 : ℝ), sin z ^ 4 / z ^ (p + 1) = v := by
  have := laplace_integral (fun z => sin z ^ 4) (fun t => 24 / (t * (t ^ 2 + 4) * (t ^ 2 + 16)))
    (by fun_prop) (fun z => by positivity) (fun t ht => laplace_sin4 ht) p h.1
  exact ⟨this.1, this.2.trans h.2⟩

theorem sin6_int (p : ℕ) (v : ℝ)
    (h : IntegrableOn (fun t : ℝ => t ^ p / p.factorial *
        (720 / (t * (t ^ 2 + 4) * (t ^ 2 + 16) * (t ^ 2 + 36)))) (Ioi 0) ∧
      ∫ t in Ioi (0 : ℝ), t ^ p / p.factorial *
        (720 / (t * (t ^ 2 + 4) * (t ^ 2 + 16) * (t ^ 2 + 36))) = v) :
    IntegrableOn (fun z => sin z ^ 6 / z ^ (p + 1)) (Ioi 0) ∧
      ∫ z in Ioi (0 : ℝ), sin z ^ 6 / z ^ (p + 1) = v := by
  have := laplace_integral (fun z => sin z ^ 6)
    (fun t => 720 / (t * (t ^ 2 + 4) * (t ^ 2 + 16) * (t ^ 2 + 36)))
    (by fun_prop) (fun z => by positivity) (fun t ht => laplace_sin6 ht) p h.1
  exact ⟨this.1, this.2.trans h.2⟩

theorem sin4_2 : IntegrableOn (fun z => sin z ^ 4 / z ^ 2) (Ioi 0) ∧
    ∫ z in Ioi (0 : ℝ), sin z ^ 4 / z ^ 2 = π / 4 := by
  apply sin4_int 1
  have := rat_atan (fun t : ℝ => t ^ 1 / Nat.factorial 1 * (24 / (t * (t ^ 2 + 4) * (t ^ 2 + 16))))
    2 (-2) 0 (by intro t ht; simp only [Nat.factorial]; field_simp; push_cast; ring)
  exact ⟨this.1, this.2.trans (by ring)⟩

theorem sin4_3 : IntegrableOn (fun z => sin z ^ 4 / z ^ 3) (Ioi 0) ∧
    ∫ z in Ioi (0 : ℝ), sin z ^ 4 / z ^ 3 = log 2 := by
  apply sin4_int 2
  have := rat_log (fun t : ℝ => t ^ 2 / Nat.factorial 2 * (24 / (t * (t ^ 2 + 4) * (t ^ 2 + 16))))
    1 (-1) 0 (by norm_num) (by intro t ht; simp only [Nat.factorial]; field_simp; push_cast; ring)
    (by intro t ht; positivity)
  obtain ⟨l4, l16, l36⟩ := log_4_16_36
  exact ⟨this.1, this.2.trans (by rw [l4, l16]; ring)⟩

theorem sin4_4 : IntegrableOn (fun z => sin z ^ 4 / z ^ 4) (Ioi 0) ∧
    ∫ z in Ioi (0 : ℝ), sin z ^ 4 / z ^ 4 = π / 3 := by
  apply sin4_int 3
  have := rat_atan (fun t : ℝ => t ^ 3 / Nat.factorial 3 * (24 / (t * (t ^ 2 + 4) * (t ^ 2 + 16))))
    (-4 / 3) (16 / 3) 0 (by intro t ht; simp only [Nat.factorial]; field_simp; push_cast; ring)
  exact ⟨this.1, this.2.trans (by ring)⟩

theorem sin6_2 : IntegrableOn (fun z => sin z ^ 6 / z ^ 2) (Ioi 0) ∧
    ∫ z in Ioi (0 : ℝ), sin z ^ 6 / z ^ 2 = 3 * π / 16 := by
  apply sin6_int 1
  have := rat_atan (fun t : ℝ => t ^ 1 / Nat.factorial 1 *
      (720 / (t * (t ^ 2 + 4) * (t ^ 2 + 16) * (t ^ 2 + 36))))
    (15 / 8) (-3) (9 / 8) (by intro t ht; simp only [Nat.factorial]; field_simp; push_cast; ring)
  exact ⟨this.1, this.2.trans (by ring)⟩

theorem sin6_3 : IntegrableOn (fun z => sin z ^ 6 / z ^ 3) (Ioi 0) ∧
    ∫ z in Ioi (0 : ℝ), sin z ^ 6 / z ^ 3 = (24 * log 2 - 9 * log 3) / 16 := by
  apply sin6_int 2
  have := rat_log (fun t : ℝ => t ^ 2 / Nat.factorial 2 *
      (720 / (t * (t ^ 2 + 4) * (t ^ 2 + 16) * (t ^ 2 + 36))))
    (15 / 16) (-3 / 2) (9 / 16) (by norm_num)
    (by intro t ht; simp only [Nat.factorial]; field_simp; push_cast; ring)
    (by intro t ht; positivity)
  obtain ⟨l4, l16, l36⟩ := log_4_16_36
  exact ⟨this.1, this.2.trans (by rw [l4, l16, l36]; ring)⟩

theorem sin6_4 : IntegrableOn (fun z => sin z ^ 6 / z ^ 4) (Ioi 0) ∧
    ∫ z in Ioi (0 : ℝ), sin z ^ 6 / z ^ 4 = π / 8 := by
  apply sin6_int 3
  have := rat_atan (fun t : ℝ => t ^ 3 / Nat.factorial 3 *
      (720 / (t * (t ^ 2 + 4) * (t ^ 2 + 16) * (t ^ 2 + 36))))
    (-5 / 4) 8 (-27 / 4) (by intro t ht; simp only [Nat.factorial]; field_simp; push_cast; ring)
  exact ⟨this.1, this.2.trans (by ring)⟩

theorem sin6_5 : IntegrableOn (fun z => sin z ^ 6 / z ^ 5) (Ioi 0) ∧
    ∫ z in Ioi (0 : ℝ), sin z ^ 6 / z ^ 5 = (27 * log 3 - 32 * log 2) / 16 := by
  apply sin6_int 4
  have := rat_log (fun t : ℝ => t ^ 4 / Nat.factorial 4 *
      (720 / (t * (t ^ 2 + 4) * (t ^ 2 + 16) * (t ^ 2 + 36))))
    (-5 / 16) 2 (-27 / 16) (by norm_num)
    (by intro t ht; simp only [Nat.factorial]; field_simp; push_cast; ring)
    (by intro t ht; positivity)
  obtain ⟨l4, l16, l36⟩ := log_4_16_36
  exact ⟨this.1, this.2.trans (by rw [l4, l16, l36]; ring)⟩

theorem sin6_6 : IntegrableOn (fun z => sin z ^ 6 / z ^ 6) (Ioi 0) ∧
    ∫ z in Ioi (0 : ℝ), sin z ^ 6 / z ^ 6 = 11 * π / 40 := by
  apply sin6_int 5
  have := rat_atan (fun t : ℝ => t ^ 5 / Nat.factorial 5 *
      (720 / (t * (t ^ 2 + 4) * (t ^ 2 + 16) * (t ^ 2 + 36))))
    (1 / 4) (-32 / 5) (243 / 20) (by intro t ht; simp only [Nat.factorial]; field_simp; push_cast; ring)
  exact ⟨this.1, this.2.trans (by ring)⟩

end AT
