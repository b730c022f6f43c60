import Verif.Spec.Chi2
import Mathlib.Probability.Moments.ComplexMGF
import Mathlib.Probability.Distributions.Gaussian.Real
import Mathlib.MeasureTheory.Measure.LevyConvergence
import Mathlib.MeasureTheory.Measure.Portmanteau
import Mathlib.Analysis.SpecialFunctions.Complex.LogBounds

/-!
# The chi-squared distribution with many degrees of freedom is nearly normal
-/

namespace AT

open Spec MeasureTheory ProbabilityTheory Filter Topology Complex

/-- distribution functions converge when characteristic functions converge to that of a normal variable -/
theorem cdf_of_charFun (μ : ℕ → Measure ℝ) [hμ : ∀ n, IsProbabilityMeasure (μ n)] {v : NNReal} (hv : v ≠ 0)
    (h : ∀ t, Tendsto (fun n => charFun (μ n) t) atTop (𝓝 (charFun (gaussianReal 0 v) t))) (x : ℝ) :
    Tendsto (fun n => (μ n).real (Set.Iic x)) atTop (𝓝 ((gaussianReal 0 v).real (Set.Iic x))) := by
  have h1 : Tendsto (β := ProbabilityMeasure ℝ) (fun n => ⟨μ n, hμ n⟩) atTop
      (𝓝 ⟨gaussianReal 0 v, inferInstance⟩) := ProbabilityMeasure.tendsto_iff_tendsto_charFun.2 h
  have := nullSingletonClass_gaussianReal (μ := 0) hv
  have h2 := ProbabilityMeasure.tendsto_measure_of_null_frontier_of_tendsto' h1 (E := Set.Iic x)
    (by simp)
  exact (ENNReal.tendsto_toReal (measure_ne_top _ _)).comp h2

theorem gamma_mgf {a r t : ℝ} (ha : 0 < a) (hr : 0 < r) (ht : t < r) :
    mgf id (gammaMeasure a r) t = (r / (r - t)) ^ a := by
  have hrt : 0 < r - t := sub_pos.2 ht
  rw [mgf, gammaMeasure, integral_withDensity_eq_integral_toReal_smul (by
    unfold gammaPDF; exact (measurable_gammaPDFReal a r).ennreal_ofReal) (by simp [gammaPDF])]
  have e : ∀ x, (gammaPDF a r x).toReal • Real.exp (t * id x)
      = (Set.Ici (0 : ℝ)).indicator (fun x => r ^ a / Real.Gamma a * (x ^ (a - 1) * Real.exp (-((r - t) * x)))) x := by
    intro x
    rw [gammaPDF, ENNReal.toReal_ofReal (gammaPDFReal_nonneg ha hr x), gammaPDFReal, Set.indicator_apply]
    simp only [Set.mem_Ici, smul_eq_mul, id]
    split_ifs
    · rw [show -((r - t) * x) = -(r * x) + t * x by ring, Real.exp_add]
      ring
    · simp
  simp_rw [e]
  rw [integral_indicator measurableSet_Ici, integral_Ici_eq_integral_Ioi, integral_const_mul,
    Real.integral_rpow_mul_exp_neg_mul_Ioi ha hrt]
  have := (Real.Gamma_pos_of_pos ha).ne'
  rw [Real.div_rpow zero_le_one hrt.le, Real.one_rpow, Real.div_rpow hr.le hrt.le]
  field_simp

theorem gamma_exp_int {a r t : ℝ} (ha : 0 < a) (hr : 0 < r) (ht : t < r) :
    t ∈ integrableExpSet id (gammaMeasure a r) := by
  by_contra h
  have h1 : mgf id (gammaMeasure a r) t = 0 := integral_undef h
  rw [gamma_mgf ha hr ht] at h1
  have : 0 < (r / (r - t)) ^ a := Real.rpow_pos_of_pos (div_pos hr (sub_pos.2 ht)) _
  linarith

theorem gamma_complexMGF {a r : ℝ} (ha : 0 < a) (hr : 0 < r) {z : ℂ} (hz : z.re < r) :
    complexMGF id (gammaMeasure a r) z = (1 - z / r) ^ (-a : ℂ) := by
  have hr' : (r : ℂ) ≠ 0 := ofReal_ne_zero.2 hr.ne'
  have hU : IsOpen {z : ℂ | z.re < r} := isOpen_lt continuous_re continuous_const
  have hsub : Set.Iio r ⊆ interior (integrableExpSet id (gammaMeasure a r)) :=
    interior_maximal (fun t ht => gamma_exp_int ha hr ht) isOpen_Iio
  have h1 : AnalyticOnNhd ℂ (complexMGF id (gammaMeasure a r)) {z | z.re < r} := fun z hz =>
    analyticOnNhd_complexMGF z (hsub hz)
  have h2 : AnalyticOnNhd ℂ (fun z : ℂ => (1 - z / r) ^ (-a : ℂ)) {z | z.re < r} := by
    refine DifferentiableOn.analyticOnNhd (fun z hz => ?_) hU
    refine DifferentiableAt.differentiableWithinAt ?_
    have hs : 1 - z / r ∈ slitPlane := by
      left
      rw [sub_re, one_re, div_ofReal_re, sub_pos, div_lt_one hr]
      exact hz
    exact DifferentiableAt.cpow (by fun_prop) (by fun_prop) hs
  refine AnalyticOnNhd.eqOn_of_preconnected_of_frequently_eq h1 h2
    ((convex_Iio r).linear_preimage reLm).isPreconnected (z₀ := ((0 : ℝ) : ℂ)) (by simpa using hr) ?_ hz
  have hreal : ∃ᶠ x : ℝ in 𝓝[≠] 0, complexMGF id (gammaMeasure a r) x = (1 - (x : ℂ) / r) ^ (-a : ℂ) := by
    refine Eventually.frequently (eventually_nhdsWithin_of_eventually_nhds ?_)
    filter_upwards [eventually_lt_nhds hr] with x hx
    have hp : 0 < 1 - x / r := by rw [sub_pos, div_lt_one hr]; exact hx
    rw [complexMGF_ofReal, gamma_mgf ha hr hx, show (1 - (x : ℂ) / r) = ((1 - x / r : ℝ) : ℂ) by push_cast; ring,
      show (-a : ℂ) = ((-a : ℝ) : ℂ) by push_cast; ring, ← ofReal_cpow hp.le, Real.rpow_neg hp.le]
    congr 1
    rw [← Real.inv_rpow hp.le]
    congr 1
    have : r - x ≠ 0 := (sub_pos.2 hx).ne'
    field_simp
  rw [frequently_iff_seq_forall] at hreal ⊢
  obtain ⟨xs, hx_tendsto, hx_eq⟩ := hreal
  refine ⟨fun n => xs n, ?_, fun n => hx_eq n⟩
  rw [tendsto_nhdsWithin_iff] at hx_tendsto ⊢
  refine ⟨?_, by simpa using hx_tendsto.2⟩
  rw [tendsto_ofReal_iff]
  exact hx_tendsto.1

/-- the characteristic function of the chi-squared distribution -/
theorem chi2_charFun {k : ℝ} (hk : 0 < k) (t : ℝ) :
    charFun (chi2 k) t = (1 - 2 * t * I) ^ (-(k / 2 : ℝ) : ℂ) := by
  rw [← complexMGF_id_mul_I, chi2, gamma_complexMGF (by positivity) (by norm_num) (by simp)]
  congr 1
  push_cast
  ring

/-- the logarithm to second order -/
theorem log_second {z : ℂ} (hz : ‖z‖ ≤ 1 / 2) : ‖log (1 + z) - (z - z ^ 2 / 2)‖ ≤ ‖z‖ ^ 3 := by
  have h := norm_log_sub_logTaylor_le 2 (z := z) (by linarith)
  have e : logTaylor (2 + 1) z = z - z ^ 2 / 2 := by
    simp [logTaylor, Finset.sum_range_succ]
    ring
  rw [e] at h
  refine h.trans ?_
  have h1 : (1 - ‖z‖)⁻¹ ≤ 2 := by
    rw [inv_le_comm₀ (by linarith) (by norm_num)]
    linarith
  have h2 : 0 ≤ ‖z‖ ^ 3 := by positivity
  have : ‖z‖ ^ (2 + 1) * (1 - ‖z‖)⁻¹ ≤ ‖z‖ ^ 3 * 2 := mul_le_mul_of_nonneg_left h1 h2
  push_cast
  linarith

/-- the standardised chi-squared characteristic function tends to that of a standard normal variable -/
theorem chi2_charFun_tendsto {k : ℕ → ℝ} (hk : Tendsto k atTop atTop) (t : ℝ) :
    Tendsto (fun n => cexp (-(t * √(k n / 2) : ℝ) * I) * charFun (chi2 (k n)) ((√(2 * k n))⁻¹ * t)) atTop
      (𝓝 (cexp (-(t ^ 2 / 2)))) := by
  have hpos := hk.eventually_gt_atTop 0
  have hs : Tendsto (fun n => √(k n / 2)) atTop atTop :=
    Real.tendsto_sqrt_atTop.comp (hk.atTop_div_const (by norm_num))
  have hsmall : ∀ᶠ n in atTop, |t| / √(k n / 2) ≤ 1 / 2 := by
    have : Tendsto (fun n => |t| / √(k n / 2)) atTop (𝓝 0) := hs.const_div_atTop _
    exact this.eventually_le_const (by norm_num)
  have key : ∀ᶠ n in atTop, cexp (-(t * √(k n / 2) : ℝ) * I) * charFun (chi2 (k n)) ((√(2 * k n))⁻¹ * t)
      = cexp (-(t ^ 2 / 2) - (k n / 2 : ℝ) * (log (1 + -(t / √(k n / 2) : ℝ) * I)
        - (-(t / √(k n / 2) : ℝ) * I - (-(t / √(k n / 2) : ℝ) * I) ^ 2 / 2))) := by
    filter_upwards [hpos] with n hn
    have hs0 : 0 < √(k n / 2) := Real.sqrt_pos.2 (by positivity)
    have hsq : √(k n / 2) ^ 2 = k n / 2 := Real.sq_sqrt (by positivity)
    have e1 : √(2 * k n) = 2 * √(k n / 2) := by
      rw [show 2 * k n = 2 ^ 2 * (k n / 2) by ring, Real.sqrt_mul (by norm_num), Real.sqrt_sq (by norm_num)]
    have e2 : (1 : ℂ) - 2 * (((√(2 * k n))⁻¹ * t : ℝ) : ℂ) * I = 1 + -(t / √(k n / 2) : ℝ) * I := by
      rw [e1]
      have : (2 : ℂ) * (((2 * √(k n / 2))⁻¹ * t : ℝ) : ℂ) = ((t / √(k n / 2) : ℝ) : ℂ) := by
        rw [← ofReal_ofNat, ← ofReal_mul]
        congr 1
        field_simp
      rw [this]
      ring
    have ne : (1 : ℂ) + -(t / √(k n / 2) : ℝ) * I ≠ 0 := by
      intro h
      have := congrArg re h
      rw [← ofReal_neg, add_re, re_ofReal_mul, I_re, one_re, zero_re, mul_zero] at this
      norm_num at this
    rw [chi2_charFun hn, e2, cpow_def_of_ne_zero ne, ← Complex.exp_add]
    congr 1
    generalize log (1 + -(t / √(k n / 2) : ℝ) * I) = L
    have e3 : (k n / 2 : ℝ) = √(k n / 2) ^ 2 := hsq.symm
    rw [e3, Real.sqrt_sq hs0.le]
    generalize √(k n / 2) = s at *
    have hs' : (s : ℂ) ≠ 0 := ofReal_ne_zero.2 hs0.ne'
    push_cast
    field_simp
    ring_nf
    rw [I_sq]
    ring
  rw [tendsto_congr' key]
  have hz : Tendsto (fun n => (k n / 2 : ℝ) * (log (1 + -(t / √(k n / 2) : ℝ) * I)
        - (-(t / √(k n / 2) : ℝ) * I - (-(t / √(k n / 2) : ℝ) * I) ^ 2 / 2))) atTop (𝓝 0) := by
    have hlim : Tendsto (fun n => |t| ^ 3 / √(k n / 2)) atTop (𝓝 0) := hs.const_div_atTop _
    refine squeeze_zero_norm' ?_ hlim
    filter_upwards [hsmall, hpos] with n h1 hn
    have hs0 : 0 < √(k n / 2) := Real.sqrt_pos.2 (by positivity)
    have hn' : ‖-((t / √(k n / 2) : ℝ) : ℂ) * I‖ = |t| / √(k n / 2) := by
      rw [norm_mul, norm_neg, norm_I, mul_one, norm_real, Real.norm_eq_abs, abs_div, abs_of_pos hs0]
    have := log_second (z := -((t / √(k n / 2) : ℝ) : ℂ) * I) (by rw [hn']; exact h1)
    rw [hn'] at this
    rw [norm_mul, norm_real, Real.norm_eq_abs, abs_of_pos (by positivity)]
    refine (mul_le_mul_of_nonneg_left this (by positivity)).trans (le_of_eq ?_)
    have hsq : k n / 2 = √(k n / 2) ^ 2 := (Real.sq_sqrt (by positivity)).symm
    rw [hsq, Real.sqrt_sq hs0.le]
    field_simp
  have := (tendsto_const_nhds (x := -((t : ℂ) ^ 2 / 2))).sub hz
  rw [sub_zero] at this
  exact (Complex.continuous_exp.tendsto _).comp this

/-- the distribution function of the standard normal law -/
noncomputable def Phi (x : ℝ) : ℝ := (gaussianReal 0 1).real (Set.Iic x)

/-- the chi-squared distribution function near its mean tends to that of a normal variable -/
theorem chi2_cdf_tendsto {k : ℕ → ℝ} (hk : Tendsto k atTop atTop) (hk0 : ∀ n, 0 < k n) (x : ℝ) :
    Tendsto (fun n => cdf (chi2 (k n)) (k n + x * √(2 * k n))) atTop (𝓝 (Phi x)) := by
  have hp := fun n => chi2_prob (hk0 n)
  have hm : ∀ n, Measurable (fun y : ℝ => (√(2 * k n))⁻¹ * y + -√(k n / 2)) := fun n => by fun_prop
  have hμ : ∀ n, IsProbabilityMeasure ((chi2 (k n)).map (fun y => (√(2 * k n))⁻¹ * y + -√(k n / 2))) := fun n =>
    Measure.isProbabilityMeasure_map (hm n).aemeasurable
  have h := cdf_of_charFun (fun n => (chi2 (k n)).map (fun y => (√(2 * k n))⁻¹ * y + -√(k n / 2))) one_ne_zero ?_ x
  · refine h.congr fun n => ?_
    have hs0 : 0 < √(2 * k n) := Real.sqrt_pos.2 (by have := hk0 n; positivity)
    have e1 : √(2 * k n) * √(k n / 2) = k n := by
      rw [← Real.sqrt_mul (by have := hk0 n; positivity), show 2 * k n * (k n / 2) = k n ^ 2 by ring,
        Real.sqrt_sq (hk0 n).le]
    rw [map_measureReal_apply (hm n) measurableSet_Iic, cdf_eq_real]
    congr 1
    ext y
    simp only [Set.mem_preimage, Set.mem_Iic]
    rw [← sub_eq_add_neg, sub_le_iff_le_add, inv_mul_le_iff₀ hs0, mul_add, e1, add_comm, mul_comm]
  · intro t
    have h2 := chi2_charFun_tendsto hk t
    rw [charFun_gaussianReal]
    have e : cexp (t * (0 : ℝ) * I - (1 : NNReal) * (t : ℂ) ^ 2 / 2) = cexp (-(t ^ 2 / 2)) := by
      congr 1
      push_cast
      simp
    rw [e]
    refine h2.congr fun n => ?_
    have h3 : (chi2 (k n)).map (fun y => (√(2 * k n))⁻¹ * y + -√(k n / 2))
        = ((chi2 (k n)).map ((√(2 * k n))⁻¹ * ·)).map (· + -√(k n / 2)) := by
      rw [Measure.map_map (by fun_prop) (by fun_prop)]
      rfl
    rw [h3, charFun_map_add_const, charFun_map_mul, mul_comm]
    congr 2
    simp

end AT
