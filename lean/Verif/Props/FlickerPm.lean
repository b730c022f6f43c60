import Verif.Lemmas.FlickerPm
import Verif.Lemmas.EulerGamma
import Verif.Props.KasdinInt
import Verif.Props.Bias
import Mathlib.Analysis.Real.Pi.Bounds

/-!
# C61: the Allan deviation predicted for flicker phase noise
-/

namespace AT

open MeasureTheory Set Real Spec

/-- the Allan variance of flicker phase noise with no power above `fh` -/
theorem avar_psd_fpm (h fh tau : ℝ) (hf : 0 < fh) (ht : 0 < tau) :
    psdVarCut avarKernel h 1 fh tau = 2 * h / (π * tau) ^ 2 * S4 (π * tau * fh) := by
  have hc : 0 < π * tau := by positivity
  have e : EqOn (fun f => h * f ^ (1 : ℝ) * avarKernel (π * f * tau))
      (fun f => 2 * h / (π * tau) * (k4 (π * tau * f))) (Ioc 0 fh) := by
    intro f hf
    simp only
    have hf0 : 0 < f := hf.1
    rw [rpow_one, avarKernel, k4_eq, show π * tau * f = π * f * tau by ring]
    field_simp
  unfold psdVarCut
  rw [setIntegral_congr_fun measurableSet_Ioc e, integral_const_mul, ← intervalIntegral.integral_of_le hf.le,
    intervalIntegral.integral_comp_mul_left k4 hc.ne', mul_zero, smul_eq_mul, S4]
  field_simp

/-- the same with the formula of the source, whose constant 0.577… is exact to 2e-8 -/
theorem avar_psd_fpm_bound (h tau0 tau : ℝ) (hh : 0 ≤ h) (h0 : 0 < tau0) (ht : 0 < tau) :
    |avarCoeff (-1) tau0 tau * h * tau ^ (avarExp (-1)) - psdVarCut avarKernel h 1 (1 / (2 * tau0)) tau|
      ≤ h / tau ^ 2 * (9 * tau0 / (4 * π ^ 3 * tau) + 2e-8) := by
  have hX : 0 < π * tau * (1 / (2 * tau0)) := by positivity
  have hS := S4_asymp hX
  obtain ⟨g1, g2⟩ := euler_bounds
  set g := eulerMascheroniConstant
  have hlog : log (π * tau * (1 / (2 * tau0))) = log (π * tau / tau0) - log 2 := by
    rw [← log_div (by positivity) (by norm_num)]
    congr 1
    field_simp
  rw [hlog] at hS
  rw [avar_psd_fpm h _ tau (by positivity) ht]
  set S := S4 (π * tau * (1 / (2 * tau0)))
  have hE : avarExp (-1) = -2 := by norm_num [avarExp]
  have hp : tau ^ (-2 : ℝ) = (tau ^ 2)⁻¹ := by rw [rpow_neg ht.le]; norm_num
  have hA : avarCoeff (-1) tau0 tau =
      (3 * 0.57721566490153286060651209 - log 2 + 3 * log (π * tau / tau0)) / (4 * π ^ 2) := by
    norm_num [avarCoeff]
  rw [hE, hp, hA]
  set l := log (π * tau / tau0)
  have hpi := pi_gt_three
  have e : (3 * 0.57721566490153286060651209 - log 2 + 3 * l) / (4 * π ^ 2) * h * (tau ^ 2)⁻¹
      - 2 * h / (π * tau) ^ 2 * S
      = h / tau ^ 2 * (2 / π ^ 2 * (3 / 8 * (l - log 2 + g) + 1 / 4 * log 2 - S)
        + 3 / (4 * π ^ 2) * (0.57721566490153286060651209 - g)) := by
    field_simp
    ring
  rw [e, abs_mul, abs_of_nonneg (by positivity : 0 ≤ h / tau ^ 2)]
  apply mul_le_mul_of_nonneg_left _ (by positivity)
  have b1 : |2 / π ^ 2 * (3 / 8 * (l - log 2 + g) + 1 / 4 * log 2 - S)| ≤ 9 * tau0 / (4 * π ^ 3 * tau) := by
    rw [abs_mul, abs_of_pos (by positivity : 0 < 2 / π ^ 2), abs_sub_comm]
    calc _ ≤ 2 / π ^ 2 * (9 / (16 * (π * tau * (1 / (2 * tau0))))) :=
          mul_le_mul_of_nonneg_left hS (by positivity)
      _ = _ := by field_simp; norm_num
  have b2 : |3 / (4 * π ^ 2) * (0.57721566490153286060651209 - g)| ≤ 2e-8 := by
    rw [abs_mul, abs_of_pos (by positivity : 0 < 3 / (4 * π ^ 2))]
    have h1 : |0.57721566490153286060651209 - g| ≤ 2e-8 := by
      rw [abs_le]; constructor <;> norm_num at * <;> linarith
    have h2 : 3 / (4 * π ^ 2) ≤ 1 := by
      rw [div_le_one (by positivity)]; nlinarith
    calc _ ≤ 1 * 2e-8 := mul_le_mul h2 h1 (abs_nonneg _) zero_le_one
      _ = _ := one_mul _
  exact (abs_add_le _ _).trans (add_le_add b1 b2)

/-- the formula is positive from `τ₀` on -/
theorem avarCoeff_fpm_pos (tau0 tau : ℝ) (h0 : 0 < tau0) (ht : tau0 ≤ tau) : 0 < avarCoeff (-1) tau0 tau := by
  have hA : avarCoeff (-1) tau0 tau =
      (3 * 0.57721566490153286060651209 - log 2 + 3 * log (π * tau / tau0)) / (4 * π ^ 2) := by
    norm_num [avarCoeff]
  rw [hA]
  have hl : 0 ≤ log (π * tau / tau0) := by
    apply log_nonneg
    rw [le_div_iff₀ h0]
    nlinarith [pi_gt_three]
  have := log_two_lt_d9
  apply div_pos _ (by positivity)
  norm_num at *
  linarith

/-- C61: for flicker phase noise with no power above the Nyquist frequency `1/(2 τ₀)` the square of
the predicted Allan deviation is the Allan variance integral up to an explicit small remainder,
at every `τ ≥ τ₀` -/
theorem kasdin_adev_psd_fpm (s : Noise) (tau0 tau : ℝ) (hb : s.b = -1) (hq : 0 ≤ s.qd)
    (h0 : 0 < tau0) (ht : tau0 ≤ tau) :
    ∃ v : ℝ, s.adev tau0 tau = .ok (some v) ∧ 0 ≤ v ∧
      |v ^ 2 - psdVarCut avarKernel (s.frequency_psd_from_qd tau0) (s.b + 2) (1 / (2 * tau0)) tau|
        ≤ s.frequency_psd_from_qd tau0 / tau ^ 2 * (9 * tau0 / (4 * π ^ 3 * tau) + 2e-8) := by
  have ht0 : 0 < tau := lt_of_lt_of_le h0 ht
  have hk : KasdinType s.b := by unfold KasdinType; tauto
  have hn := frequency_psd_nonneg s tau0 hq h0
  have hp : 0 < avarCoeff s.b tau0 tau := by rw [hb]; exact avarCoeff_fpm_pos tau0 tau h0 ht
  refine ⟨_, by rw [kasdin_adev_eq s tau0 tau hk ht0, if_neg (not_lt.2 (mul_nonneg hp.le hn))], by positivity, ?_⟩
  have e : (√(avarCoeff s.b tau0 tau * s.frequency_psd_from_qd tau0) * tau ^ (avarExp s.b / 2)) ^ 2
      = avarCoeff (-1) tau0 tau * s.frequency_psd_from_qd tau0 * tau ^ (avarExp (-1)) := by
    rw [mul_pow, sq_sqrt (mul_nonneg hp.le hn), hb, ← rpow_natCast, ← rpow_mul ht0.le]
    norm_num
  rw [e, show s.b + 2 = (1 : ℝ) by rw [hb]; norm_num]
  exact avar_psd_fpm_bound _ tau0 tau hn h0 ht0

example := kasdin_adev_psd_fpm (Noise.init 8 3 (-1)) 2 500 rfl (by norm_num [Noise.init]) (by norm_num) (by norm_num)

/-- C61: hence the relative error of the predicted variance tends to zero: at `τ = n τ₀` it is
below `1/n + 2e-6` -/
theorem kasdin_adev_psd_fpm_rel (s : Noise) (tau0 tau : ℝ) (hb : s.b = -1) (hq : 0 < s.qd)
    (h0 : 0 < tau0) (ht : tau0 ≤ tau) :
    ∃ v : ℝ, s.adev tau0 tau = .ok (some v) ∧ 0 < v ∧
      |v ^ 2 - psdVarCut avarKernel (s.frequency_psd_from_qd tau0) (s.b + 2) (1 / (2 * tau0)) tau|
        ≤ v ^ 2 * (tau0 / tau + 2e-6) := by
  have ht0 : 0 < tau := lt_of_lt_of_le h0 ht
  have hn : 0 < s.frequency_psd_from_qd tau0 := by
    unfold Noise.frequency_psd_from_qd
    positivity
  have hk : KasdinType s.b := by unfold KasdinType; tauto
  have hc : 4 / (4 * π ^ 2) ≤ avarCoeff (-1) tau0 tau := by
    have hA : avarCoeff (-1) tau0 tau =
        (3 * 0.57721566490153286060651209 - log 2 + 3 * log (π * tau / tau0)) / (4 * π ^ 2) := by
      norm_num [avarCoeff]
    rw [hA]
    have hl : 1 ≤ log (π * tau / tau0) := by
      rw [le_log_iff_exp_le (by positivity), le_div_iff₀ h0]
      nlinarith [pi_gt_three, exp_one_lt_d9]
    have := log_two_lt_d9
    apply div_le_div_of_nonneg_right _ (by positivity)
    norm_num at *
    linarith
  have hcp : 0 < avarCoeff (-1) tau0 tau := lt_of_lt_of_le (by positivity) hc
  obtain ⟨v, hv, hv0, hle⟩ := kasdin_adev_psd_fpm s tau0 tau hb hq.le h0 ht
  have e : v ^ 2 = avarCoeff (-1) tau0 tau * s.frequency_psd_from_qd tau0 / tau ^ 2 := by
    rw [kasdin_adev_eq s tau0 tau hk ht0, hb, if_neg (not_lt.2 (mul_nonneg hcp.le hn.le))] at hv
    have := Option.some.inj (Except.ok.inj hv)
    rw [← this, mul_pow, sq_sqrt (mul_nonneg hcp.le hn.le), ← rpow_natCast, ← rpow_mul ht0.le]
    have h2 : avarExp (-1) / 2 * ((2 : ℕ) : ℝ) = -2 := by norm_num [avarExp]
    rw [h2, rpow_neg ht0.le]
    norm_num
    ring
  have hvp : 0 < v ^ 2 := by rw [e]; positivity
  refine ⟨v, hv, lt_of_le_of_ne hv0 (by rintro rfl; norm_num at hvp), hle.trans ?_⟩
  rw [e, show avarCoeff (-1) tau0 tau * s.frequency_psd_from_qd tau0 / tau ^ 2 * (tau0 / tau + 2e-6)
    = s.frequency_psd_from_qd tau0 / tau ^ 2 * (avarCoeff (-1) tau0 tau * (tau0 / tau + 2e-6)) by ring]
  apply mul_le_mul_of_nonneg_left _ (by positivity)
  have hp3 := pi_gt_three
  have hp4 := pi_lt_four
  have h1 : 9 * tau0 / (4 * π ^ 3 * tau) ≤ avarCoeff (-1) tau0 tau * (tau0 / tau) := by
    rw [show 9 * tau0 / (4 * π ^ 3 * tau) = 9 / (4 * π ^ 3) * (tau0 / tau) by field_simp]
    apply mul_le_mul_of_nonneg_right _ (by positivity)
    refine le_trans ?_ hc
    rw [div_le_div_iff₀ (by positivity) (by positivity)]
    nlinarith [sq_nonneg π, mul_pos pi_pos pi_pos]
  have h2 : 2e-8 ≤ avarCoeff (-1) tau0 tau * 2e-6 := by
    have : 1 / 100 ≤ 4 / (4 * π ^ 2) := by
      rw [div_le_div_iff₀ (by norm_num) (by positivity)]; nlinarith
    norm_num at *
    linarith
  linarith

example := kasdin_adev_psd_fpm_rel (Noise.init 8 3 (-1)) 2 500 rfl (by norm_num [Noise.init]) (by norm_num) (by norm_num)

/-- C65: for flicker phase noise `rn_theory` is the modified Allan variance integral divided by the
Allan variance integral at `τ = af τ₀`, up to an explicit small remainder of the latter -/
theorem rn_theory_fpm (h tau0 af : ℝ) (hh : 0 < h) (h0 : 0 < tau0) (haf : 1 ≤ af) :
    ∃ A : ℝ, 0 < A ∧ rn_theory af (-1) = psdVar mvarKernel h 1 (af * tau0) / A ∧
      |A - psdVarCut avarKernel h 1 (1 / (2 * tau0)) (af * tau0)|
        ≤ h / (af * tau0) ^ 2 * (9 / (4 * π ^ 3 * af) + 2e-5) := by
  have haf0 : 0 < af := by linarith
  have ht : 0 < af * tau0 := by positivity
  have hlg : 0 ≤ log (π * af) := by
    apply log_nonneg; nlinarith [pi_gt_three]
  have l1 := log_two_gt_d9
  have l2 := log_two_lt_d9
  have hp3 := pi_gt_three
  refine ⟨(1.038 + 3 * log (π * af)) / (4 * π ^ 2) * h / (af * tau0) ^ 2, by positivity, ?_, ?_⟩
  · have hm := mvar_psd (-1) (by unfold KasdinType; norm_num) (by norm_num) (af * tau0) h ht
    rw [show (-1 : ℝ) + 2 = 1 by norm_num] at hm
    rw [hm, rn_theory_eq]
    have hE : (af * tau0) ^ (-(-1 : ℝ) - 3) = ((af * tau0) ^ 2)⁻¹ := by
      rw [show (-(-1 : ℝ) - 3) = -2 by norm_num, rpow_neg ht.le]; norm_num
    rw [hE]
    have hlog : log (256 / 27 : ℝ) = 8 * log 2 - 3 * log 3 := by
      rw [log_div (by norm_num) (by norm_num), show (256 : ℝ) = 2 ^ 8 by norm_num,
        show (27 : ℝ) = 3 ^ 3 by norm_num, log_pow, log_pow]
      norm_num
    have hA : (1.038 : ℝ) + 3 * log (π * af) ≠ 0 := by
      have : (0 : ℝ) < 1.038 + 3 * log (π * af) := by positivity
      exact this.ne'
    rw [if_neg (by norm_num), if_pos rfl, hlog]
    norm_num [mvarCoeff] at hA ⊢
    field_simp
    ring
  · have hb := avar_psd_fpm_bound h tau0 (af * tau0) hh.le h0 ht
    have hE : avarExp (-1) = -2 := by norm_num [avarExp]
    have hp : (af * tau0) ^ (-2 : ℝ) = ((af * tau0) ^ 2)⁻¹ := by rw [rpow_neg ht.le]; norm_num
    have hA : avarCoeff (-1) tau0 (af * tau0) =
        (3 * 0.57721566490153286060651209 - log 2 + 3 * log (π * af)) / (4 * π ^ 2) := by
      norm_num [avarCoeff]
      field_simp
    rw [hE, hp, hA] at hb
    set V := psdVarCut avarKernel h 1 (1 / (2 * tau0)) (af * tau0)
    set l := log (π * af)
    have e : (1.038 + 3 * l) / (4 * π ^ 2) * h / (af * tau0) ^ 2 - V
        = ((3 * 0.57721566490153286060651209 - log 2 + 3 * l) / (4 * π ^ 2) * h * ((af * tau0) ^ 2)⁻¹ - V)
          + h / (af * tau0) ^ 2 * ((1.038 - (3 * 0.57721566490153286060651209 - log 2)) / (4 * π ^ 2)) := by
      field_simp
      ring
    rw [e]
    have b2 : |h / (af * tau0) ^ 2 * ((1.038 - (3 * 0.57721566490153286060651209 - log 2)) / (4 * π ^ 2))|
        ≤ h / (af * tau0) ^ 2 * 1.9e-5 := by
      rw [abs_mul, abs_of_pos (by positivity : 0 < h / (af * tau0) ^ 2), abs_div,
        abs_of_pos (by positivity : 0 < 4 * π ^ 2)]
      apply mul_le_mul_of_nonneg_left _ (by positivity)
      rw [div_le_iff₀ (by positivity), abs_le]
      constructor <;> norm_num at * <;> nlinarith
    refine (abs_add_le _ _).trans ((add_le_add hb b2).trans ?_)
    rw [← mul_add]
    apply mul_le_mul_of_nonneg_left _ (by positivity)
    have : 9 * tau0 / (4 * π ^ 3 * (af * tau0)) = 9 / (4 * π ^ 3 * af) := by field_simp
    rw [this]
    norm_num
    linarith

example := rn_theory_fpm 3 2 100 (by norm_num) (by norm_num) (by norm_num)

/-- C65: for white phase noise `rn_theory` is the ratio of the modified Allan variance integral and
the Allan variance integral, with no power above the Nyquist frequency -/
theorem rn_theory_wpm (h tau0 : ℝ) (m : ℕ) (hh : 0 < h) (h0 : 0 < tau0) (hm : 0 < m) :
    rn_theory m 0 = psdVar mvarKernel h 2 (m * tau0) / psdVarCut avarKernel h 2 (1 / (2 * tau0)) (m * tau0) := by
  have hmr : (0 : ℝ) < m := by exact_mod_cast hm
  have ht : 0 < m * tau0 := by positivity
  have h1 := mvar_psd 0 (by unfold KasdinType; norm_num) (by norm_num) (m * tau0) h ht
  have h2 := avar_psd_wpm tau0 h m h0 hm
  rw [zero_add] at h1 h2
  rw [h1, h2, rn_theory_eq, if_pos rfl, mvarCoeff, if_pos rfl, avarCoeff, if_pos rfl]
  have hE : avarExp 0 = -2 := by norm_num [avarExp]
  rw [hE, show (-0 - 3 : ℝ) = -2 + -1 by norm_num, rpow_add ht, rpow_neg_one]
  have := (rpow_pos_of_pos ht (-2)).ne'
  field_simp

example := rn_theory_wpm 3 2 100 (by norm_num) (by norm_num) (by norm_num)

/-- the ratio of the two variances for the frequency noise types -/
noncomputable def Spec.rnLimit (b : ℝ) : ℝ :=
  if b = -2 then 1 / 2 else if b = -3 then (27 * log 3 - 32 * log 2) / (16 * log 2) else 33 / 40

/-- C65: for the frequency noise types `rn_theory` is 1, while the modified Allan variance is
smaller than the Allan variance: the ratio is 1/2 for white, 0.67 for flicker and 33/40 for random
walk frequency noise, at every `τ` -/
theorem rn_theory_fm_wrong (h af tau : ℝ) (b : ℤ) (hb : b = -2 ∨ b = -3 ∨ b = -4) (hh : 0 < h) (ht : 0 < tau) :
    rn_theory af b = 1 ∧
    psdVar mvarKernel h (b + 2) tau / psdVar avarKernel h (b + 2) tau = rnLimit b ∧ rnLimit b < 5 / 6 := by
  refine ⟨?_, ?_⟩
  · rw [rn_theory_eq]
    rcases hb with rfl | rfl | rfl <;> norm_num
  have hl2 : 0 < log (2 : ℝ) := log_pos (by norm_num)
  rcases hb with rfl | rfl | rfl
  · have h1 := mvar_psd (-2) (by unfold KasdinType; norm_num) (by norm_num) tau h ht
    have h2 := avar_psd (-2) (by norm_num) 1 tau h ht
    push_cast
    rw [h1, h2]
    have hE : avarExp (-2) = -(-2) - 3 := by norm_num [avarExp]
    rw [hE]
    have := (rpow_pos_of_pos ht (-(-2) - 3)).ne'
    refine ⟨?_, by norm_num [rnLimit]⟩
    norm_num [mvarCoeff, avarCoeff, rnLimit] at this ⊢
    field_simp
    norm_num
  · have h1 := mvar_psd_ffm tau h ht
    have h2 := avar_psd (-3) (by norm_num) 1 tau h ht
    push_cast
    norm_num [avarCoeff, rnLimit, avarExp] at h1 h2 ⊢
    rw [h1, h2]
    refine ⟨by field_simp; ring, ?_⟩
    rw [div_lt_iff₀ (by positivity)]
    have := log_three_lt
    linarith
  · have h1 := mvar_psd (-4) (by unfold KasdinType; norm_num) (by norm_num) tau h ht
    have h2 := avar_psd (-4) (by norm_num) 1 tau h ht
    push_cast
    rw [h1, h2]
    have hE : avarExp (-4) = -(-4) - 3 := by norm_num [avarExp]
    rw [hE]
    have := (rpow_pos_of_pos ht (-(-4) - 3)).ne'
    refine ⟨?_, by norm_num [rnLimit]⟩
    norm_num [mvarCoeff, avarCoeff, rnLimit] at this ⊢
    field_simp
    norm_num

example := rn_theory_fm_wrong 3 100 2 (-3) (by norm_num) (by norm_num) (by norm_num)

end AT
