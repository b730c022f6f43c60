import Verif.Props.KasdinDev
import Verif.Props.Psd
import Verif.Lemmas.PvarInt
import Mathlib.MeasureTheory.Measure.Haar.NormedSpace
import Mathlib.Analysis.SpecialFunctions.Integrals.Basic
import Mathlib.Analysis.Complex.ExponentialBounds

/-!
# C61: the predicted deviations are the integrals of the power law spectrum
-/

namespace AT

open MeasureTheory Set Real Spec

/-- transfer function of the Allan variance at `z = π f τ` -/
noncomputable def Spec.avarKernel (z : ℝ) : ℝ := 2 * sin z ^ 4 / z ^ 2

/-- transfer function of the modified Allan variance in the limit `τ₀ → 0` -/
noncomputable def Spec.mvarKernel (z : ℝ) : ℝ := 2 * sin z ^ 6 / z ^ 4

/-- transfer function of the parabolic variance -/
noncomputable def Spec.pvarKernel (z : ℝ) : ℝ := 9 * (2 * sin z ^ 2 - z * sin (2 * z)) ^ 2 / (2 * z ^ 6)

/-- the variance with transfer function `K` of noise with the frequency PSD `h f^a` -/
noncomputable def Spec.psdVar (K : ℝ → ℝ) (h a tau : ℝ) : ℝ := ∫ f in Ioi 0, h * f ^ a * K (π * f * tau)

/-- the same for noise with no power above `fh` -/
noncomputable def Spec.psdVarCut (K : ℝ → ℝ) (h a fh tau : ℝ) : ℝ :=
  ∫ f in Ioc 0 fh, h * f ^ a * K (π * f * tau)

theorem psdVar_eq (K : ℝ → ℝ) (h a tau : ℝ) (ht : 0 < tau) :
    psdVar K h a tau = h / (π * tau) ^ (a + 1) * ∫ z in Ioi 0, z ^ a * K z := by
  have hc : 0 < π * tau := by positivity
  have e : EqOn (fun f => h * f ^ a * K (π * f * tau))
      (fun f => h / (π * tau) ^ a * ((fun z => z ^ a * K z) (π * tau * f))) (Ioi 0) := by
    intro f hf
    simp only
    rw [mul_rpow hc.le (le_of_lt hf), show π * tau * f = π * f * tau by ring]
    have := (rpow_pos_of_pos hc a).ne'
    field_simp
  unfold psdVar
  rw [setIntegral_congr_fun measurableSet_Ioi e, integral_const_mul,
    integral_comp_mul_left_Ioi (fun z => z ^ a * K z) 0 hc, mul_zero, smul_eq_mul, rpow_add_one hc.ne']
  have := (rpow_pos_of_pos hc a).ne'
  field_simp

theorem psdVar_of (K : ℝ → ℝ) (g : ℝ → ℝ) (n : ℕ) (c v a : ℝ)
    (he : ∀ z, 0 < z → z ^ a * K z = c * (g z / z ^ n)) (hv : ∫ z in Ioi (0 : ℝ), g z / z ^ n = v)
    (k e : ℝ) (hk : c * v / π ^ (a + 1) = k) (hee : -a - 1 = e)
    (h tau : ℝ) (ht : 0 < tau) : psdVar K h a tau = k * h * tau ^ e := by
  rw [← hk, ← hee, psdVar_eq K h a tau ht, setIntegral_congr_fun measurableSet_Ioi (fun z hz => he z hz),
    integral_const_mul, hv, mul_rpow pi_pos.le ht.le, show -a - 1 = -(a + 1) by ring, rpow_neg ht.le]
  have h1 := (rpow_pos_of_pos pi_pos (a + 1)).ne'
  have h2 := (rpow_pos_of_pos ht (a + 1)).ne'
  field_simp

theorem rpow_neg_two {z : ℝ} (hz : 0 < z) : z ^ (-2 : ℝ) = (z ^ 2)⁻¹ := by
  rw [rpow_neg hz.le]; norm_num

/-- the Allan variance of the noise types for which the integral converges -/
theorem avar_psd (b : ℝ) (hb : b = -2 ∨ b = -3 ∨ b = -4) (tau0 tau h : ℝ) (ht : 0 < tau) :
    psdVar avarKernel h (b + 2) tau = avarCoeff b tau0 tau * h * tau ^ (avarExp b) := by
  rcases hb with rfl | rfl | rfl
  · refine psdVar_of avarKernel (fun z => sin z ^ 4) 2 2 _ _ ?_ sin4_2.2 _ _ ?_ ?_ h tau ht
    · intro z hz
      norm_num [avarKernel]
      ring
    · norm_num [avarCoeff]
      field_simp
      norm_num
    · norm_num [avarExp]
  · refine psdVar_of avarKernel (fun z => sin z ^ 4) 3 2 _ _ ?_ sin4_3.2 _ _ ?_ ?_ h tau ht
    · intro z hz
      norm_num [avarKernel, rpow_neg_one]
      field_simp
    · norm_num [avarCoeff]
    · norm_num [avarExp]
  · refine psdVar_of avarKernel (fun z => sin z ^ 4) 4 2 _ _ ?_ sin4_4.2 _ _ ?_ ?_ h tau ht
    · intro z hz
      norm_num [avarKernel, rpow_neg_two hz]
      field_simp
    · norm_num [avarCoeff, rpow_neg_one]
      field_simp
    · norm_num [avarExp]

theorem sin4_antideriv (X : ℝ) (hX : 0 ≤ X) :
    ∫ z in Ioc 0 X, sin z ^ 4 = 3 / 8 * X - sin (2 * X) / 4 + sin (4 * X) / 32 := by
  rw [← intervalIntegral.integral_of_le hX]
  have hd : ∀ z ∈ uIcc 0 X, HasDerivAt (fun z => 3 / 8 * z - sin (2 * z) / 4 + sin (4 * z) / 32) (sin z ^ 4) z := by
    intro z _
    have h2 : ∀ k : ℝ, HasDerivAt (fun z => k * z) k z := fun k => by
      simpa using (hasDerivAt_id z).const_mul k
    refine (((h2 (3 / 8)).sub ((h2 2).sin.div_const 4)).add ((h2 4).sin.div_const 32)).congr_deriv ?_
    rw [sin_pow_four]
    ring
  rw [intervalIntegral.integral_eq_sub_of_hasDerivAt hd
    (by apply Continuous.intervalIntegrable; fun_prop)]
  simp

/-- white phase noise: no power above the Nyquist frequency, `τ` a multiple of `τ₀` -/
theorem avar_psd_wpm (tau0 h : ℝ) (m : ℕ) (h0 : 0 < tau0) (hm : 0 < m) :
    psdVarCut avarKernel h (0 + 2) (1 / (2 * tau0)) (m * tau0) =
      avarCoeff 0 tau0 (m * tau0) * h * (m * tau0) ^ (avarExp 0) := by
  have hmr : (0 : ℝ) < m := by exact_mod_cast hm
  have ht : 0 < m * tau0 := by positivity
  set tau := m * tau0 with htau
  have hc : 0 < π * tau := by positivity
  have e : EqOn (fun f => h * f ^ (0 + 2 : ℝ) * avarKernel (π * f * tau))
      (fun f => 2 * h / (π * tau) ^ 2 * ((fun z => sin z ^ 4) (π * tau * f))) (Ioc 0 (1 / (2 * tau0))) := by
    intro f hf
    simp only
    have hf0 : 0 < f := hf.1
    have : f ^ (0 + 2 : ℝ) = f ^ 2 := by norm_num
    rw [this, avarKernel, show π * tau * f = π * f * tau by ring]
    field_simp
  unfold psdVarCut
  have hle : (0 : ℝ) ≤ 1 / (2 * tau0) := by positivity
  rw [setIntegral_congr_fun measurableSet_Ioc e, integral_const_mul, ← intervalIntegral.integral_of_le hle,
    intervalIntegral.integral_comp_mul_left (fun z => sin z ^ 4) hc.ne', mul_zero,
    intervalIntegral.integral_of_le (by positivity), sin4_antideriv _ (by positivity)]
  have hX : π * tau * (1 / (2 * tau0)) = m * π / 2 := by
    rw [htau]; field_simp
  have hX2 : 2 * (m * π / 2) = m * π := by ring
  have hX4 : 4 * (m * π / 2) = (2 * m : ℕ) * π := by push_cast; ring
  rw [hX, hX2, hX4, sin_nat_mul_pi, sin_nat_mul_pi]
  have hE : avarExp 0 = -2 := by norm_num [avarExp]
  have hp : tau ^ (-2 : ℝ) = (tau ^ 2)⁻¹ := by rw [rpow_neg ht.le]; norm_num
  rw [hE, hp, avarCoeff, if_pos rfl, smul_eq_mul, htau]
  field_simp
  ring

theorem mvar_psd (b : ℝ) (hb : KasdinType b) (h3 : b ≠ -3) (tau h : ℝ) (ht : 0 < tau) :
    psdVar mvarKernel h (b + 2) tau = mvarCoeff b * h * tau ^ (-b - 3) := by
  rcases hb with rfl | rfl | rfl | h | rfl
  · refine psdVar_of mvarKernel (fun z => sin z ^ 6) 2 2 _ _ ?_ sin6_2.2 _ _ ?_ (by ring) h tau ht
    · intro z hz
      norm_num [mvarKernel]
      field_simp
    · have : π ^ (0 + 2 + 1 : ℝ) = π ^ 3 := by rw [← rpow_natCast]; norm_num
      rw [this, mvarCoeff, if_pos rfl]
      field_simp
      norm_num
  · refine psdVar_of mvarKernel (fun z => sin z ^ 6) 3 2 _ _ ?_ sin6_3.2 _ _ ?_ (by ring) h tau ht
    · intro z hz
      norm_num [mvarKernel]
      field_simp
    · norm_num [mvarCoeff]
      field_simp
      ring
  · refine psdVar_of mvarKernel (fun z => sin z ^ 6) 4 2 _ _ ?_ sin6_4.2 _ _ ?_ (by ring) h tau ht
    · intro z hz
      norm_num [mvarKernel]
      field_simp
    · norm_num [mvarCoeff]
      field_simp
      norm_num
  · exact absurd h h3
  · refine psdVar_of mvarKernel (fun z => sin z ^ 6) 6 2 _ _ ?_ sin6_6.2 _ _ ?_ (by ring) h tau ht
    · intro z hz
      norm_num [mvarKernel, rpow_neg_two hz]
      field_simp
    · norm_num [mvarCoeff, rpow_neg_one]
      field_simp
      norm_num

/-- flicker frequency noise -/
theorem mvar_psd_ffm (tau h : ℝ) (ht : 0 < tau) :
    psdVar mvarKernel h (-3 + 2) tau = (27 * log 3 - 32 * log 2) / 8 * h := by
  have := psdVar_of mvarKernel (fun z => sin z ^ 6) 5 2 _ (-3 + 2) ?_ sin6_5.2
    ((27 * log 3 - 32 * log 2) / 8) 0 ?_ (by norm_num) h tau ht
  · simpa using this
  · intro z hz
    norm_num [mvarKernel, rpow_neg_one]
    field_simp
  · norm_num
    ring

/-- the coefficient of `h_a τ^c` in the parabolic variance -/
noncomputable def Spec.pvarCoeff (b : ℝ) : ℝ :=
  if b = 0 then 3 / (2 * π ^ 2)
  else if b = -1 then 3 * (log 16 - 1) / (2 * π ^ 2)
  else if b = -2 then 3 / 5
  else if b = -3 then 2 * (7 - log 16) / 5
  else 26 * π ^ 2 / 35

theorem pvar_psd (b : ℝ) (hb : KasdinType b) (tau h : ℝ) (ht : 0 < tau) :
    psdVar pvarKernel h (b + 2) tau = pvarCoeff b * h * tau ^ (-b - 3) := by
  obtain ⟨l4, l16, l36⟩ := log_4_16_36
  rcases hb with rfl | rfl | rfl | rfl | rfl
  · refine psdVar_of pvarKernel pvarNum 4 (9 / 2) _ _ ?_ pvar_4.2 _ _ ?_ (by ring) h tau ht
    · intro z hz
      norm_num [pvarKernel, pvarNum]
      field_simp
    · have : π ^ (0 + 2 + 1 : ℝ) = π ^ 3 := by rw [← rpow_natCast]; norm_num
      rw [this, pvarCoeff, if_pos rfl]
      field_simp
      norm_num
  · refine psdVar_of pvarKernel pvarNum 5 (9 / 2) _ _ ?_ pvar_5.2 _ _ ?_ (by ring) h tau ht
    · intro z hz
      norm_num [pvarKernel, pvarNum]
      field_simp
    · norm_num [pvarCoeff]
      rw [l16]
      field_simp
      ring
  · refine psdVar_of pvarKernel pvarNum 6 (9 / 2) _ _ ?_ pvar_6.2 _ _ ?_ (by ring) h tau ht
    · intro z hz
      norm_num [pvarKernel, pvarNum]
      field_simp
    · norm_num [pvarCoeff]
      field_simp
      norm_num
  · refine psdVar_of pvarKernel pvarNum 7 (9 / 2) _ _ ?_ pvar_7.2 _ _ ?_ (by ring) h tau ht
    · intro z hz
      norm_num [pvarKernel, pvarNum, rpow_neg_one]
      field_simp
    · norm_num [pvarCoeff]
      rw [l16]
      ring
  · refine psdVar_of pvarKernel pvarNum 8 (9 / 2) _ _ ?_ pvar_8.2 _ _ ?_ (by ring) h tau ht
    · intro z hz
      norm_num [pvarKernel, pvarNum, rpow_neg_two hz]
      field_simp
    · norm_num [pvarCoeff, rpow_neg_one]
      field_simp
      norm_num

/-- C61: for white, flicker and random walk frequency noise the predicted Allan deviation is
the square root of the Allan variance integral of the frequency PSD, at every `τ` -/
theorem kasdin_adev_psd (s : Noise) (tau0 tau : ℝ) (hb : s.b = -2 ∨ s.b = -3 ∨ s.b = -4) (hq : 0 ≤ s.qd)
    (h0 : 0 < tau0) (ht : 0 < tau) :
    s.adev tau0 tau =
      .ok (some √(psdVar avarKernel (s.frequency_psd_from_qd tau0) (s.b + 2) tau)) := by
  have hk : KasdinType s.b := by unfold KasdinType; tauto
  have hn := frequency_psd_nonneg s tau0 hq h0
  have hp := avarCoeff_pos s.b tau0 tau h0 (by rcases hb with h | h | h <;> rw [h] <;> norm_num)
  rw [kasdin_adev_eq s tau0 tau hk ht, if_neg (not_lt.2 (mul_nonneg hp.le hn)), avar_psd s.b hb tau0 tau _ ht,
    sqrt_mul (mul_nonneg hp.le hn), sqrt_eq_rpow (tau ^ _), ← rpow_mul ht.le]
  congr 4
  ring

/-- C61: for white phase noise with no power above the Nyquist frequency `1/(2 τ₀)` the predicted
Allan deviation is exact at the multiples of `τ₀` -/
theorem kasdin_adev_psd_wpm (s : Noise) (tau0 : ℝ) (m : ℕ) (hb : s.b = 0) (hq : 0 ≤ s.qd)
    (h0 : 0 < tau0) (hm : 0 < m) :
    s.adev tau0 (m * tau0) =
      .ok (some √(psdVarCut avarKernel (s.frequency_psd_from_qd tau0) (s.b + 2) (1 / (2 * tau0)) (m * tau0))) := by
  have hk : KasdinType s.b := Or.inl hb
  have hn := frequency_psd_nonneg s tau0 hq h0
  have hmr : (0 : ℝ) < m := by exact_mod_cast hm
  have ht : 0 < m * tau0 := by positivity
  have hp := avarCoeff_pos s.b tau0 (m * tau0) h0 (by rw [hb]; norm_num)
  rw [kasdin_adev_eq s tau0 _ hk ht, if_neg (not_lt.2 (mul_nonneg hp.le hn)), hb,
    avar_psd_wpm tau0 _ m h0 hm, ← hb,
    sqrt_mul (mul_nonneg hp.le hn), sqrt_eq_rpow ((m * tau0) ^ _), ← rpow_mul ht.le]
  congr 4
  ring

example := kasdin_adev_psd_wpm (Noise.init 8 3 0) 2 5 rfl (by norm_num [Noise.init]) (by norm_num) (by norm_num)

/-- C61: the predicted modified Allan deviation is the square root of the integral of the
frequency PSD for all types but flicker frequency noise -/
theorem kasdin_mdev_psd (s : Noise) (tau0 tau : ℝ) (hb : KasdinType s.b) (h3 : s.b ≠ -3) (hq : 0 ≤ s.qd)
    (h0 : 0 < tau0) (ht : 0 < tau) :
    s.mdev tau0 tau =
      .ok (some √(psdVar mvarKernel (s.frequency_psd_from_qd tau0) (s.b + 2) tau)) := by
  have hn := frequency_psd_nonneg s tau0 hq h0
  rw [kasdin_mdev_eq s tau0 tau hb hq h0 ht, mvar_psd s.b hb h3 tau _ ht,
    sqrt_mul (mul_nonneg (mvarCoeff_pos _).le hn), sqrt_eq_rpow (tau ^ _), ← rpow_mul ht.le]
  congr 4
  ring

example := kasdin_mdev_psd (Noise.init 8 3 (-1)) 2 5 (by simp [KasdinType, Noise.init]) (by norm_num [Noise.init]) (by norm_num [Noise.init])
  (by norm_num) (by norm_num)

theorem log_three_lt : 135 * log 3 < 214 * log 2 := by
  have : log ((3 : ℝ) ^ 135) < log (2 ^ 214) := log_lt_log (by norm_num) (by norm_num)
  rw [log_pow, log_pow] at this
  push_cast at this
  linarith

/-- C61: for flicker frequency noise the predicted modified Allan deviation is larger than the
integral of the frequency PSD -/
theorem kasdin_mdev_psd_ffm_wrong (s : Noise) (tau0 tau : ℝ) (hb : s.b = -3) (hq : 0 < s.qd)
    (h0 : 0 < tau0) (ht : 0 < tau) :
    ∃ d, s.mdev tau0 tau = .ok (some d) ∧
      √(psdVar mvarKernel (s.frequency_psd_from_qd tau0) (s.b + 2) tau) < d := by
  have hk : KasdinType s.b := by unfold KasdinType; tauto
  refine ⟨_, kasdin_mdev_eq s tau0 tau hk hq.le h0 ht, ?_⟩
  have hn : 0 < s.frequency_psd_from_qd tau0 := by
    unfold Noise.frequency_psd_from_qd
    simp only
    positivity
  rw [hb, mvar_psd_ffm tau _ ht]
  have e : ((-(-3 : ℝ) - 3) / 2) = 0 := by norm_num
  rw [e, rpow_zero, mul_one]
  have hc : mvarCoeff (-3) = 27 / 20 * log 2 := by norm_num [mvarCoeff]
  rw [hc]
  have := log_three_lt
  have h2 : 0 < log 2 := log_pos one_lt_two
  exact sqrt_lt_sqrt_iff_of_pos (by positivity) |>.2 (mul_lt_mul_of_pos_right (by linarith) hn)

example := kasdin_mdev_psd_ffm_wrong (Noise.init 8 3 (-3)) 2 5 rfl (by norm_num [Noise.init]) (by norm_num) (by norm_num)

theorem pdevCoeff_eq (s : Noise) (hb : KasdinType s.b) (h1 : s.b ≠ -1) : s.pdevCoeff = .ok (pvarCoeff s.b) := by
  unfold Noise.pdevCoeff pvarCoeff
  rcases hb with h | h | h | h | h
  · rw [h]; norm_num
  · exact absurd h h1
  · rw [h]; norm_num
  · rw [h]; norm_num
  · rw [h]; norm_num; ring

/-- C61: `pdev_from_qd` is the prefactor of the parabolic deviation, the square root of the integral
of the frequency PSD, for all types but flicker phase noise -/
theorem kasdin_pdev_psd (s : Noise) (tau0 tau : ℝ) (hb : KasdinType s.b) (h1 : s.b ≠ -1) (hq : 0 ≤ s.qd)
    (h0 : 0 < tau0) (ht : 0 < tau) :
    ∃ d, s.pdev_from_qd tau0 = .ok (some d) ∧
      √(psdVar pvarKernel (s.frequency_psd_from_qd tau0) (s.b + 2) tau) = d * tau ^ ((-s.b - 3) / 2) := by
  have hn := frequency_psd_nonneg s tau0 hq h0
  have hc : 0 ≤ pvarCoeff s.b := by
    obtain ⟨l4, l16, l36⟩ := log_4_16_36
    have h2 := log_two_lt_d9
    have h2' := log_two_gt_d9
    unfold pvarCoeff
    rw [l16]
    rw [if_neg h1]
    split_ifs
    · positivity
    · positivity
    · linarith
    · positivity
  have hv : 0 ≤ pvarCoeff s.b * s.frequency_psd_from_qd tau0 := mul_nonneg hc hn
  refine ⟨√(pvarCoeff s.b * s.frequency_psd_from_qd tau0), ?_, ?_⟩
  · unfold Noise.pdev_from_qd
    simp only [pdevCoeff_eq s hb h1, ok_bind]
    rw [show pvarCoeff s.b * s.phase_psd_from_qd tau0 * (2 * π) ^ 2
      = pvarCoeff s.b * s.frequency_psd_from_qd tau0 by rw [frequency_psd_eq]; ring, nvSqrt, if_neg (not_lt.2 hv)]
  · rw [pvar_psd s.b hb tau _ ht, sqrt_mul hv, sqrt_eq_rpow (tau ^ _), ← rpow_mul ht.le]
    congr 2
    ring

example := kasdin_pdev_psd (Noise.init 8 3 (-3)) 2 5 (by simp [KasdinType, Noise.init]) (by norm_num [Noise.init]) (by norm_num [Noise.init])
  (by norm_num) (by norm_num)

/-- C61: for flicker phase noise the prefactor is too large: `(3 ln 16 - 1)` is used in place of
`3 (ln 16 - 1)` -/
theorem kasdin_pdev_psd_fpm_wrong (s : Noise) (tau0 tau : ℝ) (hb : s.b = -1) (hq : 0 < s.qd)
    (h0 : 0 < tau0) (ht : 0 < tau) :
    ∃ d, s.pdev_from_qd tau0 = .ok (some d) ∧
      psdVar pvarKernel (s.frequency_psd_from_qd tau0) (s.b + 2) tau
        = (d * tau ^ ((-s.b - 3) / 2)) ^ 2 * (3 * (log 16 - 1) / (3 * log 16 - 1)) ∧
      √(psdVar pvarKernel (s.frequency_psd_from_qd tau0) (s.b + 2) tau) < d * tau ^ ((-s.b - 3) / 2) := by
  have hn : 0 < s.frequency_psd_from_qd tau0 := by
    unfold Noise.frequency_psd_from_qd
    simp only
    positivity
  have hk : KasdinType s.b := by unfold KasdinType; tauto
  have h2' := log_two_gt_d9
  have l16 : log (16 : ℝ) = 4 * log 2 := log_4_16_36.2.1
  have h16 : 0 < 3 * log 16 - 1 := by rw [l16]; linarith
  have hcoef : s.pdevCoeff = .ok ((3 * log 16 - 1) / 2 / π ^ 2) := by
    unfold Noise.pdevCoeff
    rw [hb]; norm_num
  have hv : 0 < (3 * log 16 - 1) / 2 / π ^ 2 * s.frequency_psd_from_qd tau0 := by positivity
  have htp : 0 < tau ^ ((-s.b - 3) / 2) := rpow_pos_of_pos ht _
  have key : psdVar pvarKernel (s.frequency_psd_from_qd tau0) (s.b + 2) tau
      = (√((3 * log 16 - 1) / 2 / π ^ 2 * s.frequency_psd_from_qd tau0) * tau ^ ((-s.b - 3) / 2)) ^ 2
        * (3 * (log 16 - 1) / (3 * log 16 - 1)) := by
    rw [pvar_psd s.b hk tau _ ht, mul_pow, sq_sqrt hv.le, ← rpow_natCast (tau ^ _), ← rpow_mul ht.le]
    have : (-s.b - 3) / 2 * ((2 : ℕ) : ℝ) = -s.b - 3 := by push_cast; ring
    rw [this, hb]
    norm_num [pvarCoeff]
    field_simp
  refine ⟨√((3 * log 16 - 1) / 2 / π ^ 2 * s.frequency_psd_from_qd tau0), ?_, key, ?_⟩
  · unfold Noise.pdev_from_qd
    simp only [hcoef, ok_bind]
    rw [show (3 * log 16 - 1) / 2 / π ^ 2 * s.phase_psd_from_qd tau0 * (2 * π) ^ 2
      = (3 * log 16 - 1) / 2 / π ^ 2 * s.frequency_psd_from_qd tau0 by rw [frequency_psd_eq]; ring, nvSqrt,
      if_neg (not_lt.2 hv.le)]
  · have hpos : 0 < √((3 * log 16 - 1) / 2 / π ^ 2 * s.frequency_psd_from_qd tau0) * tau ^ ((-s.b - 3) / 2) :=
      mul_pos (sqrt_pos.2 hv) htp
    rw [key, sqrt_lt' hpos]
    apply mul_lt_of_lt_one_right (by positivity)
    rw [div_lt_one h16]
    linarith

example := kasdin_pdev_psd_fpm_wrong (Noise.init 8 3 (-1)) 2 5 rfl (by norm_num [Noise.init]) (by norm_num) (by norm_num)

/-- C61: `psd_piecewise_to_adev`, given the frequency PSD of the noise as a single piece, and the
predicted Allan deviation agree -/
theorem kasdin_adev_piecewise {quad : Quad} (hquad : QuadExact quad) (s : Noise) (tau0 : ℝ) (taus : List ℝ)
    (hb : s.b = -2 ∨ s.b = -3 ∨ s.b = -4) (hq : 0 ≤ s.qd) (h0 : 0 < tau0) (ht : ∀ t ∈ taus, 0 < t) :
    psd_piecewise_to_adev quad [s.frequency_psd_from_qd tau0] [s.b + 2] [] taus = taus.mapM (s.adev tau0) := by
  have hn := frequency_psd_nonneg s tau0 hq h0
  rw [psd_piecewise_to_adev_eq hquad _ _ [] taus ht List.Pairwise.nil (by simp) (by simp) (by simp)
    (by simpa using hn) (by rcases hb with h | h | h <;> rw [h] <;> norm_num)
    (by rcases hb with h | h | h <;> rw [h] <;> norm_num)]
  rw [mapM_ok taus _ (fun tau => some √(psdVar avarKernel (s.frequency_psd_from_qd tau0) (s.b + 2) tau))
    (fun tau htau => kasdin_adev_psd s tau0 tau hb hq h0 (ht tau htau))]
  congr 1
  apply List.map_congr_left
  intro tau _
  congr 2
  rw [psdVar, ← integral_const_mul]
  congr 1
  funext f
  simp [psdSy, allanWeight, avarKernel]
  ring

/-- white frequency noise with `qd = 1`, `τ₀ = 1` at `τ = 4`: the variance is 1 -/
example : psdVar avarKernel ((⟨4, 1, -2, []⟩ : Noise).frequency_psd_from_qd 1) (-2 + 2) 4 = 1 / 4 ∧
    (⟨4, 1, -2, []⟩ : Noise).adev 1 4 = .ok (some (1 / 2)) := by
  have h : psdVar avarKernel ((⟨4, 1, -2, []⟩ : Noise).frequency_psd_from_qd 1) (-2 + 2) 4 = 1 / 4 := by
    rw [avar_psd (-2) (Or.inl rfl) 1 4 _ (by norm_num)]
    norm_num [Noise.frequency_psd_from_qd, avarCoeff, avarExp, rpow_neg_one]
  refine ⟨h, ?_⟩
  rw [kasdin_adev_psd _ 1 4 (Or.inl rfl) (by norm_num) (by norm_num) (by norm_num)]
  simp only at h ⊢
  rw [h, show (1 / 4 : ℝ) = (1 / 2) ^ 2 by norm_num, sqrt_sq (by norm_num)]

end AT
