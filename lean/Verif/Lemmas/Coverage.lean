import Verif.Lemmas.Chi2Limit
import Verif.Props.Ci

/-!
# Coverage of a confidence interval for an asymptotically normal estimate
-/

namespace AT

open Spec MeasureTheory ProbabilityTheory Filter Topology

theorem Phi_cdf : Phi = cdf (gaussianReal 0 1) := by
  funext x
  rw [cdf_eq_real]
  rfl

theorem Phi_mono : Monotone Phi := by
  rw [Phi_cdf]
  exact monotone_cdf _

theorem Phi_continuous : Continuous Phi := by
  rw [Phi_cdf, continuous_iff_continuousAt]
  intro x
  rw [(monotone_cdf (gaussianReal 0 1)).continuousAt_iff_leftLim_eq_rightLim, StieltjesFunction.rightLim_eq]
  have := nullSingletonClass_gaussianReal (μ := 0) (v := 1) one_ne_zero
  have h1 := StieltjesFunction.measure_singleton (cdf (gaussianReal 0 1)) x
  rw [measure_cdf, measure_singleton] at h1
  have h2 := ENNReal.ofReal_eq_zero.1 h1.symm
  exact le_antisymm ((monotone_cdf (gaussianReal 0 1)).leftLim_le le_rfl) (by linarith)

theorem Phi_strictMono : StrictMono Phi := by
  intro x y hxy
  have h : 0 < (gaussianReal 0 1) (Set.Ioc x y) := by
    refine lt_of_lt_of_le ?_ (measure_mono Set.Ioo_subset_Ioc_self)
    have := (gaussianReal_absolutelyContinuous' (μ := 0) (v := 1) one_ne_zero)
    by_contra h0
    have h1 := this (le_antisymm (not_lt.1 h0) zero_le)
    rw [Real.volume_Ioo, ENNReal.ofReal_eq_zero] at h1
    linarith
  have h3 := StieltjesFunction.measure_Ioc (cdf (gaussianReal 0 1)) x y
  rw [measure_cdf] at h3
  rw [h3, ENNReal.ofReal_pos] at h
  rw [Phi_cdf]
  linarith

theorem Phi_Icc {x y : ℝ} (h : x ≤ y) : (gaussianReal 0 1).real (Set.Icc x y) = Phi y - Phi x := by
  have h3 := StieltjesFunction.measure_Icc (cdf (gaussianReal 0 1)) x y
  have hc : Continuous (cdf (gaussianReal 0 1)) := Phi_cdf ▸ Phi_continuous
  rw [measure_cdf, hc.continuousAt.continuousWithinAt.leftLim_eq] at h3
  rw [measureReal_def, h3, ENNReal.toReal_ofReal (sub_nonneg.2 (monotone_cdf _ h)), Phi_cdf]

theorem Phi_neg (x : ℝ) : Phi (-x) = 1 - Phi x := by
  have := nullSingletonClass_gaussianReal (μ := 0) (v := 1) one_ne_zero
  have h1 : (gaussianReal 0 1).map (fun y => -y) = gaussianReal 0 1 := by
    rw [gaussianReal_map_neg, neg_zero]
  have h2 : Phi (-x) = (gaussianReal 0 1).real (Set.Ici x) := by
    unfold Phi
    rw [← h1, map_measureReal_apply (by fun_prop) measurableSet_Iic, h1]
    congr 1
    ext y
    simp
  have h3 : (gaussianReal 0 1).real (Set.Ici x) = (gaussianReal 0 1).real (Set.Ioi x) := by
    rw [measureReal_def, measureReal_def, measure_congr Ioi_ae_eq_Ici]
  rw [h2, h3, ← Set.compl_Iic, probReal_compl_eq_one_sub measurableSet_Iic, Phi]

/-- the two quantiles of a symmetric interval -/
theorem Phi_of_Icc {z ci : ℝ} (hz : 0 ≤ z) (h : (gaussianReal 0 1).real (Set.Icc (-z) z) = ci) :
    Phi z = (1 + ci) / 2 ∧ Phi (-z) = (1 - ci) / 2 := by
  rw [Phi_Icc (by linarith), Phi_neg] at h
  rw [Phi_neg]
  constructor <;> linarith

/-- every confidence level has its standard normal interval -/
theorem exists_normal_interval {ci : ℝ} (h0 : 0 ≤ ci) (h1 : ci < 1) :
    ∃ z, 0 ≤ z ∧ (gaussianReal 0 1).real (Set.Icc (-z) z) = ci := by
  have ht : Tendsto Phi atTop (𝓝 1) := Phi_cdf ▸ tendsto_cdf_atTop _
  obtain ⟨y, hy, hy0⟩ := ((ht.eventually_const_lt (show (1 + ci) / 2 < 1 by linarith)).and (eventually_ge_atTop 0)).exists
  have e0 : Phi 0 = 1 / 2 := by
    have := Phi_neg 0
    rw [neg_zero] at this
    linarith
  obtain ⟨z, hz, e⟩ := intermediate_value_Icc hy0 Phi_continuous.continuousOn (show (1 + ci) / 2 ∈ Set.Icc (Phi 0) (Phi y) by
    rw [e0]; exact ⟨by linarith, hy.le⟩)
  refine ⟨z, hz.1, ?_⟩
  rw [Phi_Icc (by linarith [hz.1]), Phi_neg, e]
  ring

/-- distribution functions at a moving point -/
theorem cdf_moving {ν : ℕ → Measure ℝ} [∀ n, IsProbabilityMeasure (ν n)]
    (h : ∀ x, Tendsto (fun n => (ν n).real (Set.Iic x)) atTop (𝓝 (Phi x))) {x : ℕ → ℝ} {x0 : ℝ}
    (hx : Tendsto x atTop (𝓝 x0)) : Tendsto (fun n => (ν n).real (Set.Iic (x n))) atTop (𝓝 (Phi x0)) := by
  rw [tendsto_order]
  constructor
  · intro c hc
    obtain ⟨y, hy, hyc⟩ : ∃ y < x0, c < Phi y := by
      have h1 : ∀ᶠ y in 𝓝[<] x0, c < Phi y :=
        (Phi_continuous.continuousAt.tendsto.mono_left nhdsWithin_le_nhds).eventually_const_lt hc
      obtain ⟨y, hy1, hy2⟩ := (h1.and self_mem_nhdsWithin).exists
      exact ⟨y, hy2, hy1⟩
    filter_upwards [hx.eventually_const_lt hy, (h y).eventually_const_lt hyc] with n h1 h2
    exact h2.trans_le (measureReal_mono (Set.Iic_subset_Iic.2 h1.le))
  · intro c hc
    obtain ⟨y, hy, hyc⟩ : ∃ y > x0, Phi y < c := by
      have h1 : ∀ᶠ y in 𝓝[>] x0, Phi y < c :=
        (Phi_continuous.continuousAt.tendsto.mono_left nhdsWithin_le_nhds).eventually_lt_const hc
      obtain ⟨y, hy1, hy2⟩ := (h1.and self_mem_nhdsWithin).exists
      exact ⟨y, hy2, hy1⟩
    filter_upwards [hx.eventually_lt_const hy, (h y).eventually_lt_const hyc] with n h1 h2
    exact (measureReal_mono (Set.Iic_subset_Iic.2 h1.le)).trans_lt h2

/-- the probability of a moving interval -/
theorem interval_moving {ν : ℕ → Measure ℝ} [∀ n, IsProbabilityMeasure (ν n)]
    (h : ∀ x, Tendsto (fun n => (ν n).real (Set.Iic x)) atTop (𝓝 (Phi x))) {α β : ℕ → ℝ} {α0 β0 : ℝ}
    (hα : Tendsto α atTop (𝓝 α0)) (hβ : Tendsto β atTop (𝓝 β0)) (hαβ : ∀ᶠ n in atTop, α n ≤ β n) :
    Tendsto (fun n => (ν n).real (Set.Icc (α n) (β n))) atTop (𝓝 (Phi β0 - Phi α0)) := by
  have h1 : Tendsto (fun n => (ν n).real (Set.Iio (α n))) atTop (𝓝 (Phi α0)) := by
    have hα' : Tendsto (fun n : ℕ => α n - 1 / ((n : ℝ) + 1)) atTop (𝓝 α0) := by
      have := hα.sub tendsto_one_div_add_atTop_nhds_zero_nat
      rwa [sub_zero] at this
    refine tendsto_of_tendsto_of_tendsto_of_le_of_le (cdf_moving h hα') (cdf_moving h hα) (fun n => ?_) (fun n => ?_)
    · refine measureReal_mono (fun y (hy : y ≤ _) => ?_)
      have : (0 : ℝ) < 1 / ((n : ℝ) + 1) := by positivity
      exact Set.mem_Iio.2 (by linarith)
    · exact measureReal_mono Set.Iio_subset_Iic_self
  refine ((cdf_moving h hβ).sub h1).congr' ?_
  filter_upwards [hαβ] with n hn
  have e : Set.Icc (α n) (β n) = Set.Iic (β n) \ Set.Iio (α n) := by
    ext y
    simp [and_comm]
  have hsub : Set.Iio (α n) ⊆ Set.Iic (β n) := fun y hy => ((Set.mem_Iio.1 hy).trans_le hn).le
  rw [e, measureReal_sdiff hsub measurableSet_Iio]

/-- the quantiles of the chi-squared distribution near its mean -/
theorem chi2Quantile_tendsto {k : ℕ → ℝ} (hk : Tendsto k atTop atTop) (hk0 : ∀ n, 0 < k n) {q z : ℝ} (h0 : 0 < q)
    (h1 : q < 1) (hz : Phi z = q) :
    Tendsto (fun n => (chi2Quantile q (k n) - k n) / √(2 * k n)) atTop (𝓝 z) := by
  have hs : ∀ n, 0 < √(2 * k n) := fun n => Real.sqrt_pos.2 (by have := hk0 n; positivity)
  rw [tendsto_order]
  constructor
  · intro c hc
    filter_upwards [(chi2_cdf_tendsto hk hk0 c).eventually_lt_const (hz ▸ Phi_strictMono hc)] with n hn
    rw [lt_div_iff₀ (hs n)]
    by_contra h
    have := monotone_cdf (chi2 (k n)) (show chi2Quantile q (k n) ≤ k n + c * √(2 * k n) by linarith)
    rw [chi2_cdf_quantile (hk0 n) h0 h1] at this
    linarith
  · intro c hc
    filter_upwards [(chi2_cdf_tendsto hk hk0 c).eventually_const_lt (hz ▸ Phi_strictMono hc)] with n hn
    rw [div_lt_iff₀ (hs n)]
    by_contra h
    have := monotone_cdf (chi2 (k n)) (show k n + c * √(2 * k n) ≤ chi2Quantile q (k n) by linarith)
    rw [chi2_cdf_quantile (hk0 n) h0 h1] at this
    linarith

variable {Ω : Type} [MeasurableSpace Ω] {P : Measure Ω} [IsProbabilityMeasure P]

/-- the interval contains the deviation `σ` -/
def Spec.CiContains (ppf : ℝ → ℝ → NV) (dev edf ci σ : ℝ) : Prop :=
  ∃ lo hi, confidence_interval ppf dev edf ci = (some lo, some hi) ∧ lo ≤ σ ∧ σ ≤ hi

theorem ciContains_iff {ppf : ℝ → ℝ → NV} (hp : Chi2Ppf ppf) {dev edf ci σ : ℝ} (hσ : 0 < σ) (he : 0 < edf)
    (h0 : 1 / 2 ≤ ci) (h1 : ci < 1) : CiContains ppf dev edf ci σ ↔
      chi2Quantile ((1 - ci) / 2) edf / edf ≤ dev ^ 2 / σ ^ 2 ∧ dev ^ 2 / σ ^ 2 ≤ chi2Quantile ((1 + ci) / 2) edf / edf := by
  unfold CiContains
  rw [confidence_interval_bounds_partial ppf hp _ edf ci he h0 h1]
  simp only [Prod.mk.injEq, Option.some.injEq]
  have key : (∃ lo hi, (ciBound dev edf ((1 + ci) / 2) = lo ∧ ciBound dev edf ((1 - ci) / 2) = hi) ∧ lo ≤ σ ∧ σ ≤ hi) ↔
      ciBound dev edf ((1 + ci) / 2) ≤ σ ∧ σ ≤ ciBound dev edf ((1 - ci) / 2) :=
    ⟨fun ⟨_, _, ⟨h1, h2⟩, h3, h4⟩ => h1 ▸ h2 ▸ ⟨h3, h4⟩, fun h => ⟨_, _, ⟨rfl, rfl⟩, h⟩⟩
  have ha0 : 0 < chi2Quantile ((1 - ci) / 2) edf := chi2Quantile_pos he (by linarith) (by linarith)
  have hb0 : 0 < chi2Quantile ((1 + ci) / 2) edf := chi2Quantile_pos he (by linarith) (by linarith)
  rw [key, ciBound, ciBound, Real.sqrt_le_left hσ.le, Real.le_sqrt' hσ, div_le_iff₀ hb0, le_div_iff₀ ha0,
    div_le_div_iff₀ he (by positivity), div_le_div_iff₀ (by positivity) he, and_comm]
  refine and_congr ?_ ?_
  · rw [mul_comm (σ ^ 2), mul_comm edf]
  · rw [mul_comm (σ ^ 2), mul_comm edf]

/-- **the limit of the coverage.**  The standardised squared deviations are asymptotically normal with the degrees of
freedom `e`; the interval is computed with the degrees of freedom `e'`; `e / e'` tends to `c²` -/
theorem coverage_tendsto {ppf : ℝ → ℝ → NV} (hp : Chi2Ppf ppf) {D : ℕ → Ω → ℝ} {σ ci z c : ℝ} (hσ : 0 < σ)
    (h0 : 1 / 2 ≤ ci) (h1 : ci < 1) (hz0 : 0 ≤ z) (hz : (gaussianReal 0 1).real (Set.Icc (-z) z) = ci)
    (hD : ∀ n, AEMeasurable (D n) P) {e e' : ℕ → ℝ} (he : ∀ n, 0 < e n) (he' : ∀ n, 0 < e' n)
    (hinf : Tendsto e' atTop atTop) (hc : Tendsto (fun n => √(e n / e' n)) atTop (𝓝 c)) (hc0 : 0 ≤ c)
    (hlim : ∀ t, Tendsto (fun n => charFun (P.map (fun ω => √(e n / 2) * (D n ω ^ 2 / σ ^ 2 - 1))) t) atTop
      (𝓝 (charFun (gaussianReal 0 1) t))) :
    Tendsto (fun n => P.real {ω | CiContains ppf (D n ω) (e' n) ci σ}) atTop
      (𝓝 ((gaussianReal 0 1).real (Set.Icc (-(c * z)) (c * z)))) := by
  have hT : ∀ n, AEMeasurable (fun ω => √(e n / 2) * (D n ω ^ 2 / σ ^ 2 - 1)) P := fun n =>
    ((((hD n).pow_const 2).div_const _).sub_const _).const_mul _
  have hν : ∀ n, IsProbabilityMeasure (P.map (fun ω => √(e n / 2) * (D n ω ^ 2 / σ ^ 2 - 1))) := fun n =>
    Measure.isProbabilityMeasure_map (hT n)
  have hcdf := cdf_of_charFun _ one_ne_zero hlim
  obtain ⟨p1, p2⟩ := Phi_of_Icc hz0 hz
  have hq : ∀ q x, 0 < q → q < 1 → Phi x = q →
      Tendsto (fun n => √(e n / 2) * (chi2Quantile q (e' n) / e' n - 1)) atTop (𝓝 (c * x)) := by
    intro q x hq0 hq1 hx
    refine (hc.mul (chi2Quantile_tendsto hinf he' hq0 hq1 hx)).congr fun n => ?_
    have g1 := he n
    have g2 := he' n
    rw [Real.sqrt_div g1.le, Real.sqrt_div g1.le, Real.sqrt_mul (by norm_num)]
    have s1 : √(e' n) ^ 2 = e' n := Real.sq_sqrt g2.le
    have s2 : 0 < √(e' n) := Real.sqrt_pos.2 g2
    have s3 : (0 : ℝ) < √2 := by positivity
    have e1 : chi2Quantile q (e' n) / e' n - 1 = (chi2Quantile q (e' n) - e' n) / √(e' n) ^ 2 := by
      rw [s1]
      field_simp
    rw [e1]
    field_simp
  have hI := interval_moving hcdf (hq _ _ (by linarith) (by linarith) p2) (hq _ _ (by linarith) (by linarith) p1)
    (Eventually.of_forall fun n => by
      have g2 := he' n
      have := (chi2Quantile_lt (k := e' n) g2 (p := (1 - ci) / 2) (q := (1 + ci) / 2) (by linarith) (by linarith) (by linarith)).le
      gcongr)
  rw [Phi_Icc (by nlinarith [mul_nonneg hc0 hz0]), ← mul_neg]
  refine hI.congr fun n => ?_
  rw [measureReal_def, Measure.map_apply_of_aemeasurable (hT n) measurableSet_Icc, measureReal_def]
  congr 2
  ext ω
  have hs : 0 < √(e n / 2) := Real.sqrt_pos.2 (by have := he n; positivity)
  simp only [Set.mem_preimage, Set.mem_Icc, Set.mem_ofPred_eq]
  rw [ciContains_iff hp hσ (he' n) h0 h1, mul_le_mul_iff_right₀ hs, mul_le_mul_iff_right₀ hs, sub_le_sub_iff_right,
    sub_le_sub_iff_right]

end AT
