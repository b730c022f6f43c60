import Mathlib.Probability.Distributions.Gamma
import Mathlib.Topology.Order.IntermediateValue

/-!
# The chi-squared distribution and its quantiles

`scipy.stats.chi2.ppf` is trusted to compute `Spec.chi2Quantile`, which is defined here from
Mathlib's gamma distribution.
-/

namespace AT.Spec

open MeasureTheory ProbabilityTheory Set Filter Topology

/-- the chi-squared distribution with `k` degrees of freedom -/
noncomputable def chi2 (k : ℝ) : Measure ℝ := gammaMeasure (k / 2) (1 / 2)

/-- the `q`-quantile of the chi-squared distribution with `k` degrees of freedom -/
noncomputable def chi2Quantile (q k : ℝ) : ℝ := sInf {x | q ≤ cdf (chi2 k) x}

theorem chi2_prob {k : ℝ} (hk : 0 < k) : IsProbabilityMeasure (chi2 k) :=
  isProbabilityMeasure_gammaMeasure (by positivity) (by norm_num)

theorem chi2_cdf_continuous {k : ℝ} (hk : 0 < k) : Continuous (cdf (chi2 k)) := by
  have := chi2_prob hk
  rw [continuous_iff_continuousAt]
  intro x
  rw [(monotone_cdf (chi2 k)).continuousAt_iff_leftLim_eq_rightLim, StieltjesFunction.rightLim_eq]
  have h0 : chi2 k {x} = 0 := by
    rw [chi2, gammaMeasure]
    exact withDensity_absolutelyContinuous _ _ (by simp)
  have h1 := StieltjesFunction.measure_singleton (cdf (chi2 k)) x
  rw [measure_cdf, h0] at h1
  have h2 := ENNReal.ofReal_eq_zero.1 h1.symm
  exact le_antisymm ((monotone_cdf (chi2 k)).leftLim_le le_rfl) (by linarith)

theorem chi2_cdf_nonpos {k : ℝ} (hk : 0 < k) {x : ℝ} (hx : x ≤ 0) : cdf (chi2 k) x = 0 := by
  have := chi2_prob hk
  refine le_antisymm ?_ (cdf_nonneg _ _)
  refine (monotone_cdf (chi2 k) hx).trans ?_
  refine le_of_tendsto ((chi2_cdf_continuous hk).continuousAt.tendsto.mono_left
    (nhdsWithin_le_nhds (a := (0 : ℝ)) (s := Iio 0))) (eventually_nhdsWithin_of_forall fun y hy => ?_)
  rw [chi2, cdf_gammaMeasure_eq_lintegral (by positivity) (by norm_num),
    setLIntegral_congr_fun (g := fun _ => 0) measurableSet_Iic
      (fun z (hz : z ≤ y) => gammaPDF_of_neg (lt_of_le_of_lt hz hy))]
  simp

/-- the quantile is the point where the distribution function takes the value `q` -/
theorem chi2_cdf_quantile {k q : ℝ} (hk : 0 < k) (h0 : 0 < q) (h1 : q < 1) :
    cdf (chi2 k) (chi2Quantile q k) = q := by
  have hc := chi2_cdf_continuous hk
  have hm := monotone_cdf (chi2 k)
  set S := {x | q ≤ cdf (chi2 k) x} with hS
  have hne : S.Nonempty := by
    obtain ⟨x, hx⟩ := ((tendsto_cdf_atTop (chi2 k)).eventually (eventually_ge_nhds h1)).exists
    exact ⟨x, hx⟩
  have hbd : BddBelow S := by
    refine ⟨0, fun x hx => ?_⟩
    by_contra h
    have := chi2_cdf_nonpos hk (not_le.1 h).le
    have hx' : q ≤ cdf (chi2 k) x := hx
    linarith
  have hcl : IsClosed S := isClosed_le continuous_const hc
  have hmem : q ≤ cdf (chi2 k) (sInf S) := hcl.csInf_mem hne hbd
  refine le_antisymm ?_ hmem
  have hlt : ∀ x < sInf S, cdf (chi2 k) x ≤ q := fun x hx => by
    by_contra h
    exact absurd (csInf_le hbd (show x ∈ S from (not_le.1 h).le)) (not_le.2 hx)
  have : Tendsto (cdf (chi2 k)) (𝓝[<] (sInf S)) (𝓝 (cdf (chi2 k) (sInf S))) :=
    hc.continuousAt.tendsto.mono_left nhdsWithin_le_nhds
  exact le_of_tendsto this (eventually_nhdsWithin_of_forall hlt)

theorem chi2Quantile_pos {k q : ℝ} (hk : 0 < k) (h0 : 0 < q) (h1 : q < 1) :
    0 < chi2Quantile q k := by
  by_contra h
  have := chi2_cdf_nonpos hk (not_lt.1 h)
  rw [chi2_cdf_quantile hk h0 h1] at this
  exact h0.ne' this

theorem chi2Quantile_lt {k p q : ℝ} (hk : 0 < k) (h0 : 0 < p) (hpq : p < q) (h1 : q < 1) :
    chi2Quantile p k < chi2Quantile q k := by
  by_contra h
  have := monotone_cdf (chi2 k) (not_lt.1 h)
  rw [chi2_cdf_quantile hk h0 (hpq.trans h1), chi2_cdf_quantile hk (h0.trans hpq) h1] at this
  linarith

end AT.Spec
