import Verif.Lemmas.CoverageNear

/-!
# How often an error bar `D / √n` contains the deviation (for C96)
-/

namespace AT

open Spec Finset MeasureTheory ProbabilityTheory Filter Topology
open scoped NNReal ENNReal

theorem bar_iff {d σ n : ℝ} (hd : 0 ≤ d) (hσ : 0 < σ) (hn : 1 < n) : |d - σ| ≤ d / √n ↔
    1 / (1 + 1 / √n) ^ 2 ≤ d ^ 2 / σ ^ 2 ∧ d ^ 2 / σ ^ 2 ≤ 1 / (1 - 1 / √n) ^ 2 := by
  have h1 : 1 < √n := by rw [Real.lt_sqrt (by norm_num)]; simpa using hn
  have h2 : 1 / √n < 1 := by rw [div_lt_one (by linarith)]; exact h1
  have h3 : 0 < 1 / √n := by positivity
  rw [div_eq_mul_one_div d]
  generalize 1 / √n = s at h2 h3
  have h4 : (0 : ℝ) < 1 - s := by linarith
  rw [div_le_div_iff₀ (by positivity) (by positivity), div_le_div_iff₀ (by positivity) (by positivity), one_mul,
    ← mul_pow, ← mul_pow, pow_le_pow_iff_left₀ hσ.le (by positivity) two_ne_zero,
    pow_le_pow_iff_left₀ (by positivity) hσ.le two_ne_zero, abs_le]
  constructor <;> rintro ⟨a, b⟩ <;> constructor <;> nlinarith

variable {Ω : Type} [MeasurableSpace Ω] {P : Measure Ω} [IsProbabilityMeasure P] {W : ℕ → Ω → ℝ} {s2 : ℝ≥0}

theorem bar_tendsto {D : ℕ → Ω → ℝ} {σ c : ℝ} (hσ : 0 < σ) (hD : ∀ n, AEMeasurable (D n) P) (hD0 : ∀ n ω, 0 ≤ D n ω)
    {e k : ℕ → ℝ} (he : ∀ n, 0 < e n) (hinf : Tendsto k atTop atTop)
    (hc : Tendsto (fun n => √(2 * e n / k n)) atTop (𝓝 c)) (hc0 : 0 ≤ c)
    (hlim : ∀ t, Tendsto (fun n => charFun (P.map (fun ω => √(e n / 2) * (D n ω ^ 2 / σ ^ 2 - 1))) t) atTop
      (𝓝 (charFun (gaussianReal 0 1) t))) :
    Tendsto (fun n => P.real {ω | |D n ω - σ| ≤ D n ω / √(k n)}) atTop (𝓝 (gaussI c)) := by
  have hT : ∀ n, AEMeasurable (fun ω => √(e n / 2) * (D n ω ^ 2 / σ ^ 2 - 1)) P := fun n =>
    ((((hD n).pow_const 2).div_const _).sub_const _).const_mul _
  have hν : ∀ n, IsProbabilityMeasure (P.map (fun ω => √(e n / 2) * (D n ω ^ 2 / σ ^ 2 - 1))) := fun n =>
    Measure.isProbabilityMeasure_map (hT n)
  have hcdf := cdf_of_charFun _ one_ne_zero hlim
  have hs : Tendsto (fun n => 1 / √(k n)) atTop (𝓝 0) := by
    simp only [one_div]
    exact tendsto_inv_atTop_zero.comp (Real.tendsto_sqrt_atTop.comp hinf)
  have hk1 : ∀ᶠ n in atTop, 1 < k n := hinf.eventually (eventually_gt_atTop 1)
  have half : ∀ n, 1 < k n → √(e n / 2) = √(2 * e n / k n) / (2 * (1 / √(k n))) := by
    intro n hn
    have hk : 0 < √(k n) := Real.sqrt_pos.2 (by linarith)
    have hek := he n
    have : √(2 * e n / k n) = 2 * √(e n / 2) / √(k n) := by
      rw [show 2 * e n / k n = 2 ^ 2 * (e n / 2) / k n by ring, Real.sqrt_div (by positivity), Real.sqrt_mul (by norm_num),
        Real.sqrt_sq (by norm_num)]
    rw [this]
    field_simp
  have hα : Tendsto (fun n => √(e n / 2) * (1 / (1 + 1 / √(k n)) ^ 2 - 1)) atTop (𝓝 (-c)) := by
    have h1 : Tendsto (fun n => √(2 * e n / k n) * (-(1 + 1 / √(k n) / 2) / (1 + 1 / √(k n)) ^ 2)) atTop (𝓝 (c * (-(1 + 0 / 2) / (1 + 0) ^ 2))) :=
      hc.mul (((hs.div_const 2).const_add 1).neg.div ((hs.const_add 1).pow 2) (by norm_num))
    rw [show c * (-(1 + 0 / 2) / (1 + 0) ^ 2) = -c by ring] at h1
    refine h1.congr' ?_
    filter_upwards [hk1] with n hn
    have hk : 0 < 1 / √(k n) := one_div_pos.2 (Real.sqrt_pos.2 (by linarith))
    rw [half n hn]
    generalize 1 / √(k n) = s at hk
    field_simp
    ring
  have hs1 : ∀ᶠ n in atTop, 1 / √(k n) < 1 := hs.eventually_lt_const one_pos
  have hβ : Tendsto (fun n => √(e n / 2) * (1 / (1 - 1 / √(k n)) ^ 2 - 1)) atTop (𝓝 c) := by
    have h1 : Tendsto (fun n => √(2 * e n / k n) * ((1 - 1 / √(k n) / 2) / (1 - 1 / √(k n)) ^ 2)) atTop (𝓝 (c * ((1 - 0 / 2) / (1 - 0) ^ 2))) :=
      hc.mul (((hs.div_const 2).const_sub 1).div ((hs.const_sub 1).pow 2) (by norm_num))
    rw [show c * ((1 - 0 / 2) / (1 - 0) ^ 2) = c by ring] at h1
    refine h1.congr' ?_
    filter_upwards [hk1, hs1] with n hn hn1
    have hk : 0 < 1 / √(k n) := one_div_pos.2 (Real.sqrt_pos.2 (by linarith))
    rw [half n hn]
    generalize 1 / √(k n) = s at hk hn1
    have h4 : (1 : ℝ) - s ≠ 0 := by linarith
    field_simp
    ring
  have hI := interval_moving hcdf hα hβ (by
    filter_upwards [hk1, hs1] with n hn hn1
    have hk : 0 < 1 / √(k n) := one_div_pos.2 (Real.sqrt_pos.2 (by linarith))
    refine mul_le_mul_of_nonneg_left ?_ (Real.sqrt_nonneg _)
    generalize 1 / √(k n) = s at hk hn1
    have h5 : (0 : ℝ) < 1 - s := by linarith
    refine sub_le_sub_right (one_div_le_one_div_of_le (by positivity) (pow_le_pow_left₀ h5.le (by linarith) 2)) 1)
  rw [gaussI, Phi_Icc (by linarith)]
  refine hI.congr' ?_
  filter_upwards [hk1] with n hn
  rw [measureReal_def, Measure.map_apply_of_aemeasurable (hT n) measurableSet_Icc, measureReal_def]
  congr 2
  ext ω
  have hs : 0 < √(e n / 2) := Real.sqrt_pos.2 (by have := he n; positivity)
  simp only [Set.mem_preimage, Set.mem_Icc, Set.mem_ofPred_eq]
  rw [bar_iff (hD0 n ω) hσ hn, mul_le_mul_iff_right₀ hs, mul_le_mul_iff_right₀ hs, sub_le_sub_iff_right,
    sub_le_sub_iff_right]

/-- the same for the mean square of a moving filter -/
theorem bar_filter (h : NormalNoise P W s2) (hs : 0 < s2) {A : ℕ → ℝ} {K S : ℕ} (hK : ∀ k, K ≤ k → A k = 0)
    (g0 : filterCov A K S 0 ≠ 0) {σ ρ : ℝ} (hσ : 0 < σ) (hS : 0 < S) {M : ℕ → ℕ} (hMi : Tendsto M atTop atTop) {D : ℕ → Ω → ℝ}
    (hD0 : ∀ n ω, 0 ≤ D n ω)
    (hD : ∀ᶠ n in atTop, ∀ ω, D n ω ^ 2 = σ ^ 2 / (M n * (s2 * filterCov A K S 0))
      * ∑ i ∈ range (M n), (∑ k ∈ range K, A k * W (i * S + k) ω) ^ 2)
    (hρ : Tendsto (fun M : ℕ => filterEdf A K S M / M) atTop (𝓝 ρ)) :
    Tendsto (fun n => P.real {ω | |D n ω - σ| ≤ D n ω / √(M n : ℝ)}) atTop (𝓝 (gaussI √(2 * ρ))) := by
  obtain ⟨n0, hn0⟩ := eventually_atTop.1 (hD.and (hMi.eventually (eventually_gt_atTop 0)))
  rw [← tendsto_add_atTop_iff_nat n0]
  have hge : ∀ n, n0 ≤ n + n0 := fun n => by omega
  have hpos := fun n => filterEdf_pos (A := A) (K := K) (S := S) g0 (hn0 _ (hge n)).2
  have hMi' : Tendsto (fun n => M (n + n0)) atTop atTop := hMi.comp (tendsto_add_atTop_nat n0)
  have hW : ∀ i, AEMeasurable (W i) P := fun i => (h.law i).aemeasurable
  have hmeas : ∀ n, AEMeasurable (D (n + n0)) P := fun n => by
    have e : D (n + n0) = fun ω => √(σ ^ 2 / (M (n + n0) * (s2 * filterCov A K S 0))
      * ∑ i ∈ range (M (n + n0)), (∑ k ∈ range K, A k * W (i * S + k) ω) ^ 2) := funext fun ω => by
      rw [← (hn0 _ (hge n)).1 ω, Real.sqrt_sq (hD0 _ ω)]
    rw [e]
    refine Real.continuous_sqrt.measurable.comp_aemeasurable (AEMeasurable.const_mul ?_ _)
    refine Finset.aemeasurable_fun_sum _ fun i _ => ?_
    exact (Finset.aemeasurable_fun_sum _ fun k _ => (hW _).const_mul _).pow_const 2
  refine bar_tendsto hσ hmeas (fun n ω => hD0 _ ω) (e := fun n => filterEdf A K S (M (n + n0))) (k := fun n => (M (n + n0) : ℝ))
    hpos (tendsto_natCast_atTop_atTop.comp hMi') ?_ (Real.sqrt_nonneg _)
    (fun t => filter_lim h hs hK g0 hσ (fun n => (hn0 _ (hge n)).2) hMi' hS t fun n ω => (hn0 _ (hge n)).1 ω)
  refine (Real.continuous_sqrt.tendsto _).comp ?_
  refine ((hρ.comp hMi').const_mul 2).congr fun n => ?_
  simp only [Function.comp_apply]
  ring

end AT
