import Verif.Model.Ci
import Verif.Spec.Chi2
import Verif.Lemmas.Tab

/-!
# C42: confidence_interval
-/

namespace AT

open Spec Real

/-- what is assumed of `scipy.stats.chi2.ppf`: it computes the quantiles of the chi-squared
distribution -/
def Chi2Ppf (ppf : ℝ → ℝ → NV) : Prop :=
  ∀ q k, 0 < q → q < 1 → 0 < k → ppf q k = some (chi2Quantile q k)

/-- the assumption can be met -/
example : Chi2Ppf (fun q k => some (chi2Quantile q k)) := fun _ _ _ _ _ => rfl

/-- NIST SP1065 eqn (45): the bound of the deviation at probability `q` -/
noncomputable def Spec.ciBound (dev edf q : ℝ) : ℝ := √(edf * dev ^ 2 / chi2Quantile q edf)

/-- the tail probability the code uses -/
noncomputable def Spec.ciTail (ci : ℝ) : ℝ := min ci (1 - ci) / 2

theorem ciTail_pos {ci : ℝ} (h0 : 0 < ci) (h1 : ci < 1) : 0 < ciTail ci := by
  unfold ciTail
  have : 0 < min ci (1 - ci) := lt_min h0 (by linarith)
  linarith

theorem ciTail_le {ci : ℝ} : ciTail ci ≤ 1 / 4 := by
  unfold ciTail
  rcases min_le_iff.1 (le_refl (min ci (1 - ci))) with h | h <;>
    rcases le_total ci (1 - ci) with h' | h' <;> simp [h'] <;> linarith

theorem ciTail_of_half_le {ci : ℝ} (h : 1 / 2 ≤ ci) : ciTail ci = (1 - ci) / 2 := by
  unfold ciTail
  rw [min_eq_right (by linarith)]

/-- every confidence level in (0, 1): the bounds the code computes -/
theorem confidence_interval_eq (ppf : ℝ → ℝ → NV) (hp : Chi2Ppf ppf) (dev edf ci : ℝ)
    (he : 0 < edf) (h0 : 0 < ci) (h1 : ci < 1) :
    confidence_interval ppf dev edf ci =
      (some (ciBound dev edf (1 - ciTail ci)), some (ciBound dev edf (ciTail ci))) := by
  have ht := ciTail_pos h0 h1
  have ht' := ciTail_le (ci := ci)
  have e : min |ci| |ci - 1| / 2 = ciTail ci := by
    rw [ciTail, abs_of_pos h0, abs_of_neg (by linarith)]
    congr 2; ring
  have hl := chi2Quantile_pos he ht (by linarith)
  have hh := chi2Quantile_pos he (q := 1 - ciTail ci) (by linarith) (by linarith)
  have hv : 0 ≤ edf * (dev * dev) := mul_nonneg he.le (mul_self_nonneg _)
  unfold confidence_interval
  simp only [e]
  rw [hp _ _ ht (by linarith) he, hp _ _ (by linarith) (by linarith) he]
  simp only [nvDiv, hl.ne', hh.ne', if_false, nvSqrt, not_lt.2 (div_nonneg hv hl.le),
    not_lt.2 (div_nonneg hv hh.le), ciBound, pow_two]

/-- C42: the bounds of NIST SP1065 eqn (45), for confidence levels of at least 1/2 -/
theorem confidence_interval_bounds_partial (ppf : ℝ → ℝ → NV) (hp : Chi2Ppf ppf)
    (dev edf ci : ℝ) (he : 0 < edf) (h0 : 1 / 2 ≤ ci) (h1 : ci < 1) :
    confidence_interval ppf dev edf ci =
      (some (ciBound dev edf ((1 + ci) / 2)), some (ciBound dev edf ((1 - ci) / 2))) := by
  rw [confidence_interval_eq ppf hp dev edf ci he (by linarith) h1, ciTail_of_half_le h0]
  congr 3; ring

/-- below 1/2 the code silently uses the confidence level `1 - ci` -/
theorem confidence_interval_reflect (ppf : ℝ → ℝ → NV) (dev edf ci : ℝ) :
    confidence_interval ppf dev edf ci = confidence_interval ppf dev edf (1 - ci) := by
  unfold confidence_interval
  rw [show |1 - ci - 1| = |ci| by rw [show 1 - ci - 1 = -ci by ring, abs_neg],
    show |1 - ci| = |ci - 1| from abs_sub_comm _ _, min_comm]

/-- C42: the lower bound never exceeds the upper bound -/
theorem confidence_interval_ordered (ppf : ℝ → ℝ → NV) (hp : Chi2Ppf ppf) (dev edf ci : ℝ)
    (he : 0 < edf) (h0 : 0 < ci) (h1 : ci < 1) :
    ∃ lo hi, confidence_interval ppf dev edf ci = (some lo, some hi) ∧ 0 ≤ lo ∧ lo ≤ hi ∧
      (dev ≠ 0 → 0 < lo ∧ lo < hi) := by
  refine ⟨_, _, confidence_interval_eq ppf hp dev edf ci he h0 h1, sqrt_nonneg _, ?_, ?_⟩
  all_goals
    have ht := ciTail_pos h0 h1
    have ht' := ciTail_le (ci := ci)
    have hl := chi2Quantile_pos he ht (by linarith)
    have hh := chi2Quantile_pos he (q := 1 - ciTail ci) (by linarith) (by linarith)
    have hlh := chi2Quantile_lt he ht (show ciTail ci < 1 - ciTail ci by linarith) (by linarith)
  · apply sqrt_le_sqrt
    exact div_le_div_of_nonneg_left (by positivity) hl hlh.le
  · intro hd
    have hv : 0 < edf * dev ^ 2 := by positivity
    refine ⟨sqrt_pos.2 (by positivity), sqrt_lt_sqrt (by positivity) ?_⟩
    exact div_lt_div_of_pos_left hv hl hlh

/-- C42: both bounds scale with the deviation -/
theorem confidence_interval_scale (ppf : ℝ → ℝ → NV) (hp : Chi2Ppf ppf) (dev edf ci c : ℝ)
    (he : 0 < edf) (h0 : 0 < ci) (h1 : ci < 1) (hc : 0 ≤ c) :
    confidence_interval ppf (c * dev) edf ci =
      ((confidence_interval ppf dev edf ci).1.map (c * ·),
       (confidence_interval ppf dev edf ci).2.map (c * ·)) := by
  rw [confidence_interval_eq ppf hp _ edf ci he h0 h1, confidence_interval_eq ppf hp _ edf ci he h0 h1]
  have e : ∀ q, ciBound (c * dev) edf q = c * ciBound dev edf q := fun q => by
    unfold ciBound
    rw [show edf * (c * dev) ^ 2 / chi2Quantile q edf = c ^ 2 * (edf * dev ^ 2 / chi2Quantile q edf) by ring,
      sqrt_mul (by positivity), sqrt_sq hc]
  simp [e]

/-- C42: a larger confidence level (of at least 1/2) gives a containing interval -/
theorem confidence_interval_nested_partial (ppf : ℝ → ℝ → NV) (hp : Chi2Ppf ppf)
    (dev edf ci ci' : ℝ) (he : 0 < edf) (h0 : 1 / 2 ≤ ci) (hcc : ci ≤ ci') (h1 : ci' < 1)
    (lo hi lo' hi' : ℝ) (h : confidence_interval ppf dev edf ci = (some lo, some hi))
    (h' : confidence_interval ppf dev edf ci' = (some lo', some hi')) :
    Set.Icc lo hi ⊆ Set.Icc lo' hi' := by
  rw [confidence_interval_bounds_partial ppf hp dev edf ci he h0 (by linarith)] at h
  rw [confidence_interval_bounds_partial ppf hp dev edf ci' he (by linarith) h1] at h'
  simp only [Prod.mk.injEq, Option.some.injEq] at h h'
  have mono : ∀ p q, 0 < p → p ≤ q → q < 1 → ciBound dev edf q ≤ ciBound dev edf p := by
    intro p q hp hpq hq
    rcases hpq.eq_or_lt with rfl | hpq
    · exact le_rfl
    · exact sqrt_le_sqrt (div_le_div_of_nonneg_left (by positivity)
        (chi2Quantile_pos he hp (by linarith)) (chi2Quantile_lt he hp hpq hq).le)
  rw [← h.1, ← h.2, ← h'.1, ← h'.2]
  exact Set.Icc_subset_Icc (mono _ _ (by linarith) (by linarith) (by linarith))
    (mono _ _ (by linarith) (by linarith) (by linarith))

example (lo hi lo' hi' : ℝ)
    (h : confidence_interval (fun q k => some (chi2Quantile q k)) 2 7 (2 / 3) = (some lo, some hi))
    (h' : confidence_interval (fun q k => some (chi2Quantile q k)) 2 7 (9 / 10) = (some lo', some hi')) :
    Set.Icc lo hi ⊆ Set.Icc lo' hi' :=
  confidence_interval_nested_partial _ (fun _ _ _ _ _ => rfl) 2 7 (2 / 3) (9 / 10) (by norm_num) (by norm_num)
    (by norm_num) (by norm_num) _ _ _ _ h h'

/-- C42 fails below 1/2: the interval of the level 1/4 is strictly larger than that of 1/2
on both sides, for every deviation and every number of degrees of freedom -/
theorem confidence_interval_not_nested (ppf : ℝ → ℝ → NV) (hp : Chi2Ppf ppf) (dev edf : ℝ)
    (he : 0 < edf) (hd : dev ≠ 0) :
    ∃ lo hi lo' hi', confidence_interval ppf dev edf (1 / 4) = (some lo, some hi) ∧
      confidence_interval ppf dev edf (1 / 2) = (some lo', some hi') ∧ lo < lo' ∧ hi' < hi := by
  have mono : ∀ p q, 0 < p → p < q → q < 1 → ciBound dev edf q < ciBound dev edf p := by
    intro p q hp hpq hq
    have hl := chi2Quantile_pos he hp (by linarith)
    have hh := chi2Quantile_pos he (q := q) (by linarith) (by linarith)
    exact sqrt_lt_sqrt (by positivity) (div_lt_div_of_pos_left (by positivity) hl
      (chi2Quantile_lt he hp hpq hq))
  have e1 : ciTail (1 / 4) = 1 / 8 := by unfold ciTail; rw [min_eq_left (by norm_num)]; norm_num
  have e2 : ciTail (1 / 2) = 1 / 4 := by unfold ciTail; rw [min_eq_left (by norm_num)]; norm_num
  refine ⟨_, _, _, _, confidence_interval_eq ppf hp dev edf _ he (by norm_num) (by norm_num),
    confidence_interval_eq ppf hp dev edf _ he (by norm_num) (by norm_num), ?_, ?_⟩
  · rw [e1, e2]; exact mono _ _ (by norm_num) (by norm_num) (by norm_num)
  · rw [e1, e2]; exact mono _ _ (by norm_num) (by norm_num) (by norm_num)

example := confidence_interval_not_nested (fun q k => some (chi2Quantile q k))
  (fun _ _ _ _ _ => rfl) 2 7 (by norm_num) (by norm_num)

open MeasureTheory ProbabilityTheory in
/-- the meaning of the interval: when `edf · dev² / σ²` is chi-squared distributed with `edf`
degrees of freedom (`s` is its value), the computed interval contains the true deviation `σ`
with probability `ci` (confidence levels of at least 1/2) -/
theorem confidence_interval_coverage_partial (ppf : ℝ → ℝ → NV) (hp : Chi2Ppf ppf)
    (σ edf ci : ℝ) (hσ : 0 < σ) (he : 0 < edf) (h0 : 1 / 2 ≤ ci) (h1 : ci < 1) :
    (chi2 edf).real {s | ∃ lo hi, confidence_interval ppf (σ * √(s / edf)) edf ci =
      (some lo, some hi) ∧ lo ≤ σ ∧ σ ≤ hi} = ci := by
  have := chi2_prob he
  set a := chi2Quantile ((1 - ci) / 2) edf with ha
  set b := chi2Quantile ((1 + ci) / 2) edf with hb
  have ha0 : 0 < a := chi2Quantile_pos he (by linarith) (by linarith)
  have hb0 : 0 < b := chi2Quantile_pos he (by linarith) (by linarith)
  have hab : a < b := chi2Quantile_lt he (by linarith) (by linarith) (by linarith)
  have hset : {s | ∃ lo hi, confidence_interval ppf (σ * √(s / edf)) edf ci =
      (some lo, some hi) ∧ lo ≤ σ ∧ σ ≤ hi} = Set.Icc a b := by
    ext s
    simp only [Set.mem_ofPred_eq, Set.mem_Icc]
    rw [confidence_interval_bounds_partial ppf hp _ edf ci he h0 h1]
    simp only [Prod.mk.injEq, Option.some.injEq]
    have key : (∃ lo hi, (ciBound (σ * √(s / edf)) edf ((1 + ci) / 2) = lo ∧
        ciBound (σ * √(s / edf)) edf ((1 - ci) / 2) = hi) ∧ lo ≤ σ ∧ σ ≤ hi) ↔
        ciBound (σ * √(s / edf)) edf ((1 + ci) / 2) ≤ σ ∧
        σ ≤ ciBound (σ * √(s / edf)) edf ((1 - ci) / 2) :=
      ⟨fun ⟨_, _, ⟨h1, h2⟩, h3, h4⟩ => h1 ▸ h2 ▸ ⟨h3, h4⟩, fun h => ⟨_, _, ⟨rfl, rfl⟩, h⟩⟩
    rw [key]
    rcases lt_or_ge s 0 with hs | hs
    · have hz : √(s / edf) = 0 := sqrt_eq_zero_of_nonpos (div_nonpos_of_nonpos_of_nonneg hs.le he.le)
      simp only [ciBound, hz, mul_zero]
      norm_num
      exact ⟨fun h => absurd h.2 (not_le.2 hσ), fun h => by linarith⟩
    · have e : ∀ q, ciBound (σ * √(s / edf)) edf q = √(σ ^ 2 * s / chi2Quantile q edf) := fun q => by
        unfold ciBound
        congr 2
        rw [mul_pow, sq_sqrt (by positivity)]
        field_simp
      rw [e, e, ← ha, ← hb, sqrt_le_left hσ.le, le_sqrt' hσ, div_le_iff₀ hb0, le_div_iff₀ ha0,
        mul_le_mul_iff_right₀ (by positivity), mul_le_mul_iff_right₀ (by positivity)]
      exact and_comm
  rw [hset]
  have h3 := StieltjesFunction.measure_Icc (cdf (chi2 edf)) a b
  rw [measure_cdf, ((chi2_cdf_continuous he).continuousAt.continuousWithinAt).leftLim_eq,
    chi2_cdf_quantile he (by linarith) (by linarith),
    chi2_cdf_quantile he (by linarith) (by linarith)] at h3
  rw [measureReal_def, h3, ENNReal.toReal_ofReal (by linarith)]
  ring

example := confidence_interval_coverage_partial (fun q k => some (chi2Quantile q k))
  (fun _ _ _ _ _ => rfl) 2 7 (9 / 10) (by norm_num) (by norm_num) (by norm_num) (by norm_num)

/-- the hypotheses are met: a 90 % interval with 10 degrees of freedom -/
example : ∃ lo hi, confidence_interval (fun q k => some (chi2Quantile q k)) 1 10 (9 / 10) =
    (some lo, some hi) ∧ 0 < lo ∧ lo < hi := by
  obtain ⟨lo, hi, h, -, -, h2⟩ := confidence_interval_ordered (fun q k => some (chi2Quantile q k))
    (fun _ _ _ _ _ => rfl) 1 10 (9 / 10) (by norm_num) (by norm_num) (by norm_num)
  exact ⟨lo, hi, h, h2 one_ne_zero⟩

end AT
