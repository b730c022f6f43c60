import Verif.Lemmas.InProb
import Mathlib.Analysis.Asymptotics.SpecificAsymptotics

/-!
# Law of large numbers for squares of weakly correlated normal forms
-/

namespace AT

open Spec Finset MeasureTheory ProbabilityTheory Filter
open scoped NNReal ENNReal

variable {Ω : Type} [MeasurableSpace Ω] {P : Measure Ω} [IsProbabilityMeasure P]

/-- averages of a sequence that converges converge to the same limit -/
theorem cesaro_div {u : ℕ → ℝ} {l : ℝ} (h : Tendsto u atTop (nhds l)) :
    Tendsto (fun n : ℕ => (∑ i ∈ range n, u i) / n) atTop (nhds l) := by
  refine h.cesaro.congr fun n => ?_
  rw [inv_mul_eq_div]

/-- sums over pairs, ordered by distance -/
theorem sum_pairs_le {n : ℕ} {c : ℕ → ℕ → ℝ} {g : ℕ → ℝ} (hs : ∀ i < n, ∀ j < n, c i j = c j i)
    (hb : ∀ i d, i + d < n → c i (i + d) ≤ g d) (hg : ∀ d, 0 ≤ g d) :
    ∑ i ∈ range n, ∑ j ∈ range n, c i j ≤ 2 * (n * ∑ d ∈ range n, g d) := by
  have row : ∀ i ∈ range n, ∑ j ∈ range n, c i j ≤ 2 * ∑ d ∈ range n, g d := by
    intro i hi
    have hi' := mem_range.1 hi
    have h1 : ∑ j ∈ range n, c i j = ∑ j ∈ range i, c i j + ∑ d ∈ range (n - i), c i (i + d) := by
      rw [← sum_range_add, Nat.add_sub_cancel' hi'.le]
    have h2 : ∑ j ∈ range i, c i j ≤ ∑ d ∈ range n, g d := by
      rw [← sum_range_reflect]
      refine (sum_le_sum (g := fun d => g (d + 1)) fun d hd => ?_).trans ?_
      · have hd' := mem_range.1 hd
        rw [hs i hi' _ (by omega)]
        have := hb (i - 1 - d) (d + 1) (by omega)
        rwa [show i - 1 - d + (d + 1) = i by omega] at this
      · have e := sum_range_succ' g i
        have : ∑ d ∈ range (i + 1), g d ≤ ∑ d ∈ range n, g d :=
          sum_le_sum_of_subset_of_nonneg (range_mono (by omega)) fun _ _ _ => hg _
        have := hg 0
        linarith
    have h3 : ∑ d ∈ range (n - i), c i (i + d) ≤ ∑ d ∈ range n, g d :=
      (sum_le_sum fun d hd => hb i d (by have := mem_range.1 hd; omega)).trans
        (sum_le_sum_of_subset_of_nonneg (range_mono (by omega)) fun _ _ _ => hg _)
    rw [h1]
    linarith
  refine (sum_le_sum row).trans_eq ?_
  rw [sum_const, card_range, nsmul_eq_mul]
  ring

/-- Let `Q i` be linear forms of normal noise whose covariances `s2 cv i j` are bounded by a function of the
distance that tends to 0, and whose variances converge.  The mean of the squares settles. -/
theorem cov_lln {W : ℕ → Ω → ℝ} {s2 : ℝ≥0} (h : NormalNoise P W s2) {Q : ℕ → Ω → ℝ} (A : ℕ → ℕ → ℝ) (K : ℕ → ℕ)
    (hQ : ∀ n, ∀ i < n, ∀ ω, Q i ω = Lin W (K n) (A i) ω) {cv : ℕ → ℕ → ℝ}
    (hcv : ∀ n, ∀ i < n, ∀ j < n, ∑ k ∈ range (K n), A i k * A j k = cv i j) {g : ℕ → ℝ}
    (hg : Tendsto g atTop (nhds 0)) (hb : ∀ i d, |cv i (i + d)| ≤ g d) {E : ℝ}
    (hE : Tendsto (fun i => cv i i) atTop (nhds E)) :
    InProb P (fun n ω => (∑ i ∈ range n, Q i ω ^ 2) / n) (s2 * E) := by
  have hsum : ∀ n ω, ∑ i ∈ range n, Q i ω ^ 2 = ∑ i ∈ range n, Lin W (K n) (A i) ω ^ 2 := fun n ω =>
    sum_congr rfl fun i hi => by rw [hQ n i (mem_range.1 hi)]
  have hmean : ∀ n, ∫ ω, (∑ i ∈ range n, Q i ω ^ 2) / n ∂P = s2 * ((∑ i ∈ range n, cv i i) / n) := fun n => by
    simp only [hsum]
    rw [integral_div, (quad_moments h (K n) (range n) A).2.1, mul_div_assoc]
    congr 2
    refine sum_congr rfl fun i hi => ?_
    rw [← hcv n i (mem_range.1 hi) i (mem_range.1 hi)]
    exact sum_congr rfl fun k _ => pow_two _
  have hmem : ∀ n, MemLp (fun ω => (∑ i ∈ range n, Q i ω ^ 2) / n) 2 P := fun n => by
    simp only [hsum]
    have := ((quad_moments h (K n) (range n) A).1.const_mul (n : ℝ)⁻¹) 2
    simp only [div_eq_inv_mul]
    exact_mod_cast this
  have hvar : ∀ n, Var[fun ω => (∑ i ∈ range n, Q i ω ^ 2) / n; P]
      ≤ 4 * s2 ^ 2 * ((∑ d ∈ range n, g d ^ 2) / n) := fun n => by
    rcases Nat.eq_zero_or_pos n with rfl | hn
    · have : (fun ω => (∑ i ∈ range 0, Q i ω ^ 2) / ((0 : ℕ) : ℝ)) = fun _ => (0 : ℝ) := by funext ω; simp
      rw [this, ← Pi.zero_def, variance_zero]
      simp
    have hn0 : (0 : ℝ) < n := by exact_mod_cast hn
    simp only [hsum, div_eq_inv_mul]
    rw [variance_const_mul, (quad_moments h (K n) (range n) A).2.2]
    have h1 : ∑ i ∈ range n, ∑ j ∈ range n, (∑ k ∈ range (K n), A i k * A j k) ^ 2
        ≤ 2 * (n * ∑ d ∈ range n, g d ^ 2) := by
      refine sum_pairs_le (c := fun i j => (∑ k ∈ range (K n), A i k * A j k) ^ 2) (fun i _ j _ => ?_)
        (fun i d hd => ?_) fun d => sq_nonneg _
      · exact congrArg (· ^ 2) (sum_congr rfl fun k _ => mul_comm _ _)
      · rw [hcv n i (by omega) (i + d) hd, ← sq_abs]
        exact pow_le_pow_left₀ (abs_nonneg _) (hb i d) 2
    have h2 := mul_le_mul_of_nonneg_left h1 (show 0 ≤ (n : ℝ)⁻¹ ^ 2 * (2 * (s2 : ℝ) ^ 2) by positivity)
    calc _ = (n : ℝ)⁻¹ ^ 2 * (2 * (s2 : ℝ) ^ 2) * _ := by ring
      _ ≤ _ := h2
      _ = _ := by field_simp; ring
  have hm0 : Tendsto (fun n : ℕ => (s2 : ℝ) * ((∑ i ∈ range n, cv i i) / n)) atTop (nhds (s2 * E)) :=
    (cesaro_div hE).const_mul _
  have hv0 : Tendsto (fun n : ℕ => 4 * (s2 : ℝ) ^ 2 * ((∑ d ∈ range n, g d ^ 2) / n)) atTop (nhds 0) := by
    have := (cesaro_div (hg.pow 2)).const_mul (4 * (s2 : ℝ) ^ 2)
    simpa using this
  intro ε hε δ hδ
  have hv1 : Tendsto (fun n : ℕ => 4 * (s2 : ℝ) ^ 2 * ((∑ d ∈ range n, g d ^ 2) / n) / (ε / 2) ^ 2) atTop (nhds 0) := by
    have := hv0.div_const ((ε / 2) ^ 2)
    simpa using this
  filter_upwards [Metric.tendsto_nhds.1 hm0 (ε / 2) (by positivity), hv1.eventually (gt_mem_nhds hδ)] with n h1 h2
  have h3 := meas_ge_le_variance_div_sq (hmem n) (c := ε / 2) (by positivity)
  refine (measure_mono fun ω hω => ?_).trans (h3.trans (ENNReal.ofReal_le_ofReal ?_))
  · simp only [Set.mem_ofPred_eq, not_lt] at hω ⊢
    rw [hmean]
    rw [Real.dist_eq] at h1
    have h4 := abs_sub_le ((∑ i ∈ range n, Q i ω ^ 2) / n) ((s2 : ℝ) * ((∑ i ∈ range n, cv i i) / n)) (s2 * E)
    linarith
  · exact ((div_le_div_of_nonneg_right (hvar n) (by positivity)).trans h2.le)

end AT
