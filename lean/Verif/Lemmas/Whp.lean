import Verif.Lemmas.QForm

/-!
# Events of high probability, and the law of large numbers for windowed squares
-/

namespace AT

open Spec Finset MeasureTheory ProbabilityTheory Filter
open scoped NNReal ENNReal

variable {Ω : Type} [MeasurableSpace Ω] {P : Measure Ω}

/-- the probability that `E n` fails tends to 0 -/
def Whp (P : Measure Ω) (E : ℕ → Ω → Prop) : Prop :=
  ∀ δ : ℝ, 0 < δ → ∀ᶠ n in atTop, P {ω | ¬ E n ω} ≤ ENNReal.ofReal δ

theorem Whp.mono {E F : ℕ → Ω → Prop} (h : Whp P E) (hEF : ∀ᶠ n in atTop, ∀ ω, E n ω → F n ω) : Whp P F := by
  intro δ hδ
  filter_upwards [h δ hδ, hEF] with n h1 h2
  refine (measure_mono fun ω hω => ?_).trans h1
  simp only [Set.mem_ofPred_eq] at hω ⊢
  exact fun h3 => hω (h2 ω h3)

theorem Whp.and {E F : ℕ → Ω → Prop} (hE : Whp P E) (hF : Whp P F) : Whp P (fun n ω => E n ω ∧ F n ω) := by
  intro δ hδ
  filter_upwards [hE (δ / 2) (by positivity), hF (δ / 2) (by positivity)] with n h1 h2
  calc P {ω | ¬ (E n ω ∧ F n ω)} ≤ P ({ω | ¬ E n ω} ∪ {ω | ¬ F n ω}) := by
        refine measure_mono fun ω hω => ?_
        simp only [Set.mem_ofPred_eq, Set.mem_union] at hω ⊢
        tauto
    _ ≤ _ := (measure_union_le _ _).trans (add_le_add h1 h2)
    _ = ENNReal.ofReal δ := by
        rw [← ENNReal.ofReal_add (by positivity) (by positivity)]
        congr 1
        ring

theorem Whp.of_eventually {E : ℕ → Ω → Prop} (h : ∀ᶠ n in atTop, ∀ ω, E n ω) : Whp P E := by
  intro δ _
  filter_upwards [h] with n h1
  have : {ω | ¬ E n ω} = ∅ := by
    ext ω
    simp [h1 ω]
  rw [this, measure_empty]
  exact zero_le

theorem Whp.comp {E : ℕ → Ω → Prop} (h : Whp P E) {u : ℕ → ℕ} (hu : Tendsto u atTop atTop) : Whp P (fun n => E (u n)) :=
  fun δ hδ => hu.eventually (h δ hδ)

/-- Markov's inequality -/
theorem whp_of_mean {X : ℕ → Ω → ℝ} {c : ℕ → ℝ} (h0 : ∀ n ω, 0 ≤ X n ω) (hi : ∀ n, Integrable (X n) P)
    (hm : ∀ n, ∫ ω, X n ω ∂P ≤ c n) (hc : Tendsto c atTop (nhds 0)) {ε : ℝ} (hε : 0 < ε) :
    Whp P (fun n ω => X n ω < ε) := by
  intro δ hδ
  filter_upwards [hc.eventually (gt_mem_nhds (mul_pos hε hδ))] with n hn
  have h1 := mul_meas_ge_le_lintegral₀ (μ := P) (f := fun ω => ENNReal.ofReal (X n ω)) (hi n).aemeasurable.ennreal_ofReal (ENNReal.ofReal ε)
  rw [← ofReal_integral_eq_lintegral_ofReal (hi n) (Eventually.of_forall (h0 n))] at h1
  have e : {ω | ¬ X n ω < ε} = {ω | ENNReal.ofReal ε ≤ ENNReal.ofReal (X n ω)} := by
    ext ω
    simp only [Set.mem_ofPred_eq, not_lt]
    rw [ENNReal.ofReal_le_ofReal_iff (h0 n ω)]
  rw [e]
  have h2 : ENNReal.ofReal ε * P {ω | ENNReal.ofReal ε ≤ ENNReal.ofReal (X n ω)} ≤ ENNReal.ofReal ε * ENNReal.ofReal δ := by
    rw [← ENNReal.ofReal_mul hε.le]
    exact h1.trans (ENNReal.ofReal_le_ofReal ((hm n).trans hn.le))
  exact (ENNReal.mul_le_mul_iff_right (by simpa using hε) ENNReal.ofReal_ne_top).1 h2

variable [IsProbabilityMeasure P]

/-- law of large numbers for the squares of a linear form in windows that move by `S` samples -/
theorem lln {W : ℕ → Ω → ℝ} {s2 : ℝ≥0} (h : NormalNoise P W s2) (K : ℕ) (c : ℕ → ℝ) {S : ℕ} (hS : 0 < S) {ε : ℝ} (hε : 0 < ε) :
    Whp P (fun n ω => |(∑ i ∈ range n, (∑ k ∈ range K, c k * W (i * S + k) ω) ^ 2) - n * (s2 * ∑ k ∈ range K, c k ^ 2)| ≤ ε * n) := by
  have hU : QF K (fun x => (∑ k ∈ range K, c k * x k) ^ 2) := LF.sq ⟨c, fun _ => rfl⟩
  obtain ⟨u, hu⟩ := relVar_blocks hU
  set D : ℕ → Ω → ℝ := fun n ω => √(1 / n * ∑ i ∈ range n, (∑ k ∈ range K, c k * W (i * S + k) ω) ^ 2)
  have hD : ∀ n ω, D n ω ^ 2 = 1 / n * ∑ i ∈ range n, (∑ k ∈ range K, c k * W (i * S + k) ω) ^ 2 := fun n ω =>
    Real.sq_sqrt (mul_nonneg (by positivity) (sum_nonneg fun _ _ => sq_nonneg _))
  have hK : K ≤ (K + 1) * S := by nlinarith
  have hall : ∀ n, 0 < n → MeanSq P (D n) (s2 * u) ∧ RelVar P (D n) (2 * (1 + 2 * K) / n) := fun n hn =>
    hu Ω P W s2 h S n K hn hK (D n) (hD n)
  have eu : s2 * u = s2 * ∑ k ∈ range K, c k ^ 2 := by
    have h1 := (hall 1 one_pos).1.2
    have h2 := lin_prod h K c c
    simp only [hD, sum_range_one, zero_mul, zero_add, Nat.cast_one, div_one, one_mul] at h1
    rw [← h1]
    simpa only [Lin, ← pow_two] using h2
  intro δ hδ
  have ht : Tendsto (fun n : ℕ => 2 * (1 + 2 * (K : ℝ)) / n * (s2 * u) ^ 2 / ε ^ 2) atTop (nhds 0) := by
    have : Tendsto (fun n : ℕ => 2 * (1 + 2 * (K : ℝ)) / n * ((s2 * u) ^ 2 / ε ^ 2)) atTop (nhds (0 * ((s2 * u) ^ 2 / ε ^ 2))) :=
      (tendsto_const_div_atTop_nhds_zero_nat _).mul_const _
    rw [zero_mul] at this
    simpa only [← mul_div_assoc] using this
  filter_upwards [ht.eventually (gt_mem_nhds hδ), eventually_gt_atTop 0] with n hn hn0
  have hn' : (0 : ℝ) < n := by exact_mod_cast hn0
  obtain ⟨m1, m2⟩ := hall n hn0
  have hch := meas_ge_le_variance_div_sq m2.1 hε
  refine (measure_mono fun ω hω => ?_).trans (hch.trans (ENNReal.ofReal_le_ofReal ?_))
  · simp only [Set.mem_ofPred_eq, not_le] at hω ⊢
    rw [m1.2, hD, ← eu] at *
    have e : 1 / (n : ℝ) * ∑ i ∈ range n, (∑ k ∈ range K, c k * W (i * S + k) ω) ^ 2 - s2 * u
        = ((∑ i ∈ range n, (∑ k ∈ range K, c k * W (i * S + k) ω) ^ 2) - n * (s2 * u)) / n := by
      field_simp
    rw [e, abs_div, abs_of_pos hn', le_div_iff₀ hn']
    exact hω.le
  · have h2 := m2.2
    rw [m1.2] at h2
    refine le_trans ?_ hn.le
    gcongr

end AT
