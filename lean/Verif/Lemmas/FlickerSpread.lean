import Verif.Lemmas.FlickerRatio

/-!
# The spread of long flicker noise
-/

namespace AT

open Spec Finset MeasureTheory ProbabilityTheory Filter
open scoped NNReal ENNReal

/-! ## Covariances -/

theorem hm1_sq_le (k : ℕ) : kasdinH (-1) k ^ 2 ≤ 1 / (2 * k + 1) := by
  rcases Nat.eq_zero_or_pos k with rfl | hk
  · simp [hm1_zero]
  have hk' : (1 : ℝ) ≤ k := by exact_mod_cast hk
  have h1 := hm1_wallis k
  have h2 := Real.Wallis.le_W k
  have hW : 1 ≤ Real.Wallis.W k := by
    refine le_trans ?_ h2
    rw [div_mul_eq_mul_div, le_div_iff₀ (by positivity)]
    nlinarith [Real.pi_gt_three]
  rw [le_div_iff₀ (by positivity)]
  have : 0 ≤ kasdinH (-1) k ^ 2 * (2 * k + 1) := by positivity
  nlinarith

theorem hm1_sq_ge (k : ℕ) : 2 / (Real.pi * (2 * k + 1)) ≤ kasdinH (-1) k ^ 2 := by
  have h1 := hm1_wallis k
  have h2 := Real.Wallis.W_le k
  have hp := Real.pi_pos
  have h0 : 0 ≤ kasdinH (-1) k ^ 2 * (2 * k + 1) := by positivity
  rw [div_le_iff₀ (by positivity)]
  nlinarith

theorem fcov_self_le (p : ℕ) : fcov p p ≤ oddSum (p + 1) := by
  rw [fcov_self]
  exact sum_le_sum fun k _ => hm1_sq_le k

/-- the variance grows -/
theorem fcov_self_mono (p L : ℕ) : fcov p p ≤ fcov (p + L) (p + L) := by
  rw [fcov_self, fcov_self]
  exact sum_le_sum_of_subset_of_nonneg (range_subset_range.2 (by omega)) fun _ _ _ => sq_nonneg _

/-- the covariance falls with the distance -/
theorem fcov_drop {p L : ℕ} (hL : L ≤ p) : oddSum L / 4 ≤ fcov p p - fcov p (p + L) := by
  have e : ∀ n, fcov p p - fcov p (p + n) = ∑ j ∈ range n, (fcov p (p + j) - fcov p (p + (j + 1))) := fun n => by
    rw [sum_range_sub' (fun j => fcov p (p + j)), add_zero]
  rw [e, oddSum, sum_div]
  refine sum_le_sum fun n hn => ?_
  rw [mem_range] at hn
  rw [fcov_step, div_div, mul_comm (2 * (n : ℝ) + 1) 4, ← div_div]
  refine div_le_div_of_nonneg_right ?_ (by positivity)
  have h1 := hm1_anti (show p + 1 ≤ 2 * (p + 1) by omega)
  have h2 := hm1_anti (show p + 1 + n ≤ 2 * (p + 1) by omega)
  have h3 := hm1_sq_ge (2 * (p + 1))
  have h4 := hm1_pos (2 * (p + 1))
  have h5 : kasdinH (-1) (2 * (p + 1)) ^ 2 ≤ kasdinH (-1) (p + 1) * kasdinH (-1) (p + 1 + n) := by
    rw [pow_two]
    exact mul_le_mul h1 h2 h4.le (hm1_pos _).le
  have h6 : 1 / 4 ≤ 2 * ((p + 1 : ℕ) : ℝ) * (2 / (Real.pi * (2 * ((2 * (p + 1) : ℕ) : ℝ) + 1))) := by
    have hp := Real.pi_pos
    have hp2 := Real.pi_lt_d2
    rw [← mul_div_assoc, div_le_div_iff₀ (by norm_num) (by positivity)]
    push_cast
    have : (0 : ℝ) ≤ p := by positivity
    norm_num at hp2
    nlinarith
  calc (1 / 4 : ℝ) ≤ 2 * ((p + 1 : ℕ) : ℝ) * (kasdinH (-1) (p + 1) * kasdinH (-1) (p + 1 + n)) :=
        h6.trans (mul_le_mul_of_nonneg_left (h3.trans h5) (by positivity))
    _ = _ := by ring

/-- covariance of the differences over `L` at two times -/
noncomputable def dcov (L p r : ℕ) : ℝ := fcov (p + L) (r + L) - fcov (p + L) r - fcov p (r + L) + fcov p r

theorem dcov_coef {L p r K : ℕ} (hp : p + L < K) :
    ∑ k ∈ range K, (fcoef (p + L) k - fcoef p k) * (fcoef (r + L) k - fcoef r k) = dcov L p r := by
  unfold dcov
  rw [← fcoef_mul (q := r + L) hp, ← fcoef_mul (q := r) hp, ← fcoef_mul (q := r + L) (show p < K by omega),
    ← fcoef_mul (q := r) (show p < K by omega), ← sum_sub_distrib, ← sum_sub_distrib, ← sum_add_distrib]
  exact sum_congr rfl fun k _ => by ring

theorem dcov_self_ge {L p : ℕ} (hL : L ≤ p) : oddSum L / 2 ≤ dcov L p p := by
  have h1 := fcov_drop hL
  have h2 := fcov_self_mono p L
  unfold dcov
  rw [fcov_comm (p + L) p]
  linarith

theorem dcov_self_le (L p : ℕ) : dcov L p p ≤ 3 * L := by
  have h1 := (abs_le.1 (fcov_lip (p := p) (n := 0) L)).1
  have h2 : fcov (p + L) (p + L) - fcov p p ≤ L := by
    rw [fcov_self, fcov_self, show p + L + 1 = p + 1 + L by ring, sum_range_add, add_sub_cancel_left]
    refine (sum_le_card_nsmul _ _ 1 fun k _ => pow_le_one₀ (hm1_pos _).le (hm1_le_one _)).trans_eq ?_
    rw [card_range, nsmul_eq_mul, mul_one]
  simp only [add_zero, Nat.cast_zero, mul_zero, zero_add, div_one] at h1
  unfold dcov
  rw [fcov_comm (p + L) p]
  linarith

theorem dcov_near (L p r : ℕ) : |dcov L p r| ≤ 3 * L := by
  have hp : p + L < p + r + L + 1 := by omega
  have hr : r + L < p + r + L + 1 := by omega
  have h1 := dcov_self_le L p
  have h2 := dcov_self_le L r
  rw [← dcov_coef hp] at h1 ⊢
  rw [← dcov_coef hr] at h2
  rw [abs_le]
  constructor
  · have := sum_nonneg (s := range (p + r + L + 1)) fun k _ => sq_nonneg ((fcoef (p + L) k - fcoef p k) + (fcoef (r + L) k - fcoef r k))
    have e : ∀ k, ((fcoef (p + L) k - fcoef p k) + (fcoef (r + L) k - fcoef r k)) ^ 2
        = (fcoef (p + L) k - fcoef p k) * (fcoef (p + L) k - fcoef p k) + (fcoef (r + L) k - fcoef r k) * (fcoef (r + L) k - fcoef r k)
          + 2 * ((fcoef (p + L) k - fcoef p k) * (fcoef (r + L) k - fcoef r k)) := fun k => by ring
    simp only [e] at this
    rw [sum_add_distrib, sum_add_distrib, ← mul_sum] at this
    linarith
  · have := sum_nonneg (s := range (p + r + L + 1)) fun k _ => sq_nonneg ((fcoef (p + L) k - fcoef p k) - (fcoef (r + L) k - fcoef r k))
    have e : ∀ k, ((fcoef (p + L) k - fcoef p k) - (fcoef (r + L) k - fcoef r k)) ^ 2
        = (fcoef (p + L) k - fcoef p k) * (fcoef (p + L) k - fcoef p k) + (fcoef (r + L) k - fcoef r k) * (fcoef (r + L) k - fcoef r k)
          - 2 * ((fcoef (p + L) k - fcoef p k) * (fcoef (r + L) k - fcoef r k)) := fun k => by ring
    simp only [e] at this
    rw [sum_sub_distrib, sum_add_distrib, ← mul_sum] at this
    linarith

theorem dcov_far {L p D : ℕ} (hD : 2 * L ≤ D) (hD0 : 0 < D) : |dcov L p (p + D)| ≤ 2 * L / D := by
  have h1 := fcov_lip (p := p) (n := D) L
  have h2 := fcov_lip (p := p + L) (n := D - L) L
  rw [show p + L + (D - L) = p + D by omega] at h2
  have hD' : (0 : ℝ) < D := by exact_mod_cast hD0
  have hL : (0 : ℝ) ≤ L := by positivity
  have h3 : (D : ℝ) ≤ 2 * ((D - L : ℕ) : ℝ) + 1 := by
    rw [Nat.cast_sub (by omega)]
    have : 2 * (L : ℝ) ≤ D := by exact_mod_cast hD
    linarith
  have h4 : (L : ℝ) / (2 * D + 1) ≤ L / D := by gcongr; linarith
  have h5 : (L : ℝ) / (2 * ((D - L : ℕ) : ℝ) + 1) ≤ L / D := by gcongr
  have e : dcov L p (p + D) = (fcov (p + L) (p + D + L) - fcov (p + L) (p + D)) - (fcov p (p + D + L) - fcov p (p + D)) := by
    unfold dcov; ring
  rw [e]
  refine (abs_sub _ _).trans ?_
  rw [mul_div_assoc]
  linarith

theorem sum_inv_tri_le (n : ℕ) : ∑ d ∈ range n, 1 / (((d : ℝ) + 1) * (d + 2)) ≤ 1 := by
  have h : ∀ n : ℕ, ∑ d ∈ range n, 1 / (((d : ℝ) + 1) * (d + 2)) = 1 - 1 / (n + 1) := by
    intro n
    induction n with
    | zero => norm_num
    | succ n ih =>
      rw [sum_range_succ, ih]
      push_cast
      field_simp
      ring
  rw [h]
  have : (0 : ℝ) ≤ 1 / (n + 1) := by positivity
  linarith

/-! ## The differences over many intervals -/

variable {Ω : Type} [MeasurableSpace Ω] {P : Measure Ω} [IsProbabilityMeasure P] {W : ℕ → Ω → ℝ} {s2 : ℝ≥0} (h : NormalNoise P W s2)
include h

/-- the mean squares of the differences over `q m` steps, taken at every `m`-th sample, are large -/
theorem flicker_spread (hs : 0 < s2) {m q n : ℕ} (hm : 0 < m) (hq : 0 < q) (hn : 0 < n) :
    P {ω | ∑ i ∈ range n, (Fl W ((i + q) * m + 1 + q * m) ω - Fl W ((i + q) * m + 1) ω) ^ 2 < n * (s2 * (oddSum (q * m) / 4))}
      ≤ ENNReal.ofReal (2688 * (m ^ 2 * q ^ 3) / n) := by
  have hm0 : (1 : ℝ) ≤ m := by exact_mod_cast hm
  have hq0 : (1 : ℝ) ≤ q := by exact_mod_cast hq
  have hn0 : (0 : ℝ) < n := by exact_mod_cast hn
  have hs' : (0 : ℝ) < s2 := hs
  set L := q * m with hL
  have hL0 : 0 < L := Nat.mul_pos hq hm
  set p : ℕ → ℕ := fun i => (i + q) * m + 1 with hp
  set K := (n + q) * m + 1 + L with hK
  have hpK : ∀ i < n, p i + L < K := fun i hi => by
    have : (i + q) * m < (n + q) * m := Nat.mul_lt_mul_of_pos_right (by omega) hm
    simp only [hp, hK]
    omega
  set A : ℕ → ℕ → ℝ := fun i k => fcoef (p i + L) k - fcoef (p i) k with hA
  have hlin : ∀ i < n, ∀ ω, Fl W (p i + L) ω - Fl W (p i) ω = Lin W K (A i) ω := fun i hi ω => by
    have h1 := hpK i hi
    rw [Fl_lin W h1, Fl_lin W (show p i < K by omega)]
    simp only [Lin, hA, sub_mul, sum_sub_distrib]
  have hsum : ∀ ω, ∑ i ∈ range n, (Fl W (p i + L) ω - Fl W (p i) ω) ^ 2 = ∑ i ∈ range n, Lin W K (A i) ω ^ 2 := fun ω =>
    sum_congr rfl fun i hi => by rw [hlin i (mem_range.1 hi)]
  obtain ⟨hA1, hA2, hA3⟩ := quad_moments h K (range n) A
  set μ : ℝ := ∑ i ∈ range n, ∑ k ∈ range K, A i k ^ 2 with hμ
  have hμ1 : n * (oddSum L / 2) ≤ μ := by
    have h1 : ∑ i ∈ range n, oddSum L / 2 ≤ μ := sum_le_sum fun i hi => by
      have h2 := dcov_self_ge (L := L) (p := p i) (by
        have : q * m ≤ (i + q) * m := Nat.mul_le_mul_right _ (by omega)
        simp only [hp, hL]
        omega)
      rw [← dcov_coef (hpK i (mem_range.1 hi))] at h2
      refine h2.trans_eq (sum_congr rfl fun k _ => (pow_two _).symm)
    rwa [sum_const, card_range, nsmul_eq_mul] at h1
  have hO : 1 ≤ oddSum L := oddSum_one_le hL0
  set g : ℕ → ℝ := fun d => (if d < 2 * q then 9 * (q : ℝ) ^ 2 * m ^ 2 else 0) + 24 * (q : ℝ) ^ 2 * (1 / (((d : ℝ) + 1) * (d + 2))) with hg
  have hpair : ∑ i ∈ range n, ∑ j ∈ range n, (∑ k ∈ range K, A i k * A j k) ^ 2 ≤ 2 * (n * ∑ d ∈ range n, g d) := by
    refine sum_pairs_le (c := fun i j => (∑ k ∈ range K, A i k * A j k) ^ 2) (fun i _ j _ => ?_) (fun i d hd => ?_) fun d => ?_
    · exact congrArg (· ^ 2) (sum_congr rfl fun k _ => mul_comm _ _)
    · simp only [hA]
      rw [dcov_coef (hpK i (by omega)), hg]
      simp only
      have hpp : p (i + d) = p i + d * m := by simp only [hp]; ring
      rw [hpp]
      by_cases hd2 : d < 2 * q
      · rw [if_pos hd2, ← sq_abs]
        have h1 := dcov_near L (p i) (p i + d * m)
        have h2 : |dcov L (p i) (p i + d * m)| ^ 2 ≤ (3 * L) ^ 2 := by gcongr
        have h3 : (0 : ℝ) ≤ 24 * (q : ℝ) ^ 2 * (1 / (((d : ℝ) + 1) * (d + 2))) := by positivity
        have h4 : (3 * (L : ℝ)) ^ 2 = 9 * (q : ℝ) ^ 2 * m ^ 2 := by
          rw [hL]
          push_cast
          ring
        linarith
      · rw [if_neg hd2, zero_add, ← sq_abs]
        have hd1 : 1 ≤ d := by omega
        have h1 := dcov_far (L := L) (p := p i) (D := d * m) (by
          rw [hL, ← mul_assoc]
          exact Nat.mul_le_mul_right _ (by omega)) (Nat.mul_pos (by omega) hm)
        have hd1' : (1 : ℝ) ≤ d := by exact_mod_cast hd1
        have h2 : 2 * (L : ℝ) / ((d * m : ℕ) : ℝ) = 2 * q / d := by
          rw [hL]
          push_cast
          field_simp
        rw [h2] at h1
        have h3 : |dcov L (p i) (p i + d * m)| ^ 2 ≤ (2 * q / d) ^ 2 := by gcongr
        refine h3.trans ?_
        rw [div_pow, mul_one_div, div_le_div_iff₀ (by positivity) (by positivity)]
        have h4 : ((d : ℝ) + 1) * (d + 2) ≤ 6 * d ^ 2 := by nlinarith
        calc (2 * (q : ℝ)) ^ 2 * (((d : ℝ) + 1) * (d + 2)) ≤ (2 * (q : ℝ)) ^ 2 * (6 * d ^ 2) := by gcongr
          _ = _ := by ring
    · simp only [hg]
      split_ifs <;> positivity
  have hgsum : ∑ d ∈ range n, g d ≤ 42 * (m ^ 2 * q ^ 3) := by
    simp only [hg]
    rw [sum_add_distrib, ← mul_sum]
    have h1 : ∑ d ∈ range n, (if d < 2 * q then 9 * (q : ℝ) ^ 2 * m ^ 2 else 0) ≤ 2 * q * (9 * (q : ℝ) ^ 2 * m ^ 2) := by
      rw [← sum_filter, sum_const, nsmul_eq_mul]
      refine mul_le_mul_of_nonneg_right ?_ (by positivity)
      have : #(filter (fun d => d < 2 * q) (range n)) ≤ 2 * q := by
        refine (card_le_card (t := range (2 * q)) fun d hd => ?_).trans_eq (card_range _)
        exact mem_range.2 (mem_filter.1 hd).2
      exact_mod_cast this
    have h2 : 24 * (q : ℝ) ^ 2 * ∑ d ∈ range n, 1 / (((d : ℝ) + 1) * (d + 2)) ≤ 24 * (q : ℝ) ^ 2 * 1 :=
      mul_le_mul_of_nonneg_left (sum_inv_tri_le n) (by positivity)
    have h3 : (q : ℝ) ^ 2 * 1 ≤ (q ^ 2 * q) * m ^ 2 := by
      have h4 : (q : ℝ) ^ 2 * 1 ≤ q ^ 2 * q := by gcongr
      have h5 : (1 : ℝ) ≤ m ^ 2 := one_le_pow₀ hm0
      nlinarith [show (0 : ℝ) ≤ q ^ 2 * q by positivity]
    nlinarith
  have hmem : MemLp (fun ω => ∑ i ∈ range n, Lin W K (A i) ω ^ 2) 2 P := by exact_mod_cast hA1 2
  have hμ0 : 0 < s2 * μ / 2 := by
    have : 0 < (n : ℝ) * (oddSum L / 2) := by positivity
    have : 0 < μ := by linarith
    positivity
  have hch := meas_ge_le_variance_div_sq hmem hμ0
  refine (measure_mono fun ω hω => ?_).trans (hch.trans (ENNReal.ofReal_le_ofReal ?_))
  · simp only [Set.mem_ofPred_eq] at hω ⊢
    rw [hA2]
    have e := hsum ω
    simp only [hp] at e
    rw [e] at hω
    have h1 : (n : ℝ) * (s2 * (oddSum L / 4)) ≤ s2 * μ / 2 := by
      have := mul_le_mul_of_nonneg_left hμ1 hs'.le
      linarith
    rw [abs_of_neg (by linarith)]
    linarith
  · rw [hA3, div_le_div_iff₀ (by positivity) hn0]
    have h1 : (n : ℝ) ^ 2 / 4 ≤ μ ^ 2 := by
      have h2 : (n : ℝ) / 2 ≤ μ := by
        refine le_trans ?_ hμ1
        have := mul_le_mul_of_nonneg_left hO hn0.le
        linarith
      calc (n : ℝ) ^ 2 / 4 = (n / 2) ^ 2 := by ring
        _ ≤ μ ^ 2 := by gcongr
    have h3 : ∑ i ∈ range n, ∑ j ∈ range n, (∑ k ∈ range K, A i k * A j k) ^ 2 ≤ 2 * (n * (42 * (m ^ 2 * q ^ 3))) :=
      hpair.trans (by gcongr)
    have hc : (0 : ℝ) ≤ m ^ 2 * q ^ 3 := by positivity
    calc 2 * (s2 : ℝ) ^ 2 * (∑ i ∈ range n, ∑ j ∈ range n, (∑ k ∈ range K, A i k * A j k) ^ 2) * n
        ≤ 2 * (s2 : ℝ) ^ 2 * (2 * (n * (42 * (m ^ 2 * q ^ 3)))) * n := by gcongr
      _ = 2688 * (m ^ 2 * q ^ 3) * ((s2 : ℝ) ^ 2 * (n ^ 2 / 4) / 4) := by ring
      _ ≤ 2688 * (m ^ 2 * q ^ 3) * ((s2 : ℝ) ^ 2 * μ ^ 2 / 4) := by gcongr
      _ = _ := by ring

omit [MeasurableSpace Ω] [IsProbabilityMeasure P] h in
/-- a difference of blocks in terms of the difference of their first samples -/
theorem bl_diff_first (m q j : ℕ) (ω : Ω) : Bl W m m 1 (j + q) ω - Bl W m m 1 j ω
    = m * (Fl W (j * m + 1 + q * m) ω - Fl W (j * m + 1) ω)
      + (∑ k ∈ range m, (Fl W ((j + q) * m + 1 + k) ω - Fl W ((j + q) * m + 1) ω) - ∑ k ∈ range m, (Fl W (j * m + 1 + k) ω - Fl W (j * m + 1) ω)) := by
  unfold Bl
  simp only [sum_sub_distrib, sum_const, card_range, nsmul_eq_mul]
  have e1 : ∀ k, (j + q) * m + k + 1 = (j + q) * m + 1 + k := fun k => by ring
  have e2 : ∀ k, j * m + k + 1 = j * m + 1 + k := fun k => by ring
  simp only [e1, e2, show j * m + 1 + q * m = (j + q) * m + 1 by ring]
  ring

/-- within a block the noise changes little -/
theorem bl_rest_le (m j : ℕ) : ∫ ω, (∑ k ∈ range m, (Fl W (j * m + 1 + k) ω - Fl W (j * m + 1) ω)) ^ 2 ∂P ≤ s2 * (3 * m ^ 3) := by
  have hi : ∀ p k, Integrable (fun ω => (Fl W (p + k) ω - Fl W p ω) ^ 2) P := fun p k =>
    ((AllLp.sub (fl_allLp h _) (fl_allLp h _)).pow 2).int
  calc ∫ ω, (∑ k ∈ range m, (Fl W (j * m + 1 + k) ω - Fl W (j * m + 1) ω)) ^ 2 ∂P
      ≤ ∫ ω, (m : ℝ) * ∑ k ∈ range m, (Fl W (j * m + 1 + k) ω - Fl W (j * m + 1) ω) ^ 2 ∂P :=
        integral_mono ((AllLp.sum fun k _ => AllLp.sub (fl_allLp h (j * m + 1 + k)) (fl_allLp h (j * m + 1))).pow 2).int
          ((integrable_finsetSum _ fun k _ => hi _ _).const_mul _) fun ω => sq_sum_le _ _
    _ = (m : ℝ) * ∑ k ∈ range m, ∫ ω, (Fl W (j * m + 1 + k) ω - Fl W (j * m + 1) ω) ^ 2 ∂P := by
        rw [integral_const_mul, integral_finsetSum _ fun k _ => hi _ _]
    _ ≤ (m : ℝ) * (m * (s2 * (3 * m))) := by
        refine mul_le_mul_of_nonneg_left ?_ (by positivity)
        refine (sum_le_card_nsmul _ (fun k => ∫ ω, (Fl W (j * m + 1 + k) ω - Fl W (j * m + 1) ω) ^ 2 ∂P) (s2 * (3 * m) : ℝ)
          fun k hk => (fl_diff_le h _ k).trans ?_).trans_eq (by rw [card_range, nsmul_eq_mul])
        have : (k : ℝ) ≤ m := by exact_mod_cast (mem_range.1 hk).le
        gcongr
    _ = _ := by ring

/-- the sample variance of the mean frequencies of flicker frequency noise grows -/
theorem ffm_lower (hs : 0 < s2) {m : ℕ} (hm : 0 < m) : Whp P (fun M ω => (s2 : ℝ) / 128 * oddSum (Nat.sqrt (Nat.sqrt M))
    ≤ sampleVar (fun i => Bl W m m 1 i ω / m) M) := by
  have hm0 : (0 : ℝ) < m := by exact_mod_cast hm
  have hs' : (0 : ℝ) < s2 := hs
  -- the changes within the blocks
  set B : ℕ → Ω → ℝ := fun j ω => ∑ k ∈ range m, (Fl W (j * m + 1 + k) ω - Fl W (j * m + 1) ω) with hB
  have hBi : ∀ j, Integrable (fun ω => B j ω ^ 2) P := fun j =>
    ((AllLp.sum fun k _ => AllLp.sub (fl_allLp h (j * m + 1 + k)) (fl_allLp h (j * m + 1))).pow 2).int
  have hO : Tendsto (fun M : ℕ => oddSum (Nat.sqrt (Nat.sqrt M))) atTop atTop := oddSum_atTop.comp tendsto_fourth
  have hBw := whp_of_mean (P := P) (X := fun M ω => (∑ j ∈ range M, B j ω ^ 2) / (M * oddSum (Nat.sqrt (Nat.sqrt M))))
    (c := fun M => s2 * (3 * m ^ 3) / oddSum (Nat.sqrt (Nat.sqrt M)))
    (fun M ω => div_nonneg (sum_nonneg fun _ _ => sq_nonneg _) (mul_nonneg (Nat.cast_nonneg _) (oddSum_nonneg _)))
    (fun M => (integrable_finsetSum _ fun j _ => hBi j).div_const _) (fun M => by
      rw [integral_div, integral_finsetSum _ fun j _ => hBi j]
      have h1 : ∑ j ∈ range M, ∫ ω, B j ω ^ 2 ∂P ≤ M * (s2 * (3 * m ^ 3)) :=
        (sum_le_card_nsmul _ _ _ fun j _ => bl_rest_le h m j).trans_eq (by rw [card_range, nsmul_eq_mul])
      rcases Nat.eq_zero_or_pos M with rfl | hM
      · rw [range_zero, sum_empty, zero_div]
        exact div_nonneg (by positivity) (oddSum_nonneg _)
      have hM0 : (0 : ℝ) < M := by exact_mod_cast hM
      have hq : 0 < Nat.sqrt (Nat.sqrt M) := Nat.sqrt_pos.2 (Nat.sqrt_pos.2 hM)
      have hO1 := oddSum_one_le hq
      rw [div_le_div_iff₀ (by positivity) (by positivity)]
      calc _ ≤ M * (s2 * (3 * m ^ 3)) * oddSum (Nat.sqrt (Nat.sqrt M)) := by gcongr
        _ = _ := by ring)
    (tendsto_const_nhds.div_atTop hO) (ε := s2 * m ^ 2 / 512) (by positivity)
  -- the differences of the first samples
  have hF : Whp P (fun M ω => ((M - 2 * Nat.sqrt (Nat.sqrt M) : ℕ) : ℝ) * (s2 * (oddSum (Nat.sqrt (Nat.sqrt M) * m) / 4)) ≤
      ∑ i ∈ range (M - 2 * Nat.sqrt (Nat.sqrt M)), (Fl W ((i + Nat.sqrt (Nat.sqrt M)) * m + 1 + Nat.sqrt (Nat.sqrt M) * m) ω
        - Fl W ((i + Nat.sqrt (Nat.sqrt M)) * m + 1) ω) ^ 2) := by
    intro δ hδ
    obtain ⟨N0, hN0⟩ := exists_nat_gt (5376 * (m : ℝ) ^ 2 / δ)
    filter_upwards [tendsto_fourth.eventually (eventually_ge_atTop (N0 + 2))] with M hM
    obtain ⟨q, hq, h1, -⟩ := fourth_root M
    rw [← hq] at hM ⊢
    have hq4 : 4 * q ≤ M := by
      calc 4 * q ≤ q ^ 3 * q := by
            have : 2 ^ 3 ≤ q ^ 3 := Nat.pow_le_pow_left (by omega) 3
            exact Nat.mul_le_mul_right _ (by omega)
        _ = q ^ 4 := by ring
        _ ≤ M := h1
    have h2 := flicker_spread h hs hm (q := q) (n := M - 2 * q) (by omega) (by omega)
    simp only [not_le]
    refine h2.trans (ENNReal.ofReal_le_ofReal ?_)
    have hMq : (q : ℝ) ^ 4 ≤ M := by exact_mod_cast h1
    have hq0 : (0 : ℝ) < q := by exact_mod_cast (by omega : 0 < q)
    have hnR : (M : ℝ) / 2 ≤ ((M - 2 * q : ℕ) : ℝ) := by
      rw [Nat.cast_sub (by omega)]
      have : (4 : ℝ) * q ≤ M := by exact_mod_cast hq4
      push_cast
      linarith
    have hM0 : (0 : ℝ) < M := lt_of_lt_of_le (by positivity) hMq
    have hδq : 5376 * (m : ℝ) ^ 2 ≤ δ * q := by
      rw [div_lt_iff₀ hδ] at hN0
      have : (N0 : ℝ) ≤ q := by exact_mod_cast (by omega : N0 ≤ q)
      nlinarith
    rw [div_le_iff₀ (by linarith)]
    calc 2688 * ((m : ℝ) ^ 2 * q ^ 3) = 5376 * (m : ℝ) ^ 2 * (q ^ 3 / 2) := by ring
      _ ≤ δ * q * (q ^ 3 / 2) := by gcongr
      _ = δ * (q ^ 4 / 2) := by ring
      _ ≤ δ * (M / 2) := by gcongr
      _ ≤ _ := by gcongr
  refine (hBw.and hF).mono ?_
  filter_upwards [tendsto_fourth.eventually (eventually_ge_atTop 2)] with M hM ω hω
  obtain ⟨g1, g2⟩ := hω
  obtain ⟨q, hq, h1, -⟩ := fourth_root M
  rw [← hq] at hM g1 g2 ⊢
  have hq4 : 4 * q ≤ M := by
    calc 4 * q ≤ q ^ 3 * q := by
          have : 2 ^ 3 ≤ q ^ 3 := Nat.pow_le_pow_left (by omega) 3
          exact Nat.mul_le_mul_right _ (by omega)
      _ = q ^ 4 := by ring
      _ ≤ M := h1
  have hM0 : (0 : ℝ) < M := by exact_mod_cast (by omega : 0 < M)
  have hnR : (M : ℝ) / 2 ≤ ((M - 2 * q : ℕ) : ℝ) := by
    rw [Nat.cast_sub (by omega)]
    have : (4 : ℝ) * q ≤ M := by exact_mod_cast hq4
    push_cast
    linarith
  have hO1 := oddSum_one_le (show 0 < q by omega)
  have hOm : oddSum q ≤ oddSum (q * m) := oddSum_mono (Nat.le_mul_of_pos_right q hm)
  rw [div_lt_iff₀ (by positivity)] at g1
  set n := M - 2 * q with hn
  set F : ℕ → ℝ := fun i => Fl W ((i + q) * m + 1 + q * m) ω - Fl W ((i + q) * m + 1) ω with hFdef
  -- sums of squares
  have k1 : ∑ i ∈ range n, (Bl W m m 1 (i + q + q) ω - Bl W m m 1 (i + q) ω) ^ 2
      ≤ ∑ i ∈ range (M - q), (Bl W m m 1 (i + q) ω - Bl W m m 1 i ω) ^ 2 := by
    have e := sum_range_add (fun i => (Bl W m m 1 (i + q) ω - Bl W m m 1 i ω) ^ 2) q n
    rw [show q + n = M - q by omega] at e
    rw [e]
    simp only [add_comm q]
    exact le_add_of_nonneg_left (sum_nonneg fun _ _ => sq_nonneg _)
  have k2 := spread_le (fun i => Bl W m m 1 i ω / m) ((∑ j ∈ range M, Bl W m m 1 j ω / m) / M) (M := M) (L := q)
  have k3 : ∑ i ∈ range (M - q), (Bl W m m 1 (i + q) ω / m - Bl W m m 1 i ω / m) ^ 2
      = (∑ i ∈ range (M - q), (Bl W m m 1 (i + q) ω - Bl W m m 1 i ω) ^ 2) / (m : ℝ) ^ 2 := by
    rw [sum_div]
    exact sum_congr rfl fun i _ => by rw [← sub_div, div_pow]
  have k4 : (m : ℝ) ^ 2 / 2 * ∑ i ∈ range n, F i ^ 2 - 2 * ∑ i ∈ range n, B (i + q + q) ω ^ 2 - 2 * ∑ i ∈ range n, B (i + q) ω ^ 2
      ≤ ∑ i ∈ range n, (Bl W m m 1 (i + q + q) ω - Bl W m m 1 (i + q) ω) ^ 2 := by
    rw [mul_sum, mul_sum, mul_sum, ← sum_sub_distrib, ← sum_sub_distrib]
    refine sum_le_sum fun i _ => ?_
    rw [bl_diff_first m q (i + q) ω]
    change (m : ℝ) ^ 2 / 2 * F i ^ 2 - 2 * B (i + q + q) ω ^ 2 - 2 * B (i + q) ω ^ 2 ≤ (m * F i + (B (i + q + q) ω - B (i + q) ω)) ^ 2
    nlinarith [sq_nonneg (m * F i + 2 * (B (i + q + q) ω - B (i + q) ω)), sq_nonneg (B (i + q + q) ω + B (i + q) ω)]
  have kB : ∀ t, t ≤ 2 * q → ∑ i ∈ range n, B (i + t) ω ^ 2 ≤ ∑ j ∈ range M, B j ω ^ 2 := fun t ht => by
    have e := sum_range_add (fun j => B j ω ^ 2) t n
    simp only [add_comm t] at e
    refine le_trans ?_ (sum_le_sum_of_subset_of_nonneg (range_subset_range.2 (show n + t ≤ M by omega)) fun _ _ _ => sq_nonneg _)
    rw [e]
    exact le_add_of_nonneg_left (sum_nonneg fun _ _ => sq_nonneg _)
  have k5 := kB q (by omega)
  have k6 := kB (q + q) (by omega)
  simp only [← add_assoc] at k6
  have k7 : (M : ℝ) / 2 * (s2 * (oddSum q / 4)) ≤ ∑ i ∈ range n, F i ^ 2 := by
    refine le_trans ?_ g2
    gcongr
  have hM1 : (1 : ℝ) < M := by exact_mod_cast (by omega : 1 < M)
  rw [sampleVar, le_div_iff₀ (by linarith)]
  rw [k3, div_le_iff₀ (by positivity)] at k2
  set T := ∑ i ∈ range M, (Bl W m m 1 i ω / m - (∑ j ∈ range M, Bl W m m 1 j ω / m) / M) ^ 2
  have k8 : (m : ℝ) ^ 2 / 2 * (M / 2 * (s2 * (oddSum q / 4))) ≤ (m : ℝ) ^ 2 / 2 * ∑ i ∈ range n, F i ^ 2 := by gcongr
  have k9 : (m : ℝ) ^ 2 * (s2 / 128 * oddSum q * M) ≤ (m : ℝ) ^ 2 * T := by
    have : 0 ≤ (m : ℝ) ^ 2 * (s2 * oddSum q * M) := by positivity
    linarith
  have k10 := le_of_mul_le_mul_left k9 (by positivity)
  have k11 : 0 ≤ (s2 : ℝ) / 128 * oddSum q := by positivity
  nlinarith

omit [MeasurableSpace Ω] [IsProbabilityMeasure P] h in
theorem oddSum_le_root {n : ℕ} (hn : 0 < n) : oddSum n ≤ 2 * √√(n : ℝ) := by
  have hn1 : (1 : ℝ) ≤ n := by exact_mod_cast hn
  rcases Nat.lt_or_ge n 2 with h1 | h1
  · have : n = 1 := by omega
    subst this
    simp [oddSum]
  have h2 := (oddSum_log_bounds h1).2
  have h3 : Real.log n = 4 * Real.log √√(n : ℝ) := by
    rw [Real.log_sqrt (Real.sqrt_nonneg _), Real.log_sqrt (by positivity)]
    ring
  have h4 := Real.log_le_sub_one_of_pos (show 0 < √√(n : ℝ) from Real.sqrt_pos.2 (Real.sqrt_pos.2 (by linarith)))
  norm_num at h2
  linarith

/-- but slower than the square root of the number of samples -/
theorem ffm_upper {m : ℕ} (hm : 0 < m) {ε : ℝ} (hε : 0 < ε) :
    Whp P (fun M ω => sampleVar (fun i => Bl W m m 1 i ω / m) M < ε * √M) := by
  have hm0 : (1 : ℝ) ≤ m := by exact_mod_cast hm
  have hi : ∀ p, Integrable (fun ω => Fl W p ω ^ 2) P := fun p => ((fl_allLp h p).pow 2).int
  have hBi : ∀ i, Integrable (fun ω => Bl W m m 1 i ω ^ 2) P := fun i => ((bl_allLp h m m 1 i).pow 2).int
  have hE : ∀ M : ℕ, ∀ i < M, ∫ ω, Bl W m m 1 i ω ^ 2 ∂P ≤ m ^ 2 * (s2 * oddSum (M * m + 2)) := fun M i hi' => by
    have hk : ∀ k ∈ range m, ∫ ω, Fl W (i * m + k + 1) ω ^ 2 ∂P ≤ s2 * oddSum (M * m + 2) := fun k hk => by
      have h1 := fl_prod h (i * m + k + 1) (i * m + k + 1)
      simp only [← pow_two] at h1
      rw [h1]
      refine mul_le_mul_of_nonneg_left ((fcov_self_le _).trans (oddSum_mono ?_)) s2.2
      have h2 : (i + 1) * m ≤ M * m := Nat.mul_le_mul_right _ hi'
      rw [add_mul, one_mul] at h2
      have := mem_range.1 hk
      omega
    calc ∫ ω, Bl W m m 1 i ω ^ 2 ∂P ≤ ∫ ω, (m : ℝ) * ∑ k ∈ range m, Fl W (i * m + k + 1) ω ^ 2 ∂P :=
          integral_mono (hBi i) ((integrable_finsetSum _ fun k _ => hi _).const_mul _) fun ω => sq_sum_le _ _
      _ = (m : ℝ) * ∑ k ∈ range m, ∫ ω, Fl W (i * m + k + 1) ω ^ 2 ∂P := by
          rw [integral_const_mul, integral_finsetSum _ fun k _ => hi _]
      _ ≤ (m : ℝ) * (m * (s2 * oddSum (M * m + 2))) := by
          refine mul_le_mul_of_nonneg_left ?_ (by positivity)
          exact (sum_le_card_nsmul _ _ _ hk).trans_eq (by rw [card_range, nsmul_eq_mul])
      _ = _ := by ring
  set C : ℝ := s2 * (2 * √√((m : ℝ) + 2)) with hC
  have hC0 : 0 ≤ C := by positivity
  have ht : Tendsto (fun n : ℕ => C / √√(n : ℝ)) atTop (nhds 0) :=
    tendsto_const_nhds.div_atTop (Real.tendsto_sqrt_atTop.comp (Real.tendsto_sqrt_atTop.comp tendsto_natCast_atTop_atTop))
  have h1 := whp_of_mean (P := P) (X := fun M ω => (∑ i ∈ range M, (Bl W m m 1 i ω / m) ^ 2) / (M * √M)) (c := fun n : ℕ => C / √√(n : ℝ))
    (fun n ω => div_nonneg (sum_nonneg fun _ _ => sq_nonneg _) (by positivity))
    (fun n => by
      simp only [div_pow]
      exact (integrable_finsetSum _ fun i _ => (hBi i).div_const _).div_const _) (fun n => by
      simp only [div_pow]
      rw [integral_div, integral_finsetSum _ fun i _ => (hBi i).div_const _]
      simp only [integral_div]
      rcases Nat.eq_zero_or_pos n with rfl | hn
      · simp
      have hn0 : (1 : ℝ) ≤ n := by exact_mod_cast hn
      have hsq : 0 < √(n : ℝ) := Real.sqrt_pos.2 (by linarith)
      have hsq2 : 0 < √√(n : ℝ) := Real.sqrt_pos.2 hsq
      have e2 : √√(n : ℝ) * √√(n : ℝ) = √n := Real.mul_self_sqrt hsq.le
      have h2 : ∑ i ∈ range n, (∫ ω, Bl W m m 1 i ω ^ 2 ∂P) / (m : ℝ) ^ 2 ≤ n * (s2 * oddSum (n * m + 2)) := by
        refine (sum_le_card_nsmul _ _ (s2 * oddSum (n * m + 2) : ℝ) fun i hi => ?_).trans_eq (by rw [card_range, nsmul_eq_mul])
        rw [div_le_iff₀ (by positivity)]
        linarith [hE n i (mem_range.1 hi)]
      have h3 : oddSum (n * m + 2) ≤ 2 * √√((m : ℝ) + 2) * √√(n : ℝ) := by
        refine (oddSum_le_root (by omega)).trans ?_
        rw [mul_assoc]
        refine mul_le_mul_of_nonneg_left ?_ two_pos.le
        rw [← Real.sqrt_mul (Real.sqrt_nonneg _), ← Real.sqrt_mul (by positivity)]
        refine Real.sqrt_le_sqrt (Real.sqrt_le_sqrt ?_)
        push_cast
        nlinarith
      rw [div_le_div_iff₀ (by positivity) hsq2]
      calc (∑ i ∈ range n, (∫ ω, Bl W m m 1 i ω ^ 2 ∂P) / (m : ℝ) ^ 2) * √√(n : ℝ)
          ≤ n * (s2 * (2 * √√((m : ℝ) + 2) * √√(n : ℝ))) * √√(n : ℝ) := by
            refine mul_le_mul_of_nonneg_right (h2.trans ?_) hsq2.le
            have := s2.2
            gcongr
        _ = C * (n * (√√(n : ℝ) * √√(n : ℝ))) := by rw [hC]; ring
        _ = _ := by rw [e2]) ht (half_pos hε)
  refine h1.mono ?_
  filter_upwards [eventually_gt_atTop 1] with M hM ω hω
  have hM1 : (2 : ℝ) ≤ M := by exact_mod_cast hM
  have hsq : 0 < √(M : ℝ) := Real.sqrt_pos.2 (by linarith)
  have h2 := spread_mean_le (fun i => Bl W m m 1 i ω / m) 0 (M := M) (by omega)
  simp only [sub_zero] at h2
  rw [div_lt_iff₀ (by positivity)] at hω
  rw [sampleVar, div_lt_iff₀ (by linarith)]
  have h3 : 0 ≤ ε * √M * (M / 2 - 1) := mul_nonneg (by positivity) (by linarith)
  nlinarith

end AT
