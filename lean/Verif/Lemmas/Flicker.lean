import Verif.Props.Kasdin
import Verif.Lemmas.CovLln
import Mathlib.Analysis.Real.Pi.Wallis
import Mathlib.Analysis.Real.Pi.Bounds
import Mathlib.NumberTheory.Harmonic.EulerMascheroni

/-!
# Covariances of the flicker noise that `generateNoise` makes
-/

namespace AT

open Spec Finset MeasureTheory ProbabilityTheory Filter
open scoped NNReal ENNReal

/-! ## The impulse response for `b = -1` -/

theorem hm1_zero : kasdinH (-1) 0 = 1 := by simp [kasdinH]

theorem hm1_succ (k : ℕ) : kasdinH (-1) (k + 1) * (2 * k + 2) = kasdinH (-1) k * (2 * k + 1) := by
  unfold kasdinH
  rw [prod_range_succ]
  have : (k : ℝ) + 1 ≠ 0 := by positivity
  field_simp
  ring_nf

theorem hm1_pos (k : ℕ) : 0 < kasdinH (-1) k :=
  prod_pos fun i _ => by
    have : (0 : ℝ) ≤ i := Nat.cast_nonneg i
    exact div_pos (by linarith) (by linarith)

theorem hm1_anti {k l : ℕ} (h : k ≤ l) : kasdinH (-1) l ≤ kasdinH (-1) k := by
  refine antitone_nat_of_succ_le (f := kasdinH (-1)) (fun n => ?_) h
  have h1 := hm1_succ n
  have h2 := hm1_pos n
  have : (0 : ℝ) ≤ n := Nat.cast_nonneg n
  nlinarith

/-- Wallis' product -/
theorem hm1_wallis (k : ℕ) : kasdinH (-1) k ^ 2 * ((2 * k + 1) * Real.Wallis.W k) = 1 := by
  induction k with
  | zero => simp [hm1_zero, Real.Wallis.W]
  | succ k ih =>
    rw [Real.Wallis.W_succ]
    have h1 := hm1_succ k
    have e : kasdinH (-1) (k + 1) = kasdinH (-1) k * (2 * k + 1) / (2 * k + 2) := by
      rw [← h1]; field_simp
    rw [e]
    have h2 := Real.Wallis.W_pos k
    push_cast
    refine Eq.trans ?_ ih
    field_simp
    ring

theorem hm1_le (k : ℕ) : 2 * k * kasdinH (-1) k ^ 2 ≤ 2 / Real.pi := by
  have h1 := hm1_wallis k
  have h2 := Real.Wallis.le_W k
  have hp := Real.pi_pos
  have hW := Real.Wallis.W_pos k
  have e : kasdinH (-1) k ^ 2 = 1 / ((2 * k + 1) * Real.Wallis.W k) := by
    rw [eq_div_iff (by positivity), h1]
  rw [e, mul_one_div, div_le_div_iff₀ (by positivity) hp]
  rw [div_mul_eq_mul_div, div_le_iff₀ (by positivity)] at h2
  have h3 : (2 * (k : ℝ)) * (2 * k + 2) ≤ (2 * k + 1) ^ 2 := by nlinarith
  have h4 := mul_le_mul_of_nonneg_right h3 hp.le
  have h5 : (2 * (k : ℝ)) * Real.pi * (2 * k + 2) ≤ 2 * ((2 * k + 1) * Real.Wallis.W k) * (2 * k + 2) := by
    have h6 := mul_le_mul_of_nonneg_left h2 (show (0 : ℝ) ≤ 2 * (2 * k + 1) by positivity)
    linarith
  exact le_of_mul_le_mul_right h5 (by positivity)

theorem hm1_tendsto : Tendsto (fun k : ℕ => 2 * k * kasdinH (-1) k ^ 2) atTop (nhds (2 / Real.pi)) := by
  have h1 : Tendsto (fun k : ℕ => 1 - 1 / (2 * (k : ℝ) + 1)) atTop (nhds (1 - 0)) := by
    refine tendsto_const_nhds.sub ?_
    refine Tendsto.div_atTop tendsto_const_nhds ?_
    exact tendsto_atTop_add_const_right _ _ (Tendsto.const_mul_atTop two_pos tendsto_natCast_atTop_atTop)
  have h2 := h1.div Real.Wallis.tendsto_W_nhds_pi_div_two (by positivity)
  have e : (1 - 0) / (Real.pi / 2) = 2 / Real.pi := by field_simp; ring
  rw [e] at h2
  refine h2.congr fun k => ?_
  have h3 := hm1_wallis k
  have hW := Real.Wallis.W_pos k
  have e : kasdinH (-1) k ^ 2 = 1 / ((2 * k + 1) * Real.Wallis.W k) := by
    rw [eq_div_iff (by positivity), h3]
  simp only [Pi.div_apply]
  rw [e]
  field_simp
  ring

theorem hm1_zero_lim : Tendsto (fun k : ℕ => kasdinH (-1) k ^ 2) atTop (nhds 0) := by
  have h1 : Tendsto (fun k : ℕ => 2 / Real.pi / (2 * (k : ℝ))) atTop (nhds 0) :=
    Tendsto.div_atTop tendsto_const_nhds (Tendsto.const_mul_atTop two_pos tendsto_natCast_atTop_atTop)
  refine squeeze_zero' (Eventually.of_forall fun k => sq_nonneg _) ?_ h1
  filter_upwards [eventually_gt_atTop 0] with k hk
  have : (0 : ℝ) < k := by exact_mod_cast hk
  rw [le_div_iff₀ (by positivity)]
  linarith [hm1_le k]

/-- the same with two factors at a fixed distance -/
theorem hm1_tendsto_lag (n : ℕ) :
    Tendsto (fun k : ℕ => 2 * k * kasdinH (-1) k * kasdinH (-1) (k + n)) atTop (nhds (2 / Real.pi)) := by
  have h1 : Tendsto (fun k : ℕ => 2 * ((k + n : ℕ) : ℝ) * kasdinH (-1) (k + n) ^ 2 - 2 * n * kasdinH (-1) (k + n) ^ 2)
      atTop (nhds (2 / Real.pi - 2 * n * 0)) :=
    (hm1_tendsto.comp (tendsto_add_atTop_nat n)).sub ((hm1_zero_lim.comp (tendsto_add_atTop_nat n)).const_mul _)
  rw [mul_zero, sub_zero] at h1
  refine tendsto_of_tendsto_of_tendsto_of_le_of_le h1 hm1_tendsto (fun k => ?_) fun k => ?_
  · have h2 := hm1_anti (show k ≤ k + n by omega)
    have h3 := hm1_pos (k + n)
    have : (0 : ℝ) ≤ k := Nat.cast_nonneg k
    simp only
    push_cast
    have := mul_le_mul_of_nonneg_left (mul_le_mul_of_nonneg_right h2 h3.le) (show (0 : ℝ) ≤ 2 * k by positivity)
    nlinarith
  · have h2 := hm1_anti (show k ≤ k + n by omega)
    have h3 := hm1_pos k
    have := mul_le_mul_of_nonneg_left (mul_le_mul_of_nonneg_left h2 h3.le) (show (0 : ℝ) ≤ 2 * k by positivity)
    simp only
    nlinarith

/-! ## Covariances -/

/-- covariance of the flicker phase noise of unit variance at the times `p` and `q` -/
noncomputable def fcov (p q : ℕ) : ℝ :=
  ∑ k ∈ range (min p q + 1), kasdinH (-1) (p - k) * kasdinH (-1) (q - k)

theorem fcov_comm (p q : ℕ) : fcov p q = fcov q p := by
  unfold fcov
  rw [min_comm]
  exact sum_congr rfl fun k _ => mul_comm _ _

theorem fcov_le {p n : ℕ} : fcov p (p + n) = ∑ k ∈ range (p + 1), kasdinH (-1) k * kasdinH (-1) (k + n) := by
  unfold fcov
  rw [min_eq_left (by omega), ← sum_range_reflect]
  refine sum_congr rfl fun k hk => ?_
  have := mem_range.1 hk
  congr 2 <;> omega

/-- the covariances at two neighbouring distances, by telescoping -/
theorem fcov_step (p n : ℕ) : fcov p (p + n) - fcov p (p + (n + 1)) =
    2 * ((p + 1 : ℕ) : ℝ) * kasdinH (-1) (p + 1) * kasdinH (-1) (p + 1 + n) / (2 * n + 1) := by
  have key : ∀ K : ℕ, ∑ k ∈ range K, kasdinH (-1) k * (kasdinH (-1) (k + n) - kasdinH (-1) (k + (n + 1))) =
      2 * (K : ℝ) * kasdinH (-1) K * kasdinH (-1) (K + n) / (2 * n + 1) := by
    intro K
    induction K with
    | zero => simp
    | succ K ih =>
      rw [sum_range_succ, ih]
      have h1 := hm1_succ K
      have h2 := hm1_succ (K + n)
      have e1 : kasdinH (-1) (K + 1) = kasdinH (-1) K * (2 * K + 1) / (2 * K + 2) := by
        rw [← h1]; field_simp
      have e2 : kasdinH (-1) (K + n + 1) = kasdinH (-1) (K + n) * (2 * ((K + n : ℕ) : ℝ) + 1) / (2 * ((K + n : ℕ) : ℝ) + 2) := by
        rw [← h2]; field_simp
      rw [show K + (n + 1) = K + n + 1 by ring, show K + 1 + n = K + n + 1 by ring, e1, e2]
      push_cast
      field_simp
      ring
  rw [fcov_le, fcov_le, ← sum_sub_distrib, ← key]
  exact sum_congr rfl fun k _ => by ring

theorem fcov_step_bound (p n : ℕ) : |fcov p (p + n) - fcov p (p + (n + 1))| ≤ 1 / (2 * n + 1) := by
  rw [fcov_step]
  have h1 := hm1_pos (p + 1)
  have h2 := hm1_pos (p + 1 + n)
  rw [abs_of_nonneg (by positivity)]
  refine div_le_div_of_nonneg_right ?_ (by positivity)
  have h3 := hm1_anti (show p + 1 ≤ p + 1 + n by omega)
  have h4 := hm1_le (p + 1)
  have h5 : 2 / Real.pi ≤ 1 := by
    rw [div_le_one Real.pi_pos]; linarith [Real.pi_gt_three]
  have := mul_le_mul_of_nonneg_left (mul_le_mul_of_nonneg_left h3 h1.le) (show (0 : ℝ) ≤ 2 * ((p + 1 : ℕ) : ℝ) by positivity)
  nlinarith

/-- `1 + 1/3 + 1/5 + …`, `n` terms -/
noncomputable def Spec.oddSum (n : ℕ) : ℝ := ∑ j ∈ range n, 1 / (2 * (j : ℝ) + 1)

/-- relative to the variance at `i` the covariance tends to `-(2/π) oddSum` of the distance -/
theorem fcov_tendsto_le (r n : ℕ) :
    Tendsto (fun i => fcov (i + r) (i + r + n) - fcov i i) atTop (nhds (-(2 / Real.pi) * oddSum n)) := by
  have h0 : Tendsto (fun i => fcov (i + r) (i + r) - fcov i i) atTop (nhds 0) := by
    have e : ∀ i, fcov (i + r) (i + r) - fcov i i = ∑ t ∈ range r, kasdinH (-1) (i + 1 + t) ^ 2 := by
      intro i
      have h1 := fcov_le (p := i + r) (n := 0)
      have h2 := fcov_le (p := i) (n := 0)
      simp only [add_zero] at h1 h2
      rw [h1, h2, show i + r + 1 = i + 1 + r by ring, sum_range_add, add_sub_cancel_left]
      exact sum_congr rfl fun t _ => (pow_two _).symm
    simp only [e]
    have : Tendsto (fun i => ∑ t ∈ range r, kasdinH (-1) (i + 1 + t) ^ 2) atTop (nhds (∑ t ∈ range r, 0)) := by
      refine tendsto_finsetSum _ fun t _ => ?_
      have := hm1_zero_lim.comp (tendsto_add_atTop_nat (1 + t))
      refine this.congr fun i => ?_
      simp only [Function.comp]
      rw [add_assoc]
    simpa using this
  induction n with
  | zero => simpa [oddSum] using h0
  | succ n ih =>
    have h1 : Tendsto (fun i => 2 * ((i + r + 1 : ℕ) : ℝ) * kasdinH (-1) (i + r + 1) * kasdinH (-1) (i + r + 1 + n) / (2 * n + 1))
        atTop (nhds (2 / Real.pi / (2 * n + 1))) :=
      ((hm1_tendsto_lag n).comp (tendsto_add_atTop_nat (r + 1))).div_const _
    have h2 := ih.sub h1
    have e : -(2 / Real.pi) * oddSum n - 2 / Real.pi / (2 * n + 1) = -(2 / Real.pi) * oddSum (n + 1) := by
      unfold oddSum
      rw [sum_range_succ]
      ring
    rw [e] at h2
    refine h2.congr fun i => ?_
    have h3 := fcov_step (i + r) n
    linarith

theorem fcov_tendsto (r s : ℕ) :
    Tendsto (fun i => fcov (i + r) (i + s) - fcov i i) atTop
      (nhds (-(2 / Real.pi) * oddSum ((r : ℤ) - s).natAbs)) := by
  rcases le_total r s with h | h
  · have := fcov_tendsto_le r (s - r)
    rw [show ((r : ℤ) - s).natAbs = s - r by omega]
    refine this.congr fun i => ?_
    rw [show i + r + (s - r) = i + s by omega]
  · have := fcov_tendsto_le s (r - s)
    rw [show ((r : ℤ) - s).natAbs = r - s by omega]
    refine this.congr fun i => ?_
    rw [show i + s + (r - s) = i + r by omega, fcov_comm]

theorem fcov_lip {p n : ℕ} (t : ℕ) : |fcov p (p + n + t) - fcov p (p + n)| ≤ t / (2 * n + 1) := by
  induction t with
  | zero => simp
  | succ t ih =>
    have h1 := fcov_step_bound p (n + t)
    have h2 : 1 / (2 * ((n + t : ℕ) : ℝ) + 1) ≤ 1 / (2 * n + 1) := by
      refine one_div_le_one_div_of_le (by positivity) ?_
      push_cast
      have : (0 : ℝ) ≤ t := Nat.cast_nonneg t
      linarith
    rw [show p + (n + t) = p + n + t by ring, show p + (n + t + 1) = p + n + (t + 1) by ring, abs_sub_comm] at h1
    have h3 := abs_sub_le (fcov p (p + n + (t + 1))) (fcov p (p + n + t)) (fcov p (p + n))
    have e : ((t + 1 : ℕ) : ℝ) / (2 * n + 1) = 1 / (2 * n + 1) + t / (2 * n + 1) := by push_cast; ring
    rw [e]
    linarith

/-! ## Linear forms -/

/-- coefficient of the sample `k` in the noise at time `p` -/
noncomputable def fcoef (p k : ℕ) : ℝ := if k ≤ p then kasdinH (-1) (p - k) else 0

theorem kasdinNoise_fcoef (w : ℕ → ℝ) {p K : ℕ} (h : p < K) :
    kasdinNoise (-1) w p = ∑ k ∈ range K, fcoef p k * w k := by
  unfold kasdinNoise
  rw [← sum_range_reflect, ← sum_subset (range_mono (show p + 1 ≤ K by omega)) fun k _ hk => by
    rw [fcoef, if_neg (by have := mt mem_range.2 hk; omega), zero_mul]]
  refine sum_congr rfl fun k hk => ?_
  have := mem_range.1 hk
  rw [fcoef, if_pos (by omega), show p + 1 - 1 - k = p - k by omega, show p - (p - k) = k by omega]

theorem fcoef_mul {p q K : ℕ} (hp : p < K) : ∑ k ∈ range K, fcoef p k * fcoef q k = fcov p q := by
  unfold fcov
  rw [← sum_subset (range_mono (show min p q + 1 ≤ K by omega)) fun k _ hk => by
    have : ¬ k < min p q + 1 := mt mem_range.2 hk
    by_cases h1 : k ≤ p
    · rw [fcoef, fcoef, if_neg (show ¬ k ≤ q by omega), mul_zero]
    · rw [fcoef, if_neg h1, zero_mul]]
  refine sum_congr rfl fun k hk => ?_
  have := mem_range.1 hk
  rw [fcoef, fcoef, if_pos (by omega), if_pos (by omega)]

variable {Ω : Type} [MeasurableSpace Ω] {P : Measure Ω} [IsProbabilityMeasure P]

/-- Let the weights `c u` of the samples at `p u` add up to 0.  The mean square of the weighted sum of
flicker phase noise, taken at every `S`-th position, settles. -/
theorem flicker_lln {W : ℕ → Ω → ℝ} {s2 : ℝ≥0} (h : NormalNoise P W s2) {ι : Type} (s : Finset ι) (c : ι → ℝ)
    (p : ι → ℕ) (hc : ∑ u ∈ s, c u = 0) {S : ℕ} (hS : 0 < S) :
    InProb P (fun n ω => (∑ i ∈ range n, (∑ u ∈ s, c u * kasdinNoise (-1) (fun k => W k ω) (i * S + p u)) ^ 2) / n)
      (s2 * (-(2 / Real.pi) * ∑ u ∈ s, ∑ v ∈ s, c u * c v * oddSum ((p u : ℤ) - p v).natAbs)) := by
  obtain ⟨L, hL⟩ : ∃ L, ∀ u ∈ s, p u < L := ⟨s.sup p + 1, fun u hu => Nat.lt_succ_of_le (le_sup hu)⟩
  set cv : ℕ → ℕ → ℝ := fun i j => ∑ u ∈ s, ∑ v ∈ s, c u * c v * fcov (i * S + p u) (j * S + p v) with hcv
  -- the limits of the covariances at a fixed distance
  have hlim : ∀ d, Tendsto (fun i => cv i (i + d)) atTop (nhds (∑ u ∈ s, ∑ v ∈ s, c u * c v *
      (-(2 / Real.pi) * oddSum (((p u : ℕ) : ℤ) - ((d * S + p v : ℕ) : ℤ)).natAbs))) := fun d => by
    have h1 : Tendsto (fun i => ∑ u ∈ s, ∑ v ∈ s, c u * c v *
        (fcov (i * S + p u) (i * S + (d * S + p v)) - fcov (i * S) (i * S))) atTop (nhds (∑ u ∈ s, ∑ v ∈ s, c u * c v *
      (-(2 / Real.pi) * oddSum (((p u : ℕ) : ℤ) - ((d * S + p v : ℕ) : ℤ)).natAbs))) :=
      tendsto_finsetSum _ fun u _ => tendsto_finsetSum _ fun v _ =>
        ((fcov_tendsto (p u) (d * S + p v)).comp (tendsto_id.atTop_mul_const' hS)).const_mul _
    refine h1.congr fun i => ?_
    have e : ∑ u ∈ s, ∑ v ∈ s, c u * c v * fcov (i * S) (i * S) = 0 := by
      simp only [← sum_mul, ← mul_sum]
      rw [hc]
      ring
    rw [hcv]
    simp only
    rw [← sub_zero (∑ u ∈ s, ∑ v ∈ s, c u * c v * fcov (i * S + p u) ((i + d) * S + p v)), ← e, ← sum_sub_distrib]
    refine sum_congr rfl fun u _ => ?_
    rw [← sum_sub_distrib]
    refine sum_congr rfl fun v _ => ?_
    rw [show (i + d) * S + p v = i * S + (d * S + p v) by ring]
    ring
  have hbd : ∀ d, ∃ B, ∀ i, |cv i (i + d)| ≤ B := fun d => by
    obtain ⟨B, hB⟩ := (hlim d).abs.bddAbove_range
    exact ⟨B, fun i => hB ⟨i, rfl⟩⟩
  choose B hB using hbd
  set C := ∑ u ∈ s, |c u| with hC
  -- distant forms
  have hfar : ∀ i d, L ≤ d * S → |cv i (i + d)| ≤ C * C * (L / (2 * ((d * S - L : ℕ) : ℝ) + 1)) := fun i d hd => by
    have e : cv i (i + d) = ∑ u ∈ s, ∑ v ∈ s, c u * c v *
        (fcov (i * S + p u) ((i + d) * S + p v) - fcov (i * S + p u) ((i + d) * S)) := by
      have e0 : ∑ u ∈ s, ∑ v ∈ s, c u * c v * fcov (i * S + p u) ((i + d) * S) = 0 := by
        refine sum_eq_zero fun u _ => ?_
        rw [← sum_mul, ← mul_sum, hc]
        ring
      rw [hcv]
      simp only
      rw [← sub_zero (∑ u ∈ s, ∑ v ∈ s, c u * c v * fcov (i * S + p u) ((i + d) * S + p v)), ← e0, ← sum_sub_distrib]
      refine sum_congr rfl fun u _ => ?_
      rw [← sum_sub_distrib]
      exact sum_congr rfl fun v _ => by ring
    rw [e, hC, sum_mul_sum, sum_mul]
    refine (abs_sum_le_sum_abs _ _).trans (sum_le_sum fun u hu => ?_)
    rw [sum_mul]
    refine (abs_sum_le_sum_abs _ _).trans (sum_le_sum fun v hv => ?_)
    rw [abs_mul, abs_mul]
    refine mul_le_mul_of_nonneg_left ?_ (by positivity)
    have h1 := hL u hu
    have h2 := hL v hv
    have h3 := fcov_lip (p := i * S + p u) (n := d * S - p u) (p v)
    rw [show i * S + p u + (d * S - p u) = (i + d) * S by rw [add_mul]; omega] at h3
    refine h3.trans (div_le_div₀ (by positivity) (by exact_mod_cast h2.le) (by positivity) ?_)
    have : ((d * S - L : ℕ) : ℝ) ≤ ((d * S - p u : ℕ) : ℝ) := by exact_mod_cast (by omega)
    linarith
  have hg : Tendsto (fun d => if L ≤ d * S then C * C * (L / (2 * ((d * S - L : ℕ) : ℝ) + 1)) else B d) atTop (nhds 0) := by
    have h1 : Tendsto (fun d : ℕ => C * C * (L / (2 * ((d * S - L : ℕ) : ℝ) + 1))) atTop (nhds (C * C * 0)) := by
      refine Tendsto.const_mul _ (Tendsto.div_atTop tendsto_const_nhds ?_)
      refine tendsto_atTop_add_const_right _ _ (Tendsto.const_mul_atTop two_pos ?_)
      refine tendsto_natCast_atTop_atTop.comp ?_
      rw [tendsto_atTop_atTop]
      exact fun b => ⟨b + L, fun d hd => by
        have : d * 1 ≤ d * S := Nat.mul_le_mul_left d hS
        omega⟩
    rw [mul_zero] at h1
    refine h1.congr' ?_
    filter_upwards [eventually_ge_atTop L] with d hd
    have : d * 1 ≤ d * S := Nat.mul_le_mul_left d hS
    rw [if_pos (by omega)]
  have key := cov_lln h (Q := fun i ω => ∑ u ∈ s, c u * kasdinNoise (-1) (fun k => W k ω) (i * S + p u))
    (fun i k => ∑ u ∈ s, c u * fcoef (i * S + p u) k) (fun n => n * S + L)
    (fun n i hi ω => by
      unfold Lin
      simp only [sum_mul]
      rw [sum_comm]
      refine sum_congr rfl fun u hu => ?_
      have h1 := hL u hu
      have h2 : i * S ≤ n * S := Nat.mul_le_mul_right S hi.le
      rw [kasdinNoise_fcoef _ (show i * S + p u < n * S + L by omega), mul_sum]
      exact sum_congr rfl fun k _ => by ring)
    (cv := cv)
    (fun n i hi j hj => by
      simp only [sum_mul_sum]
      rw [sum_comm, hcv]
      refine sum_congr rfl fun u hu => ?_
      rw [sum_comm]
      refine sum_congr rfl fun v hv => ?_
      have h1 := hL u hu
      have h2 : i * S ≤ n * S := Nat.mul_le_mul_right S hi.le
      rw [← fcoef_mul (show i * S + p u < n * S + L by omega), mul_sum]
      exact sum_congr rfl fun k _ => by ring)
    hg
    (fun i d => by
      split_ifs with hd
      · exact hfar i d hd
      · exact hB d i)
    (hlim 0)
  have e : ∑ u ∈ s, ∑ v ∈ s, c u * c v * (-(2 / Real.pi) * oddSum (((p u : ℕ) : ℤ) - ((0 * S + p v : ℕ) : ℤ)).natAbs)
      = -(2 / Real.pi) * ∑ u ∈ s, ∑ v ∈ s, c u * c v * oddSum ((p u : ℤ) - p v).natAbs := by
    rw [mul_sum]
    refine sum_congr rfl fun u _ => ?_
    rw [mul_sum]
    refine sum_congr rfl fun v _ => ?_
    rw [zero_mul, zero_add]
    ring
  rwa [e] at key

end AT
