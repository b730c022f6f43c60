import Verif.Lemmas.SinInt
import Verif.Lemmas.Greenhall
import Mathlib.MeasureTheory.Integral.Bochner.Set
import Mathlib.MeasureTheory.Measure.OpenPos
import Mathlib.Analysis.Real.Pi.Bounds

/-!
# Positivity of the Greenhall kernels at zero

A combination `∑ a i * cos (t i * w)` that is nonnegative and not identically zero has the
positive Laplace transform `∑ a i * u / (u ^ 2 + t i ^ 2)`. If the moments `∑ a i * t i ^ (2 j)`
vanish, the sums `∑ a i * |t i| ^ (2 q + 1)` and `∑ a i * t i ^ (2 q + 2) * log |t i|` are, up to
sign, integrals of powers of `u` times that transform.
-/

namespace AT

open MeasureTheory Set Real Filter Topology

variable {ι : Type} [Fintype ι]

/-- the Laplace transform of a nonnegative combination of cosines is positive -/
theorem laplace_comb_pos (a t : ι → ℝ) (h0 : ∀ w, 0 ≤ ∑ i, a i * cos (t i * w))
    (h1 : ∃ w, 0 < w ∧ 0 < ∑ i, a i * cos (t i * w)) {u : ℝ} (hu : 0 < u) :
    0 < ∑ i, a i * (u / (u ^ 2 + t i ^ 2)) := by
  have hi : ∀ i, IntegrableOn (fun w => a i * (cos (t i * w) * exp (-(u * w)))) (Ioi 0) :=
    fun i => (laplace_cos (t i) hu).1.const_mul (a i)
  have e : (fun w => (∑ i, a i * cos (t i * w)) * exp (-(u * w)))
      = fun w => ∑ i, a i * (cos (t i * w) * exp (-(u * w))) := by
    funext w
    rw [Finset.sum_mul]
    exact Finset.sum_congr rfl fun i _ => by ring
  have hint : IntegrableOn (fun w => (∑ i, a i * cos (t i * w)) * exp (-(u * w))) (Ioi 0) := by
    rw [e]; exact integrable_finsetSum _ fun i _ => hi i
  have hv : ∫ w in Ioi (0 : ℝ), (∑ i, a i * cos (t i * w)) * exp (-(u * w))
      = ∑ i, a i * (u / (u ^ 2 + t i ^ 2)) := by
    rw [e, integral_finsetSum _ fun i _ => hi i]
    refine Finset.sum_congr rfl fun i _ => ?_
    rw [integral_const_mul, (laplace_cos (t i) hu).2]
  rw [← hv]
  have hc : Continuous fun w => (∑ i, a i * cos (t i * w)) * exp (-(u * w)) := by fun_prop
  rw [setIntegral_pos_iff_support_of_nonneg_ae]
  · obtain ⟨w, hw, hp⟩ := h1
    have ho : IsOpen (Function.support (fun w => (∑ i, a i * cos (t i * w)) * exp (-(u * w))) ∩ Ioi 0) :=
      hc.isOpen_support.inter isOpen_Ioi
    exact ho.measure_pos _ ⟨w, by
      rw [Function.mem_support]; exact (mul_pos hp (exp_pos _)).ne', hw⟩
  · exact Eventually.of_forall fun w => mul_nonneg (h0 w) (exp_pos _).le
  · exact hint

/-- division of `u ^ (2 q + 2)` by `u ^ 2 + s ^ 2` -/
theorem pow_div_quad (u s : ℝ) (hu : 0 < u) (q : ℕ) :
    u ^ (2 * q) * (u / (u ^ 2 + s ^ 2)) =
      ∑ j ∈ Finset.range q, (-1) ^ j * u ^ (2 * (q - 1 - j) + 1) * s ^ (2 * j)
        + (-1) ^ q * s ^ (2 * q) * (u / (u ^ 2 + s ^ 2)) := by
  induction q with
  | zero => simp
  | succ q ih =>
    have hd : u ^ 2 + s ^ 2 ≠ 0 := by positivity
    have e : ∀ j ∈ Finset.range q, (-1) ^ j * u ^ (2 * (q + 1 - 1 - j) + 1) * s ^ (2 * j)
        = u ^ 2 * ((-1) ^ j * u ^ (2 * (q - 1 - j) + 1) * s ^ (2 * j)) := by
      intro j hj
      have := Finset.mem_range.1 hj
      rw [show 2 * (q + 1 - 1 - j) + 1 = 2 * (q - 1 - j) + 1 + 2 by omega, pow_add]
      ring
    rw [Finset.sum_range_succ, Finset.sum_congr rfl e, ← Finset.mul_sum,
      show u ^ (2 * (q + 1)) * (u / (u ^ 2 + s ^ 2)) = u ^ 2 * (u ^ (2 * q) * (u / (u ^ 2 + s ^ 2))) by ring,
      ih, show q + 1 - 1 - q = 0 by omega, mul_add]
    rw [add_assoc]
    congr 1
    field_simp
    ring

/-- with vanishing moments the power of `u` moves to the coefficients -/
theorem comb_moment (a t : ι → ℝ) (q : ℕ) (hm : ∀ j, j < q → ∑ i, a i * t i ^ (2 * j) = 0)
    {u : ℝ} (hu : 0 < u) :
    ∑ i, a i * t i ^ (2 * q) * (u / (u ^ 2 + t i ^ 2))
      = (-1) ^ q * u ^ (2 * q) * ∑ i, a i * (u / (u ^ 2 + t i ^ 2)) := by
  have h : u ^ (2 * q) * ∑ i, a i * (u / (u ^ 2 + t i ^ 2))
      = (-1) ^ q * ∑ i, a i * t i ^ (2 * q) * (u / (u ^ 2 + t i ^ 2)) := by
    rw [Finset.mul_sum, Finset.mul_sum]
    have e : ∀ i ∈ Finset.univ, u ^ (2 * q) * (a i * (u / (u ^ 2 + t i ^ 2)))
        = (∑ j ∈ Finset.range q, (-1) ^ j * u ^ (2 * (q - 1 - j) + 1) * (a i * t i ^ (2 * j)))
          + (-1) ^ q * (a i * t i ^ (2 * q) * (u / (u ^ 2 + t i ^ 2))) := by
      intro i _
      rw [show u ^ (2 * q) * (a i * (u / (u ^ 2 + t i ^ 2)))
        = a i * (u ^ (2 * q) * (u / (u ^ 2 + t i ^ 2))) by ring, pow_div_quad u (t i) hu q, mul_add,
        Finset.mul_sum]
      congr 1
      · exact Finset.sum_congr rfl fun j _ => by ring
      · ring
    rw [Finset.sum_congr rfl e, Finset.sum_add_distrib, Finset.sum_comm]
    rw [Finset.sum_eq_zero (s := Finset.range q), zero_add]
    intro j hj
    rw [← Finset.mul_sum, hm j (Finset.mem_range.1 hj), mul_zero]
  have h2 : ((-1 : ℝ) ^ q) * (-1) ^ q = 1 := by rw [← mul_pow]; simp
  calc _ = ((-1 : ℝ) ^ q * (-1) ^ q) * ∑ i, a i * t i ^ (2 * q) * (u / (u ^ 2 + t i ^ 2)) := by rw [h2, one_mul]
    _ = _ := by rw [mul_assoc, ← h]; ring

/-- odd powers -/
theorem comb_abs_pow (a t : ι → ℝ) (h0 : ∀ w, 0 ≤ ∑ i, a i * cos (t i * w))
    (h1 : ∃ w, 0 < w ∧ 0 < ∑ i, a i * cos (t i * w)) (q : ℕ)
    (hm : ∀ j, j ≤ q → ∑ i, a i * t i ^ (2 * j) = 0) :
    0 < (-1) ^ (q + 1) * ∑ i, a i * |t i| ^ (2 * q + 1) := by
  set A : ℝ → ℝ := fun u => (-1) ^ (q + 1) * ∑ i, a i * |t i| ^ (2 * q + 1) * arctan (u / |t i|)
  have hd : ∀ u, 0 < u → HasDerivAt A (u ^ (2 * q + 1) * ∑ i, a i * (u / (u ^ 2 + t i ^ 2))) u := by
    intro u hu
    have hi : ∀ i, HasDerivAt (fun u => a i * |t i| ^ (2 * q + 1) * arctan (u / |t i|))
        (a i * t i ^ (2 * (q + 1)) * (1 / (u ^ 2 + t i ^ 2))) u := by
      intro i
      by_cases ht : t i = 0
      · simp only [ht, abs_zero]
        rw [zero_pow (by omega), zero_pow (by omega)]
        simpa using hasDerivAt_const u (0 : ℝ)
      · have hp : 0 < |t i| := abs_pos.2 ht
        have := (((hasDerivAt_id u).div_const |t i|).arctan).const_mul (a i * |t i| ^ (2 * q + 1))
        refine this.congr_deriv ?_
        have hs : t i ^ 2 = |t i| ^ 2 := (sq_abs _).symm
        rw [pow_mul, hs]
        simp only [id]
        have : u ^ 2 + |t i| ^ 2 ≠ 0 := by positivity
        have : |t i| ^ 2 + u ^ 2 ≠ 0 := by positivity
        field_simp
        ring
    have hs := (HasDerivAt.fun_sum (u := Finset.univ) fun i _ => hi i).const_mul ((-1 : ℝ) ^ (q + 1))
    refine hs.congr_deriv ?_
    have hc := comb_moment a t (q + 1) (fun j hj => hm j (by omega)) hu
    have e : ∑ i, a i * t i ^ (2 * (q + 1)) * (1 / (u ^ 2 + t i ^ 2))
        = (∑ i, a i * t i ^ (2 * (q + 1)) * (u / (u ^ 2 + t i ^ 2))) / u := by
      rw [Finset.sum_div]
      exact Finset.sum_congr rfl fun i _ => by field_simp
    have h2 : ((-1 : ℝ) ^ (q + 1)) * (-1) ^ (q + 1) = 1 := by rw [← mul_pow]; simp
    rw [e, hc, ← mul_div_assoc, ← mul_assoc, ← mul_assoc, h2, one_mul,
      show 2 * (q + 1) = 2 * q + 1 + 1 by ring, pow_succ]
    field_simp
  have hA0 : A 0 = 0 := by simp [A]
  have hcont : ContinuousOn A (Ici 0) := by
    apply Continuous.continuousOn
    apply continuous_const.mul
    exact continuous_finsetSum _ fun i _ => continuous_const.mul
      (continuous_arctan.comp (continuous_id.div_const _))
  have hmono : StrictMonoOn A (Ici 0) := by
    apply strictMonoOn_of_deriv_pos (convex_Ici 0) hcont
    intro u hu
    rw [interior_Ici] at hu
    rw [(hd u hu).deriv]
    exact mul_pos (pow_pos hu _) (laplace_comb_pos a t h0 h1 hu)
  have hlim : Tendsto A atTop (𝓝 ((-1) ^ (q + 1) * ∑ i, a i * |t i| ^ (2 * q + 1) * (π / 2))) := by
    apply Tendsto.const_mul
    apply tendsto_finsetSum
    intro i _
    by_cases ht : t i = 0
    · simp only [ht, abs_zero]
      rw [zero_pow (by omega)]
      simp
    · have hp : 0 < |t i| := abs_pos.2 ht
      apply Tendsto.const_mul
      exact (tendsto_arctan_atTop.mono_right nhdsWithin_le_nhds).comp (tendsto_id.atTop_div_const hp)
  have hge : A 1 ≤ (-1) ^ (q + 1) * ∑ i, a i * |t i| ^ (2 * q + 1) * (π / 2) := by
    apply ge_of_tendsto hlim
    filter_upwards [eventually_ge_atTop 1] with u hu
    exact hmono.monotoneOn (by norm_num) (by simp; linarith) hu
  have h01 : A 0 < A 1 := hmono (by simp) (by simp) one_pos
  rw [hA0] at h01
  rw [← Finset.sum_mul, ← mul_assoc] at hge
  have := lt_of_lt_of_le h01 hge
  exact (mul_pos_iff_of_pos_right (by positivity)).1 this

/-- even powers times the logarithm -/
theorem comb_pow_log (a t : ι → ℝ) (h0 : ∀ w, 0 ≤ ∑ i, a i * cos (t i * w))
    (h1 : ∃ w, 0 < w ∧ 0 < ∑ i, a i * cos (t i * w)) (q : ℕ)
    (hm : ∀ j, j ≤ q + 1 → ∑ i, a i * t i ^ (2 * j) = 0) :
    0 < (-1) ^ q * ∑ i, a i * (t i ^ (2 * q + 2) * log |t i|) := by
  set H : ℝ → ℝ := fun u => (-1) ^ (q + 1) * ∑ i, a i * t i ^ (2 * (q + 1)) * (log (u ^ 2 + t i ^ 2) / 2)
  have hi : ∀ u, ∀ i, HasDerivAt (fun u => a i * t i ^ (2 * (q + 1)) * (log (u ^ 2 + t i ^ 2) / 2))
      (a i * t i ^ (2 * (q + 1)) * (u / (u ^ 2 + t i ^ 2))) u := by
    intro u i
    by_cases ht : t i = 0
    · simp only [ht]
      rw [zero_pow (by omega)]
      simpa using hasDerivAt_const u (0 : ℝ)
    · have hp : 0 < t i ^ 2 := by positivity
      have h1 : HasDerivAt (fun t' : ℝ => t' ^ 2 + t i ^ 2) (2 * u) u := by
        simpa using ((hasDerivAt_id u).pow 2).add_const (t i ^ 2)
      have := ((h1.log (by positivity)).div_const 2).const_mul (a i * t i ^ (2 * (q + 1)))
      refine this.congr_deriv ?_
      field_simp
  have hd' : ∀ u, HasDerivAt H ((-1) ^ (q + 1) * ∑ i, a i * t i ^ (2 * (q + 1)) * (u / (u ^ 2 + t i ^ 2))) u :=
    fun u => (HasDerivAt.fun_sum (u := Finset.univ) fun i _ => hi u i).const_mul ((-1 : ℝ) ^ (q + 1))
  have hpos : ∀ u, 0 < u → 0 < (-1) ^ (q + 1) * ∑ i, a i * t i ^ (2 * (q + 1)) * (u / (u ^ 2 + t i ^ 2)) := by
    intro u hu
    rw [comb_moment a t (q + 1) (fun j hj => hm j (by omega)) hu]
    have h2 : ((-1 : ℝ) ^ (q + 1)) * (-1) ^ (q + 1) = 1 := by rw [← mul_pow]; simp
    rw [mul_assoc, ← mul_assoc, h2, one_mul]
    exact mul_pos (pow_pos hu _) (laplace_comb_pos a t h0 h1 hu)
  have hmono : StrictMonoOn H (Ici 0) := by
    apply strictMonoOn_of_deriv_pos (convex_Ici 0) (fun u _ => (hd' u).continuousAt.continuousWithinAt)
    intro u hu
    rw [interior_Ici] at hu
    rw [(hd' u).deriv]
    exact hpos u hu
  have hlim : Tendsto H atTop (𝓝 0) := by
    have hr : ∀ k : ℝ, Tendsto (fun t : ℝ => log (t ^ 2 + k ^ 2) - 2 * log t) atTop (𝓝 0) := by
      intro k
      have h1 : Tendsto (fun t : ℝ => log (1 + k ^ 2 / t ^ 2)) atTop (𝓝 0) := by
        have : Tendsto (fun t : ℝ => 1 + k ^ 2 / t ^ 2) atTop (𝓝 (1 + 0)) :=
          tendsto_const_nhds.add (tendsto_const_nhds.div_atTop (tendsto_pow_atTop (by norm_num)))
        rw [add_zero] at this
        have h2 := (continuousAt_log (by norm_num : (1 : ℝ) ≠ 0)).tendsto.comp this
        simpa [Function.comp_def] using h2
      refine h1.congr' ?_
      filter_upwards [eventually_gt_atTop 0] with t ht
      rw [show 1 + k ^ 2 / t ^ 2 = (t ^ 2 + k ^ 2) / t ^ 2 by field_simp, log_div (by positivity) (by positivity),
        log_pow]
      norm_num
    have hs : Tendsto (fun u => (-1 : ℝ) ^ (q + 1) * ∑ i, a i * t i ^ (2 * (q + 1)) *
        ((log (u ^ 2 + t i ^ 2) - 2 * log u) / 2)) atTop
        (𝓝 ((-1) ^ (q + 1) * ∑ i, a i * t i ^ (2 * (q + 1)) * (0 / 2))) :=
      Tendsto.const_mul _ (tendsto_finsetSum _ fun i _ => ((hr (t i)).div_const 2).const_mul _)
    simp only [zero_div, mul_zero, Finset.sum_const_zero] at hs
    refine hs.congr fun u => ?_
    simp only [H]
    congr 1
    have : ∑ i, a i * t i ^ (2 * (q + 1)) * ((log (u ^ 2 + t i ^ 2) - 2 * log u) / 2)
        = ∑ i, a i * t i ^ (2 * (q + 1)) * (log (u ^ 2 + t i ^ 2) / 2)
          - (∑ i, a i * t i ^ (2 * (q + 1))) * log u := by
      rw [Finset.sum_mul, ← Finset.sum_sub_distrib]
      exact Finset.sum_congr rfl fun i _ => by ring
    rw [this, hm (q + 1) le_rfl, zero_mul, sub_zero]
  have hle : H 1 ≤ 0 := by
    apply ge_of_tendsto hlim
    filter_upwards [eventually_ge_atTop 1] with u hu
    exact hmono.monotoneOn (by norm_num) (by simp; linarith) hu
  have h01 : H 0 < H 1 := hmono (by simp) (by simp) one_pos
  have hH0 : H 0 = -((-1) ^ q * ∑ i, a i * (t i ^ (2 * q + 2) * log |t i|)) := by
    simp only [H]
    rw [pow_succ, show (-1 : ℝ) ^ q * -1 = -((-1) ^ q) by ring, neg_mul]
    congr 2
    refine Finset.sum_congr rfl fun i _ => ?_
    rw [show (0 : ℝ) ^ 2 + t i ^ 2 = |t i| ^ 2 by rw [sq_abs]; ring, log_pow]
    push_cast
    ring
  rw [hH0] at h01
  linarith

/-! ### the central differences -/

/-- binomial weights of the central difference of order `2 d` -/
def bw (d : ℕ) (k : Fin (2 * d + 1)) : ℝ := (-1) ^ (d + (k : ℕ)) * (2 * d).choose k

/-- weights of both differences -/
def bw2 (d : ℕ) (i : Fin (2 * d + 1) × Fin 3) : ℝ := bw d i.1 * ![-1, 2, -1] i.2

/-- the points of the difference with step 1 -/
def bt (d : ℕ) (k : Fin (2 * d + 1)) : ℝ := (k : ℕ) - d

/-- the points of both differences -/
def bt2 (d : ℕ) (y : ℝ) (i : Fin (2 * d + 1) × Fin 3) : ℝ := bt d i.1 + ![-y, 0, y] i.2

theorem cos_comb (d : ℕ) (hd : 1 ≤ d) (hd3 : d ≤ 3) (w : ℝ) :
    ∑ k, bw d k * cos (bt d k * w) = (2 - 2 * cos w) ^ d := by
  obtain rfl | rfl | rfl : d = 1 ∨ d = 2 ∨ d = 3 := by omega
  · simp [Fin.sum_univ_succ, bw, bt, Nat.choose]
    ring
  · have h2 : cos (2 * w) = 2 * cos w ^ 2 - 1 := cos_two_mul w
    simp [Fin.sum_univ_succ, bw, bt, Nat.choose]
    norm_num
    rw [h2]
    ring
  · have h2 : cos (2 * w) = 2 * cos w ^ 2 - 1 := cos_two_mul w
    have h3 : cos (3 * w) = 4 * cos w ^ 3 - 3 * cos w := cos_three_mul w
    simp [Fin.sum_univ_succ, bw, bt, Nat.choose]
    norm_num
    rw [h2, h3]
    ring

theorem cos_comb2 (d : ℕ) (hd : 1 ≤ d) (hd3 : d ≤ 3) (y w : ℝ) :
    ∑ i, bw2 d i * cos (bt2 d y i * w) = (2 - 2 * cos w) ^ d * (2 - 2 * cos (y * w)) := by
  rw [← cos_comb d hd hd3, Fintype.sum_prod_type, Finset.sum_mul]
  refine Finset.sum_congr rfl fun k _ => ?_
  simp only [Fin.sum_univ_three, bw2, bt2]
  simp only [Matrix.cons_val_zero, Matrix.cons_val_one, Matrix.cons_val]
  rw [show (bt d k + -y) * w = bt d k * w - y * w by ring, show (bt d k + 0) * w = bt d k * w by ring,
    add_mul, cos_sub, cos_add]
  ring

theorem moments (d : ℕ) (hd : 1 ≤ d) (hd3 : d ≤ 3) (j : ℕ) (hj : j < d) :
    ∑ k, bw d k * bt d k ^ (2 * j) = 0 := by
  obtain rfl | rfl | rfl : d = 1 ∨ d = 2 ∨ d = 3 := by omega
  · obtain rfl : j = 0 := by omega
    simp [Fin.sum_univ_succ, bw, bt, Nat.choose]
    norm_num
  · obtain rfl | rfl : j = 0 ∨ j = 1 := by omega
    all_goals
      simp [Fin.sum_univ_succ, bw, bt, Nat.choose]
      norm_num
  · obtain rfl | rfl | rfl : j = 0 ∨ j = 1 ∨ j = 2 := by omega
    all_goals
      simp [Fin.sum_univ_succ, bw, bt, Nat.choose]
      norm_num

theorem moments2 (d : ℕ) (hd : 1 ≤ d) (hd3 : d ≤ 3) (y : ℝ) (j : ℕ) (hj : j ≤ d) :
    ∑ i, bw2 d i * bt2 d y i ^ (2 * j) = 0 := by
  rw [Fintype.sum_prod_type]
  simp only [Fin.sum_univ_three, bw2, bt2, Matrix.cons_val_zero, Matrix.cons_val_one, Matrix.cons_val]
  obtain rfl | rfl | rfl : d = 1 ∨ d = 2 ∨ d = 3 := by omega
  · obtain rfl | rfl : j = 0 ∨ j = 1 := by omega
    all_goals
      simp [Fin.sum_univ_succ, bw, bt, Nat.choose]
      try ring
  · obtain rfl | rfl | rfl : j = 0 ∨ j = 1 ∨ j = 2 := by omega
    all_goals
      simp [Fin.sum_univ_succ, bw, bt, Nat.choose]
      try ring
  · obtain rfl | rfl | rfl | rfl : j = 0 ∨ j = 1 ∨ j = 2 ∨ j = 3 := by omega
    all_goals
      simp [Fin.sum_univ_succ, bw, bt, Nat.choose]
      try ring

theorem comb_nonneg (d : ℕ) (w : ℝ) : 0 ≤ (2 - 2 * cos w) ^ d :=
  pow_nonneg (by linarith [cos_le_one w]) d

/-- the cosine is below 1 for small nonzero arguments -/
theorem cos_lt_one {w : ℝ} (h0 : 0 < w) (h1 : w < 1) : cos w < 1 := by
  have hp := pi_gt_three
  rw [← cos_zero]
  exact cos_lt_cos_of_nonneg_of_le_pi le_rfl (by linarith) h0

theorem ghSz_inf_sum (alpha : ℤ) (d : ℕ) :
    Spec.ghSz .inf alpha d 0 = ∑ k, bw d k * Spec.ghSw (alpha + 2) (bt d k) := by
  unfold Spec.ghSz
  rw [Finset.sum_range]
  refine Finset.sum_congr rfl fun k _ => ?_
  rw [zero_add]
  rfl

theorem ghSz_fin_sum (F : ℝ) (alpha : ℤ) (d : ℕ) :
    Spec.ghSz (.fin F) alpha d 0 = F ^ 2 * ∑ i, bw2 d i * Spec.ghSw alpha (bt2 d (1 / F) i) := by
  unfold Spec.ghSz
  rw [Finset.sum_range, Fintype.sum_prod_type, Finset.mul_sum]
  refine Finset.sum_congr rfl fun k _ => ?_
  simp only [Fin.sum_univ_three, bw2, bt2, Matrix.cons_val_zero, Matrix.cons_val_one, Matrix.cons_val,
    Spec.ghSx]
  rw [show (0 : ℝ) + (k : ℕ) - d = bt d k by rw [bt]; ring, show (-1 : ℝ) ^ (d + (k : ℕ)) * ((2 * d).choose k) = bw d k from rfl,
    add_zero, ← sub_eq_add_neg]
  ring

/-- the sign of the kernel as the program computes it -/
def ghSign (alpha : ℤ) : ℝ := if alpha = -1 ∨ alpha = -2 then -1 else 1

/-- a combination of kernel values with vanishing moments and nonnegative cosine sum -/
theorem ghSw_comb {ι : Type} [Fintype ι] (a t : ι → ℝ) (h0 : ∀ w, 0 ≤ ∑ i, a i * cos (t i * w))
    (h1 : ∃ w, 0 < w ∧ 0 < ∑ i, a i * cos (t i * w)) (alpha : ℤ) (ha : -4 ≤ alpha) (ha2 : alpha ≤ 2)
    (hm : ∀ j : ℕ, 2 * (j : ℤ) ≤ 3 - alpha → ∑ i, a i * t i ^ (2 * j) = 0) :
    0 < ghSign alpha * ∑ i, a i * Spec.ghSw alpha (t i) := by
  obtain rfl | rfl | rfl | rfl | rfl | rfl | rfl : alpha = -4 ∨ alpha = -3 ∨ alpha = -2 ∨
    alpha = -1 ∨ alpha = 0 ∨ alpha = 1 ∨ alpha = 2 := by omega
  · have := comb_abs_pow a t h0 h1 3 (fun j hj => hm j (by omega))
    norm_num [Spec.ghSw, ghSign] at this ⊢
    exact this
  · simpa [Spec.ghSw, ghSign] using comb_pow_log a t h0 h1 2 (fun j hj => hm j (by omega))
  · have := comb_abs_pow a t h0 h1 2 (fun j hj => hm j (by omega))
    norm_num [Spec.ghSw, ghSign] at this ⊢
    exact this
  · have := comb_pow_log a t h0 h1 1 (fun j hj => hm j (by omega))
    norm_num [Spec.ghSw, ghSign] at this ⊢
    exact this
  · simpa [Spec.ghSw, ghSign] using comb_abs_pow a t h0 h1 1 (fun j hj => hm j (by omega))
  · simpa [Spec.ghSw, ghSign] using comb_pow_log a t h0 h1 0 (fun j hj => hm j (by omega))
  · have := comb_abs_pow a t h0 h1 0 (fun j hj => hm j (by omega))
    norm_num [Spec.ghSw, ghSign] at this ⊢
    exact this

/-- the value of `sz` at zero, infinite filter factor -/
theorem ghSz_inf_pos (alpha : ℤ) (d : ℕ) (hd : 1 ≤ d) (hd3 : d ≤ 3) (ha : -6 ≤ alpha) (ha0 : alpha ≤ 0)
    (h : 1 < alpha + 2 * d) : 0 < ghSign (alpha + 2) * Spec.ghSz .inf alpha d 0 := by
  rw [ghSz_inf_sum]
  apply ghSw_comb _ _ _ _ _ (by omega) (by omega)
  · exact fun j hj => moments d hd hd3 j (by omega)
  · intro w
    rw [cos_comb d hd hd3]
    exact comb_nonneg d w
  · refine ⟨1 / 2, by norm_num, ?_⟩
    rw [cos_comb d hd hd3]
    have := cos_lt_one (w := 1 / 2) (by norm_num) (by norm_num)
    exact pow_pos (by linarith) d

/-- the value of `sz` at zero, finite filter factor -/
theorem ghSz_fin_pos (F : ℝ) (hF : 0 < F) (alpha : ℤ) (d : ℕ) (hd : 1 ≤ d) (hd3 : d ≤ 3)
    (ha : -4 ≤ alpha) (ha2 : alpha ≤ 2) (h : 1 < alpha + 2 * d) :
    0 < ghSign alpha * Spec.ghSz (.fin F) alpha d 0 := by
  rw [ghSz_fin_sum, mul_left_comm]
  refine mul_pos (by positivity) ?_
  apply ghSw_comb _ _ _ _ _ ha ha2
  · exact fun j hj => moments2 d hd hd3 _ j (by omega)
  · intro w
    rw [cos_comb2 d hd hd3]
    exact mul_nonneg (comb_nonneg d w) (by linarith [cos_le_one (1 / F * w)])
  · have hm : 0 < min (1 / 2) (F / 2) := lt_min (by norm_num) (by positivity)
    have hm1 : min (1 / 2) (F / 2) ≤ 1 / 2 := min_le_left _ _
    have hm2 : min (1 / 2) (F / 2) ≤ F / 2 := min_le_right _ _
    refine ⟨min (1 / 2) (F / 2), hm, ?_⟩
    rw [cos_comb2 d hd hd3]
    have c1 := cos_lt_one hm (by linarith)
    have c2 : cos (1 / F * min (1 / 2) (F / 2)) < 1 := by
      apply cos_lt_one (by positivity)
      rw [one_div, inv_mul_lt_iff₀ hF]
      linarith
    exact mul_pos (pow_pos (by linarith) d) (by linarith)

end AT
