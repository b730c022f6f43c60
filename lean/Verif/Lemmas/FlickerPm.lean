import Verif.Lemmas.SinInt
import Mathlib.Analysis.SpecialFunctions.Trigonometric.Sinc
import Mathlib.NumberTheory.Harmonic.GammaDeriv
import Mathlib.Analysis.SpecialFunctions.Integrals.Basic

/-!
# `∫₀^X sin⁴ z / z dz` for large `X`

The integral is `3/8 (ln X + γ) + ln 2 / 4` up to `9/(16 X)`. The constant is found by comparing
the Laplace transforms for small arguments.
-/

namespace AT

open MeasureTheory Set Real Filter Topology

/-- Euler's constant as an integral -/
theorem integral_exp_log : ∫ u in Ioi (0 : ℝ), exp (-u) * log u = -eulerMascheroniConstant := by
  have h1 := Complex.hasDerivAt_GammaIntegral (s := 1) (by simp)
  have h2 : HasDerivAt Complex.Gamma (-eulerMascheroniConstant : ℂ) 1 := Complex.hasDerivAt_Gamma_one
  have h3 : Complex.GammaIntegral =ᶠ[𝓝 1] Complex.Gamma := by
    have : {s : ℂ | 0 < s.re} ∈ 𝓝 (1 : ℂ) :=
      (isOpen_lt continuous_const Complex.continuous_re).mem_nhds (by simp)
    filter_upwards [this] with s hs
    exact (Complex.Gamma_eq_integral hs).symm
  have h4 := (h3.hasDerivAt_iff.1 h1).unique h2
  have e : EqOn (fun t : ℝ => (t : ℂ) ^ ((1 : ℂ) - 1) * ((log t : ℂ) * (exp (-t) : ℂ)))
      (fun t : ℝ => ((exp (-t) * log t : ℝ) : ℂ)) (Ioi 0) := by
    intro t _
    simp only [sub_self, Complex.cpow_zero, one_mul]
    push_cast
    ring
  rw [setIntegral_congr_fun measurableSet_Ioi e, integral_complex_ofReal] at h4
  exact_mod_cast h4

theorem integrable_exp_log : IntegrableOn (fun u : ℝ => exp (-u) * log u) (Ioi 0) := by
  by_contra h
  have := integral_exp_log
  rw [integral_undef h] at this
  have := one_half_lt_eulerMascheroniConstant
  linarith

/-- the integrand, continuous at 0 -/
noncomputable def k4 (z : ℝ) : ℝ := sin z ^ 3 * sinc z

theorem k4_eq (z : ℝ) : k4 z = sin z ^ 4 / z := by
  unfold k4
  by_cases h : z = 0
  · simp [h]
  · rw [sinc_of_ne_zero h]; ring

theorem k4_cont : Continuous k4 := by
  unfold k4
  exact (continuous_sin.pow 3).mul continuous_sinc

theorem k4_nonneg {z : ℝ} (hz : 0 ≤ z) : 0 ≤ k4 z := by
  rw [k4_eq]; positivity

/-- `∫₀^X sin⁴ z / z dz` -/
noncomputable def S4 (X : ℝ) : ℝ := ∫ z in (0 : ℝ)..X, k4 z

theorem S4_deriv (X : ℝ) : HasDerivAt S4 (k4 X) X :=
  intervalIntegral.integral_hasDerivAt_right (k4_cont.intervalIntegrable _ _)
    (k4_cont.stronglyMeasurableAtFilter _ _) k4_cont.continuousAt

theorem S4_zero : S4 0 = 0 := by simp [S4]

theorem S4_cont : Continuous S4 :=
  continuous_iff_continuousAt.2 fun X => (S4_deriv X).continuousAt

theorem S4_mono : MonotoneOn S4 (Ici 0) := by
  apply monotoneOn_of_deriv_nonneg (convex_Ici 0) S4_cont.continuousOn
  · exact fun x _ => (S4_deriv x).differentiableAt.differentiableWithinAt
  · intro x hx
    rw [interior_Ici] at hx
    rw [(S4_deriv x).deriv]
    exact k4_nonneg (le_of_lt hx)

theorem S4_nonneg {X : ℝ} (hX : 0 ≤ X) : 0 ≤ S4 X := by
  rw [← S4_zero]; exact S4_mono (by simp) hX hX

/-- antiderivative of `sin⁴ z - 3/8` -/
noncomputable def P4 (z : ℝ) : ℝ := -(1 / 4) * sin (2 * z) + 1 / 32 * sin (4 * z)

theorem P4_deriv (z : ℝ) : HasDerivAt P4 (sin z ^ 4 - 3 / 8) z := by
  have h2 : HasDerivAt (fun z : ℝ => sin (2 * z)) (cos (2 * z) * 2) z := by
    have := ((hasDerivAt_id z).const_mul 2).sin
    simpa using this
  have h4 : HasDerivAt (fun z : ℝ => sin (4 * z)) (cos (4 * z) * 4) z := by
    have := ((hasDerivAt_id z).const_mul 4).sin
    simpa using this
  refine ((h2.const_mul (-(1 / 4))).add (h4.const_mul (1 / 32))).congr_deriv ?_
  rw [sin_pow_four]
  ring

theorem P4_bound (z : ℝ) : |P4 z| ≤ 9 / 32 := by
  unfold P4
  rw [abs_le]
  have a := neg_one_le_sin (2 * z)
  have b := sin_le_one (2 * z)
  have c := neg_one_le_sin (4 * z)
  have d := sin_le_one (4 * z)
  constructor <;> linarith

theorem P4_cont : Continuous P4 := by unfold P4; fun_prop

/-- `P4 z / z ^ 2` is integrable away from 0 -/
theorem P4_int {X : ℝ} (hX : 0 < X) : IntegrableOn (fun z => P4 z / z ^ 2) (Ioi X) ∧
    |∫ z in Ioi X, P4 z / z ^ 2| ≤ 9 / 32 / X := by
  have h2 : ∀ z ∈ Ioi X, ‖P4 z / z ^ 2‖ ≤ 9 / 32 * z ^ (-2 : ℝ) := by
    intro z hz
    have hz0 : 0 < z := lt_trans hX hz
    rw [norm_div, norm_pow, norm_eq_abs, norm_eq_abs, sq_abs, rpow_neg hz0.le, div_eq_mul_inv]
    have : (z ^ (2 : ℝ)) = z ^ 2 := by norm_cast
    rw [this]
    exact mul_le_mul_of_nonneg_right (P4_bound z) (by positivity)
  have hi : IntegrableOn (fun z : ℝ => 9 / 32 * z ^ (-2 : ℝ)) (Ioi X) :=
    (integrableOn_Ioi_rpow_of_lt (by norm_num) hX).const_mul _
  refine ⟨?_, ?_⟩
  · apply Integrable.mono' hi
    · apply ContinuousOn.aestronglyMeasurable _ measurableSet_Ioi
      exact P4_cont.continuousOn.div (continuous_pow 2).continuousOn
        (fun z hz => (pow_pos (lt_trans hX hz) 2).ne')
    · exact (ae_restrict_iff' measurableSet_Ioi).2 (Eventually.of_forall h2)
  · have := norm_integral_le_of_norm_le hi ((ae_restrict_iff' measurableSet_Ioi).2 (Eventually.of_forall h2))
    rw [integral_const_mul, integral_Ioi_rpow_of_lt (by norm_num) hX] at this
    rw [← norm_eq_abs]
    refine this.trans (le_of_eq ?_)
    norm_num
    rw [rpow_neg_one]
    field_simp

/-- the difference to the logarithm -/
noncomputable def T4 (X : ℝ) : ℝ := S4 X - 3 / 8 * log X

/-- the limit of `T4` -/
noncomputable def c4 : ℝ := T4 1 - P4 1 + ∫ z in Ioi (1 : ℝ), P4 z / z ^ 2

theorem T4_diff {X : ℝ} (hX : 0 < X) :
    T4 X = T4 1 - P4 1 + P4 X / X + ∫ z in (1 : ℝ)..X, P4 z / z ^ 2 := by
  have hd : ∀ z, 0 < z → HasDerivAt (fun z => T4 z - P4 z / z) (P4 z / z ^ 2) z := by
    intro z hz
    have h1 := (S4_deriv z).sub ((hasDerivAt_log hz.ne').const_mul (3 / 8))
    have h2 := (P4_deriv z).div (hasDerivAt_id z) hz.ne'
    refine (h1.sub h2).congr_deriv ?_
    rw [k4_eq]
    simp only [id]
    field_simp
    ring
  have hpos : ∀ z ∈ uIcc 1 X, 0 < z := fun z hz => lt_of_lt_of_le (lt_min one_pos hX) hz.1
  have := intervalIntegral.integral_eq_sub_of_hasDerivAt (fun z hz => hd z (hpos z hz))
    (ContinuousOn.intervalIntegrable (P4_cont.continuousOn.div (continuous_pow 2).continuousOn
      (fun z hz => (pow_pos (hpos z hz) 2).ne')))
  rw [this]
  ring

/-- the remainder -/
theorem T4_rate {X : ℝ} (hX : 0 < X) : |T4 X - c4| ≤ 9 / (16 * X) := by
  obtain ⟨i1, b1⟩ := P4_int hX
  obtain ⟨i0, b0⟩ := P4_int one_pos
  have hs : ∫ z in (1 : ℝ)..X, P4 z / z ^ 2
      = (∫ z in Ioi (1 : ℝ), P4 z / z ^ 2) - ∫ z in Ioi X, P4 z / z ^ 2 :=
    (intervalIntegral.integral_Ioi_sub_Ioi' i0 i1).symm
  rw [T4_diff hX, hs, c4]
  have hb := P4_bound X
  have hp : |P4 X / X| ≤ 9 / 32 / X := by
    rw [abs_div, abs_of_pos hX]
    exact div_le_div_of_nonneg_right hb hX.le
  have e : 9 / (16 * X) = 9 / 32 / X + 9 / 32 / X := by field_simp; norm_num
  rw [e]
  calc _ = |P4 X / X - ∫ z in Ioi X, P4 z / z ^ 2| := by congr 1; ring
    _ ≤ |P4 X / X| + |∫ z in Ioi X, P4 z / z ^ 2| := abs_sub _ _
    _ ≤ _ := add_le_add hp b1

/-- bound of `T4` for the dominated convergence -/
theorem T4_bound : ∃ C : ℝ, 0 ≤ C ∧ ∀ u n : ℝ, 0 < u → 1 ≤ n → |T4 (u * n)| ≤ C + |log u| := by
  refine ⟨|c4| + 9 / 16 + S4 1, ?_, ?_⟩
  · have := S4_nonneg (X := 1) (by norm_num)
    positivity
  intro u n hu hn
  have hX : 0 < u * n := by positivity
  have hS1 := S4_nonneg (X := 1) (by norm_num)
  rcases le_total 1 (u * n) with h | h
  · have h1 := T4_rate hX
    have h2 : 9 / (16 * (u * n)) ≤ 9 / 16 := by
      apply div_le_div_of_nonneg_left (by norm_num) (by norm_num)
      linarith
    have h3 := abs_add_le (T4 (u * n) - c4) c4
    rw [sub_add_cancel] at h3
    have := abs_nonneg (log u)
    linarith
  · have hS : S4 (u * n) ≤ S4 1 := S4_mono hX.le (by simp) h
    have hS0 := S4_nonneg hX.le
    have hl : log (u * n) ≤ 0 := log_nonpos hX.le h
    have hl2 : log u ≤ log (u * n) := log_le_log hu (le_mul_of_one_le_right hu.le hn)
    unfold T4
    rw [abs_le]
    have h4 : |log u| = -log u := abs_of_nonpos (by linarith)
    have h5 := abs_nonneg c4
    rw [h4]
    constructor <;> linarith

/-- the Laplace transform of `sin⁴ z / z` -/
theorem laplace_k4 {e : ℝ} (he : 0 < e) :
    IntegrableOn (fun z => exp (-(e * z)) * k4 z) (Ioi 0) ∧
      ∫ z in Ioi (0 : ℝ), exp (-(e * z)) * k4 z
        = -(3 / 8 * log e) + 1 / 4 * log (e ^ 2 + 4) - 1 / 16 * log (e ^ 2 + 16) := by
  set L : ℝ → ℝ := fun t => 24 / ((t + e) * ((t + e) ^ 2 + 4) * ((t + e) ^ 2 + 16))
  set G : ℝ → ℝ := fun t => 3 / 8 * log (t + e) - 1 / 4 * log ((t + e) ^ 2 + 4) + 1 / 16 * log ((t + e) ^ 2 + 16)
  have hlog : ∀ k t : ℝ, 0 < k → HasDerivAt (fun t => log ((t + e) ^ 2 + k)) (2 * (t + e) / ((t + e) ^ 2 + k)) t := by
    intro k t hk
    have h1 : HasDerivAt (fun t : ℝ => (t + e) ^ 2 + k) (2 * (t + e)) t := by
      simpa using (((hasDerivAt_id t).add_const e).pow 2).add_const k
    exact h1.log (by positivity)
  have hd : ∀ t, 0 ≤ t → HasDerivAt G (L t) t := by
    intro t ht
    have hte : t + e ≠ 0 := by positivity
    have h0 : HasDerivAt (fun t : ℝ => log (t + e)) (1 / (t + e)) t :=
      ((hasDerivAt_id t).add_const e).log hte
    refine (((h0.const_mul (3 / 8)).sub ((hlog 4 t (by norm_num)).const_mul (1 / 4))).add
      ((hlog 16 t (by norm_num)).const_mul (1 / 16))).congr_deriv ?_
    simp only [L]
    field_simp
    ring
  have hl : Tendsto G atTop (𝓝 0) := by
    have hr : ∀ k : ℝ, 0 < k → Tendsto (fun t : ℝ => log (t ^ 2 + k) - 2 * log t) atTop (𝓝 0) := by
      intro k hk
      have h1 : Tendsto (fun t : ℝ => log (1 + k / t ^ 2)) atTop (𝓝 0) := by
        have : Tendsto (fun t : ℝ => 1 + k / t ^ 2) atTop (𝓝 (1 + 0)) :=
          tendsto_const_nhds.add (tendsto_const_nhds.div_atTop (tendsto_pow_atTop (by norm_num)))
        rw [add_zero] at this
        have h2 := (continuousAt_log (by norm_num : (1 : ℝ) ≠ 0)).tendsto.comp this
        simpa [Function.comp_def] using h2
      refine h1.congr' ?_
      filter_upwards [eventually_gt_atTop 0] with t ht
      rw [show 1 + k / t ^ 2 = (t ^ 2 + k) / t ^ 2 by field_simp, log_div (by positivity) (by positivity),
        log_pow]
      norm_num
    have h0 := ((hr 4 (by norm_num)).const_mul (-(1 / 4))).add ((hr 16 (by norm_num)).const_mul (1 / 16))
    simp only [mul_zero, add_zero] at h0
    have h1 := h0.comp (tendsto_atTop_add_const_right atTop e tendsto_id)
    refine h1.congr (fun t => ?_)
    simp only [G, Function.comp, id]
    ring
  have hn : ∀ t ∈ Ioi (0 : ℝ), 0 ≤ L t := by
    intro t ht
    have ht : 0 < t := ht
    simp only [L]
    positivity
  have hc : ContinuousWithinAt G (Ici 0) 0 := (hd 0 le_rfl).continuousAt.continuousWithinAt
  have hLi : IntegrableOn L (Ioi 0) :=
    integrableOn_Ioi_deriv_of_nonneg hc (fun t ht => hd t (le_of_lt ht)) hn hl
  have hLv : ∫ t in Ioi (0 : ℝ), L t = 0 - G 0 :=
    integral_Ioi_of_hasDerivAt_of_nonneg hc (fun t ht => hd t (le_of_lt ht)) hn hl
  have key := laplace_integral (fun z => sin z ^ 4 * exp (-(e * z))) L (by fun_prop)
    (fun z => by positivity) (fun t ht => by
      have h := laplace_sin4 (t := t + e) (by positivity)
      have ee : ∀ z, sin z ^ 4 * exp (-(e * z)) * exp (-(t * z)) = sin z ^ 4 * exp (-((t + e) * z)) := by
        intro z
        rw [mul_assoc, ← exp_add]
        congr 2
        ring
      simp only [ee]
      exact h) 0 (by simpa using hLi)
  have e1 : ∀ z, sin z ^ 4 * exp (-(e * z)) / z ^ (0 + 1) = exp (-(e * z)) * k4 z := by
    intro z
    rw [k4_eq]
    ring
  simp only [e1] at key
  refine ⟨key.1, ?_⟩
  rw [key.2]
  simp only [pow_zero, Nat.factorial_zero, Nat.cast_one, div_one, one_mul]
  rw [hLv]
  simp only [G, zero_add]
  ring

/-- `S4` grows slowly -/
theorem S4_le {X : ℝ} (hX : 0 ≤ X) : S4 X ≤ X := by
  unfold S4
  have : ∫ z in (0 : ℝ)..X, k4 z ≤ ∫ z in (0 : ℝ)..X, (1 : ℝ) := by
    apply intervalIntegral.integral_mono_on hX (k4_cont.intervalIntegrable _ _) (by simp)
    intro z _
    unfold k4
    have h1 := abs_sinc_le_one z
    have h2 : |sin z ^ 3| ≤ 1 := by rw [abs_pow]; exact pow_le_one₀ (abs_nonneg _) (abs_sin_le_one z)
    calc _ ≤ |sin z ^ 3 * sinc z| := le_abs_self _
      _ ≤ 1 := by rw [abs_mul]; exact mul_le_one₀ h2 (abs_nonneg _) h1
  simpa using this

/-- integration by parts -/
theorem laplace_S4 {e : ℝ} (he : 0 < e) :
    IntegrableOn (fun z => e * (exp (-(e * z)) * S4 z)) (Ioi 0) ∧
    ∫ z in Ioi (0 : ℝ), e * (exp (-(e * z)) * S4 z)
      = -(3 / 8 * log e) + 1 / 4 * log (e ^ 2 + 4) - 1 / 16 * log (e ^ 2 + 16) := by
  obtain ⟨ik, vk⟩ := laplace_k4 he
  have hz : IntegrableOn (fun z : ℝ => z ^ 1 / (Nat.factorial 1 : ℝ) * exp (-(z * e))) (Ioi 0) := (laplace_pow 1 he).1
  have iS : IntegrableOn (fun z => e * (exp (-(e * z)) * S4 z)) (Ioi 0) := by
    apply Integrable.const_mul
    apply Integrable.mono' hz
    · exact ((by fun_prop : Continuous fun z => exp (-(e * z))).mul S4_cont).aestronglyMeasurable
    · refine (ae_restrict_iff' measurableSet_Ioi).2 (Eventually.of_forall fun z hz => ?_)
      have hz0 : 0 ≤ z := le_of_lt hz
      rw [norm_mul, norm_eq_abs, norm_eq_abs, abs_of_pos (exp_pos _), abs_of_nonneg (S4_nonneg hz0)]
      have := S4_le hz0
      rw [mul_comm z e]
      simp only [pow_one, Nat.factorial_one, Nat.cast_one, div_one]
      rw [mul_comm]
      exact mul_le_mul_of_nonneg_right this (exp_pos _).le
  have hd : ∀ z, HasDerivAt (fun z => exp (-(e * z)) * S4 z)
      (exp (-(e * z)) * k4 z - e * (exp (-(e * z)) * S4 z)) z := by
    intro z
    have h1 : HasDerivAt (fun z : ℝ => exp (-(e * z))) (exp (-(e * z)) * (-e)) z := by
      have : HasDerivAt (fun z : ℝ => -(e * z)) (-e) z := by
        simpa using (hasDerivAt_id z).const_mul (-e)
      exact this.exp
    refine (h1.mul (S4_deriv z)).congr_deriv ?_
    ring
  have hlim : Tendsto (fun z => exp (-(e * z)) * S4 z) atTop (𝓝 0) := by
    have h1 : Tendsto (fun z : ℝ => exp (-(e * z)) * z) atTop (𝓝 0) := by
      have h := (tendsto_pow_mul_exp_neg_atTop_nhds_zero 1).comp (tendsto_id.const_mul_atTop he)
      have h2 := h.const_mul (1 / e)
      rw [mul_zero] at h2
      refine h2.congr fun z => ?_
      simp only [Function.comp, id, pow_one]
      field_simp
    refine squeeze_zero' ?_ ?_ h1
    · filter_upwards [eventually_ge_atTop 0] with z hz
      exact mul_nonneg (exp_pos _).le (S4_nonneg hz)
    · filter_upwards [eventually_ge_atTop 0] with z hz
      exact mul_le_mul_of_nonneg_left (S4_le hz) (exp_pos _).le
  refine ⟨iS, ?_⟩
  have hI := integral_Ioi_of_hasDerivAt_of_tendsto' (a := 0) (fun z _ => hd z) (ik.sub iS) hlim
  rw [integral_sub ik iS, vk] at hI
  simp only [S4_zero, mul_zero, sub_zero] at hI
  linarith

/-- the constant -/
theorem c4_eq : c4 = 3 / 8 * eulerMascheroniConstant + 1 / 4 * log 2 := by
  obtain ⟨C, hC0, hC⟩ := T4_bound
  -- the transform at `1/(n+1)` in the variable `u = z/(n+1)`
  have hv : ∀ n : ℕ, ∫ u in Ioi (0 : ℝ), exp (-u) * T4 (u * (n + 1))
      = 1 / 4 * log ((1 / ((n : ℝ) + 1)) ^ 2 + 4) - 1 / 16 * log ((1 / ((n : ℝ) + 1)) ^ 2 + 16)
        + 3 / 8 * eulerMascheroniConstant := by
    intro n
    have hn : (0 : ℝ) < n + 1 := by positivity
    obtain ⟨iS, vS⟩ := laplace_S4 (e := 1 / ((n : ℝ) + 1)) (by positivity)
    have hsub : ∫ u in Ioi (0 : ℝ), exp (-u) * S4 (u * (n + 1))
        = ∫ z in Ioi (0 : ℝ), 1 / ((n : ℝ) + 1) * (exp (-(1 / ((n : ℝ) + 1) * z)) * S4 z) := by
      have h := integral_comp_mul_left_Ioi
        (fun u => exp (-u) * S4 (u * (n + 1))) 0 (b := 1 / ((n : ℝ) + 1)) (by positivity)
      rw [mul_zero] at h
      rw [integral_const_mul]
      have e : (fun z : ℝ => exp (-(1 / ((n : ℝ) + 1) * z)) * S4 (1 / ((n : ℝ) + 1) * z * (n + 1)))
          = fun z => exp (-(1 / ((n : ℝ) + 1) * z)) * S4 z := by
        funext z
        congr 2
        field_simp
      rw [e] at h
      rw [h, smul_eq_mul, ← mul_assoc, mul_inv_cancel₀ (by positivity), one_mul]
    have iS' : IntegrableOn (fun u => exp (-u) * S4 (u * (n + 1))) (Ioi 0) := by
      have h := (integrableOn_Ioi_comp_mul_left_iff (fun u => exp (-u) * S4 (u * (n + 1))) 0
        (a := 1 / ((n : ℝ) + 1)) (by positivity)).1
      rw [mul_zero] at h
      apply h
      have h2 : IntegrableOn (fun z => ((n : ℝ) + 1) *
          (1 / ((n : ℝ) + 1) * (exp (-(1 / ((n : ℝ) + 1) * z)) * S4 z))) (Ioi 0) := iS.const_mul ((n : ℝ) + 1)
      refine h2.congr_fun (fun z _ => ?_) measurableSet_Ioi
      simp only
      rw [show 1 / ((n : ℝ) + 1) * z * (n + 1) = z by field_simp]
      field_simp
    have iE : IntegrableOn (fun u : ℝ => exp (-u)) (Ioi 0) := by
      simpa using (laplace_one (t := 1) one_pos).1
    have vE : ∫ u in Ioi (0 : ℝ), exp (-u) = 1 := by
      simpa using (laplace_one (t := 1) one_pos).2
    have i2 : IntegrableOn (fun u : ℝ => 3 / 8 * (exp (-u) * log u)) (Ioi 0) :=
      integrable_exp_log.const_mul _
    have i3 : IntegrableOn (fun u : ℝ => 3 / 8 * log (n + 1) * exp (-u)) (Ioi 0) := iE.const_mul _
    have i23 : IntegrableOn (fun u : ℝ => 3 / 8 * (exp (-u) * log u) + 3 / 8 * log (n + 1) * exp (-u)) (Ioi 0) :=
      i2.add i3
    have e : EqOn (fun u : ℝ => exp (-u) * T4 (u * (n + 1)))
        (fun u => exp (-u) * S4 (u * (n + 1)) - (3 / 8 * (exp (-u) * log u) + 3 / 8 * log (n + 1) * exp (-u)))
        (Ioi 0) := by
      intro u hu
      have hu : 0 < u := hu
      simp only [T4]
      rw [log_mul hu.ne' hn.ne']
      ring
    rw [setIntegral_congr_fun measurableSet_Ioi e, integral_sub iS' i23, integral_add i2 i3,
      integral_const_mul, integral_const_mul, vE, integral_exp_log, hsub, vS, one_div, log_inv]
    ring
  have hlim1 : Tendsto (fun n : ℕ => ∫ u in Ioi (0 : ℝ), exp (-u) * T4 (u * (n + 1))) atTop
      (𝓝 (∫ u in Ioi (0 : ℝ), exp (-u) * c4)) := by
    apply tendsto_integral_of_dominated_convergence (fun u => exp (-u) * (C + |log u|))
    · intro n
      apply ContinuousOn.aestronglyMeasurable _ measurableSet_Ioi
      unfold T4
      apply ContinuousOn.mul (by fun_prop)
      apply ContinuousOn.sub
      · exact (S4_cont.comp (by fun_prop)).continuousOn
      · apply ContinuousOn.mul continuousOn_const
        apply ContinuousOn.log (by fun_prop)
        intro u hu
        have hu : 0 < u := hu
        positivity
    · have iE : IntegrableOn (fun u : ℝ => exp (-u)) (Ioi 0) := by
        simpa using (laplace_one (t := 1) one_pos).1
      have h := (iE.const_mul C).add integrable_exp_log.norm
      refine h.congr (Eventually.of_forall fun u => ?_)
      simp only [Pi.add_apply, norm_mul, norm_eq_abs, abs_of_pos (exp_pos (-u))]
      ring
    · intro n
      refine (ae_restrict_iff' measurableSet_Ioi).2 (Eventually.of_forall fun u hu => ?_)
      rw [norm_mul, norm_eq_abs, norm_eq_abs, abs_of_pos (exp_pos _)]
      exact mul_le_mul_of_nonneg_left (hC u (n + 1) hu (by simp)) (exp_pos _).le
    · refine (ae_restrict_iff' measurableSet_Ioi).2 (Eventually.of_forall fun u hu => ?_)
      have hu : 0 < u := hu
      apply Tendsto.const_mul
      have hX : Tendsto (fun n : ℕ => u * ((n : ℝ) + 1)) atTop atTop :=
        (tendsto_atTop_add_const_right _ 1 tendsto_natCast_atTop_atTop).const_mul_atTop hu
      have hT : Tendsto T4 atTop (𝓝 c4) := by
        rw [tendsto_iff_norm_sub_tendsto_zero]
        refine squeeze_zero' (Eventually.of_forall fun _ => norm_nonneg _) ?_
          (tendsto_const_nhds.div_atTop (tendsto_id.const_mul_atTop (by norm_num : (0 : ℝ) < 16)))
          (f := fun X => ‖T4 X - c4‖) (g := fun X => 9 / (16 * id X))
        filter_upwards [eventually_gt_atTop 0] with X hX
        exact T4_rate hX
      exact hT.comp hX
  have hlim2 : Tendsto (fun n : ℕ => ∫ u in Ioi (0 : ℝ), exp (-u) * T4 (u * (n + 1))) atTop
      (𝓝 (1 / 4 * log 4 - 1 / 16 * log 16 + 3 / 8 * eulerMascheroniConstant)) := by
    simp only [hv]
    have h0 : Tendsto (fun n : ℕ => (1 / ((n : ℝ) + 1)) ^ 2) atTop (𝓝 0) := by
      have := (tendsto_one_div_add_atTop_nhds_zero_nat (𝕜 := ℝ)).pow 2
      simpa using this
    have hk : ∀ k : ℝ, 0 < k → Tendsto (fun n : ℕ => log ((1 / ((n : ℝ) + 1)) ^ 2 + k)) atTop (𝓝 (log k)) := by
      intro k hk
      have h1 := h0.add_const k
      rw [zero_add] at h1
      exact (continuousAt_log hk.ne').tendsto.comp h1
    exact (((hk 4 (by norm_num)).const_mul _).sub ((hk 16 (by norm_num)).const_mul _)).add_const _
  have hE : ∫ u in Ioi (0 : ℝ), exp (-u) * c4 = c4 := by
    rw [integral_mul_const]
    have : ∫ u in Ioi (0 : ℝ), exp (-u) = 1 := by
      simpa using (laplace_one (t := 1) one_pos).2
    rw [this, one_mul]
  rw [hE] at hlim1
  rw [tendsto_nhds_unique hlim1 hlim2, log_4_16_36.1, log_4_16_36.2.1]
  ring

/-- the integral up to `X`, with an explicit remainder -/
theorem S4_asymp {X : ℝ} (hX : 0 < X) :
    |S4 X - (3 / 8 * (log X + eulerMascheroniConstant) + 1 / 4 * log 2)| ≤ 9 / (16 * X) := by
  have := T4_rate hX
  rw [c4_eq] at this
  unfold T4 at this
  calc _ = |S4 X - 3 / 8 * log X - (3 / 8 * eulerMascheroniConstant + 1 / 4 * log 2)| := by congr 1; ring
    _ ≤ _ := this

end AT
