import Verif.Props.NoisePsd
import Verif.Props.NoiseMean
import Verif.Props.TimmerKoenig

/-!
# C101: the spectrum and the deviations of Timmer-Koenig noise

Property: the phase that `timmer_koenig_from_psd` makes from independent normal numbers, or any
uncorrelated ones of mean 0 and variance 1, has the density that was asked for.  The code takes the density
of the component at the frequency `k/(n dt)` from the grid point `f_k` of a grid that starts one step
higher, so that this is only true in the limit of long series.
-/

namespace AT

open Spec Finset MeasureTheory ProbabilityTheory Real

variable {Ω : Type} [MeasurableSpace Ω] {P : Measure Ω}

/-- the mean square of the component of the phase at the frequency `k/(n dt)` -/
noncomputable def Spec.tkPower (S : ℝ → ℝ) (n : ℕ) (dt : ℝ) (k : ℕ) : ℝ :=
  ((n : ℝ) - 1) / (n ^ 2 * dt) * (S (tkFreq n dt k) / (2 * π * tkFreq n dt k) ^ 2) * (if 2 * k = n then 1 / 4 else 1)

/-- the oscillations at the frequency `k/(n dt)` -/
noncomputable def cosWave (n k t : ℕ) : ℝ := cos (2 * (π * k / n) * t)

/-- the oscillations at the frequency `k/(n dt)`, a quarter of a period later -/
noncomputable def sinWave (n k t : ℕ) : ℝ := sin (2 * (π * k / n) * t)

/-- the amplitude of the component `k` -/
noncomputable def tkAmp (S : ℝ → ℝ) (n : ℕ) (dt : ℝ) (k : ℕ) : ℝ :=
  √((n - 1) / dt) / n * (if 2 * k = n then 1 else 2) * (√(S (tkFreq n dt k) / (2 * π * tkFreq n dt k) ^ 2) / 2)

theorem tkAmp_sq (S : ℝ → ℝ) (n : ℕ) (dt : ℝ) (k : ℕ) (hn : 1 ≤ n) (ht : 0 < dt)
    (hS : 0 ≤ S (tkFreq n dt k) / (2 * π * tkFreq n dt k) ^ 2) : tkAmp S n dt k ^ 2 = tkPower S n dt k := by
  have hn' : (1 : ℝ) ≤ n := by exact_mod_cast hn
  unfold tkAmp tkPower
  rw [mul_pow, mul_pow, div_pow, div_pow, Real.sq_sqrt hS,
    Real.sq_sqrt (div_nonneg (by linarith) ht.le)]
  split_ifs <;> (field_simp; try ring)

theorem tkPhase_waves (S : ℝ → ℝ) (z : ℕ → ℝ) (n : ℕ) (dt : ℝ) (hn : 2 ≤ n) (he : n % 2 = 0) :
    tkPhase S z n dt = ∑ k ∈ range (n / 2), ((tkAmp S n dt (k + 1) * z (2 * k)) • cosWave n (k + 1) -
      (tkAmp S n dt (k + 1) * z (2 * k + 1)) • sinWave n (k + 1)) := by
  funext t
  rw [Finset.sum_apply]
  have hc : ∀ k, (tkCoeff S z n dt (k + 1) * expRoot n ((t * (k + 1) : ℕ) : ℤ)).re =
      √(S (tkFreq n dt (k + 1)) / (2 * π * tkFreq n dt (k + 1)) ^ 2) / 2 *
        (z (2 * k) * cosWave n (k + 1) t - z (2 * k + 1) * sinWave n (k + 1) t) := by
    intro k
    unfold tkCoeff cosWave sinWave
    rw [mul_assoc, Complex.re_ofReal_mul, Complex.mul_re, expRoot_re, expRoot_im]
    have e : 2 * (π * (((t * (k + 1) : ℕ) : ℤ) : ℝ) / n) = 2 * (π * ((k + 1 : ℕ) : ℝ) / n) * t := by
      push_cast; ring
    rw [e]
    simp
  unfold tkPhase
  obtain ⟨q, hq⟩ : ∃ q, n / 2 = q + 1 := ⟨n / 2 - 1, by omega⟩
  rw [hq, Nat.add_sub_cancel, sum_range_succ, hc, mul_add, mul_sum, mul_sum]
  simp only [Pi.sub_apply, Pi.smul_apply, smul_eq_mul]
  congr 1
  · refine sum_congr rfl fun k hk => ?_
    have := mem_range.1 hk
    rw [hc]
    unfold tkAmp
    rw [if_neg (by omega)]
    ring
  · unfold tkAmp
    rw [if_pos (by omega)]
    ring

/-- the mean square of a linear form in the phase -/
theorem tk_form [IsProbabilityMeasure P] {Z : ℕ → Ω → ℝ} {n : ℕ} (hZ : White P Z n 0 1) (S : ℝ → ℝ) {dt : ℝ}
    (hn : 2 ≤ n) (he : n % 2 = 0) (ht : 0 < dt) (hS : ¬ TkNan S n dt)
    (L : (ℕ → ℝ) → ℝ) (hL : IsLinearMap ℝ L) :
    MeanSq P (fun ω => L (tkPhase S (fun i => Z i ω) n dt))
      (∑ k ∈ range (n / 2), tkPower S n dt (k + 1) * (L (cosWave n (k + 1)) ^ 2 + L (sinWave n (k + 1)) ^ 2)) := by
  have h := hZ.meanSq_sum (range (n / 2) ×ˢ range 2) (fun q => 2 * q.1 + q.2)
    (fun q => if q.2 = 0 then tkAmp S n dt (q.1 + 1) * L (cosWave n (q.1 + 1))
      else -(tkAmp S n dt (q.1 + 1) * L (sinWave n (q.1 + 1))))
    (by
      rintro ⟨a, b⟩ h1 ⟨c, d⟩ h2 e
      simp only [coe_product, coe_range, Set.mem_prod, Set.mem_Iio] at h1 h2 e
      ext <;> simp only <;> omega)
    (by
      rintro ⟨a, b⟩ h1
      simp only [mem_product, mem_range] at h1
      simp only
      omega)
  rw [one_mul, zero_pow two_ne_zero, zero_mul, add_zero, sum_product] at h
  have e1 : (∑ x ∈ range (n / 2), ∑ y ∈ range 2, (if (x, y).2 = 0 then tkAmp S n dt ((x, y).1 + 1) * L (cosWave n ((x, y).1 + 1))
      else -(tkAmp S n dt ((x, y).1 + 1) * L (sinWave n ((x, y).1 + 1)))) ^ 2) =
      ∑ k ∈ range (n / 2), tkPower S n dt (k + 1) * (L (cosWave n (k + 1)) ^ 2 + L (sinWave n (k + 1)) ^ 2) := by
    refine sum_congr rfl fun k hk => ?_
    have := mem_range.1 hk
    rw [sum_range_succ, sum_range_one, if_pos rfl, if_neg (by simp), ← tkAmp_sq S n dt (k + 1) (by omega) ht
      (not_lt.1 fun hc => hS ⟨k + 1, by omega, by omega, hc⟩)]
    ring
  rw [e1] at h
  refine meanSq_congr (fun ω => ?_) h
  congr 1
  rw [sum_product, tkPhase_waves S _ n dt hn he]
  rw [← IsLinearMap.mk'_apply hL, map_sum]
  refine sum_congr rfl fun k hk => ?_
  rw [map_sub, map_smul, map_smul, sum_range_succ, sum_range_one, if_pos rfl, if_neg (by simp)]
  simp only [IsLinearMap.mk'_apply, smul_eq_mul, add_zero]
  ring

/-! ## Differences of the oscillations -/

theorem cosWave_d2 (n k m i : ℕ) : d2 (cosWave n k) m i = -(4 * sin (π * m * k / n) ^ 2) * cosWave n k (i + m) := by
  unfold d2 cosWave
  have key : ∀ a b : ℝ, cos (b + 2 * a) - 2 * cos b + cos (b - 2 * a) = -(4 * sin a ^ 2) * cos b := by
    intro a b
    rw [cos_add, cos_sub, cos_two_mul, cos_sq']
    ring
  rw [← key]
  congr 3 <;> · push_cast; ring

theorem sinWave_d2 (n k m i : ℕ) : d2 (sinWave n k) m i = -(4 * sin (π * m * k / n) ^ 2) * sinWave n k (i + m) := by
  unfold d2 sinWave
  have key : ∀ a b : ℝ, sin (b + 2 * a) - 2 * sin b + sin (b - 2 * a) = -(4 * sin a ^ 2) * sin b := by
    intro a b
    rw [sin_add, sin_sub, cos_two_mul, cos_sq']
    ring
  rw [← key]
  congr 3 <;> · push_cast; ring

theorem wave_sq (n k i : ℕ) : cosWave n k i ^ 2 + sinWave n k i ^ 2 = 1 := cos_sq_add_sin_sq _

theorem wave_d2 (n k m i : ℕ) : d2 (cosWave n k) m i ^ 2 + d2 (sinWave n k) m i ^ 2 =
    16 * sin (π * m * k / n) ^ 4 := by
  rw [cosWave_d2, sinWave_d2]
  linear_combination (16 * sin (π * m * k / n) ^ 4) * wave_sq n k (i + m)

theorem wave_d3 (n k m i : ℕ) : d3 (cosWave n k) m i ^ 2 + d3 (sinWave n k) m i ^ 2 =
    64 * sin (π * m * k / n) ^ 6 := by
  unfold d3 cosWave sinWave
  have key : ∀ a b : ℝ, (cos (b + 3 * a) - 3 * cos (b + a) + 3 * cos (b - a) - cos (b - 3 * a)) ^ 2 +
      (sin (b + 3 * a) - 3 * sin (b + a) + 3 * sin (b - a) - sin (b - 3 * a)) ^ 2 = 64 * sin a ^ 6 := by
    intro a b
    have e1 : cos (b + 3 * a) - 3 * cos (b + a) + 3 * cos (b - a) - cos (b - 3 * a) = 8 * sin a ^ 3 * sin b := by
      rw [cos_add, cos_add, cos_sub, cos_sub, sin_three_mul]
      ring
    have e2 : sin (b + 3 * a) - 3 * sin (b + a) + 3 * sin (b - a) - sin (b - 3 * a) = -(8 * sin a ^ 3 * cos b) := by
      rw [sin_add, sin_add, sin_sub, sin_sub, sin_three_mul]
      ring
    rw [e1, e2]
    linear_combination (64 * sin a ^ 6) * sin_sq_add_cos_sq b
  have h0 : 2 * (π * k / n) * (i : ℝ) = 2 * (π * k / n) * (i : ℝ) + 3 * (π * m * k / n) - 3 * (π * m * k / n) := by
    ring
  have h1 : 2 * (π * k / n) * ((i + m : ℕ) : ℝ) =
      2 * (π * k / n) * (i : ℝ) + 3 * (π * m * k / n) - π * m * k / n := by push_cast; ring
  have h2 : 2 * (π * k / n) * ((i + 2 * m : ℕ) : ℝ) =
      2 * (π * k / n) * (i : ℝ) + 3 * (π * m * k / n) + π * m * k / n := by push_cast; ring
  have h3 : 2 * (π * k / n) * ((i + 3 * m : ℕ) : ℝ) =
      2 * (π * k / n) * (i : ℝ) + 3 * (π * m * k / n) + 3 * (π * m * k / n) := by push_cast; ring
  rw [h1, h2, h3, ← key (π * m * k / n) (2 * (π * k / n) * (i : ℝ) + 3 * (π * m * k / n)), ← h0]

theorem wave_sum (n k s m : ℕ) (hk : sin (π * k / n) ≠ 0) :
    (∑ j ∈ range m, cosWave n k (s + j)) ^ 2 + (∑ j ∈ range m, sinWave n k (s + j)) ^ 2 =
      sin (π * m * k / n) ^ 2 / sin (π * k / n) ^ 2 := by
  unfold cosWave sinWave
  set c := π * k / n with hc
  have e0 : π * m * k / n = m * c := by rw [hc]; ring
  have e1 : ∀ m : ℕ, 2 * sin c * ∑ j ∈ range m, cos (2 * c * ((s + j : ℕ) : ℝ)) =
      sin (2 * c * s + 2 * (m * c) - c) - sin (2 * c * s - c) := by
    intro m
    induction m with
    | zero => simp
    | succ m ih =>
      rw [sum_range_succ, mul_add, ih]
      have a1 : 2 * c * ((s + m : ℕ) : ℝ) = 2 * c * s + 2 * (m * c) := by push_cast; ring
      have a2 : 2 * c * s + 2 * (((m + 1 : ℕ) : ℝ) * c) - c = (2 * c * s + 2 * (m * c)) + c := by push_cast; ring
      rw [a1, a2, sin_add, sin_sub (2 * c * s + 2 * (m * c))]
      ring
  have e2 : ∀ m : ℕ, 2 * sin c * ∑ j ∈ range m, sin (2 * c * ((s + j : ℕ) : ℝ)) =
      cos (2 * c * s - c) - cos (2 * c * s + 2 * (m * c) - c) := by
    intro m
    induction m with
    | zero => simp
    | succ m ih =>
      rw [sum_range_succ, mul_add, ih]
      have a1 : 2 * c * ((s + m : ℕ) : ℝ) = 2 * c * s + 2 * (m * c) := by push_cast; ring
      have a2 : 2 * c * s + 2 * (((m + 1 : ℕ) : ℝ) * c) - c = (2 * c * s + 2 * (m * c)) + c := by push_cast; ring
      rw [a1, a2, cos_add, cos_sub (2 * c * s + 2 * (m * c))]
      ring
  have h1 := e1 m
  have h2 := e2 m
  rw [e0, eq_div_iff (pow_ne_zero 2 hk)]
  set A := ∑ j ∈ range m, cos (2 * c * ((s + j : ℕ) : ℝ))
  set B := ∑ j ∈ range m, sin (2 * c * ((s + j : ℕ) : ℝ))
  have a3 : 2 * c * s + 2 * (m * c) - c = (2 * c * s - c) + 2 * (m * c) := by ring
  rw [a3] at h1 h2
  have h3 : (2 * sin c * A) ^ 2 + (2 * sin c * B) ^ 2 = 4 * sin (m * c) ^ 2 := by
    rw [h1, h2]
    generalize 2 * c * s - c = x
    generalize m * c = y
    rw [sin_add, cos_add, sin_two_mul, cos_two_mul, cos_sq']
    have s1 := sin_sq_add_cos_sq x
    have s2 : cos y ^ 2 = 1 - sin y ^ 2 := cos_sq' y
    linear_combination (4 * sin y ^ 4 + 4 * sin y ^ 2 * cos y ^ 2) * s1 + 4 * sin y ^ 2 * s2
  linear_combination h3 / 4

theorem wave_d2_sum (n k m i : ℕ) (hk : sin (π * k / n) ≠ 0) :
    (∑ j ∈ range m, d2 (cosWave n k) m (i + j)) ^ 2 + (∑ j ∈ range m, d2 (sinWave n k) m (i + j)) ^ 2 =
      16 * sin (π * m * k / n) ^ 6 / sin (π * k / n) ^ 2 := by
  simp only [cosWave_d2, sinWave_d2]
  rw [← mul_sum, ← mul_sum]
  have e : ∀ j, i + j + m = i + m + j := fun j => by omega
  simp only [e]
  have h := wave_sum n k (i + m) m hk
  have : 16 * sin (π * m * k / n) ^ 6 / sin (π * k / n) ^ 2 =
      16 * sin (π * m * k / n) ^ 4 * (sin (π * m * k / n) ^ 2 / sin (π * k / n) ^ 2) := by ring
  rw [this, ← h]
  ring

/-! ## The discrete Fourier transform of the oscillations -/

theorem wave_exp (n k t : ℕ) : expRoot n (k * t) = (cosWave n k t : ℂ) + (sinWave n k t : ℂ) * Complex.I := by
  have e : 2 * (π * (((k * t : ℕ) : ℤ) : ℝ) / n) = 2 * (π * k / n) * t := by push_cast; ring
  have h1 := expRoot_re n ((k * t : ℕ) : ℤ)
  have h2 := expRoot_im n ((k * t : ℕ) : ℤ)
  rw [e] at h1 h2
  rw [show ((k : ℤ) * t) = ((k * t : ℕ) : ℤ) by push_cast; rfl, ← Complex.re_add_im (expRoot n _), h1, h2]
  rfl

theorem wave_exp_neg (n k t : ℕ) :
    expRoot n (-(k * t)) = (cosWave n k t : ℂ) - (sinWave n k t : ℂ) * Complex.I := by
  rw [← expRoot_conj, wave_exp, map_add, map_mul, Complex.conj_ofReal, Complex.conj_ofReal, Complex.conj_I]
  ring

theorem cosWave_exp (n k t : ℕ) : (cosWave n k t : ℂ) = (expRoot n (k * t) + expRoot n (-(k * t))) / 2 := by
  rw [wave_exp, wave_exp_neg]; ring

theorem sinWave_exp (n k t : ℕ) :
    (sinWave n k t : ℂ) = (expRoot n (k * t) - expRoot n (-(k * t))) / (2 * Complex.I) := by
  rw [wave_exp, wave_exp_neg, eq_div_iff (mul_ne_zero two_ne_zero Complex.I_ne_zero)]; ring

theorem wave_dft (n k j : ℕ) (hn : n ≠ 0) (h1 : 1 ≤ k) (h2 : 2 * k ≤ n) (hj : 2 * j ≤ n) :
    ‖dft n (cosWave n k) j‖ ^ 2 + ‖dft n (sinWave n k) j‖ ^ 2 =
      if k = j then (if 2 * k = n then (n : ℝ) ^ 2 else n ^ 2 / 2) else 0 := by
  set A : ℂ := ∑ t ∈ range n, expRoot n (((k : ℤ) - j) * t) with hA
  set B : ℂ := ∑ t ∈ range n, expRoot n ((-(k : ℤ) - j) * t) with hB
  have d1 : dft n (cosWave n k) j = (A + B) / 2 := by
    unfold dft
    rw [hA, hB, ← sum_add_distrib, sum_div]
    refine sum_congr rfl fun t _ => ?_
    rw [cosWave_exp]
    have a1 : ((k : ℤ) - j) * t = k * t + -((t * j : ℕ) : ℤ) := by push_cast; ring
    have a2 : (-(k : ℤ) - j) * t = -(k * t) + -((t * j : ℕ) : ℤ) := by push_cast; ring
    rw [a1, a2, expRoot_add, expRoot_add]
    ring
  have d2 : dft n (sinWave n k) j = (A - B) / (2 * Complex.I) := by
    unfold dft
    rw [hA, hB, ← sum_sub_distrib, sum_div]
    refine sum_congr rfl fun t _ => ?_
    rw [sinWave_exp]
    have a1 : ((k : ℤ) - j) * t = k * t + -((t * j : ℕ) : ℤ) := by push_cast; ring
    have a2 : (-(k : ℤ) - j) * t = -(k * t) + -((t * j : ℕ) : ℤ) := by push_cast; ring
    rw [a1, a2, expRoot_add, expRoot_add]
    ring
  have par : ‖dft n (cosWave n k) j‖ ^ 2 + ‖dft n (sinWave n k) j‖ ^ 2 = (‖A‖ ^ 2 + ‖B‖ ^ 2) / 2 := by
    rw [d1, d2, norm_div, norm_div, norm_mul, Complex.norm_I, Complex.norm_two, div_pow, div_pow]
    have := parallelogram_law_with_norm ℝ A B
    linear_combination this / 4
  have v1 : A = if (k = j) then (n : ℂ) else 0 := by
    rw [hA, sum_expRoot n hn]
    refine if_congr ⟨fun h => ?_, fun h => by rw [h]; simp⟩ rfl rfl
    by_contra hc
    have := Int.le_of_dvd (a := (n : ℤ)) (b := |(k : ℤ) - j|) (abs_pos.2 (by omega)) ((dvd_abs _ _).2 h)
    rcases abs_cases ((k : ℤ) - j) with ⟨h', _⟩ | ⟨h', _⟩ <;> omega
  have v2 : B = if (k = j ∧ 2 * k = n) then (n : ℂ) else 0 := by
    rw [hB, sum_expRoot n hn]
    refine if_congr ⟨fun h => ?_, fun h => ?_⟩ rfl rfl
    · have := Int.le_of_dvd (a := (n : ℤ)) (b := (k : ℤ) + j) (by omega)
        ((dvd_neg).1 (by rw [show -((k : ℤ) + j) = -(k : ℤ) - j by ring]; exact h))
      constructor <;> omega
    · refine ⟨-1, ?_⟩
      have := h.1
      have := h.2
      omega
  rw [par, v1, v2]
  by_cases hkj : k = j <;> by_cases hkn : 2 * k = n <;> simp [hkj, hkn]
  · subst hkj
    simp [hkn]
  · subst hkj
    simp [hkn]

theorem d2_linear (m i : ℕ) : IsLinearMap ℝ (fun x : ℕ → ℝ => d2 x m i) :=
  ⟨fun x y => by unfold d2; simp only [Pi.add_apply]; ring,
    fun c x => by unfold d2; simp only [Pi.smul_apply, smul_eq_mul]; ring⟩

theorem d3_linear (m i : ℕ) : IsLinearMap ℝ (fun x : ℕ → ℝ => d3 x m i) :=
  ⟨fun x y => by unfold d3; simp only [Pi.add_apply]; ring,
    fun c x => by unfold d3; simp only [Pi.smul_apply, smul_eq_mul]; ring⟩

theorem d2_sum_linear (m i : ℕ) : IsLinearMap ℝ (fun x : ℕ → ℝ => ∑ j ∈ range m, d2 x m (i + j)) :=
  ⟨fun x y => by simp only [(d2_linear m _).map_add, sum_add_distrib],
    fun c x => by simp only [(d2_linear m _).map_smul, ← smul_sum]⟩

/-! ## Expected values -/

/-- the sum over the frequencies `1/(n dt) .. 1/(2 dt)` of the mean squares with weights -/
noncomputable def Spec.tkSum (S : ℝ → ℝ) (n : ℕ) (dt : ℝ) (w : ℕ → ℝ) : ℝ :=
  ∑ k ∈ range (n / 2), tkPower S n dt (k + 1) * w (k + 1)

theorem sin_pos_half {n k : ℕ} (h1 : 1 ≤ k) (h2 : 2 * k ≤ n) : 0 < sin (π * k / n) := by
  have := sin_ne (n := n) (a := k) (by omega) (by omega)
  simpa using this

section expected

variable [IsProbabilityMeasure P] {Z : ℕ → Ω → ℝ} {n : ℕ} {dt : ℝ} {S : ℝ → ℝ}

/-- the mean square of the phase itself -/
theorem tk_meanSq (hZ : White P Z n 0 1) (hn : 2 ≤ n) (he : n % 2 = 0) (ht : 0 < dt) (hS : ¬ TkNan S n dt) (t : ℕ) :
    MeanSq P (fun ω => tkPhase S (fun i => Z i ω) n dt t) (tkSum S n dt (fun _ => 1)) := by
  have h := tk_form hZ S hn he ht hS (fun x => x t) ⟨fun _ _ => rfl, fun _ _ => rfl⟩
  simp only [wave_sq] at h
  exact h

theorem tk_d2 (hZ : White P Z n 0 1) (hn : 2 ≤ n) (he : n % 2 = 0) (ht : 0 < dt) (hS : ¬ TkNan S n dt) (m i : ℕ) :
    MeanSq P (fun ω => d2 (tkPhase S (fun i => Z i ω) n dt) m i)
      (tkSum S n dt (fun k => 16 * sin (π * m * k / n) ^ 4)) := by
  have h := tk_form hZ S hn he ht hS _ (d2_linear m i)
  simp only [wave_d2] at h
  exact h

theorem tk_d3 (hZ : White P Z n 0 1) (hn : 2 ≤ n) (he : n % 2 = 0) (ht : 0 < dt) (hS : ¬ TkNan S n dt) (m i : ℕ) :
    MeanSq P (fun ω => d3 (tkPhase S (fun i => Z i ω) n dt) m i)
      (tkSum S n dt (fun k => 64 * sin (π * m * k / n) ^ 6)) := by
  have h := tk_form hZ S hn he ht hS _ (d3_linear m i)
  simp only [wave_d3] at h
  exact h

theorem tk_d2_sum (hZ : White P Z n 0 1) (hn : 2 ≤ n) (he : n % 2 = 0) (ht : 0 < dt) (hS : ¬ TkNan S n dt) (m i : ℕ) :
    MeanSq P (fun ω => ∑ j ∈ range m, d2 (tkPhase S (fun i => Z i ω) n dt) m (i + j))
      (tkSum S n dt (fun k => 16 * sin (π * m * k / n) ^ 6 / sin (π * k / n) ^ 2)) := by
  have h := tk_form hZ S hn he ht hS _ (d2_sum_linear m i)
  refine (congrArg (MeanSq P _) (sum_congr rfl fun k hk => ?_)).mp h
  have := mem_range.1 hk
  rw [wave_d2_sum _ _ _ _ (sin_pos_half (by omega) (by omega)).ne']

/-- C101: what the deviations of the phase are on average.  The textbook has an integral over `f` of
`S_y(f)` times a transfer function of `π τ f`: here it is a sum over `f = k/(n dt)`, but with the density
and the factor `1/(2π f)²` at the frequency `f_k` of the grid of the code -/
theorem tk_expects (hZ : White P Z n 0 1) (f_nodes h alpha : List ℝ) {duration dt : ℝ}
    (hv : TkValid f_nodes h alpha duration dt) (hn : n = ⌊duration / dt⌋₊) (h4 : 4 ≤ n)
    (he : n % 2 = 0) (hh : ∀ v ∈ h, 0 ≤ v) :
    ∃ X : Ω → List ℝ,
      (∀ ω, timmer_koenig_from_psd (fun i => Z i ω) f_nodes h alpha duration dt "phase" = .ok ((X ω).map some)) ∧
      Expects P .adev X (1 / dt) "phase" (fun m =>
        tkSum (tkS f_nodes h alpha) n dt (fun k => 16 * sin (π * m * k / n) ^ 4) / (2 * (m * dt) ^ 2)) ∧
      Expects P .oadev X (1 / dt) "phase" (fun m =>
        tkSum (tkS f_nodes h alpha) n dt (fun k => 16 * sin (π * m * k / n) ^ 4) / (2 * (m * dt) ^ 2)) ∧
      Expects P .hdev X (1 / dt) "phase" (fun m =>
        tkSum (tkS f_nodes h alpha) n dt (fun k => 64 * sin (π * m * k / n) ^ 6) / (6 * (m * dt) ^ 2)) ∧
      Expects P .ohdev X (1 / dt) "phase" (fun m =>
        tkSum (tkS f_nodes h alpha) n dt (fun k => 64 * sin (π * m * k / n) ^ 6) / (6 * (m * dt) ^ 2)) ∧
      Expects P .mdev X (1 / dt) "phase" (fun m =>
        tkSum (tkS f_nodes h alpha) n dt (fun k => 16 * sin (π * m * k / n) ^ 6 / sin (π * k / n) ^ 2) /
          (2 * m ^ 2 * (m * dt) ^ 2)) ∧
      Expects P .tdev X (1 / dt) "phase" (fun m =>
        tkSum (tkS f_nodes h alpha) n dt (fun k => 16 * sin (π * m * k / n) ^ 6 / sin (π * k / n) ^ 2) /
          (6 * m ^ 2)) := by
  have ht := hv.step
  have hS : ¬ TkNan (tkS f_nodes h alpha) n dt := tkNan_of_nonneg f_nodes h alpha n dt h4 ht hh
  set S := tkS f_nodes h alpha
  have hr : 0 < 1 / dt := by positivity
  have h2 : 2 ≤ n := by omega
  have ex : ∀ (fn : DevName) (v : ℕ → ℝ), (∀ m, Usable fn n m →
      MeanSq P (fun ω => value fn (tkPhase S (fun i => Z i ω) n dt) n (1 / dt) m) (v m)) →
      Expects P fn (fun ω => tab n (tkPhase S (fun i => Z i ω) n dt)) (1 / dt) "phase" v := fun fn v hv =>
    expects_phase fn (fun t ω => tkPhase S (fun i => Z i ω) n dt t) n (1 / dt) hr v hv
  have eτ : ∀ m : ℕ, (m : ℝ) / (1 / dt) = m * dt := fun m => by field_simp
  refine ⟨fun ω => tab n (tkPhase S (fun i => Z i ω) n dt), fun ω => ?_, ex _ _ fun m hu => ?_,
    ex _ _ fun m hu => ?_, ex _ _ fun m hu => ?_, ex _ _ fun m hu => ?_, ex _ _ fun m hu => ?_,
    ex _ _ fun m hu => ?_⟩
  · rw [(tk_even (fun i => Z i ω) f_nodes h alpha duration dt hv n hn h4 he hS).1, map_tab]
  · have h := adev_of_d2 hr hu (fun i _ => tk_d2 hZ h2 he ht hS m i)
    rwa [eτ] at h
  · have h := oadev_of_d2 hr hu (fun i _ => tk_d2 hZ h2 he ht hS m i)
    rwa [eτ] at h
  · have h := hdev_of_d3 hr hu (fun i _ => tk_d3 hZ h2 he ht hS m i)
    rwa [eτ] at h
  · have h := ohdev_of_d3 hr hu (fun i _ => tk_d3 hZ h2 he ht hS m i)
    rwa [eτ] at h
  · have h := mdev_of_sums hr hu.1 hu.2.2.2.2 (fun i _ => tk_d2_sum hZ h2 he ht hS m i)
    have e : ∀ x, value .mdev x n (1 / dt) m = Spec.mdev x n m (m / (1 / dt)) := fun x => rfl
    simp only [e]
    rwa [eτ] at h ⊢
  · have h := meanSq_tdev (mdev_of_sums hr hu.1 hu.2.2.2.2 (fun i _ => tk_d2_sum hZ h2 he ht hS m i))
    rw [eτ] at h
    have hm : (0 : ℝ) < m := by exact_mod_cast hu.1
    refine (congrArg (MeanSq P _) ?_).mp h
    field_simp
    try ring

/-- C101: `numpy_psd` of the phase has on average the density of the grid frequency `f_k`, up to a factor
`(n-1)/n`; half of it at the Nyquist frequency -/
theorem tk_numpy_psd (hZ : White P Z n 0 1) (f_nodes h alpha : List ℝ) {duration dt : ℝ}
    (hv : TkValid f_nodes h alpha duration dt) (hn : n = ⌊duration / dt⌋₊) (h4 : 4 ≤ n)
    (he : n % 2 = 0) (hh : ∀ v ∈ h, 0 ≤ v) :
    ∃ X : Ω → List ℝ,
      (∀ ω, timmer_koenig_from_psd (fun i => Z i ω) f_nodes h alpha duration dt "phase" = .ok ((X ω).map some)) ∧
      ExpectsPsd P (fun ω => .ok (X ω)) (fun x => numpy_psd x (1 / dt)) (n / 2 + 1) (fun k => k / (n * dt))
        (fun _ => True) (fun k => if k = 0 then 0 else
          ((n : ℝ) - 1) / n * (tkS f_nodes h alpha (tkFreq n dt k) / (2 * π * tkFreq n dt k) ^ 2) *
            (if 2 * k = n then 1 / 2 else 1)) := by
  have ht := hv.step
  have hS : ¬ TkNan (tkS f_nodes h alpha) n dt := tkNan_of_nonneg f_nodes h alpha n dt h4 ht hh
  set S := tkS f_nodes h alpha
  have hr : 0 < 1 / dt := by positivity
  have h2 : 2 ≤ n := by omega
  have hn0 : (0 : ℝ) < n := by exact_mod_cast (by omega : 0 < n)
  refine ⟨fun ω => tab n (tkPhase S (fun i => Z i ω) n dt), fun ω => ?_, ?_⟩
  · rw [(tk_even (fun i => Z i ω) f_nodes h alpha duration dt hv n hn h4 he hS).1, map_tab]
  have hax : (fun k : ℕ => (k : ℝ) * (1 / dt / 2) / (n / 2 : ℕ)) = fun k : ℕ => (k : ℝ) / (n * dt) := by
    funext k
    have : (n : ℝ) = 2 * (n / 2 : ℕ) := by exact_mod_cast (by omega : n = 2 * (n / 2))
    rw [this]
    have : (0 : ℝ) < (n / 2 : ℕ) := by exact_mod_cast (by omega : 0 < n / 2)
    field_simp
    try ring
  rw [← hax]
  refine expectsPsd_numpy (by omega) hr (fun ω => rfl) fun j hj _ => ?_
  have lre : IsLinearMap ℝ (fun x : ℕ → ℝ => (dft n x j).re) :=
    ⟨fun x y => by
      rw [← Complex.add_re]; unfold dft; rw [← sum_add_distrib]; congr 1
      exact sum_congr rfl fun t _ => by rw [Pi.add_apply]; push_cast; ring,
     fun c x => by
      rw [smul_eq_mul, ← Complex.re_ofReal_mul]; unfold dft; rw [mul_sum]; congr 1
      exact sum_congr rfl fun t _ => by rw [Pi.smul_apply, smul_eq_mul]; push_cast; ring⟩
  have lim : IsLinearMap ℝ (fun x : ℕ → ℝ => (dft n x j).im) :=
    ⟨fun x y => by
      rw [← Complex.add_im]; unfold dft; rw [← sum_add_distrib]; congr 1
      exact sum_congr rfl fun t _ => by rw [Pi.add_apply]; push_cast; ring,
     fun c x => by
      rw [smul_eq_mul, ← Complex.im_ofReal_mul]; unfold dft; rw [mul_sum]; congr 1
      exact sum_congr rfl fun t _ => by rw [Pi.smul_apply, smul_eq_mul]; push_cast; ring⟩
  have hre := tk_form hZ S h2 he ht hS _ lre
  have him := tk_form hZ S h2 he ht hS _ lim
  have e : ∀ z : ℂ, ‖z‖ ^ 2 = z.re ^ 2 + z.im ^ 2 := fun z => by
    rw [Complex.sq_norm, Complex.normSq_apply]; ring
  refine ⟨?_, ?_⟩
  · simp only [e]
    exact hre.1.add him.1
  · simp only [e]
    rw [integral_add hre.1 him.1, hre.2, him.2, ← sum_add_distrib]
    have e2 : ∀ k ∈ range (n / 2), tkPower S n dt (k + 1) * ((dft n (cosWave n (k + 1)) j).re ^ 2 +
        (dft n (sinWave n (k + 1)) j).re ^ 2) + tkPower S n dt (k + 1) * ((dft n (cosWave n (k + 1)) j).im ^ 2 +
        (dft n (sinWave n (k + 1)) j).im ^ 2) = if k + 1 = j then
          tkPower S n dt (k + 1) * (if 2 * (k + 1) = n then (n : ℝ) ^ 2 else n ^ 2 / 2) else 0 := by
      intro k hk
      have := mem_range.1 hk
      have h := wave_dft n (k + 1) j (by omega) (by omega) (by omega) hj
      rw [e, e] at h
      rw [← mul_add]
      rw [show (dft n (cosWave n (k + 1)) j).re ^ 2 + (dft n (sinWave n (k + 1)) j).re ^ 2 +
        ((dft n (cosWave n (k + 1)) j).im ^ 2 + (dft n (sinWave n (k + 1)) j).im ^ 2) = _ from
          (by ring : _ = _).trans h, mul_ite, mul_zero]
    rw [sum_congr rfl e2]
    rcases Nat.eq_zero_or_pos j with h0 | h0
    · subst h0
      simp
    · obtain ⟨i, rfl⟩ : ∃ i, j = i + 1 := ⟨j - 1, by omega⟩
      rw [sum_eq_single i (fun k _ hk => if_neg (by omega)) (fun hi => absurd (mem_range.2 (by omega)) hi)]
      simp only [if_true, Nat.add_eq_zero_iff, one_ne_zero, and_false, if_false]
      unfold tkPower
      by_cases hq : 2 * (i + 1) = n
      · simp only [hq, if_true]
        field_simp
        try ring
      · simp only [hq, if_false]
        field_simp
        try ring

end expected

end AT
