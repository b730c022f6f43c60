import Verif.Lemmas.SinInt

/-!
# Integrals `∫₀^∞ (2 sin² z - z sin 2z)² / z^n dz`
-/

namespace AT

open MeasureTheory Set Real Filter Topology

theorem tendsto_pow_exp_mul (j : ℕ) {t : ℝ} (ht : 0 < t) (φ : ℝ → ℝ) (hφ : ∀ z, |φ z| ≤ 1) :
    Tendsto (fun z => z ^ j * exp (-(t * z)) * φ z) atTop (𝓝 0) := by
  have h := tendsto_rpow_mul_exp_neg_mul_atTop_nhds_zero (j : ℝ) t ht
  have h' : Tendsto (fun z : ℝ => z ^ j * exp (-(t * z))) atTop (𝓝 0) := by
    simpa [rpow_natCast, neg_mul] using h
  apply h'.zero_mul_isBoundedUnder_le
  exact isBoundedUnder_of ⟨1, fun z => by simpa [norm_eq_abs] using hφ z⟩

theorem integrable_pow_exp_mul (j : ℕ) {t : ℝ} (ht : 0 < t) (φ : ℝ → ℝ) (hc : Continuous φ)
    (hφ : ∀ z, |φ z| ≤ 1) : IntegrableOn (fun z => z ^ j * φ z * exp (-(t * z))) (Ioi 0) := by
  have h := ((laplace_pow j ht).1).const_mul (j.factorial : ℝ)
  apply Integrable.mono' h
  · exact (by fun_prop : Continuous fun z => z ^ j * φ z * exp (-(t * z))).aestronglyMeasurable
  · rw [ae_restrict_iff' measurableSet_Ioi]
    refine ae_of_all _ (fun z (hz : 0 < z) => ?_)
    have hf : (0 : ℝ) < j.factorial := by exact_mod_cast j.factorial_pos
    rw [norm_eq_abs, abs_mul, abs_mul, abs_of_pos (exp_pos _), abs_of_pos (pow_pos hz j)]
    calc z ^ j * |φ z| * exp (-(t * z)) ≤ z ^ j * 1 * exp (-(t * z)) := by
          gcongr
          exact hφ z
      _ = _ := by rw [mul_comm t z]; field_simp

/-- Laplace transform of `z sin kz` -/
theorem laplace_z_sin (k : ℝ) {t : ℝ} (ht : 0 < t) :
    IntegrableOn (fun z => z ^ 1 * sin (k * z) * exp (-(t * z))) (Ioi 0) ∧
      ∫ z in Ioi (0 : ℝ), z ^ 1 * sin (k * z) * exp (-(t * z)) = 2 * k * t / (t ^ 2 + k ^ 2) ^ 2 := by
  have hi := integrable_pow_exp_mul 1 ht (fun z => sin (k * z)) (by fun_prop) (fun z => abs_sin_le_one _)
  refine ⟨hi, ?_⟩
  have hD : t ^ 2 + k ^ 2 ≠ 0 := by positivity
  set D := t ^ 2 + k ^ 2 with hDe
  set G : ℝ → ℝ := fun z => -(t / D) * (z ^ 1 * exp (-(t * z)) * sin (k * z))
    + -((t ^ 2 - k ^ 2) / D ^ 2) * (z ^ 0 * exp (-(t * z)) * sin (k * z))
    + -(k / D) * (z ^ 1 * exp (-(t * z)) * cos (k * z))
    + -(2 * t * k / D ^ 2) * (z ^ 0 * exp (-(t * z)) * cos (k * z)) with hG
  have hd : ∀ z ∈ Ici (0 : ℝ), HasDerivAt G (z ^ 1 * sin (k * z) * exp (-(t * z))) z := by
    intro z _
    have h1 : HasDerivAt (fun z => exp (-(t * z))) (exp (-(t * z)) * -t) z := by
      have := ((hasDerivAt_id z).const_mul (-t)).exp
      simpa [neg_mul] using this
    have h2 : HasDerivAt (fun z => k * z) k z := by simpa using (hasDerivAt_id z).const_mul k
    have hs := h2.sin
    have hc := h2.cos
    have e1 := ((((hasDerivAt_pow 1 z).mul h1).mul hs).const_mul (-(t / D)))
    have e2 := ((((hasDerivAt_pow 0 z).mul h1).mul hs).const_mul (-((t ^ 2 - k ^ 2) / D ^ 2)))
    have e3 := ((((hasDerivAt_pow 1 z).mul h1).mul hc).const_mul (-(k / D)))
    have e4 := ((((hasDerivAt_pow 0 z).mul h1).mul hc).const_mul (-(2 * t * k / D ^ 2)))
    refine (((e1.add e2).add e3).add e4).congr_deriv ?_
    simp only [Pi.mul_apply]
    push_cast
    field_simp
    rw [hDe]
    ring
  have hl : Tendsto G atTop (𝓝 0) := by
    have b1 := (tendsto_pow_exp_mul 1 ht (fun z => sin (k * z)) (fun z => abs_sin_le_one _)).const_mul (-(t / D))
    have b2 := (tendsto_pow_exp_mul 0 ht (fun z => sin (k * z)) (fun z => abs_sin_le_one _)).const_mul
      (-((t ^ 2 - k ^ 2) / D ^ 2))
    have b3 := (tendsto_pow_exp_mul 1 ht (fun z => cos (k * z)) (fun z => abs_cos_le_one _)).const_mul (-(k / D))
    have b4 := (tendsto_pow_exp_mul 0 ht (fun z => cos (k * z)) (fun z => abs_cos_le_one _)).const_mul
      (-(2 * t * k / D ^ 2))
    have := ((b1.add b2).add b3).add b4
    simpa [hG] using this
  rw [integral_Ioi_of_hasDerivAt_of_tendsto' hd hi hl]
  simp [hG]
  ring

/-- Laplace transform of `z² cos kz` -/
theorem laplace_z2_cos (k : ℝ) {t : ℝ} (ht : 0 < t) :
    IntegrableOn (fun z => z ^ 2 * cos (k * z) * exp (-(t * z))) (Ioi 0) ∧
      ∫ z in Ioi (0 : ℝ), z ^ 2 * cos (k * z) * exp (-(t * z))
        = 2 * t * (t ^ 2 - 3 * k ^ 2) / (t ^ 2 + k ^ 2) ^ 3 := by
  have hi := integrable_pow_exp_mul 2 ht (fun z => cos (k * z)) (by fun_prop) (fun z => abs_cos_le_one _)
  refine ⟨hi, ?_⟩
  have hD : t ^ 2 + k ^ 2 ≠ 0 := by positivity
  set D := t ^ 2 + k ^ 2 with hDe
  set G : ℝ → ℝ := fun z => -(t / D) * (z ^ 2 * exp (-(t * z)) * cos (k * z))
    + -(2 * (t ^ 2 - k ^ 2) / D ^ 2) * (z ^ 1 * exp (-(t * z)) * cos (k * z))
    + -(2 * (t ^ 3 - 3 * t * k ^ 2) / D ^ 3) * (z ^ 0 * exp (-(t * z)) * cos (k * z))
    + (k / D) * (z ^ 2 * exp (-(t * z)) * sin (k * z))
    + (4 * t * k / D ^ 2) * (z ^ 1 * exp (-(t * z)) * sin (k * z))
    + (2 * (3 * t ^ 2 * k - k ^ 3) / D ^ 3) * (z ^ 0 * exp (-(t * z)) * sin (k * z)) with hG
  have hd : ∀ z ∈ Ici (0 : ℝ), HasDerivAt G (z ^ 2 * cos (k * z) * exp (-(t * z))) z := by
    intro z _
    have h1 : HasDerivAt (fun z => exp (-(t * z))) (exp (-(t * z)) * -t) z := by
      have := ((hasDerivAt_id z).const_mul (-t)).exp
      simpa [neg_mul] using this
    have h2 : HasDerivAt (fun z => k * z) k z := by simpa using (hasDerivAt_id z).const_mul k
    have hs := h2.sin
    have hc := h2.cos
    have e1 := ((((hasDerivAt_pow 2 z).mul h1).mul hc).const_mul (-(t / D)))
    have e2 := ((((hasDerivAt_pow 1 z).mul h1).mul hc).const_mul (-(2 * (t ^ 2 - k ^ 2) / D ^ 2)))
    have e3 := ((((hasDerivAt_pow 0 z).mul h1).mul hc).const_mul (-(2 * (t ^ 3 - 3 * t * k ^ 2) / D ^ 3)))
    have e4 := ((((hasDerivAt_pow 2 z).mul h1).mul hs).const_mul (k / D))
    have e5 := ((((hasDerivAt_pow 1 z).mul h1).mul hs).const_mul (4 * t * k / D ^ 2))
    have e6 := ((((hasDerivAt_pow 0 z).mul h1).mul hs).const_mul (2 * (3 * t ^ 2 * k - k ^ 3) / D ^ 3))
    refine (((((e1.add e2).add e3).add e4).add e5).add e6).congr_deriv ?_
    simp only [Pi.mul_apply]
    push_cast
    field_simp
    rw [hDe]
    ring
  have hl : Tendsto G atTop (𝓝 0) := by
    have b := fun j => tendsto_pow_exp_mul j ht (fun z => sin (k * z)) (fun z => abs_sin_le_one _)
    have c := fun j => tendsto_pow_exp_mul j ht (fun z => cos (k * z)) (fun z => abs_cos_le_one _)
    have := (((((((c 2).const_mul (-(t / D))).add
      ((c 1).const_mul (-(2 * (t ^ 2 - k ^ 2) / D ^ 2)))).add
      ((c 0).const_mul (-(2 * (t ^ 3 - 3 * t * k ^ 2) / D ^ 3)))).add
      ((b 2).const_mul (k / D))).add
      ((b 1).const_mul (4 * t * k / D ^ 2))).add
      ((b 0).const_mul (2 * (3 * t ^ 2 * k - k ^ 3) / D ^ 3)))
    simpa [hG] using this
  rw [integral_Ioi_of_hasDerivAt_of_tendsto' hd hi hl]
  simp [hG]
  ring

/-- the numerator of the transfer function of the parabolic variance -/
noncomputable def pvarNum (z : ℝ) : ℝ := (2 * sin z ^ 2 - z * sin (2 * z)) ^ 2

theorem pvarNum_expand (z : ℝ) : pvarNum z = 3 / 2 - 2 * cos (2 * z) + 1 / 2 * cos (4 * z)
    - 2 * (z ^ 1 * sin (2 * z)) + z ^ 1 * sin (4 * z) + 1 / 2 * (z ^ 2 * cos (0 * z))
    - 1 / 2 * (z ^ 2 * cos (4 * z)) := by
  have h4 : cos (4 * z) = 2 * cos (2 * z) ^ 2 - 1 := by rw [← cos_two_mul]; ring_nf
  have s4 : sin (4 * z) = 2 * sin (2 * z) * cos (2 * z) := by rw [← sin_two_mul]; ring_nf
  have hs : sin z ^ 2 = (1 - cos (2 * z)) / 2 := by
    have := sin_sq_add_cos_sq z
    rw [cos_two_mul]; linarith
  have h2 : sin (2 * z) ^ 2 = 1 - cos (2 * z) ^ 2 := by linarith [sin_sq_add_cos_sq (2 * z)]
  rw [pvarNum, hs, h4, s4, zero_mul, cos_zero]
  linear_combination z ^ 2 * h2

theorem laplace_pvar {t : ℝ} (ht : 0 < t) :
    IntegrableOn (fun z => pvarNum z * exp (-(t * z))) (Ioi 0) ∧
      ∫ z in Ioi (0 : ℝ), pvarNum z * exp (-(t * z))
        = (17920 * t ^ 4 + 143360 * t ^ 2 + 65536) / (t ^ 3 * (t ^ 2 + 4) ^ 2 * (t ^ 2 + 16) ^ 3) := by
  obtain ⟨i0, v0⟩ := laplace_one ht
  obtain ⟨i1, v1⟩ := laplace_cos 2 ht
  obtain ⟨i2, v2⟩ := laplace_cos 4 ht
  obtain ⟨i3, v3⟩ := laplace_z_sin 2 ht
  obtain ⟨i4, v4⟩ := laplace_z_sin 4 ht
  obtain ⟨i5, v5⟩ := laplace_z2_cos 0 ht
  obtain ⟨i6, v6⟩ := laplace_z2_cos 4 ht
  have e : (fun z => pvarNum z * exp (-(t * z))) = fun z => ∑ i : Fin 7,
      (![3 / 2, -2, 1 / 2, -2, 1, 1 / 2, -1 / 2] : Fin 7 → ℝ) i *
      (![exp (-(t * z)), cos (2 * z) * exp (-(t * z)), cos (4 * z) * exp (-(t * z)),
        z ^ 1 * sin (2 * z) * exp (-(t * z)), z ^ 1 * sin (4 * z) * exp (-(t * z)),
        z ^ 2 * cos (0 * z) * exp (-(t * z)), z ^ 2 * cos (4 * z) * exp (-(t * z))] : Fin 7 → ℝ) i := by
    funext z
    rw [pvarNum_expand]
    simp only [Fin.sum_univ_succ, Matrix.cons_val_zero, Matrix.cons_val_succ, Fin.sum_univ_zero]
    ring
  rw [e]
  have hint : ∀ i : Fin 7, Integrable (fun z => (![3 / 2, -2, 1 / 2, -2, 1, 1 / 2, -1 / 2] : Fin 7 → ℝ) i *
      (![exp (-(t * z)), cos (2 * z) * exp (-(t * z)), cos (4 * z) * exp (-(t * z)),
        z ^ 1 * sin (2 * z) * exp (-(t * z)), z ^ 1 * sin (4 * z) * exp (-(t * z)),
        z ^ 2 * cos (0 * z) * exp (-(t * z)), z ^ 2 * cos (4 * z) * exp (-(t * z))] : Fin 7 → ℝ) i)
      (volume.restrict (Ioi 0)) := by
    intro i
    apply Integrable.const_mul
    fin_cases i <;> assumption
  refine ⟨integrable_finsetSum _ (fun i _ => hint i), ?_⟩
  rw [integral_finsetSum _ (fun i _ => hint i)]
  simp only [Fin.sum_univ_succ, Matrix.cons_val_zero, Matrix.cons_val_succ, Fin.sum_univ_zero,
    integral_const_mul, v0, v1, v2, v3, v4, v5, v6]
  have hz : t ^ 2 + 0 ^ 2 ≠ 0 := by positivity
  field_simp
  ring

theorem pvar_int (p : ℕ) (v : ℝ)
    (h : IntegrableOn (fun t : ℝ => t ^ p / p.factorial *
        ((17920 * t ^ 4 + 143360 * t ^ 2 + 65536) / (t ^ 3 * (t ^ 2 + 4) ^ 2 * (t ^ 2 + 16) ^ 3))) (Ioi 0) ∧
      ∫ t in Ioi (0 : ℝ), t ^ p / p.factorial *
        ((17920 * t ^ 4 + 143360 * t ^ 2 + 65536) / (t ^ 3 * (t ^ 2 + 4) ^ 2 * (t ^ 2 + 16) ^ 3)) = v) :
    IntegrableOn (fun z => pvarNum z / z ^ (p + 1)) (Ioi 0) ∧
      ∫ z in Ioi (0 : ℝ), pvarNum z / z ^ (p + 1) = v := by
  have := laplace_integral pvarNum (fun t => (17920 * t ^ 4 + 143360 * t ^ 2 + 65536) /
      (t ^ 3 * (t ^ 2 + 4) ^ 2 * (t ^ 2 + 16) ^ 3))
    (by unfold pvarNum; fun_prop) (fun z => by unfold pvarNum; positivity) (fun t ht => laplace_pvar ht) p h.1
  exact ⟨this.1, this.2.trans h.2⟩

theorem tendsto_ratio (k : ℝ) (hk : 0 < k) (n m : ℕ) (hnm : n < 2 * m) :
    Tendsto (fun t : ℝ => t ^ n / (t ^ 2 + k) ^ m) atTop (𝓝 0) := by
  have h1 : Tendsto (fun t : ℝ => t ^ n / t ^ (2 * m)) atTop (𝓝 0) := by
    have : Tendsto (fun t : ℝ => (t ^ (2 * m - n))⁻¹) atTop (𝓝 0) :=
      (tendsto_pow_atTop (by omega)).inv_tendsto_atTop
    refine this.congr' ?_
    filter_upwards [eventually_gt_atTop 0] with t ht
    rw [pow_sub₀ _ ht.ne' hnm.le]
    field_simp
  refine squeeze_zero' ?_ ?_ h1
  · filter_upwards [eventually_gt_atTop 0] with t ht
    positivity
  · filter_upwards [eventually_gt_atTop 0] with t ht
    rw [pow_mul]
    gcongr
    linarith

theorem hasDerivAt_ratio (k : ℝ) (hk : 0 < k) (n m : ℕ) (t : ℝ) :
    HasDerivAt (fun t : ℝ => t ^ n / (t ^ 2 + k) ^ m)
      (((n : ℝ) * t ^ (n - 1) * (t ^ 2 + k) ^ m - t ^ n * (m * (t ^ 2 + k) ^ (m - 1) * (2 * t)))
        / ((t ^ 2 + k) ^ m) ^ 2) t := by
  have h1 : HasDerivAt (fun t : ℝ => t ^ 2 + k) (2 * t) t := by
    simpa using ((hasDerivAt_id t).pow 2).add_const k
  exact (hasDerivAt_pow n t).div (h1.pow m) (by positivity)

theorem rat_atan2 (g : ℝ → ℝ) (a1 a2 b1 b2 b3 : ℝ)
    (h : ∀ t, 0 < t → g t = a1 / (t ^ 2 + 4) + a2 * ((4 - t ^ 2) / (t ^ 2 + 4) ^ 2) + b1 / (t ^ 2 + 16)
      + b2 * ((16 - t ^ 2) / (t ^ 2 + 16) ^ 2) + b3 * ((16 - 3 * t ^ 2) / (t ^ 2 + 16) ^ 3))
    (hn : ∀ t, 0 < t → 0 ≤ g t) :
    IntegrableOn g (Ioi 0) ∧ ∫ t in Ioi (0 : ℝ), g t = (a1 / 2 + b1 / 4) * (π / 2) := by
  set G : ℝ → ℝ := fun t => a1 / 2 * arctan (t / 2) + a2 * (t ^ 1 / (t ^ 2 + 4) ^ 1)
    + b1 / 4 * arctan (t / 4) + b2 * (t ^ 1 / (t ^ 2 + 16) ^ 1) + b3 * (t ^ 1 / (t ^ 2 + 16) ^ 2) with hG
  have hat : ∀ k t : ℝ, 0 < k → HasDerivAt (fun t => arctan (t / k)) (1 / (1 + (t / k) ^ 2) * (1 / k)) t :=
    fun k t hk => ((hasDerivAt_id t).div_const k).arctan
  have hd0 : ∀ t, HasDerivAt G (a1 / (t ^ 2 + 4) + a2 * ((4 - t ^ 2) / (t ^ 2 + 4) ^ 2) + b1 / (t ^ 2 + 16)
      + b2 * ((16 - t ^ 2) / (t ^ 2 + 16) ^ 2) + b3 * ((16 - 3 * t ^ 2) / (t ^ 2 + 16) ^ 3)) t := by
    intro t
    have := (((((hat 2 t (by norm_num)).const_mul (a1 / 2)).add
      ((hasDerivAt_ratio 4 (by norm_num) 1 1 t).const_mul a2)).add
      ((hat 4 t (by norm_num)).const_mul (b1 / 4))).add
      ((hasDerivAt_ratio 16 (by norm_num) 1 1 t).const_mul b2)).add
      ((hasDerivAt_ratio 16 (by norm_num) 1 2 t).const_mul b3)
    refine this.congr_deriv ?_
    have e2 : 1 / (1 + (t / 2) ^ 2) * (1 / 2) = 2 / (t ^ 2 + 4) := by
      field_simp; ring
    have e4 : 1 / (1 + (t / 4) ^ 2) * (1 / 4) = 4 / (t ^ 2 + 16) := by
      field_simp; ring
    rw [e2, e4]
    push_cast
    field_simp
    ring
  have hd : ∀ t ∈ Ioi (0 : ℝ), HasDerivAt G (g t) t := by
    intro t ht
    rw [h t ht]
    exact hd0 t
  have hl : Tendsto G atTop (𝓝 ((a1 / 2 + b1 / 4) * (π / 2))) := by
    have hk : ∀ k : ℝ, 0 < k → Tendsto (fun t => arctan (t / k)) atTop (𝓝 (π / 2)) := fun k hk =>
      (tendsto_arctan_atTop.mono_right nhdsWithin_le_nhds).comp (tendsto_id.atTop_div_const hk)
    have := (((((hk 2 (by norm_num)).const_mul (a1 / 2)).add
      ((tendsto_ratio 4 (by norm_num) 1 1 (by norm_num)).const_mul a2)).add
      ((hk 4 (by norm_num)).const_mul (b1 / 4))).add
      ((tendsto_ratio 16 (by norm_num) 1 1 (by norm_num)).const_mul b2)).add
      ((tendsto_ratio 16 (by norm_num) 1 2 (by norm_num)).const_mul b3)
    convert this using 2
    ring
  have hcont : ContinuousWithinAt G (Ici 0) 0 := (hd0 0).continuousAt.continuousWithinAt
  have hn' : ∀ t ∈ Ioi (0 : ℝ), 0 ≤ g t := fun t ht => hn t ht
  refine ⟨integrableOn_Ioi_deriv_of_nonneg hcont hd hn' hl, ?_⟩
  rw [integral_Ioi_of_hasDerivAt_of_nonneg hcont hd hn' hl]
  simp [hG]

theorem rat_log2 (g : ℝ → ℝ) (a1 a2 b1 b2 b3 : ℝ) (h0 : a1 + b1 = 0)
    (h : ∀ t, 0 < t → g t = t * (a1 / (t ^ 2 + 4)) - a2 * (2 * t / (t ^ 2 + 4) ^ 2) + t * (b1 / (t ^ 2 + 16))
      - b2 * (2 * t / (t ^ 2 + 16) ^ 2) - b3 * (4 * t / (t ^ 2 + 16) ^ 3))
    (hn : ∀ t, 0 < t → 0 ≤ g t) :
    IntegrableOn g (Ioi 0) ∧
      ∫ t in Ioi (0 : ℝ), g t = -((a1 * log 4 + b1 * log 16) / 2 + a2 / 4 + b2 / 16 + b3 / 256) := by
  have hlog : ∀ k t : ℝ, 0 < k → HasDerivAt (fun t => log (t ^ 2 + k)) (2 * t / (t ^ 2 + k)) t := by
    intro k t hk
    have h1 : HasDerivAt (fun t : ℝ => t ^ 2 + k) (2 * t) t := by
      simpa using ((hasDerivAt_id t).pow 2).add_const k
    exact h1.log (by positivity)
  set G : ℝ → ℝ := fun t => a1 / 2 * log (t ^ 2 + 4) + a2 * (t ^ 0 / (t ^ 2 + 4) ^ 1)
    + b1 / 2 * log (t ^ 2 + 16) + b2 * (t ^ 0 / (t ^ 2 + 16) ^ 1) + b3 * (t ^ 0 / (t ^ 2 + 16) ^ 2) with hG
  have hd0 : ∀ t, HasDerivAt G (t * (a1 / (t ^ 2 + 4)) - a2 * (2 * t / (t ^ 2 + 4) ^ 2)
      + t * (b1 / (t ^ 2 + 16))
      - b2 * (2 * t / (t ^ 2 + 16) ^ 2) - b3 * (4 * t / (t ^ 2 + 16) ^ 3)) t := by
    intro t
    have := (((((hlog 4 t (by norm_num)).const_mul (a1 / 2)).add
      ((hasDerivAt_ratio 4 (by norm_num) 0 1 t).const_mul a2)).add
      ((hlog 16 t (by norm_num)).const_mul (b1 / 2))).add
      ((hasDerivAt_ratio 16 (by norm_num) 0 1 t).const_mul b2)).add
      ((hasDerivAt_ratio 16 (by norm_num) 0 2 t).const_mul b3)
    refine this.congr_deriv ?_
    push_cast
    field_simp
    ring
  have hd : ∀ t ∈ Ioi (0 : ℝ), HasDerivAt G (g t) t := by
    intro t ht
    rw [h t ht]
    exact hd0 t
  have hl : Tendsto G atTop (𝓝 0) := by
    have hr : ∀ k : ℝ, 0 < k → Tendsto (fun t : ℝ => log (t ^ 2 + k) - 2 * log t) atTop (𝓝 0) := by
      intro k hk
      have h1 : Tendsto (fun t : ℝ => log (1 + k / t ^ 2)) atTop (𝓝 0) := by
        have : Tendsto (fun t : ℝ => 1 + k / t ^ 2) atTop (𝓝 (1 + 0)) :=
          tendsto_const_nhds.add (tendsto_const_nhds.div_atTop (tendsto_pow_atTop (by norm_num)))
        rw [add_zero] at this
        have h2 := (continuousAt_log (by norm_num : (1 : ℝ) ≠ 0)).tendsto.comp this
        simpa [Function.comp_def] using h2
      refine h1.congr' ?_
      filter_upwards [eventually_gt_atTop 0] with t ht
      rw [show 1 + k / t ^ 2 = (t ^ 2 + k) / t ^ 2 by field_simp, log_div (by positivity) (by positivity),
        log_pow]
      norm_num
    have := (((((hr 4 (by norm_num)).const_mul (a1 / 2)).add
      ((tendsto_ratio 4 (by norm_num) 0 1 (by norm_num)).const_mul a2)).add
      ((hr 16 (by norm_num)).const_mul (b1 / 2))).add
      ((tendsto_ratio 16 (by norm_num) 0 1 (by norm_num)).const_mul b2)).add
      ((tendsto_ratio 16 (by norm_num) 0 2 (by norm_num)).const_mul b3)
    simp only [mul_zero, add_zero] at this
    refine this.congr (fun t => ?_)
    simp only [hG]
    have hc : b1 = -a1 := by linarith
    rw [hc]
    ring
  have hcont : ContinuousWithinAt G (Ici 0) 0 := (hd0 0).continuousAt.continuousWithinAt
  have hn' : ∀ t ∈ Ioi (0 : ℝ), 0 ≤ g t := fun t ht => hn t ht
  refine ⟨integrableOn_Ioi_deriv_of_nonneg hcont hd hn' hl, ?_⟩
  rw [integral_Ioi_of_hasDerivAt_of_nonneg hcont hd hn' hl]
  simp only [hG]
  norm_num
  ring

theorem pvar_4 : IntegrableOn (fun z => pvarNum z / z ^ 4) (Ioi 0) ∧
    ∫ z in Ioi (0 : ℝ), pvarNum z / z ^ 4 = π / 3 := by
  apply pvar_int 3
  have := rat_atan2 (fun t : ℝ => t ^ 3 / Nat.factorial 3 *
      ((17920 * t ^ 4 + 143360 * t ^ 2 + 65536) / (t ^ 3 * (t ^ 2 + 4) ^ 2 * (t ^ 2 + 16) ^ 3)))
    (8 / 3) (-8 / 3) (-8 / 3) (8 / 3) (128 / 3)
    (by intro t ht; simp only [Nat.factorial]; push_cast; field_simp; ring) (by intro t ht; positivity)
  exact ⟨this.1, this.2.trans (by ring)⟩

theorem pvar_5 : IntegrableOn (fun z => pvarNum z / z ^ 5) (Ioi 0) ∧
    ∫ z in Ioi (0 : ℝ), pvarNum z / z ^ 5 = (4 * log 2 - 1) / 3 := by
  apply pvar_int 4
  have := rat_log2 (fun t : ℝ => t ^ 4 / Nat.factorial 4 *
      ((17920 * t ^ 4 + 143360 * t ^ 2 + 65536) / (t ^ 3 * (t ^ 2 + 4) ^ 2 * (t ^ 2 + 16) ^ 3)))
    (4 / 3) (8 / 3) (-4 / 3) (16 / 3) (-512 / 3) (by norm_num)
    (by intro t ht; simp only [Nat.factorial]; push_cast; field_simp; ring) (by intro t ht; positivity)
  obtain ⟨l4, l16, l36⟩ := log_4_16_36
  exact ⟨this.1, this.2.trans (by rw [l4, l16]; ring)⟩

theorem pvar_6 : IntegrableOn (fun z => pvarNum z / z ^ 6) (Ioi 0) ∧
    ∫ z in Ioi (0 : ℝ), pvarNum z / z ^ 6 = 2 * π / 15 := by
  apply pvar_int 5
  have := rat_atan2 (fun t : ℝ => t ^ 5 / Nat.factorial 5 *
      ((17920 * t ^ 4 + 143360 * t ^ 2 + 65536) / (t ^ 3 * (t ^ 2 + 4) ^ 2 * (t ^ 2 + 16) ^ 3)))
    (-8 / 5) (8 / 15) (64 / 15) (32 / 15) (-512 / 15)
    (by intro t ht; simp only [Nat.factorial]; push_cast; field_simp; ring) (by intro t ht; positivity)
  exact ⟨this.1, this.2.trans (by ring)⟩

theorem pvar_7 : IntegrableOn (fun z => pvarNum z / z ^ 7) (Ioi 0) ∧
    ∫ z in Ioi (0 : ℝ), pvarNum z / z ^ 7 = 4 * (7 - 4 * log 2) / 45 := by
  apply pvar_int 6
  have := rat_log2 (fun t : ℝ => t ^ 6 / Nat.factorial 6 *
      ((17920 * t ^ 4 + 143360 * t ^ 2 + 65536) / (t ^ 3 * (t ^ 2 + 4) ^ 2 * (t ^ 2 + 16) ^ 3)))
    (-16 / 45) (-16 / 45) (16 / 45) (-128 / 9) (4096 / 45) (by norm_num)
    (by intro t ht; simp only [Nat.factorial]; push_cast; field_simp; ring) (by intro t ht; positivity)
  obtain ⟨l4, l16, l36⟩ := log_4_16_36
  exact ⟨this.1, this.2.trans (by rw [l4, l16]; ring)⟩

theorem pvar_8 : IntegrableOn (fun z => pvarNum z / z ^ 8) (Ioi 0) ∧
    ∫ z in Ioi (0 : ℝ), pvarNum z / z ^ 8 = 52 * π / 315 := by
  apply pvar_int 7
  have := rat_atan2 (fun t : ℝ => t ^ 7 / Nat.factorial 7 *
      ((17920 * t ^ 4 + 143360 * t ^ 2 + 65536) / (t ^ 3 * (t ^ 2 + 4) ^ 2 * (t ^ 2 + 16) ^ 3)))
    (16 / 63) (-16 / 315) (256 / 315) (-256 / 105) (4096 / 315)
    (by intro t ht; simp only [Nat.factorial]; push_cast; field_simp; ring) (by intro t ht; positivity)
  exact ⟨this.1, this.2.trans (by ring)⟩

end AT
