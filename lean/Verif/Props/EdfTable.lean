import Verif.Props.EdfNear
import Verif.Lemmas.EdfClosed

/-!
# C89: the degrees of freedom of white noise in closed form, and the tables of `edf_greenhall`
-/

namespace AT

open Spec Finset MeasureTheory ProbabilityTheory
open scoped NNReal ENNReal

variable {Ω : Type} [MeasurableSpace Ω] {P : Measure Ω}

/-- degrees of freedom of `M` overlapping second differences of white frequency noise -/
noncomputable def Spec.edfFm2 (m M : ℝ) : ℝ := M ^ 2 / (M * (2 * m / 3 + 5 / (6 * m)) - (m ^ 2 / 3 + 1 / 6))

/-- degrees of freedom of `M` overlapping third differences of white frequency noise or modified
second differences of white phase noise -/
noncomputable def Spec.edfFm3 (m M : ℝ) : ℝ := M ^ 2 / (M * (7 * m / 9 + 7 / (6 * m)) - (m ^ 2 + 1) / 2)

/-- degrees of freedom of `M` modified second differences of white frequency noise -/
noncomputable def Spec.edfFmMod (m M : ℝ) : ℝ :=
  M ^ 2 * (m ^ 2 + 1) ^ 2 / (M * (31 * m ^ 5 / 30 + 23 * m ^ 3 / 15 + 49 * m / 30 + 9 / (5 * m))
    - (17 * m ^ 6 / 28 + 3 * m ^ 4 / 5 + m ^ 2 / 4 + 19 / 35))

/-! ## Closed forms -/

variable [IsProbabilityMeasure P] {s2 : ℝ≥0} {rate : ℝ}

theorem fm2_norm (m M : ℕ) (hm : 0 < m) (hM : 2 * m ≤ M) :
    (M : ℝ) ^ 2 * filterCov (blocks tapf 2 m) (2 * m) 1 0 ^ 2 / (M * filterCov (blocks tapf 2 m) (2 * m) 1 0 ^ 2
      + 2 * ∑ l ∈ Ico 1 M, ((M : ℝ) - l) * filterCov (blocks tapf 2 m) (2 * m) 1 l ^ 2) = edfFm2 m M := by
  have hm' : (0 : ℝ) < m := by exact_mod_cast hm
  have e : filterCov (blocks tapf 2 m) (2 * m) 1 = fun l : ℕ => (m : ℝ) / 2 * ghSz .inf 0 2 ((l : ℝ) / m) := by
    funext l
    rw [cov_fm2 m 1 l hm, mul_one]
  rw [← lagN_eq M (by omega), e, lagN_mul, lagN_fm2 m M hm hM]
  simp only [Nat.cast_zero, zero_div]
  rw [fm2_piece0 0 le_rfl zero_le_one, edfFm2, mul_zero, sub_zero]
  rw [show (M : ℝ) ^ 2 * (m / 2 * 4) ^ 2 = (4 * m ^ 2) * M ^ 2 by ring,
    show ((m : ℝ) / 2) ^ 2 * (16 * (M * (2 * m / 3 + 5 / (6 * m)) - (m ^ 2 / 3 + 1 / 6)))
      = (4 * m ^ 2) * (M * (2 * m / 3 + 5 / (6 * m)) - (m ^ 2 / 3 + 1 / 6)) by ring,
    mul_div_mul_left _ _ (by positivity)]

theorem pm_norm (m M : ℕ) (hm : 0 < m) (hM : 3 * m ≤ M) :
    (M : ℝ) ^ 2 * filterCov (blocks tap2 3 m) (3 * m) 1 0 ^ 2 / (M * filterCov (blocks tap2 3 m) (3 * m) 1 0 ^ 2
      + 2 * ∑ l ∈ Ico 1 M, ((M : ℝ) - l) * filterCov (blocks tap2 3 m) (3 * m) 1 l ^ 2) = edfFm3 m M := by
  have hm' : (0 : ℝ) < m := by exact_mod_cast hm
  have e : filterCov (blocks tap2 3 m) (3 * m) 1 = fun l : ℕ => (m : ℝ) / 2 * ghSz (.fin 1) 2 2 ((l : ℝ) / m) := by
    funext l
    rw [cov_mdev m l hm]
  rw [← lagN_eq M (by omega), e, lagN_mul, lagN_pm m M hm hM]
  simp only [Nat.cast_zero, zero_div]
  rw [pm_piece0 0 le_rfl zero_le_one, edfFm3, mul_zero, sub_zero]
  rw [show (M : ℝ) ^ 2 * (m / 2 * 12) ^ 2 = (36 * m ^ 2) * M ^ 2 by ring,
    show ((m : ℝ) / 2) ^ 2 * (144 * (M * (7 * m / 9 + 7 / (6 * m)) - (m ^ 2 + 1) / 2))
      = (36 * m ^ 2) * (M * (7 * m / 9 + 7 / (6 * m)) - (m ^ 2 + 1) / 2) by ring,
    mul_div_mul_left _ _ (by positivity)]

theorem mod_closed (m M : ℕ) (hm : 0 < m) (hM : 3 * m ≤ M) :
    (M : ℝ) ^ 2 * modCov m 0 ^ 2 / lagN M (modCov m) = edfFmMod m M := by
  have hm' : (0 : ℝ) < m := by exact_mod_cast hm
  rw [lagN_mod m M hm hM, modCov_zero, edfFmMod,
    show (M : ℝ) ^ 2 * (m * (m ^ 2 + 1)) ^ 2 = m ^ 2 * (M ^ 2 * (m ^ 2 + 1) ^ 2) by ring,
    mul_div_mul_left _ _ (by positivity)]

theorem oadev_closed {Y : ℕ → Ω → ℝ} (h : NormalNoise P Y s2) (hs : 0 < s2) (hr : 0 < rate) (c : ℝ) (N m : ℕ)
    (hm : 0 < m) (hN : 4 * m ≤ N + 1) :
    HasEdf P (fun ω => value .oadev (phaseOf (fun i => c + Y i ω) N rate) (N + 1) rate m ^ 2)
      (edfFm2 m (N + 1 - 2 * m)) := by
  have hm' : (0 : ℝ) < m := by exact_mod_cast hm
  have hN' : ((N + 1 - 2 * m : ℕ) : ℝ) = N + 1 - 2 * m := by
    rw [Nat.cast_sub (by omega)]
    push_cast
    ring
  have hp : (0 : ℝ) < N + 1 - 2 * m := by
    rw [← hN']
    exact_mod_cast (by omega : 0 < N + 1 - 2 * m)
  have h3 := edf_filter h hs (N + 1 - 2 * m) (by omega) (blocks tapf 2 m) (2 * m) 1 (blocks_zero tapf 2 m) (by
      rw [cov_fm2 m 1 0 hm]
      simpa using ⟨hm.ne', ghSz_inf_ne 2 (.inl rfl)⟩)
    (1 / (2 * (m / rate) ^ 2 * (((N + 1 : ℕ) : ℝ) - 2 * m)) * (1 / rate) ^ 2) (by push_cast; positivity)
  rw [fm2_norm m _ hm (by omega), hN'] at h3
  refine h3.congr (fun ω => ?_) rfl
  simp only [value, Spec.oadev]
  rw [rms_sq _ _ _ (by push_cast; positivity)]
  simp only [d2_fmBlocks, mul_pow, ← mul_sum, mul_one]
  ring

theorem ohdev_closed {Y : ℕ → Ω → ℝ} (h : NormalNoise P Y s2) (hs : 0 < s2) (hr : 0 < rate) (c : ℝ) (N m : ℕ)
    (hm : 0 < m) (hN : 6 * m ≤ N + 1) :
    HasEdf P (fun ω => value .ohdev (phaseOf (fun i => c + Y i ω) N rate) (N + 1) rate m ^ 2)
      (edfFm3 m (N + 1 - 3 * m)) := by
  have hm' : (0 : ℝ) < m := by exact_mod_cast hm
  have hN' : ((N + 1 - 3 * m : ℕ) : ℝ) = N + 1 - 3 * m := by
    rw [Nat.cast_sub (by omega)]
    push_cast
    ring
  have hp : (0 : ℝ) < N + 1 - 3 * m := by
    rw [← hN']
    exact_mod_cast (by omega : 0 < N + 1 - 3 * m)
  have h3 := edf_filter h hs (N + 1 - 3 * m) (by omega) (blocks tap2 3 m) (3 * m) 1 (blocks_zero tap2 3 m) (by
      rw [cov_fm3 m 1 0 hm]
      simpa using ⟨hm.ne', ghSz_inf_ne 3 (.inr rfl)⟩)
    (1 / (6 * (m / rate) ^ 2 * (((N + 1 : ℕ) : ℝ) - 3 * m)) * (1 / rate) ^ 2) (by push_cast; positivity)
  rw [pm_norm m _ hm (by omega), hN'] at h3
  refine h3.congr (fun ω => ?_) rfl
  simp only [value, Spec.ohdev]
  rw [rms_sq _ _ _ (by push_cast; positivity)]
  simp only [d3_fmBlocks, mul_pow, ← mul_sum, mul_one]
  ring

theorem mdev_closed {Y : ℕ → Ω → ℝ} (h : NormalNoise P Y s2) (hs : 0 < s2) (hr : 0 < rate) (c : ℝ) (N m : ℕ)
    (hm : 0 < m) (hN : 6 * m ≤ N + 2) (k : ℝ) (hk : k ≠ 0) :
    HasEdf P (fun ω => (k * Spec.mdev (phaseOf (fun i => c + Y i ω) N rate) (N + 1) m (m / rate)) ^ 2)
      (edfFmMod m (N + 2 - 3 * m)) := by
  have h3 := mdev_hasEdf_fm h hs hr c N m hm (by push_cast; omega) k hk
  rw [mod_closed m _ hm (by omega)] at h3
  refine h3.congr (fun _ => rfl) ?_
  congr 1
  push_cast [Nat.cast_sub (show 3 * m ≤ N + 1 by omega)]
  ring

theorem mdev_closed_pm {W : ℕ → Ω → ℝ} (h : NormalNoise P W s2) (hs : 0 < s2) (hr : 0 < rate) (a b : ℝ) (N m : ℕ) (hm : 0 < m)
    (hN : 6 * m ≤ N + 1) (k : ℝ) (hk : k ≠ 0) :
    HasEdf P (fun ω => (k * Spec.mdev (offsetPhase a b (fun i => W i ω)) N m (m / rate)) ^ 2)
      (edfFm3 m (N + 1 - 3 * m)) := by
  have hm' : (0 : ℝ) < m := by exact_mod_cast hm
  have hN' : ((N - 3 * m + 1 : ℕ) : ℝ) = N + 1 - 3 * m := by
    push_cast [Nat.cast_sub (show 3 * m ≤ N by omega)]
    ring
  have hp : (0 : ℝ) < N - 3 * m + 1 := by
    have : (0 : ℝ) < ((N - 3 * m + 1 : ℕ) : ℝ) := by exact_mod_cast (by omega : 0 < N - 3 * m + 1)
    linarith
  have h3 := edf_filter h hs (N - 3 * m + 1) (by omega) (blocks tap2 3 m) (3 * m) 1
    (blocks_zero tap2 3 m) (by
      rw [cov_mdev m 0 hm, Nat.cast_zero, zero_div, pm_piece0 0 le_rfl zero_le_one]
      norm_num
      exact hm.ne')
    (k ^ 2 / (2 * m ^ 2 * (m / rate) ^ 2 * (N - 3 * m + 1))) (by positivity)
  rw [pm_norm m _ hm (by omega), hN'] at h3
  refine h3.congr (fun ω => ?_) rfl
  simp only [Spec.mdev]
  rw [mul_pow, rms_sq _ _ _ (by positivity)]
  simp only [mdev_blocks]
  ring

/-! ## The tables -/

/-- what `edf_greenhall` returns when it uses a table -/
theorem edf_call_table (alpha : ℤ) (d m N : ℕ) (ov md : Bool) (a : ℝ × ℝ) (h0 : -4 ≤ alpha) (h1 : alpha ≤ 2) (hd : 1 ≤ d)
    (hd3 : d ≤ 3) (h : 1 < alpha + 2 * d) (hm : 0 < m) (hN : ghL d m md ≤ N)
    (hc : ghCrash alpha d m N ov md = none)
    (hi : ghInv alpha d m N ov md = (a.1 - a.2 / ghR d m N ov md, ghR d m N ov md))
    (hpos : 0 < a.1 - a.2 / ghR d m N ov md) :
    edf_greenhall alpha d m N ov md = .ok (some (ghR d m N ov md / (a.1 - a.2 / ghR d m N ov md))) := by
  have hM : (0 : ℝ) < ghM d m N ov md := by exact_mod_cast ghM_pos d m N ov md
  have hS : (0 : ℝ) < ghS m ov := by exact_mod_cast ghS_pos m ov hm
  have hR : 0 < ghR d m N ov md := div_pos hM hS
  rw [edf_greenhall_eq_partial alpha d m N ov md h0 h1 hd hd3 h hm hN, hc]
  simp only
  rw [hi]
  simp only
  rw [(invEdf_pos hpos hR).1]

theorem sqrt_near (R Dc Dt ε : ℝ) (hR : 0 < R) (hc : 0 < Dc) (ht : 0 < Dt) (h : |Dt - Dc| ≤ ε * Dc) :
    |√(R / Dc) - √(R / Dt)| ≤ ε * √(R / Dt) := by
  have e : R / Dc = R / Dt * (Dt / Dc) := by field_simp
  have hq : 0 < Dt / Dc := by positivity
  have h1 : |√(Dt / Dc) - 1| ≤ ε := by
    have h2 : |Dt / Dc - 1| ≤ ε := by
      rw [show Dt / Dc - 1 = (Dt - Dc) / Dc by field_simp, abs_div, abs_of_pos hc, div_le_iff₀ hc]
      exact h
    refine le_trans ?_ h2
    have h3 : Dt / Dc - 1 = (√(Dt / Dc) - 1) * (√(Dt / Dc) + 1) := by
      have := Real.mul_self_sqrt hq.le
      linear_combination -this
    rw [h3, abs_mul]
    have h4 : 1 ≤ |√(Dt / Dc) + 1| := by
      rw [abs_of_pos (by positivity)]
      have := Real.sqrt_nonneg (Dt / Dc)
      linarith
    nlinarith [abs_nonneg (√(Dt / Dc) - 1)]
  rw [e, Real.sqrt_mul (by positivity), show √(R / Dt) * √(Dt / Dc) - √(R / Dt) = (√(Dt / Dc) - 1) * √(R / Dt) by ring,
    abs_mul, abs_of_nonneg (Real.sqrt_nonneg (R / Dt))]
  exact mul_le_mul_of_nonneg_right h1 (Real.sqrt_nonneg _)

/-- `R = M/m` and the closed form -/
theorem closed_fm2 (m M : ℝ) (hm : 0 < m) (hM : 0 < M) :
    edfFm2 m M = M / m / (2 / 3 + 5 / (6 * m ^ 2) - (1 / 3 + 1 / (6 * m ^ 2)) / (M / m)) := by
  rw [edfFm2, show M * (2 * m / 3 + 5 / (6 * m)) - (m ^ 2 / 3 + 1 / 6)
    = (M * m) * (2 / 3 + 5 / (6 * m ^ 2) - (1 / 3 + 1 / (6 * m ^ 2)) / (M / m)) by field_simp,
    show M ^ 2 = (M * m) * (M / m) by field_simp, mul_div_mul_left _ _ (by positivity)]

theorem closed_fm3 (m M : ℝ) (hm : 0 < m) (hM : 0 < M) :
    edfFm3 m M = M / m / (7 / 9 + 7 / (6 * m ^ 2) - (1 / 2 + 1 / (2 * m ^ 2)) / (M / m)) := by
  rw [edfFm3, show M * (7 * m / 9 + 7 / (6 * m)) - (m ^ 2 + 1) / 2
    = (M * m) * (7 / 9 + 7 / (6 * m ^ 2) - (1 / 2 + 1 / (2 * m ^ 2)) / (M / m)) by field_simp,
    show M ^ 2 = (M * m) * (M / m) by field_simp, mul_div_mul_left _ _ (by positivity)]

theorem closed_mod (m M : ℝ) (hm : 0 < m) (hM : 0 < M) :
    edfFmMod m M = M / m / ((31 / 30 + 23 / (15 * m ^ 2) + 49 / (30 * m ^ 4) + 9 / (5 * m ^ 6)
      - (17 / 28 + 3 / (5 * m ^ 2) + 1 / (4 * m ^ 4) + 19 / (35 * m ^ 6)) / (M / m)) / (1 + 1 / m ^ 2) ^ 2) := by
  rw [edfFmMod, show M * (31 * m ^ 5 / 30 + 23 * m ^ 3 / 15 + 49 * m / 30 + 9 / (5 * m))
    - (17 * m ^ 6 / 28 + 3 * m ^ 4 / 5 + m ^ 2 / 4 + 19 / 35)
    = (M * m ^ 5) * (31 / 30 + 23 / (15 * m ^ 2) + 49 / (30 * m ^ 4) + 9 / (5 * m ^ 6)
      - (17 / 28 + 3 / (5 * m ^ 2) + 1 / (4 * m ^ 4) + 19 / (35 * m ^ 6)) / (M / m)) by field_simp,
    show M ^ 2 * (m ^ 2 + 1) ^ 2 = (M * m ^ 5) * (M / m * (1 + 1 / m ^ 2) ^ 2) by field_simp,
    mul_div_mul_left _ _ (by positivity)]
  exact (div_div_eq_mul_div (M / m) _ _).symm

omit [IsProbabilityMeasure P] in
/-- the value of the table and the closed form differ by the relative error `ε` -/
theorem within_table {D : Ω → ℝ} (alpha : ℤ) (d m N : ℕ) (md : Bool) (a : ℝ × ℝ) (Dt ε e : ℝ) (h0 : -4 ≤ alpha) (h1 : alpha ≤ 2)
    (hd : 1 ≤ d) (hd3 : d ≤ 3) (h : 1 < alpha + 2 * d) (hm : 0 < m) (hN : ghL d m md ≤ N)
    (hc : ghCrash alpha d m N true md = none)
    (hi : ghInv alpha d m N true md = (a.1 - a.2 / ghR d m N true md, ghR d m N true md))
    (hpos : 0 < a.1 - a.2 / ghR d m N true md) (ht : 0 < Dt)
    (hD : |Dt - (a.1 - a.2 / ghR d m N true md)| ≤ ε * (a.1 - a.2 / ghR d m N true md))
    (he : HasEdf P (fun ω => D ω ^ 2) e) (hE : e = ghR d m N true md / Dt) :
    EdfWithin P (edf_greenhall alpha d m N true md) D ε := by
  have hM : (0 : ℝ) < ghM d m N true md := by exact_mod_cast ghM_pos d m N true md
  have hS : (0 : ℝ) < ghS m true := by exact_mod_cast ghS_pos m true hm
  have hR : 0 < ghR d m N true md := div_pos hM hS
  refine ⟨_, _, edf_call_table alpha d m N true md a h0 h1 hd hd3 h hm hN hc hi hpos, div_pos hR hpos, he, ?_, ?_⟩
  · rw [hE]
    exact div_pos hR ht
  · rw [hE]
    exact sqrt_near _ _ _ _ hR hpos ht hD

theorem ghR_ov (d m N : ℕ) (md : Bool) (hm : 0 < m) (hN : ghL d m md ≤ N) :
    ghR d m N true md = ((N : ℝ) - ghL d m md + 1) / m := by
  unfold ghR
  rw [ghM_ov _ _ _ _ hm, show ghS m true = m from rfl]
  push_cast [Nat.cast_sub hN]
  ring

/-- distance of the table of second differences from the closed form -/
theorem table_fm2_bound (u t : ℝ) (hu : 0 < u) (ht : 0 < t) (h : 3 * t < 1) :
    0 < 2 / 3 - 1 / 3 * t ∧ 0 < 2 / 3 + 5 / 6 * u - (1 / 3 + 1 / 6 * u) * t ∧
      |2 / 3 + 5 / 6 * u - (1 / 3 + 1 / 6 * u) * t - (2 / 3 - 1 / 3 * t)| ≤ 3 / 2 * u * (2 / 3 - 1 / 3 * t) := by
  refine ⟨by linarith, by nlinarith, abs_le.2 ⟨by nlinarith, by nlinarith⟩⟩

/-- distance of the tables of third differences and of modified second differences from the closed form -/
theorem table_fm3_bound (u t : ℝ) (hu : 0 < u) (ht : 0 < t) (h : 3 * t < 1) :
    0 < 7 / 9 - 1 / 2 * t ∧ 0 < 7 / 9 + 7 / 6 * u - (1 / 2 + 1 / 2 * u) * t ∧
      |7 / 9 + 7 / 6 * u - (1 / 2 + 1 / 2 * u) * t - (7 / 9 - 1 / 2 * t)| ≤ 2 * u * (7 / 9 - 1 / 2 * t) := by
  refine ⟨by linarith, by nlinarith, abs_le.2 ⟨by nlinarith, by nlinarith⟩⟩

/-- distance of the table of modified second differences of white frequency noise from the closed form -/
theorem table_mod_bound (u t : ℝ) (hu : 0 < u) (hu1 : u ≤ 1 / 1000) (ht : 0 < t) (h : 3 * t < 1) :
    0 < 1.033 - 0.607 * t ∧
    0 < (31 / 30 + 23 / 15 * u + 49 / 30 * u ^ 2 + 9 / 5 * u ^ 3
      - (17 / 28 + 3 / 5 * u + 1 / 4 * u ^ 2 + 19 / 35 * u ^ 3) * t) / (1 + u) ^ 2 ∧
    |(31 / 30 + 23 / 15 * u + 49 / 30 * u ^ 2 + 9 / 5 * u ^ 3
      - (17 / 28 + 3 / 5 * u + 1 / 4 * u ^ 2 + 19 / 35 * u ^ 3) * t) / (1 + u) ^ 2 - (1.033 - 0.607 * t)|
      ≤ (1 / 2000 + u) * (1.033 - 0.607 * t) := by
  have hs : 0 < (1 + u) ^ 2 := by positivity
  have h2 : 0 < u ^ 2 := by positivity
  have h3 : 0 < u ^ 3 := by positivity
  have h4 : u ^ 2 ≤ u / 1000 := by nlinarith
  have h5 : u ^ 3 ≤ u / 1000 := by nlinarith
  have b1 : 0 < u * t := by positivity
  have b2 : 0 < u ^ 2 * t := by positivity
  have b3 : 0 < u ^ 3 * t := by positivity
  have c1 : 3 * (u * t) < u := by nlinarith
  have c2 : 3 * (u ^ 2 * t) < u ^ 2 := by nlinarith
  have c3 : 3 * (u ^ 3 * t) < u ^ 3 := by nlinarith
  refine ⟨by linarith, div_pos (by linarith) hs, ?_⟩
  rw [show ∀ a b : ℝ, a / (1 + u) ^ 2 - b = (a - b * (1 + u) ^ 2) / (1 + u) ^ 2 from fun a b => by field_simp,
    abs_div, abs_of_pos hs, div_le_iff₀ hs]
  exact abs_le.2 ⟨by ring_nf; ring_nf at *; linarith, by ring_nf; ring_nf at *; linarith⟩

theorem oadev_table {Y : ℕ → Ω → ℝ} (h : NormalNoise P Y s2) (hs : 0 < s2) (hr : 0 < rate) (c : ℝ) (N m : ℕ)
    (hm : 0 < m) (hJ : 100 < 3 * m) (hN : 5 * m < N + 1) :
    EdfWithin P (edf_greenhall 0 2 m (N + 1) true false)
      (fun ω => value .oadev (phaseOf (fun i => c + Y i ω) N rate) (N + 1) rate m) (3 / 2 / m ^ 2) := by
  have hm' : (0 : ℝ) < m := by exact_mod_cast hm
  have hp : (3 : ℝ) * m < N + 1 - 2 * m := by
    have : (5 : ℝ) * m < N + 1 := by exact_mod_cast hN
    linarith
  have hp0 : (0 : ℝ) < N + 1 - 2 * m := by linarith
  have eL : ghL 2 m false ≤ N + 1 := by simp only [ghL]; split <;> omega
  have eR : ghR 2 m (N + 1) true false = (N + 1 - 2 * m) / m := by
    rw [ghR_ov 2 m (N + 1) false hm eL, ghL]
    push_cast
    ring
  have hM : 100 < ghJ 2 m (N + 1) true false := by
    rw [ghJ, ghM_ov _ _ _ _ hm]
    simp only [ghL, ghS, if_true, Bool.false_eq_true, if_false]
    omega
  have hr3 : (3 : ℝ) < (N + 1 - 2 * m) / m := by rw [lt_div_iff₀ hm']; exact hp
  obtain ⟨b1, b2, b3⟩ := table_fm2_bound (1 / m ^ 2) (1 / ((N + 1 - 2 * m) / m)) (by positivity) (by positivity) (by
    rw [mul_one_div, div_lt_one (by positivity)]
    exact hr3)
  refine within_table 0 2 m (N + 1) false (2 / 3, 1 / 3)
    (2 / 3 + 5 / (6 * m ^ 2) - (1 / 3 + 1 / (6 * m ^ 2)) / ((N + 1 - 2 * m) / m)) _ _ (by norm_num) (by norm_num)
    (by norm_num) (by norm_num) (by norm_num) hm eL (by simp [ghCrash]) ?_ ?_ ?_ ?_
    (oadev_closed h hs hr c N m hm (by omega)) ?_
  · unfold ghInv
    rw [if_neg (by simp), if_pos (by norm_num), if_neg (by omega), if_pos (by rw [eR]; push_cast; linarith)]
    simp only [ghTable2]
  · rw [eR]
    convert b1 using 1
    ring
  · convert b2 using 1
    ring
  · rw [eR]
    convert b3 using 1
    · congr 1
      ring
    · ring
  · rw [eR, closed_fm2 m _ hm' hp0]

theorem ohdev_table {Y : ℕ → Ω → ℝ} (h : NormalNoise P Y s2) (hs : 0 < s2) (hr : 0 < rate) (c : ℝ) (N m : ℕ)
    (hm : 0 < m) (hJ : 100 < 4 * m) (hN : 7 * m < N + 1) :
    EdfWithin P (edf_greenhall 0 3 m (N + 1) true false)
      (fun ω => value .ohdev (phaseOf (fun i => c + Y i ω) N rate) (N + 1) rate m) (2 / m ^ 2) := by
  have hm' : (0 : ℝ) < m := by exact_mod_cast hm
  have hp : (4 : ℝ) * m < N + 1 - 3 * m := by
    have : (7 : ℝ) * m < N + 1 := by exact_mod_cast hN
    linarith
  have hp0 : (0 : ℝ) < N + 1 - 3 * m := by linarith
  have eL : ghL 3 m false ≤ N + 1 := by simp only [ghL]; split <;> omega
  have eR : ghR 3 m (N + 1) true false = (N + 1 - 3 * m) / m := by
    rw [ghR_ov 3 m (N + 1) false hm eL, ghL]
    push_cast
    ring
  have hM : 100 < ghJ 3 m (N + 1) true false := by
    rw [ghJ, ghM_ov _ _ _ _ hm]
    simp only [ghL, ghS, if_true, Bool.false_eq_true, if_false]
    omega
  have hr3 : (4 : ℝ) < (N + 1 - 3 * m) / m := by rw [lt_div_iff₀ hm']; exact hp
  obtain ⟨b1, b2, b3⟩ := table_fm3_bound (1 / m ^ 2) (1 / ((N + 1 - 3 * m) / m)) (by positivity) (by positivity) (by
    rw [mul_one_div, div_lt_one (by positivity)]
    linarith)
  refine within_table 0 3 m (N + 1) false (7 / 9, 1 / 2)
    (7 / 9 + 7 / (6 * m ^ 2) - (1 / 2 + 1 / (2 * m ^ 2)) / ((N + 1 - 3 * m) / m)) _ _ (by norm_num) (by norm_num)
    (by norm_num) (by norm_num) (by norm_num) hm eL (by simp [ghCrash]) ?_ ?_ ?_ ?_
    (ohdev_closed h hs hr c N m hm (by omega)) ?_
  · unfold ghInv
    rw [if_neg (by simp), if_pos (by norm_num), if_neg (by omega), if_pos (by rw [eR]; push_cast; linarith)]
    simp only [ghTable2]
  · rw [eR]
    convert b1 using 1
    ring
  · convert b2 using 1
    ring
  · rw [eR]
    convert b3 using 1
    · congr 1
      ring
    · ring
  · rw [eR, closed_fm3 m _ hm' hp0]

/-- the call for the modified variances -/
theorem mod_table_call (alpha : ℤ) (m N : ℕ) (hm : 0 < m) (hJ : 100 < 3 * m) (hN : 6 * m < N + 1) :
    ghL 2 m true ≤ N ∧ ghR 2 m N true true = ((N : ℝ) + 1 - 3 * m) / m ∧ (3 : ℝ) < (N + 1 - 3 * m) / m ∧
      ghInv alpha 2 m N true true = ((ghTable1 alpha 2).1 - (ghTable1 alpha 2).2 / ghR 2 m N true true, ghR 2 m N true true) := by
  have hm' : (0 : ℝ) < m := by exact_mod_cast hm
  have hp : (3 : ℝ) * m < N + 1 - 3 * m := by
    have : (6 : ℝ) * m < N + 1 := by exact_mod_cast hN
    linarith
  have eL : ghL 2 m true ≤ N := by simp only [ghL, if_true]; omega
  have eR : ghR 2 m N true true = ((N : ℝ) + 1 - 3 * m) / m := by
    rw [ghR_ov 2 m N true hm eL, ghL, if_pos rfl]
    push_cast
    ring
  have hM : 100 < ghJ 2 m N true true := by
    rw [ghJ, ghM_ov _ _ _ _ hm]
    simp only [ghL, ghS, if_true]
    omega
  have hr3 : (3 : ℝ) < (N + 1 - 3 * m) / m := by rw [lt_div_iff₀ hm']; exact hp
  refine ⟨eL, eR, hr3, ?_⟩
  unfold ghInv
  rw [if_pos rfl, if_neg (by omega), if_pos (by rw [eR]; push_cast; linarith)]

theorem mdev_table {Y : ℕ → Ω → ℝ} (h : NormalNoise P Y s2) (hs : 0 < s2) (hr : 0 < rate) (c : ℝ) (N m : ℕ)
    (hm : 0 < m) (hJ : 100 < 3 * m) (hN : 6 * m < N + 2) (k : ℝ) (hk : k ≠ 0) :
    EdfWithin P (edf_greenhall 0 2 m (N + 1) true true)
      (fun ω => k * Spec.mdev (phaseOf (fun i => c + Y i ω) N rate) (N + 1) m (m / rate)) (1 / 2000 + 1 / m ^ 2) := by
  have hm' : (0 : ℝ) < m := by exact_mod_cast hm
  have hm34 : (34 : ℝ) ≤ m := by exact_mod_cast (by omega : 34 ≤ m)
  obtain ⟨eL, eR, hr3, hi⟩ := mod_table_call 0 m (N + 1) hm hJ (by omega)
  rw [show ((N + 1 : ℕ) : ℝ) + 1 - 3 * m = N + 2 - 3 * m by push_cast; ring] at eR hr3
  have hp0 : (0 : ℝ) < N + 2 - 3 * m := by
    rw [lt_div_iff₀ hm'] at hr3
    linarith
  obtain ⟨b1, b2, b3⟩ := table_mod_bound (1 / m ^ 2) (1 / ((N + 2 - 3 * m) / m)) (by positivity)
    (by
      rw [div_le_div_iff₀ (by positivity) (by norm_num)]
      nlinarith) (by positivity) (by
    rw [mul_one_div, div_lt_one (by positivity)]
    exact hr3)
  refine within_table 0 2 m (N + 1) true (1.033, 0.607)
    ((31 / 30 + 23 / (15 * m ^ 2) + 49 / (30 * m ^ 4) + 9 / (5 * m ^ 6)
      - (17 / 28 + 3 / (5 * m ^ 2) + 1 / (4 * m ^ 4) + 19 / (35 * m ^ 6)) / ((N + 2 - 3 * m) / m)) / (1 + 1 / m ^ 2) ^ 2)
    _ _ (by norm_num) (by norm_num)
    (by norm_num) (by norm_num) (by norm_num) hm eL (by simp [ghCrash]) hi ?_ ?_ ?_
    (mdev_closed h hs hr c N m hm (by omega) k hk) ?_
  · rw [eR]
    convert b1 using 1
    ring
  · convert b2 using 1
    ring
  · rw [eR]
    convert b3 using 1
    · congr 1
      ring
    · ring
  · rw [eR, closed_mod m _ hm' hp0]

theorem mdev_table_pm {W : ℕ → Ω → ℝ} (h : NormalNoise P W s2) (hs : 0 < s2) (hr : 0 < rate) (a b : ℝ) (N m : ℕ)
    (hm : 0 < m) (hJ : 100 < 3 * m) (hN : 6 * m < N + 1) (k : ℝ) (hk : k ≠ 0) :
    EdfWithin P (edf_greenhall 2 2 m N true true)
      (fun ω => k * Spec.mdev (offsetPhase a b (fun i => W i ω)) N m (m / rate)) (2 / m ^ 2) := by
  have hm' : (0 : ℝ) < m := by exact_mod_cast hm
  obtain ⟨eL, eR, hr3, hi⟩ := mod_table_call 2 m N hm hJ hN
  have hp0 : (0 : ℝ) < N + 1 - 3 * m := by
    rw [lt_div_iff₀ hm'] at hr3
    linarith
  obtain ⟨b1, b2, b3⟩ := table_fm3_bound (1 / m ^ 2) (1 / ((N + 1 - 3 * m) / m)) (by positivity) (by positivity) (by
    rw [mul_one_div, div_lt_one (by positivity)]
    exact hr3)
  refine within_table 2 2 m N true (7 / 9, 1 / 2)
    (7 / 9 + 7 / (6 * m ^ 2) - (1 / 2 + 1 / (2 * m ^ 2)) / ((N + 1 - 3 * m) / m)) _ _ (by norm_num) (by norm_num)
    (by norm_num) (by norm_num) (by norm_num) hm eL (by simp [ghCrash]) hi ?_ ?_ ?_
    (mdev_closed_pm h hs hr a b N m hm (by omega) k hk) ?_
  · rw [eR]
    convert b1 using 1
    ring
  · convert b2 using 1
    ring
  · rw [eR]
    convert b3 using 1
    · congr 1
      ring
    · ring
  · rw [eR, closed_fm3 m _ hm' hp0]

/-! ## The claims -/

/-- **C89, closed forms.** White frequency noise (a constant `c` plus independent normal samples) and white phase noise
(a line plus independent normal samples).  At every averaging factor `m` that the overlapping or modified deviation
function reports and whose estimate has at least `2 m` (for third differences and modified variances `3 m`) summands
the equivalent degrees of freedom of the squared deviation are the rational function of `m` and the number of summands. -/
theorem edf_white_closed {Y : ℕ → Ω → ℝ} (h : NormalNoise P Y s2) (hs : 0 < s2) (hr : 0 < rate) (a b c : ℝ) (N : ℕ) :
    Reports .oadev (fun ω => tab N (fun i => c + Y i ω)) rate "freq"
      (fun m D => 4 * m ≤ N + 1 → HasEdf P (fun ω => D ω ^ 2) (edfFm2 m (N + 1 - 2 * m))) ∧
    Reports .ohdev (fun ω => tab N (fun i => c + Y i ω)) rate "freq"
      (fun m D => 6 * m ≤ N + 1 → HasEdf P (fun ω => D ω ^ 2) (edfFm3 m (N + 1 - 3 * m))) ∧
    Reports .mdev (fun ω => tab N (fun i => c + Y i ω)) rate "freq"
      (fun m D => 6 * m ≤ N + 2 → HasEdf P (fun ω => D ω ^ 2) (edfFmMod m (N + 2 - 3 * m))) ∧
    Reports .tdev (fun ω => tab N (fun i => c + Y i ω)) rate "freq"
      (fun m D => 6 * m ≤ N + 2 → HasEdf P (fun ω => D ω ^ 2) (edfFmMod m (N + 2 - 3 * m))) ∧
    Reports .mdev (fun ω => tab N (offsetPhase a b (fun i => Y i ω))) rate "phase"
      (fun m D => 6 * m ≤ N + 1 → HasEdf P (fun ω => D ω ^ 2) (edfFm3 m (N + 1 - 3 * m))) ∧
    Reports .tdev (fun ω => tab N (offsetPhase a b (fun i => Y i ω))) rate "phase"
      (fun m D => 6 * m ≤ N + 1 → HasEdf P (fun ω => D ω ^ 2) (edfFm3 m (N + 1 - 3 * m))) := by
  have hp : ∀ fn Q, (∀ m, Usable fn (N + 1) m →
      Q m (fun ω => value fn (phaseOf (fun i => c + Y i ω) N rate) (N + 1) rate m)) →
      Reports fn (fun ω => tab N (fun i => c + Y i ω)) rate "freq" Q := fun fn Q hv =>
    reports_freq fn (fun i ω => c + Y i ω) N rate hr Q hv
  have hq : ∀ fn Q, (∀ m, Usable fn N m → Q m (fun ω => value fn (offsetPhase a b (fun i => Y i ω)) N rate m)) →
      Reports fn (fun ω => tab N (offsetPhase a b (fun i => Y i ω))) rate "phase" Q := fun fn Q hv =>
    reports_phase fn (fun i ω => offsetPhase a b (fun i => Y i ω) i) N rate hr Q hv
  refine ⟨hp _ _ fun m hu hc => oadev_closed h hs hr c N m hu.1 hc, hp _ _ fun m hu hc => ohdev_closed h hs hr c N m hu.1 hc,
    hp _ _ fun m hu hc => ?_, hp _ _ fun m hu hc => ?_, hq _ _ fun m hu hc => ?_, hq _ _ fun m hu hc => ?_⟩
  · have := mdev_closed h hs hr c N m hu.1 hc 1 one_ne_zero
    simp only [one_mul] at this
    exact this
  · have hm' : (0 : ℝ) < m := by exact_mod_cast hu.1
    exact mdev_closed h hs hr c N m hu.1 hc (m / rate / √3) (by positivity)
  · have := mdev_closed_pm h hs hr a b N m hu.1 hc 1 one_ne_zero
    simp only [one_mul] at this
    exact this
  · have hm' : (0 : ℝ) < m := by exact_mod_cast hu.1
    exact mdev_closed_pm h hs hr a b N m hu.1 hc (m / rate / √3) (by positivity)

/-- **C89, tables.** The noise is that of `edf_white_closed`.  Where `edf_greenhall` uses its tables (more than 100
terms in the basic sum and more than `(d+1) m` summands in the estimate) the square root of the number it returns
differs from that of the equivalent degrees of freedom by a relative error of order `1/m²`; for the modified variances
of white frequency noise, whose table has three decimals, by `1/2000` more. -/
theorem edf_white_table {Y : ℕ → Ω → ℝ} (h : NormalNoise P Y s2) (hs : 0 < s2) (hr : 0 < rate) (a b c : ℝ) (N : ℕ) :
    Reports .oadev (fun ω => tab N (fun i => c + Y i ω)) rate "freq"
      (fun m D => 100 < 3 * m → 5 * m < N + 1 → EdfWithin P (edf_greenhall 0 2 m (N + 1) true false) D (3 / 2 / m ^ 2)) ∧
    Reports .ohdev (fun ω => tab N (fun i => c + Y i ω)) rate "freq"
      (fun m D => 100 < 4 * m → 7 * m < N + 1 → EdfWithin P (edf_greenhall 0 3 m (N + 1) true false) D (2 / m ^ 2)) ∧
    Reports .mdev (fun ω => tab N (fun i => c + Y i ω)) rate "freq"
      (fun m D => 100 < 3 * m → 6 * m < N + 2 →
        EdfWithin P (edf_greenhall 0 2 m (N + 1) true true) D (1 / 2000 + 1 / m ^ 2)) ∧
    Reports .tdev (fun ω => tab N (fun i => c + Y i ω)) rate "freq"
      (fun m D => 100 < 3 * m → 6 * m < N + 2 →
        EdfWithin P (edf_greenhall 0 2 m (N + 1) true true) D (1 / 2000 + 1 / m ^ 2)) ∧
    Reports .mdev (fun ω => tab N (offsetPhase a b (fun i => Y i ω))) rate "phase"
      (fun m D => 100 < 3 * m → 6 * m < N + 1 → EdfWithin P (edf_greenhall 2 2 m N true true) D (2 / m ^ 2)) ∧
    Reports .tdev (fun ω => tab N (offsetPhase a b (fun i => Y i ω))) rate "phase"
      (fun m D => 100 < 3 * m → 6 * m < N + 1 → EdfWithin P (edf_greenhall 2 2 m N true true) D (2 / m ^ 2)) := by
  have hp : ∀ fn Q, (∀ m, Usable fn (N + 1) m →
      Q m (fun ω => value fn (phaseOf (fun i => c + Y i ω) N rate) (N + 1) rate m)) →
      Reports fn (fun ω => tab N (fun i => c + Y i ω)) rate "freq" Q := fun fn Q hv =>
    reports_freq fn (fun i ω => c + Y i ω) N rate hr Q hv
  have hq : ∀ fn Q, (∀ m, Usable fn N m → Q m (fun ω => value fn (offsetPhase a b (fun i => Y i ω)) N rate m)) →
      Reports fn (fun ω => tab N (offsetPhase a b (fun i => Y i ω))) rate "phase" Q := fun fn Q hv =>
    reports_phase fn (fun i ω => offsetPhase a b (fun i => Y i ω) i) N rate hr Q hv
  refine ⟨hp _ _ fun m hu hJ hc => oadev_table h hs hr c N m hu.1 hJ hc,
    hp _ _ fun m hu hJ hc => ohdev_table h hs hr c N m hu.1 hJ hc,
    hp _ _ fun m hu hJ hc => ?_, hp _ _ fun m hu hJ hc => ?_, hq _ _ fun m hu hJ hc => ?_, hq _ _ fun m hu hJ hc => ?_⟩
  · have := mdev_table h hs hr c N m hu.1 hJ hc 1 one_ne_zero
    simp only [one_mul] at this
    exact this
  · have hm' : (0 : ℝ) < m := by exact_mod_cast hu.1
    exact mdev_table h hs hr c N m hu.1 hJ hc (m / rate / √3) (by positivity)
  · have := mdev_table_pm h hs hr a b N m hu.1 hJ hc 1 one_ne_zero
    simp only [one_mul] at this
    exact this
  · have hm' : (0 : ℝ) < m := by exact_mod_cast hu.1
    exact mdev_table_pm h hs hr a b N m hu.1 hJ hc (m / rate / √3) (by positivity)

/-! ## Non-vacuity -/

/-- 1000 standard normal frequency values plus 3 at 2 Hz, `oadev` asked for the averaging time 20 s (`m = 40`): the
estimate has 921 summands, its degrees of freedom are `921² / (921 (80/3 + 1/48) - (1600/3 + 1/6))` and `edf_greenhall`
is within 0.1 % (square roots) -/
example : ∃ d : (ℕ → ℝ) → ℝ,
    (∀ ω, ∃ errs ns, DevName.oadev.run (tab 1000 (fun i => 3 + ω i)) 2 "freq" (.list [(40 : ℕ) / 2])
      = .ok ⟨[(40 : ℕ) / 2], [d ω], errs, ns⟩) ∧
    HasEdf gaussNoise (fun ω => d ω ^ 2) (921 ^ 2 / (921 * (80 / 3 + 1 / 48) - (1600 / 3 + 1 / 6))) ∧
    EdfWithin gaussNoise (edf_greenhall 0 2 40 1001 true false) d (3 / 2 / (40 : ℕ) ^ 2) := by
  have hr : (0 : ℝ) < 2 := by norm_num
  have hu : Usable .oadev (1000 + 1) 40 := ⟨by norm_num, by simp [lenOf], by simp [maxOf]; norm_num, by simp, by simp [count]⟩
  refine ⟨_, fun ω => run_freq_at (by norm_num) hu hr _, ?_,
    (edf_white_table normal_gauss one_pos hr 0 0 3 1000).1.single hr.ne' (fun _ => 0) 40 _
      (fun ω => run_freq_at (by norm_num) hu hr _) (by norm_num) (by norm_num)⟩
  have := (edf_white_closed normal_gauss one_pos hr 0 0 3 1000).1.single hr.ne' (fun _ => 0) 40 _
      (fun ω => run_freq_at (by norm_num) hu hr _) (by norm_num)
  refine this.congr (fun _ => rfl) ?_
  unfold edfFm2
  norm_num

/-- 600 phase values at 2 Hz, `mdev` asked for the averaging time 20 s (`m = 40`) -/
example : ∃ d : (ℕ → ℝ) → ℝ,
    (∀ ω, ∃ errs ns, DevName.mdev.run (tab 600 (offsetPhase 1 2 (fun i => ω i))) 2 "phase" (.list [(40 : ℕ) / 2])
      = .ok ⟨[(40 : ℕ) / 2], [d ω], errs, ns⟩) ∧
    EdfWithin gaussNoise (edf_greenhall 2 2 40 600 true true) d (2 / (40 : ℕ) ^ 2) := by
  have hr : (0 : ℝ) < 2 := by norm_num
  have hu : Usable .mdev 600 40 := ⟨by norm_num, by simp [lenOf], by simp [maxOf]; norm_num, by simp, by simp [count]⟩
  exact ⟨_, fun ω => run_at hu hr _,
    (edf_white_table normal_gauss one_pos hr 1 2 0 600).2.2.2.2.1.single hr.ne' (fun _ => 0) 40 _
      (fun ω => run_at hu hr _) (by norm_num) (by norm_num)⟩

end AT
