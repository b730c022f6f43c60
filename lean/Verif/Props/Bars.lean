import Verif.Lemmas.BarSums
import Verif.Lemmas.Bars
import Verif.Props.Coverage

/-!
# C96: how often the error bars contain the deviation
-/

namespace AT

open Spec Finset MeasureTheory ProbabilityTheory Filter Topology
open scoped NNReal ENNReal

/-! ## Specification -/

/-- The deviation function, asked for the averaging time `m / rate`, reports a deviation and an error bar, and the deviation
differs from `σ` by at most the error bar. -/
def Spec.BarContains (c : CiDev) (data : List ℝ) (rate : ℝ) (data_type : String) (m : ℕ) (σ : ℝ) : Prop :=
  ∃ d e ns, c.fn.run data rate data_type (.list [(m : ℝ) / rate]) = .ok ⟨[(m : ℝ) / rate], [d], .arr [e], ns⟩ ∧ |d - σ| ≤ e

/-- The limit, for long records, of the degrees of freedom per term of the sum: one over the sum of the squared
autocorrelations of the differences of the noise. -/
noncomputable def Spec.barRatio (m : ℕ) : CiDev → Kind → ℝ
  | .adev, .wpm => 18 / 35
  | .adev, .wfm => 2 / 3
  | .adev, .rwfm => 2 * (2 * m ^ 2 + 1) ^ 2 / (3 * (3 * m ^ 4 + 2 * m ^ 2 + 1))
  | .oadev, .wpm => 18 / 35
  | .oadev, .wfm => 6 * m / (4 * m ^ 2 + 5)
  | .oadev, .rwfm => 35 * m * (2 * m ^ 2 + 1) ^ 2 / (151 * m ^ 6 + 70 * m ^ 4 + 49 * m ^ 2 + 45)
  | .hdev, .wpm => 100 / 231
  | .hdev, .wfm => 18 / 35
  | .hdev, .rwfm => 18 * (m ^ 2 + 1) ^ 2 / (23 * m ^ 4 + 50 * m ^ 2 + 35)
  | .ohdev, .wpm => 100 / 231
  | .ohdev, .wfm => 18 * m / (14 * m ^ 2 + 21)
  | .ohdev, .rwfm => 30 * m * (m ^ 2 + 1) ^ 2 / (31 * m ^ 6 + 46 * m ^ 4 + 49 * m ^ 2 + 54)
  | .mdev, .wpm | .tdev, .wpm => 18 * m / (14 * m ^ 2 + 21)
  | .mdev, .wfm | .tdev, .wfm => 30 * m * (m ^ 2 + 1) ^ 2 / (31 * m ^ 6 + 46 * m ^ 4 + 49 * m ^ 2 + 54)
  | .mdev, .rwfm | .tdev, .rwfm => 4158 * m * (11 * m ^ 4 + 5 * m ^ 2 + 4) ^ 2 /
      (655177 * m ^ 10 + 311465 * m ^ 8 + 221991 * m ^ 6 + 175835 * m ^ 4 + 147532 * m ^ 2 + 151200)

/-! ## The degrees of freedom per term -/

theorem rho_from {A : ℕ → ℝ} {K S : ℕ} {f : ℕ → ℝ} (hf : ∀ l, filterCov A K S l = f l) {T ρ : ℝ}
    (hT : Tendsto (fun M : ℕ => lagN M f / M) atTop (𝓝 T)) (h0 : T ≠ 0) (hρ : f 0 ^ 2 / T = ρ) :
    Tendsto (fun M : ℕ => filterEdf A K S M / M) atTop (𝓝 ρ) := by
  have e : filterCov A K S = f := funext hf
  rw [← hρ]
  refine ((tendsto_const_nhds (x := f 0 ^ 2)).div hT h0).congr' ?_
  filter_upwards [eventually_gt_atTop 0] with M hM
  have hM' : (M : ℝ) ≠ 0 := by exact_mod_cast hM.ne'
  rw [filterEdf, e]
  by_cases hl : lagN M f = 0
  · simp [hl]
  rw [Pi.div_apply]
  field_simp

theorem fullSq_four (f : ℕ → ℝ) : fullSq f 4 = f 0 ^ 2 + 2 * f 1 ^ 2 + 2 * f 2 ^ 2 + 2 * f 3 ^ 2 := by
  simp only [fullSq, sum_range_succ, sum_range_zero]
  ring

theorem walk2_far (m l : ℕ) (hm : 0 < m) (hl : 2 * m ≤ l) : walkCov 2 m l = 0 := by
  have hm' : (0 : ℝ) < m := by exact_mod_cast hm
  have hl' : (2 : ℝ) ≤ (l : ℝ) / m := by
    rw [le_div_iff₀ hm']
    exact_mod_cast hl
  rw [walkCov, kernA2_far _ hl', ghSz_fm2, tri_far _ (by linarith), tri_far _ (by linarith), tri_far _ (by linarith)]
  ring

theorem fm2_far (m l : ℕ) (hm : 0 < m) (hl : 2 * m ≤ l) : fmCov m l = 0 := by
  have hm' : (0 : ℝ) < m := by exact_mod_cast hm
  have hl' : (2 : ℝ) ≤ (l : ℝ) / m := by
    rw [le_div_iff₀ hm']
    exact_mod_cast hl
  rw [fmCov, ghSz_fm2, tri_far _ (by linarith), tri_far _ (by linarith), tri_far _ (by linarith)]
  ring

theorem fm3_zero (m : ℕ) (hm : 0 < m) : fmCov3 m 0 = 6 * m := by
  have h := fm3_p0 m 0 hm
  rw [zero_mul, zero_add, Nat.cast_zero] at h
  rw [h]
  ring

theorem walkCov3_zero (m : ℕ) (hm : 0 < m) : walkCov 3 m 0 = m + m ^ 3 := by
  have h := walk3_p0 m 0 hm
  rw [zero_mul, zero_add, Nat.cast_zero] at h
  rw [h]
  ring

section ratios

variable {m : ℕ} (hm : 0 < m)

include hm

theorem rho_pm2 : Tendsto (fun M : ℕ => filterEdf (taps tap2 3 m) (2 * m + 1) 1 M / M) atTop (𝓝 (18 / 35)) := by
  refine rho_from (fun l => cov_tap2 m l hm) (lagN_limit_affine _ (2 * m + 1) 70 (36 * m) fun M hM => ?_) (by norm_num) (by norm_num)
  rw [lag_pm2 m M hm (by omega) _ (fun l => rfl), Nat.cast_sub (by omega : m ≤ M), Nat.cast_sub (by omega : 2 * m ≤ M)]
  push_cast
  ring

theorem rho_pm3 : Tendsto (fun M : ℕ => filterEdf (taps tap3 4 m) (3 * m + 1) 1 M / M) atTop (𝓝 (100 / 231)) := by
  have h := lagN_limit (fun l => if l = 0 then (20 : ℝ) else if l = m then -15 else if l = 2 * m then 6 else if l = 3 * m then -1 else 0)
    (3 * m + 1) (fun l hl => by rw [if_neg (by omega), if_neg (by omega), if_neg (by omega), if_neg (by omega)])
  rw [fullSq_pm3 m hm _ (fun l => rfl)] at h
  exact rho_from (fun l => cov_tap3 m l hm) h (by norm_num) (by norm_num)

theorem rho_pm2_hop : Tendsto (fun M : ℕ => filterEdf (taps tap2 3 m) (2 * m + 1) m M / M) atTop (𝓝 (18 / 35)) := by
  have h := lagN_limit (fun l => filterCov (taps tap2 3 m) (2 * m + 1) m l) 4 (fun l hl => by
    rw [cov_stride, cov_tap2 m _ hm, if_neg (by positivity), if_neg (by nlinarith), if_neg (by nlinarith)])
  have e0 : filterCov (taps tap2 3 m) (2 * m + 1) m 0 = 6 := by rw [cov_stride, cov_tap2 m _ hm, if_pos (by ring)]
  have e1 : filterCov (taps tap2 3 m) (2 * m + 1) m 1 = -4 := by
    rw [cov_stride, cov_tap2 m _ hm, if_neg (by omega), if_pos (by ring)]
  have e2 : filterCov (taps tap2 3 m) (2 * m + 1) m 2 = 1 := by
    rw [cov_stride, cov_tap2 m _ hm, if_neg (by omega), if_neg (by omega), if_pos (by ring)]
  have e3 : filterCov (taps tap2 3 m) (2 * m + 1) m 3 = 0 := by
    rw [cov_stride, cov_tap2 m _ hm, if_neg (by omega), if_neg (by omega), if_neg (by omega)]
  rw [fullSq_four, e0, e1, e2, e3] at h
  exact rho_from (fun l => rfl) h (by norm_num) (by rw [e0]; norm_num)

theorem rho_pm3_hop : Tendsto (fun M : ℕ => filterEdf (taps tap3 4 m) (3 * m + 1) m M / M) atTop (𝓝 (100 / 231)) := by
  have h := lagN_limit (fun l => filterCov (taps tap3 4 m) (3 * m + 1) m l) 4 (fun l hl => by
    rw [cov_stride, cov_tap3 m _ hm, if_neg (by positivity), if_neg (by nlinarith), if_neg (by nlinarith), if_neg (by nlinarith)])
  have e0 : filterCov (taps tap3 4 m) (3 * m + 1) m 0 = 20 := by rw [cov_stride, cov_tap3 m _ hm, if_pos (by ring)]
  have e1 : filterCov (taps tap3 4 m) (3 * m + 1) m 1 = -15 := by
    rw [cov_stride, cov_tap3 m _ hm, if_neg (by omega), if_pos (by ring)]
  have e2 : filterCov (taps tap3 4 m) (3 * m + 1) m 2 = 6 := by
    rw [cov_stride, cov_tap3 m _ hm, if_neg (by omega), if_neg (by omega), if_pos (by ring)]
  have e3 : filterCov (taps tap3 4 m) (3 * m + 1) m 3 = -1 := by
    rw [cov_stride, cov_tap3 m _ hm, if_neg (by omega), if_neg (by omega), if_neg (by omega), if_pos (by ring)]
  rw [fullSq_four, e0, e1, e2, e3] at h
  exact rho_from (fun l => rfl) h (by norm_num) (by rw [e0]; norm_num)

theorem rho_fm2 : Tendsto (fun M : ℕ => filterEdf (blocks tapf 2 m) (2 * m) 1 M / M) atTop (𝓝 (6 * m / (4 * m ^ 2 + 5))) := by
  have hm' : (0 : ℝ) < m := by exact_mod_cast hm
  refine rho_from (f := fmCov m) (fun l => by rw [cov_fm2 m 1 l hm, mul_one]; rfl)
    (lagN_limit_affine _ (2 * m) _ _ fun M hM => lag_fmC m M hm hM) (by positivity) ?_
  rw [fmCov_zero]
  field_simp
  ring

theorem rho_fm2_hop : Tendsto (fun M : ℕ => filterEdf (blocks tapf 2 m) (2 * m) m M / M) atTop (𝓝 (2 / 3)) := by
  have hm' : (0 : ℝ) < m := by exact_mod_cast hm
  have hf : ∀ l, filterCov (blocks tapf 2 m) (2 * m) m l = fmCov m (l * m) := fun l => by rw [cov_fm2 m m l hm]; rfl
  have h := lagN_limit (fun l => fmCov m (l * m)) 4 (fun l hl => fm2_far m _ hm (by nlinarith))
  have e1 : fmCov m (1 * m) = -m := by
    have := fm_large m 0 hm
    rw [fmCov, show 1 * m = m + 0 by ring, this, Nat.cast_zero]
    ring
  rw [fullSq_four, e1, fm2_far m (2 * m) hm le_rfl, fm2_far m (3 * m) hm (by omega), zero_mul, fmCov_zero] at h
  refine rho_from hf h (by positivity) ?_
  rw [zero_mul, fmCov_zero]
  field_simp
  ring

theorem rho_fm3 : Tendsto (fun M : ℕ => filterEdf (blocks tap2 3 m) (3 * m) 1 M / M) atTop (𝓝 (18 * m / (14 * m ^ 2 + 21))) := by
  have hm' : (0 : ℝ) < m := by exact_mod_cast hm
  refine rho_from (f := fmCov3 m) (fun l => by rw [cov_fm3 m 1 l hm, mul_one]; rfl)
    (lagN_limit_affine _ (3 * m) _ _ fun M hM => lag_fm3 m M hm hM) (by positivity) ?_
  rw [fm3_zero m hm]
  field_simp
  ring

theorem rho_fm3_hop : Tendsto (fun M : ℕ => filterEdf (blocks tap2 3 m) (3 * m) m M / M) atTop (𝓝 (18 / 35)) := by
  have hm' : (0 : ℝ) < m := by exact_mod_cast hm
  have hf : ∀ l, filterCov (blocks tap2 3 m) (3 * m) m l = fmCov3 m (l * m) := fun l => by rw [cov_fm3 m m l hm]; rfl
  have h := lagN_limit (fun l => fmCov3 m (l * m)) 4 (fun l hl => fmCov3_far m _ hm (by nlinarith))
  have e1 : fmCov3 m (1 * m) = -4 * m := by
    have := fm3_p1 m 0 hm
    rw [add_zero, Nat.cast_zero] at this
    rw [this]
    ring
  have e2 : fmCov3 m (2 * m) = m := by
    have := fm3_p2 m 0 hm
    rw [add_zero, Nat.cast_zero] at this
    rw [this]
    ring
  rw [fullSq_four, e1, e2, fmCov3_far m (3 * m) hm le_rfl, zero_mul, fm3_zero m hm] at h
  refine rho_from hf h (by positivity) ?_
  rw [zero_mul, fm3_zero m hm]
  field_simp
  ring

theorem rho_walk2 : Tendsto (fun M : ℕ => filterEdf (walkTaps 2 m) (2 * m) 1 M / M) atTop
    (𝓝 (35 * m * (2 * m ^ 2 + 1) ^ 2 / (151 * m ^ 6 + 70 * m ^ 4 + 49 * m ^ 2 + 45))) := by
  have hm' : (0 : ℝ) < m := by exact_mod_cast hm
  refine rho_from (f := walkCov 2 m) (fun l => by rw [walkTaps_cov 2 m 1 l (.inl rfl) hm, mul_one])
    (lagN_limit_affine _ (2 * m) _ _ fun M hM => lag_walk m M hm hM) (by positivity) ?_
  rw [walk_zero m hm]
  field_simp
  ring

theorem rho_walk2_hop : Tendsto (fun M : ℕ => filterEdf (walkTaps 2 m) (2 * m) m M / M) atTop
    (𝓝 (2 * (2 * m ^ 2 + 1) ^ 2 / (3 * (3 * m ^ 4 + 2 * m ^ 2 + 1)))) := by
  have hm' : (0 : ℝ) < m := by exact_mod_cast hm
  have h := lagN_limit (fun l => walkCov 2 m (l * m)) 4 (fun l hl => walk2_far m _ hm (by nlinarith))
  have e1 : walkCov 2 m (1 * m) = m ^ 3 / 6 - m / 6 := by
    have := walk_large m 0 hm
    rw [show 1 * m = m + 0 by ring, this, Nat.cast_zero]
    ring
  rw [fullSq_four, e1, walk2_far m (2 * m) hm le_rfl, walk2_far m (3 * m) hm (by omega), zero_mul, walk_zero m hm] at h
  have e : ((m : ℝ) * (2 * m ^ 2 + 1) / 3) ^ 2 + 2 * ((m : ℝ) ^ 3 / 6 - m / 6) ^ 2 + 2 * 0 ^ 2 + 2 * 0 ^ 2
      = m ^ 2 * (3 * m ^ 4 + 2 * m ^ 2 + 1) / 6 := by ring
  rw [e] at h
  refine rho_from (fun l => walkTaps_cov 2 m m l (.inl rfl) hm) h (by positivity) ?_
  rw [zero_mul, walk_zero m hm]
  field_simp
  ring

theorem rho_walk3 : Tendsto (fun M : ℕ => filterEdf (walkTaps 3 m) (3 * m) 1 M / M) atTop
    (𝓝 (30 * m * (m ^ 2 + 1) ^ 2 / (31 * m ^ 6 + 46 * m ^ 4 + 49 * m ^ 2 + 54))) := by
  have hm' : (0 : ℝ) < m := by exact_mod_cast hm
  refine rho_from (f := walkCov 3 m) (fun l => by rw [walkTaps_cov 3 m 1 l (.inr rfl) hm, mul_one])
    (lagN_limit_affine _ (3 * m) _ _ fun M hM => lag_walk3 m M hm hM) (by positivity) ?_
  rw [walkCov3_zero m hm]
  field_simp
  ring

theorem rho_walk3_hop : Tendsto (fun M : ℕ => filterEdf (walkTaps 3 m) (3 * m) m M / M) atTop
    (𝓝 (18 * (m ^ 2 + 1) ^ 2 / (23 * m ^ 4 + 50 * m ^ 2 + 35))) := by
  have hm' : (0 : ℝ) < m := by exact_mod_cast hm
  have h := lagN_limit (fun l => walkCov 3 m (l * m)) 4 (fun l hl => walk3_far m _ hm (by nlinarith))
  have e1 := walk3_p1 m 0 hm
  have e2 := walk3_p2 m 0 hm
  rw [add_zero, Nat.cast_zero] at e1 e2
  rw [fullSq_four, e1, e2, walk3_far m (3 * m) hm le_rfl, zero_mul, walkCov3_zero m hm] at h
  have e : ∀ m : ℝ, (m + m ^ 3) ^ 2
      + 2 * (-2 / 3 * m + -1 / 3 * m ^ 3 + (5 / 6 + -m ^ 2) * 0 + 2 * m * 0 ^ 2 + -5 / 6 * 0 ^ 3) ^ 2
      + 2 * (m / 6 + -m ^ 3 / 6 + (-1 / 6 + m ^ 2 / 2) * 0 + -m / 2 * 0 ^ 2 + 1 / 6 * 0 ^ 3) ^ 2 + 2 * 0 ^ 2
      = m ^ 2 * (23 * m ^ 4 + 50 * m ^ 2 + 35) / 18 := fun m => by ring
  rw [e] at h
  refine rho_from (fun l => walkTaps_cov 3 m m l (.inr rfl) hm) h (by positivity) ?_
  rw [zero_mul, walkCov3_zero m hm]
  field_simp
  ring

theorem rho_mod : Tendsto (fun M : ℕ => filterEdf (modTaps m) (3 * m) 1 M / M) atTop
    (𝓝 (4158 * m * (11 * m ^ 4 + 5 * m ^ 2 + 4) ^ 2 /
      (655177 * m ^ 10 + 311465 * m ^ 8 + 221991 * m ^ 6 + 175835 * m ^ 4 + 147532 * m ^ 2 + 151200))) := by
  have hm' : (0 : ℝ) < m := by exact_mod_cast hm
  have h := lagN_limit (modWalkCov m) (3 * m) (fun l hl => modw_far m l hm hl)
  rw [fullSq_mod m hm] at h
  refine rho_from (fun l => modTaps_cov m l hm) h (by positivity) ?_
  have h0 := modw_p0 m 0 hm
  rw [zero_mul, zero_add, Nat.cast_zero] at h0
  rw [h0]
  norm_num
  field_simp
  ring

theorem bar_rho (c : CiDev) (k : Kind) : Tendsto (fun M : ℕ => filterEdf (filt c k m) (filtLen c k m) (ciHop c m) M / M) atTop
    (𝓝 (barRatio m c k)) := by
  cases k <;> cases c
  case wpm.adev => exact rho_pm2_hop hm
  case wpm.oadev => exact rho_pm2 hm
  case wpm.hdev => exact rho_pm3_hop hm
  case wpm.ohdev => exact rho_pm3 hm
  case wpm.mdev => exact rho_fm3 hm
  case wpm.tdev => exact rho_fm3 hm
  case wfm.adev => exact rho_fm2_hop hm
  case wfm.oadev => exact rho_fm2 hm
  case wfm.hdev => exact rho_fm3_hop hm
  case wfm.ohdev => exact rho_fm3 hm
  case wfm.mdev => exact rho_walk3 hm
  case wfm.tdev => exact rho_walk3 hm
  case rwfm.adev => exact rho_walk2_hop hm
  case rwfm.oadev => exact rho_walk2 hm
  case rwfm.hdev => exact rho_walk3_hop hm
  case rwfm.ohdev => exact rho_walk3 hm
  case rwfm.mdev => exact rho_mod hm
  case rwfm.tdev => exact rho_mod hm

end ratios

/-! ## The call -/

theorem ci_count (c : CiDev) {N m : ℕ} (hu : Usable c.fn N m) : count c.fn N m = (summands c.fn N m : ℤ) := by
  have h := hu.2.2.2.2
  cases c <;> simp only [CiDev.fn, count, summands] at * <;> omega

/-- a call with a single averaging time, with the error bar -/
theorem bar_run (c : CiDev) {N m : ℕ} (hu : Usable c.fn N m) {rate : ℝ} (hr : 0 < rate) (x : ℕ → ℝ) :
    ∃ ns, c.fn.run (tab N x) rate "phase" (.list [(m : ℝ) / rate]) = .ok ⟨[(m : ℝ) / rate], [value c.fn x N rate m],
      .arr [value c.fn x N rate m / √(summands c.fn N m : ℝ)], ns⟩ := by
  obtain ⟨errs, ns, h⟩ := run_at hu hr x
  obtain ⟨kept, -, -, -, h1, h2, h3, -⟩ := run_ok _ _ _ _ _ h
  simp only at h1 h2 h3
  obtain ⟨k, rfl⟩ : ∃ k, kept = [k] := List.length_eq_one_iff.1 (by simpa using (congrArg List.length h1).symm)
  simp only [List.map_cons, List.map_nil, List.cons.injEq, and_true] at h1 h2 h3
  have hk : k = m := by
    rw [div_left_inj' hr.ne'] at h1
    exact_mod_cast h1.symm
  subst hk
  rw [← h2] at h3
  refine ⟨ns, ?_⟩
  rw [h, h3, tab_length]
  congr 4
  have e : errCount c.fn N k = some (count c.fn N k) := by cases c <;> rfl
  rw [errOf, e, ci_count c hu]
  simp only [Int.cast_natCast]

theorem bar_phase (c : CiDev) {m N : ℕ} (hu : Usable c.fn N m) {rate : ℝ} (hr : 0 < rate) (x : ℕ → ℝ) (σ : ℝ) :
    BarContains c (tab N x) rate "phase" m σ ↔
      |value c.fn x N rate m - σ| ≤ value c.fn x N rate m / √(summands c.fn N m : ℝ) := by
  obtain ⟨ns, hrun⟩ := bar_run c hu hr x
  constructor
  · rintro ⟨d, e, ns', h1, h2⟩
    rw [hrun] at h1
    have h3 := Except.ok.inj h1
    have : d = value c.fn x N rate m := by simpa using (congrArg DevOut.devs h3).symm
    have he : e = value c.fn x N rate m / √(summands c.fn N m : ℝ) := by simpa using (congrArg DevOut.errs h3).symm
    rwa [this, he] at h2
  · intro h
    exact ⟨_, _, ns, hrun, h⟩

theorem bar_freq (c : CiDev) {m N : ℕ} (hN : 0 < N) (hu : Usable c.fn (N + 1) m) {rate : ℝ} (hr : 0 < rate) (y : ℕ → ℝ) (σ : ℝ) :
    BarContains c (tab N y) rate "freq" m σ ↔
      |value c.fn (phaseOf y N rate) (N + 1) rate m - σ|
        ≤ value c.fn (phaseOf y N rate) (N + 1) rate m / √(summands c.fn (N + 1) m : ℝ) := by
  rw [← bar_phase c hu hr (phaseOf y N rate) σ, BarContains, BarContains, run_freq,
    frequency2phase_phaseOf _ N hN rate hr.ne', ok_bind]

/-! ## Long records -/

variable {Ω : Type} [MeasurableSpace Ω] {P : Measure Ω} [IsProbabilityMeasure P] {W : ℕ → Ω → ℝ} {s2 : ℝ≥0} {rate : ℝ}

theorem bars_core (h : NormalNoise P W s2) (hs : 0 < s2) (hr : 0 < rate) (c : CiDev) (k : Kind) {m : ℕ} (hm : 0 < m)
    {κ : ℝ} (hκ : κ ≠ 0) {x : ℕ → ℕ → Ω → ℝ} (hx : ∀ L ω, IsNoise k κ (fun i => x L i ω) (fun i => W i ω)) {σ : ℝ}
    (hσ : σ = √(κ ^ 2 * s2 * trueVar c k m (m / rate))) :
    Tendsto (fun L => P.real {ω | |value c.fn (fun i => x L i ω) L rate m - σ|
      ≤ value c.fn (fun i => x L i ω) L rate m / √(summands c.fn L m : ℝ)}) atTop (𝓝 (gaussI √(2 * barRatio m c k))) := by
  have hks := kernelScale_pos c m hm hr
  have hkm := kernelMean_pos c k m hm
  have hs' : (0 : ℝ) < s2 := by exact_mod_cast hs
  have htv : 0 < trueVar c k m (m / rate) := by rw [trueVar_eq]; positivity
  have hσ0 : 0 < σ := by rw [hσ]; positivity
  have hσ2 : σ ^ 2 = κ ^ 2 * s2 * trueVar c k m (m / rate) := by rw [hσ, Real.sq_sqrt (by positivity)]
  have hS : 0 < ciHop c m := by cases c <;> simp [ciHop, CiDev.fn, hop, hm]
  refine bar_filter h hs (filt_zero c k m) (filt_ne c k m (ciHop c m) hm) hσ0 hS
    (summands_tendsto c.fn hm) (fun n ω => value_nonneg _ _ _ _ hr _) ?_ (bar_rho hm c k)
  filter_upwards [usable_eventually c.fn hm (by cases c <;> simp [CiDev.fn])] with L hu ω
  have hM : (0 : ℝ) < summands c.fn L m := by exact_mod_cast summands_pos' hu
  rw [value_sq (hx L ω) c hr hu, filt_cov0 c k m _ hm, hσ2, trueVar_eq]
  congr 1
  field_simp

/-- C96: how often the error bar of a deviation of phase data contains the deviation of the noise -/
theorem bars_phase (h : NormalNoise P W s2) (hs : 0 < s2) (hr : 0 < rate) (c : CiDev) (k : Kind) (a b : ℝ) {m : ℕ} (hm : 0 < m) :
    Tendsto (fun N => P.real {ω | BarContains c (tab N (fun i => a + b * i + noise k (fun j => W j ω) i)) rate "phase" m
      √(s2 * trueVar c k m (m / rate))}) atTop
      (𝓝 ((gaussianReal 0 1).real (Set.Icc (-√(2 * barRatio m c k)) √(2 * barRatio m c k)))) := by
  refine (bars_core h hs hr c k hm one_ne_zero (x := fun _ i ω => a + b * i + noise k (fun j => W j ω) i)
    (fun _ ω => noise_line k a b _) (σ := √(s2 * trueVar c k m (m / rate))) (by rw [one_pow, one_mul])).congr' ?_
  filter_upwards [usable_eventually c.fn hm (by cases c <;> simp [CiDev.fn])] with N hu
  simp only [bar_phase c hu hr]

/-- C96: for frequency data whose noise is white -/
theorem bars_white_freq {Y : ℕ → Ω → ℝ} (h : NormalNoise P Y s2) (hs : 0 < s2) (hr : 0 < rate) (c : CiDev) (y0 : ℝ) {m : ℕ}
    (hm : 0 < m) :
    Tendsto (fun N => P.real {ω | BarContains c (tab N (fun i => y0 + Y i ω)) rate "freq" m
      √(s2 / rate ^ 2 * trueVar c .wfm m (m / rate))}) atTop
      (𝓝 ((gaussianReal 0 1).real (Set.Icc (-√(2 * barRatio m c .wfm)) √(2 * barRatio m c .wfm)))) := by
  have key := bars_core h hs hr c .wfm hm (one_div_pos.2 hr).ne'
    (x := fun L i ω => phaseOf (fun i => y0 + Y i ω) (L - 1) rate i) (fun L ω => noise_wfm y0 (fun i => Y i ω) (L - 1) rate)
    (σ := √(s2 / rate ^ 2 * trueVar c .wfm m (m / rate))) (by congr 1; ring)
  refine (key.comp (tendsto_add_atTop_nat 1)).congr' ?_
  filter_upwards [(tendsto_add_atTop_nat 1).eventually (usable_eventually c.fn hm (by cases c <;> simp [CiDev.fn])),
    eventually_gt_atTop 0] with N hu hN
  simp only [bar_freq c hN hu hr, Function.comp_apply, Nat.add_sub_cancel]

/-- C96: for frequency data that are a random walk -/
theorem bars_walk_freq {Y : ℕ → Ω → ℝ} (h : NormalNoise P Y s2) (hs : 0 < s2) (hr : 0 < rate) (c : CiDev) (y0 : ℝ) {m : ℕ}
    (hm : 0 < m) :
    Tendsto (fun N => P.real {ω | BarContains c (tab N (fun i => y0 + ∑ j ∈ range i, Y j ω)) rate "freq" m
      √(s2 / rate ^ 2 * trueVar c .rwfm m (m / rate))}) atTop
      (𝓝 ((gaussianReal 0 1).real (Set.Icc (-√(2 * barRatio m c .rwfm)) √(2 * barRatio m c .rwfm)))) := by
  have key := bars_core h hs hr c .rwfm hm (one_div_pos.2 hr).ne'
    (x := fun L i ω => phaseOf (fun i => y0 + ∑ j ∈ range i, Y j ω) (L - 1) rate i)
    (fun L ω => noise_walk y0 (fun i => Y i ω) (L - 1) rate)
    (σ := √(s2 / rate ^ 2 * trueVar c .rwfm m (m / rate))) (by congr 1; ring)
  refine (key.comp (tendsto_add_atTop_nat 1)).congr' ?_
  filter_upwards [(tendsto_add_atTop_nat 1).eventually (usable_eventually c.fn hm (by cases c <;> simp [CiDev.fn])),
    eventually_gt_atTop 0] with N hu hN
  simp only [bar_freq c hN hu hr, Function.comp_apply, Nat.add_sub_cancel]

/-! ## Which error bars are too short -/

/-- the functions and noises for which terms that are a sample apart are nearly the same -/
def Spec.Redundant (c : CiDev) (k : Kind) : Prop :=
  match c with
  | .adev | .hdev => False
  | .oadev | .ohdev => k ≠ .wpm
  | .mdev | .tdev => True

theorem barRatio_pos {m : ℕ} (hm : 0 < m) (c : CiDev) (k : Kind) : 0 < barRatio m c k := by
  have hm' : (0 : ℝ) < m := by exact_mod_cast hm
  cases k <;> cases c <;> simp only [barRatio] <;> positivity

/-- C96: when the terms overlap the error bar contains the deviation less often than one standard deviation of a normal
distribution does, for every averaging factor from 3 -/
theorem bars_short {c : CiDev} {k : Kind} (hc : Redundant c k) {m : ℕ} (hm : 3 ≤ m) :
    (gaussianReal 0 1).real (Set.Icc (-√(2 * barRatio m c k)) √(2 * barRatio m c k)) < (gaussianReal 0 1).real (Set.Icc (-1) 1) := by
  refine gaussI_strictMono (Real.sqrt_nonneg _) ?_
  rw [Real.sqrt_lt' one_pos, one_pow]
  obtain ⟨n, rfl⟩ := Nat.exists_eq_add_of_le hm
  cases k <;> cases c <;> simp only [Redundant, ne_eq, not_true_eq_false] at hc <;> simp only [barRatio] <;>
    rw [← mul_div_assoc, div_lt_one (by positivity), ← sub_pos] <;> push_cast <;> ring_nf <;> positivity

theorem gaussI_le {x : ℝ} (hx : 0 ≤ x) : gaussI x ≤ 0.8 * x := by
  have hp : ∀ u, gaussianPDFReal 0 1 u ≤ 0.4 := fun u => by
    have h1 : (2.5 : ℝ) ≤ √(2 * Real.pi) := Real.le_sqrt_of_sq_le (by have := Real.pi_gt_d2; linarith)
    have h2 : (√(2 * Real.pi))⁻¹ ≤ 0.4 := by
      rw [inv_le_comm₀ (by linarith) (by norm_num)]
      norm_num at *
      exact h1
    have h3 : Real.exp (-(u - 0) ^ 2 / (2 * (1 : ℝ≥0))) ≤ 1 := Real.exp_le_one_iff.2 (by
      have := sq_nonneg (u - 0)
      rw [NNReal.coe_one]
      linarith)
    rw [gaussianPDFReal, NNReal.coe_one, mul_one]
    rw [NNReal.coe_one, mul_one] at h3
    have h4 : 0 ≤ (√(2 * Real.pi))⁻¹ := by positivity
    have h5 := Real.exp_pos (-(u - 0) ^ 2 / 2)
    nlinarith
  rw [gaussI_eq hx]
  have := intervalIntegral.integral_mono_on (a := -x) (b := x) (μ := volume) (by linarith)
    (integrable_gaussianPDFReal 0 1).intervalIntegrable (intervalIntegrable_const (c := (0.4 : ℝ))) (fun u _ => hp u)
  rw [intervalIntegral.integral_const, smul_eq_mul] at this
  linarith

/-- C96: the larger the averaging factor, the less often -/
theorem bars_vanish {c : CiDev} {k : Kind} (hc : Redundant c k) {m : ℕ} (hm : 0 < m) :
    (gaussianReal 0 1).real (Set.Icc (-√(2 * barRatio m c k)) √(2 * barRatio m c k)) ≤ 1.4 / √m := by
  have hm' : (0 : ℝ) < m := by exact_mod_cast hm
  have key : 2 * barRatio m c k ≤ 3 / m := by
    rw [le_div_iff₀ hm']
    clear hm'
    obtain ⟨n, rfl⟩ := Nat.exists_eq_add_of_le' hm
    cases k <;> cases c <;> simp only [Redundant, ne_eq, not_true_eq_false] at hc <;> simp only [barRatio] <;>
      rw [← mul_div_assoc, div_mul_eq_mul_div, div_le_iff₀ (by positivity), ← sub_nonneg (α := ℝ)] <;> push_cast <;> ring_nf <;>
      positivity
  refine (gaussI_le (Real.sqrt_nonneg _)).trans ((mul_le_mul_of_nonneg_left (Real.sqrt_le_sqrt key) (by norm_num)).trans ?_)
  rw [Real.sqrt_div (by norm_num), ← mul_div_assoc]
  refine div_le_div_of_nonneg_right ?_ (Real.sqrt_nonneg _)
  have h3 : √3 ≤ 1.75 := Real.sqrt_le_left (by norm_num) |>.2 (by norm_num)
  linarith

/-- C96: otherwise the error bar is about one standard deviation -/
theorem bars_fair {c : CiDev} {k : Kind} (hc : ¬ Redundant c k) {m : ℕ} (hm : 0 < m) :
    (gaussianReal 0 1).real (Set.Icc (-0.93) 0.93)
        ≤ (gaussianReal 0 1).real (Set.Icc (-√(2 * barRatio m c k)) √(2 * barRatio m c k)) ∧
      (gaussianReal 0 1).real (Set.Icc (-√(2 * barRatio m c k)) √(2 * barRatio m c k))
        ≤ (gaussianReal 0 1).real (Set.Icc (-1.42) 1.42) := by
  have key : 0.93 ^ 2 ≤ 2 * barRatio m c k ∧ 2 * barRatio m c k ≤ 1.42 ^ 2 := by
    obtain ⟨n, rfl⟩ := Nat.exists_eq_add_of_le' hm
    cases k <;> cases c <;> simp only [Redundant, ne_eq, not_true_eq_false, not_false_eq_true, reduceCtorEq] at hc <;> simp only [barRatio]
    all_goals first
      | (constructor <;> norm_num; done)
      | (rw [← mul_div_assoc, le_div_iff₀ (by positivity), div_le_iff₀ (by positivity)]
         constructor <;> rw [← sub_nonneg (α := ℝ)] <;> push_cast <;> ring_nf <;> positivity)
  constructor
  · exact gaussI_mono (Real.le_sqrt_of_sq_le key.1)
  · exact gaussI_mono (Real.sqrt_le_left (by norm_num) |>.2 key.2)

/-! ## The hypotheses are met -/

/-- the overlapping Allan deviation of white frequency noise averaged over 100 data: at most 14 of 100 error bars contain the
deviation of the noise -/
example : (∃ l, l ≤ 0.14 ∧ Tendsto (fun N => gaussNoise.real {ω | BarContains .oadev (tab N (fun i => 3 + ω i)) 10 "freq" 100
    √((1 : ℝ≥0) / 10 ^ 2 * trueVar .oadev .wfm 100 ((100 : ℕ) / 10))}) atTop (𝓝 l)) := by
  refine ⟨_, ?_, bars_white_freq normal_gauss one_pos (by norm_num) .oadev 3 (m := 100) (by norm_num)⟩
  have := bars_vanish (c := .oadev) (k := .wfm) (by simp [Redundant]) (m := 100) (by norm_num)
  refine this.trans ?_
  rw [show ((100 : ℕ) : ℝ) = 10 ^ 2 by norm_num, Real.sqrt_sq (by norm_num)]
  norm_num

end AT
