import Verif.Props.UnbiasedFm

/-!
# C70: what the deviation functions return on average for white noise

`White P W N c s2`: `W 0 .. W (N-1)` are uncorrelated random variables of mean `c` and variance
`s2`.  `Expects P fn data rate type v`: for every `taus` argument the square of the deviation that
`fn` reports at the factor `m` has the expected value `v m`.
-/

namespace AT

open Spec Finset MeasureTheory ProbabilityTheory

variable {Ω : Type} [MeasurableSpace Ω] {P : Measure Ω} [IsProbabilityMeasure P]

/-- **C70, white phase noise.** `τ = m / rate`.  The Allan variance of white phase noise of variance
`s2` is `3 s2/τ²`, the Hadamard variance `10/3 s2/τ²`, the modified Allan variance `3 s2/(m τ²)`, the
time variance `s2/m`, the parabolic variance `12 (m²-1)/m³ s2/τ²`, the squared TIE `2 s2`; THEO1 grows
with the harmonic number of `m/2`.  The estimates of all of them are unbiased, whatever the
distribution, the mean and the number of samples are. -/
theorem white_phase_mean {W : ℕ → Ω → ℝ} {N : ℕ} {c s2 : ℝ} (h : White P W N c s2) {rate : ℝ}
    (hr : 0 < rate) :
    Expects P .adev (fun ω => tab N (fun i => W i ω)) rate "phase" (fun m => 3 * s2 / (m / rate) ^ 2) ∧
    Expects P .oadev (fun ω => tab N (fun i => W i ω)) rate "phase" (fun m => 3 * s2 / (m / rate) ^ 2) ∧
    Expects P .hdev (fun ω => tab N (fun i => W i ω)) rate "phase"
      (fun m => 10 / 3 * s2 / (m / rate) ^ 2) ∧
    Expects P .ohdev (fun ω => tab N (fun i => W i ω)) rate "phase"
      (fun m => 10 / 3 * s2 / (m / rate) ^ 2) ∧
    Expects P .mdev (fun ω => tab N (fun i => W i ω)) rate "phase"
      (fun m => 3 * s2 / (m * (m / rate) ^ 2)) ∧
    Expects P .tdev (fun ω => tab N (fun i => W i ω)) rate "phase" (fun m => s2 / m) ∧
    Expects P .pdev (fun ω => tab N (fun i => W i ω)) rate "phase"
      (fun m => if m = 1 then 3 * s2 / (m / rate) ^ 2
        else 12 * (m ^ 2 - 1) / m ^ 3 * s2 / (m / rate) ^ 2) ∧
    Expects P .tierms (fun ω => tab N (fun i => W i ω)) rate "phase" (fun _ => 2 * s2) ∧
    Expects P .theo1 (fun ω => tab N (fun i => W i ω)) rate "phase"
      (fun m => 16 / 3 * (∑ k ∈ range (m / 2), 1 / ((k : ℝ) + 1) + 1 / m) * s2 / (m / rate) ^ 2) := by
  refine ⟨expects_phase _ _ _ _ hr _ (adev_value_white h hr),
    expects_phase _ _ _ _ hr _ (oadev_value_white h hr),
    expects_phase _ _ _ _ hr _ (hdev_value_white h hr),
    expects_phase _ _ _ _ hr _ (ohdev_value_white h hr),
    expects_phase _ _ _ _ hr _ (fun m hu => mdev_value_white h hr m hu.1 hu.2.2.2.2),
    expects_phase _ _ _ _ hr _ (fun m hu => ?_),
    expects_phase _ _ _ _ hr _ (pdev_value_white h hr),
    expects_phase _ _ _ _ hr _ (tierms_value_white h),
    expects_phase _ _ _ _ hr _ (theo1_value_white h hr)⟩
  have h1 := meanSq_const_mul ((m : ℝ) / rate / √3) (mdev_value_white h hr m hu.1 hu.2.2.2.2)
  have hm : (0 : ℝ) < m := by exact_mod_cast hu.1
  have e : ((m : ℝ) / rate / √3) ^ 2 * (3 * s2 / (m * (m / rate) ^ 2)) = s2 / m := by
    rw [div_pow, Real.sq_sqrt (by norm_num)]
    field_simp
  rw [e] at h1
  exact h1

/-- **C70, white frequency noise.** The Allan and the Hadamard variance of white frequency noise of
variance `s2` are `s2/m`, the modified Allan variance is `s2/(2m) (1 + 1/m²)`, the time variance
`(m²+1)/(6m) s2 τ₀²`, the parabolic variance `6/5 (1 - 1/m⁴) s2/m`; that of THEO1 is the Allan variance
at `3/4` of the averaging time that is reported.  The mean frequency that `frequency2phase` removes does
not bias any of them. -/
theorem white_freq_mean {Y : ℕ → Ω → ℝ} {N : ℕ} {c s2 : ℝ} (h : White P Y N c s2) {rate : ℝ}
    (hr : 0 < rate) :
    Expects P .adev (fun ω => tab N (fun i => Y i ω)) rate "freq" (fun m => s2 / m) ∧
    Expects P .oadev (fun ω => tab N (fun i => Y i ω)) rate "freq" (fun m => s2 / m) ∧
    Expects P .hdev (fun ω => tab N (fun i => Y i ω)) rate "freq" (fun m => s2 / m) ∧
    Expects P .ohdev (fun ω => tab N (fun i => Y i ω)) rate "freq" (fun m => s2 / m) ∧
    Expects P .mdev (fun ω => tab N (fun i => Y i ω)) rate "freq"
      (fun m => (m ^ 2 + 1) / (2 * m ^ 3) * s2) ∧
    Expects P .tdev (fun ω => tab N (fun i => Y i ω)) rate "freq"
      (fun m => (m ^ 2 + 1) / (6 * m) * s2 / rate ^ 2) ∧
    Expects P .pdev (fun ω => tab N (fun i => Y i ω)) rate "freq"
      (fun m => if m = 1 then s2 else 6 / 5 * (1 - 1 / m ^ 4) * s2 / m) ∧
    Expects P .theo1 (fun ω => tab N (fun i => Y i ω)) rate "freq" (fun m => s2 / (3 / 4 * m)) := by
  refine ⟨expects_freq _ _ _ _ hr _ (adev_value_fm h rate hr),
    expects_freq _ _ _ _ hr _ (oadev_value_fm h rate hr),
    expects_freq _ _ _ _ hr _ (hdev_value_fm h rate hr),
    expects_freq _ _ _ _ hr _ (ohdev_value_fm h rate hr),
    expects_freq _ _ _ _ hr _ (fun m hu => mdev_value_fm h rate hr m hu.1 hu.2.2.2.2),
    expects_freq _ _ _ _ hr _ (fun m hu => ?_),
    expects_freq _ _ _ _ hr _ (pdev_value_fm h rate hr),
    expects_freq _ _ _ _ hr _ (theo1_value_fm h rate hr)⟩
  have h1 := meanSq_const_mul ((m : ℝ) / rate / √3) (mdev_value_fm h rate hr m hu.1 hu.2.2.2.2)
  have hm : (0 : ℝ) < m := by exact_mod_cast hu.1
  have e : ((m : ℝ) / rate / √3) ^ 2 * ((m ^ 2 + 1) / (2 * m ^ 3) * s2)
      = (m ^ 2 + 1) / (6 * m) * s2 / rate ^ 2 := by
    rw [div_pow, Real.sq_sqrt (by norm_num)]
    field_simp
    ring
  rw [e] at h1
  exact h1

/-! ## The hypotheses are met -/

omit [IsProbabilityMeasure P] in
/-- independent samples of the same distribution are white noise -/
theorem white_of_iid {W : ℕ → Ω → ℝ} (hind : iIndepFun W P) (hid : ∀ i, IdentDistrib (W i) (W 0) P P)
    (hL2 : MemLp (W 0) 2 P) (N : ℕ) : White P W N (∫ ω, W 0 ω ∂P) (Var[W 0; P]) where
  memLp := fun i _ => (hid i).symm.memLp_iff.1 hL2
  mean := fun i _ => (hid i).integral_eq
  cov := fun i _ j _ => by
    by_cases hij : i = j
    · subst hij
      rw [if_pos rfl, covariance_self (hid i).aemeasurable_fst, (hid i).variance_eq]
    · rw [if_neg hij]
      exact (hind.indepFun hij).covariance_eq_zero ((hid i).symm.memLp_iff.1 hL2)
        ((hid j).symm.memLp_iff.1 hL2)

/-- independent standard normal numbers, as drawn by `numpy.random.standard_normal` -/
noncomputable abbrev gaussNoise : Measure (ℕ → ℝ) := Measure.infinitePi (fun _ : ℕ => gaussianReal 0 1)

theorem white_gauss (N : ℕ) : White gaussNoise (fun i ω => ω i) N 0 1 := by
  have hmap : ∀ i : ℕ, gaussNoise.map (fun ω => ω i) = gaussianReal 0 1 := fun i =>
    Measure.infinitePi_map_eval (fun _ : ℕ => gaussianReal 0 1) i
  have hid : ∀ i : ℕ, IdentDistrib (fun ω : ℕ → ℝ => ω i) (fun ω => ω 0) gaussNoise gaussNoise := fun i =>
    ⟨(measurable_pi_apply i).aemeasurable, (measurable_pi_apply 0).aemeasurable, by rw [hmap, hmap]⟩
  have hid0 : IdentDistrib (fun ω : ℕ → ℝ => ω 0) (id : ℝ → ℝ) gaussNoise (gaussianReal 0 1) :=
    ⟨(measurable_pi_apply 0).aemeasurable, aemeasurable_id, by rw [hmap, Measure.map_id]⟩
  have h := white_of_iid (P := gaussNoise) (W := fun i ω => ω i)
    (iIndepFun_infinitePi (X := fun _ => id) (fun _ => measurable_id)) hid
    (hid0.memLp_iff.2 (memLp_id_gaussianReal 2)) N
  rw [hid0.integral_eq, hid0.variance_eq] at h
  simpa using h

/-- 6 standard normal phase values at 2 Hz, averaging time 1 s: the expected squared deviation is 3 -/
example : ∃ d : (ℕ → ℝ) → ℝ,
    (∀ ω, ∃ errs ns, oadev (tab 6 (fun i => ω i)) 2 "phase" (.list [(2 : ℕ) / 2])
      = .ok ⟨[(2 : ℕ) / 2], [d ω], errs, ns⟩) ∧ ∫ ω, d ω ^ 2 ∂gaussNoise = 3 := by
  have hrun : ∀ ω : ℕ → ℝ, oadev (tab 6 (fun i => ω i)) 2 "phase" (.list [(2 : ℕ) / 2])
      = .ok ⟨[(2 : ℕ) / 2], [Spec.oadev (seq (tab 6 (fun i => ω i))) 6 2 ((2 : ℕ) / 2)],
        .arr [Spec.oadev (seq (tab 6 (fun i => ω i))) 6 2 ((2 : ℕ) / 2) / √((6 : ℕ) - 2 * (2 : ℕ))], [2]⟩ := by
    intro ω
    rw [oadev_phase_eq _ _ (by norm_num), table_single _ _ (by norm_num) _ _ _ _ _ 2 (by norm_num) (by simp)
      (by norm_num) (by simp) (by simp)]
    simp
  obtain ⟨ms, D, h1, h2, h3⟩ := (white_phase_mean (white_gauss 6) (rate := 2) (by norm_num)).2.1
    (.list [(2 : ℕ) / 2]) (fun _ => 0) _ (hrun _)
  have hms : ms = [2] := by
    have : ms.map (fun (m : ℕ) => (m : ℝ) / 2) = [2].map (fun (m : ℕ) => (m : ℝ) / 2) := by
      rw [← h1]; rfl
    exact List.map_injective_iff.2 (fun a b hab => by
      have : (a : ℝ) = b := by linarith
      exact_mod_cast this) this
  subst hms
  refine ⟨D 2, fun ω => h2 ω, ?_⟩
  rw [(h3 2 (by simp)).2.2]
  norm_num

end AT
