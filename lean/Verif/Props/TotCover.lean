import Verif.Lemmas.TotClt

/-!
# C98: how often the error bars and the confidence intervals of the total deviation contain the deviation
-/

namespace AT

open Spec Finset MeasureTheory ProbabilityTheory Filter Topology
open scoped NNReal ENNReal

/-! ## Specification -/

/-- `totdev`, asked for the averaging time `m / rate`, reports a deviation and an error bar, and the deviation differs from `σ`
by at most the error bar. -/
def Spec.TotBarContains (data : List ℝ) (rate : ℝ) (data_type : String) (m : ℕ) (σ : ℝ) : Prop :=
  ∃ d e ns, AT.totdev data rate data_type (.list [(m : ℝ) / rate]) = .ok ⟨[(m : ℝ) / rate], [d], .arr [e], ns⟩ ∧ |d - σ| ≤ e

/-- `totdev`, asked for the averaging time `m / rate`, reports a deviation; `edf_totdev`, called with the number `n` of phase
points, the factor `m` and the exponent `alpha`, returns degrees of freedom; and the confidence interval that is computed from
them contains `σ`. -/
def Spec.TotCovered (ppf : ℝ → ℝ → NV) (data : List ℝ) (rate : ℝ) (data_type : String) (m : ℕ) (alpha : ℤ)
    (n : ℕ) (ci σ : ℝ) : Prop :=
  ∃ d errs ns e, AT.totdev data rate data_type (.list [(m : ℝ) / rate]) = .ok ⟨[(m : ℝ) / rate], [d], errs, ns⟩ ∧
    edf_totdev n m alpha = .ok (some e) ∧ CiContains ppf d e ci σ

/-- the limit, for long records, of the degrees of freedom that `edf_totdev` returns divided by those of the variance -/
noncomputable def Spec.totRatio (m : ℕ) : Kind → ℝ
  | .wpm => 35 / 36
  | .wfm => (4 * m ^ 2 + 5) / (4 * m ^ 2)
  | .rwfm => 0.93 * (151 * m ^ 6 + 70 * m ^ 4 + 49 * m ^ 2 + 45) / (35 * m ^ 2 * (2 * m ^ 2 + 1) ^ 2)

theorem totRatio_pos (k : Kind) {m : ℕ} (hm : 0 < m) : 0 < totRatio m k := by
  have hm' : (0 : ℝ) < m := by exact_mod_cast hm
  cases k <;> simp only [totRatio] <;> positivity

/-! ## What `edf_totdev` returns -/

/-- the number that `edf_totdev` returns -/
noncomputable def totEdf (m N : ℕ) : Kind → ℝ
  | .wpm => edfTable5 N m 2
  | .wfm => 1.5 * (N / m) - 0
  | .rwfm => 0.93 * (N / m) - 0.36

theorem totEdf_ok (k : Kind) {m : ℕ} (hm : 0 < m) : ∀ᶠ N : ℕ in atTop,
    edf_totdev N m (alphaOf k) = .ok (some (totEdf m N k)) ∧ 0 < totEdf m N k := by
  have hm' : (0 : ℝ) < m := by exact_mod_cast hm
  filter_upwards [eventually_ge_atTop (2 * m + 2)] with N hN
  have hN' : 2 * (m : ℝ) + 2 ≤ N := by exact_mod_cast hN
  have hq : 2 ≤ (N : ℝ) / m := by rw [le_div_iff₀ hm']; linarith
  cases k
  · have := edf_simple_eq_partial N m 2 hm (by omega) (by omega)
    refine ⟨?_, this.2⟩
    rw [edf_totdev, alphaOf, if_neg (by norm_num), this.1]
    rfl
  · refine ⟨?_, by simp only [totEdf]; linarith⟩
    rw [edf_totdev, alphaOf, if_pos (by norm_num)]
    simp [totEdf, pyDiv, hm'.ne', table7, pyGet, ok_bind]
    norm_num
  · refine ⟨?_, by simp only [totEdf]; linarith⟩
    rw [edf_totdev, alphaOf, if_pos (by norm_num)]
    simp [totEdf, pyDiv, hm'.ne', table7, pyGet, ok_bind]

theorem totEdf_limit (k : Kind) {m : ℕ} (hm : 0 < m) :
    Tendsto (fun N : ℕ => totEdf m N k / ciEdf .oadev k m N) atTop (𝓝 (totRatio m k)) := by
  have hm' : (0 : ℝ) < m := by exact_mod_cast hm
  have lin : ∀ b c : ℝ, Tendsto (fun N : ℕ => (b * ((N : ℝ) / m) - c) / ciEdf .oadev k m N) atTop
      (𝓝 (b / m / barRatio m .oadev k)) := by
    intro b c
    have h1 := (bar_rho hm .oadev k).comp (summands_tendsto .oadev hm)
    have h2 : Tendsto (fun N : ℕ => (b * ((N : ℝ) / m) - c) / (N - 2 * m : ℕ)) atTop (𝓝 (b / m)) := by
      have h3 : Tendsto (fun N : ℕ => (b / m - c * (1 / (N : ℝ))) / (1 - 2 * m * (1 / (N : ℝ)))) atTop
          (𝓝 ((b / m - c * 0) / (1 - 2 * m * 0))) :=
        (tendsto_const_nhds.sub (tendsto_one_div_atTop_nhds_zero_nat.const_mul c)).div
          (tendsto_const_nhds.sub (tendsto_one_div_atTop_nhds_zero_nat.const_mul (2 * (m : ℝ)))) (by norm_num)
      rw [mul_zero, mul_zero, sub_zero, sub_zero, div_one] at h3
      refine h3.congr' ?_
      filter_upwards [eventually_ge_atTop (2 * m + 2)] with N hN
      have hN' : 2 * (m : ℝ) + 2 ≤ N := by exact_mod_cast hN
      have hN0 : (0 : ℝ) < N := by linarith
      have hM0 : (N : ℝ) - 2 * m ≠ 0 := by linarith
      rw [Nat.cast_sub (by omega)]
      push_cast
      have e : 1 - 2 * (m : ℝ) * (1 / (N : ℝ)) = (N - 2 * m) / N := by field_simp
      rw [e]
      field_simp
    refine (h2.div h1 (barRatio_pos hm .oadev k).ne').congr' ?_
    filter_upwards [eventually_ge_atTop (2 * m + 2)] with N hN
    have hM : ((N - 2 * m : ℕ) : ℝ) ≠ 0 := by exact_mod_cast (by omega : N - 2 * m ≠ 0)
    show (b * ((N : ℝ) / m) - c) / (N - 2 * m : ℕ) / (ciEdf .oadev k m N / (N - 2 * m : ℕ)) = _
    by_cases h0 : ciEdf .oadev k m N = 0
    · simp [h0]
    field_simp
  cases k
  · have := simple_limit .wpm hm
    exact this
  · have := lin 1.5 0
    refine this.trans (le_of_eq ?_)
    congr 1
    simp only [barRatio, totRatio]
    field_simp
    ring
  · have := lin 0.93 0.36
    refine this.trans (le_of_eq ?_)
    congr 1
    simp only [barRatio, totRatio]
    field_simp

/-! ## The calls -/

theorem tot_bar_run {N m : ℕ} (hu : Usable .totdev N m) {rate : ℝ} (hr : 0 < rate) (x : ℕ → ℝ) :
    ∃ ns, AT.totdev (tab N x) rate "phase" (.list [(m : ℝ) / rate]) = .ok ⟨[(m : ℝ) / rate], [value .totdev x N rate m],
      .arr [value .totdev x N rate m / √((N : ℝ) - 2)], ns⟩ := by
  obtain ⟨errs, ns, h⟩ := run_at hu hr x
  obtain ⟨kept, -, -, -, h1, h2, h3, -⟩ := run_ok _ _ _ _ _ h
  simp only at h1 h2 h3
  obtain ⟨k, rfl⟩ : ∃ k, kept = [k] := List.length_eq_one_iff.1 (by simpa using (congrArg List.length h1).symm)
  simp only [List.map_cons, List.map_nil, List.cons.injEq, and_true] at h1 h2 h3
  have hk : k = m := by
    rw [div_left_inj' hr.ne'] at h1
    exact_mod_cast h1.symm
  subst hk
  rw [← h2] at h3
  refine ⟨ns, ?_⟩
  have h' : AT.totdev (tab N x) rate "phase" (.list [(k : ℝ) / rate]) = _ := h
  rw [h', h3, tab_length]
  simp only [errOf, errCount, count]
  push_cast
  rfl

theorem tot_bar_phase {m N : ℕ} (hu : Usable .totdev N m) {rate : ℝ} (hr : 0 < rate) (x : ℕ → ℝ) (σ : ℝ) :
    TotBarContains (tab N x) rate "phase" m σ ↔
      |value .totdev x N rate m - σ| ≤ value .totdev x N rate m / √((N : ℝ) - 2) := by
  obtain ⟨ns, hrun⟩ := tot_bar_run hu hr x
  constructor
  · rintro ⟨d, e, ns', h1, h2⟩
    rw [hrun] at h1
    have h3 := Except.ok.inj h1
    have : d = value .totdev x N rate m := by simpa using (congrArg DevOut.devs h3).symm
    have he : e = value .totdev x N rate m / √((N : ℝ) - 2) := by simpa using (congrArg DevOut.errs h3).symm
    rwa [this, he] at h2
  · intro h
    exact ⟨_, _, ns, hrun, h⟩

theorem tot_run_freq {m N : ℕ} (hN : 0 < N) {rate : ℝ} (hr : 0 < rate) (y : ℕ → ℝ) :
    AT.totdev (tab N y) rate "freq" (.list [(m : ℝ) / rate])
      = AT.totdev (tab (N + 1) (phaseOf y N rate)) rate "phase" (.list [(m : ℝ) / rate]) := by
  have := run_freq .totdev (tab N y) rate (.list [(m : ℝ) / rate])
  rw [frequency2phase_phaseOf _ N hN rate hr.ne', ok_bind] at this
  exact this

theorem tot_bar_freq {m N : ℕ} (hN : 0 < N) (hu : Usable .totdev (N + 1) m) {rate : ℝ} (hr : 0 < rate) (y : ℕ → ℝ) (σ : ℝ) :
    TotBarContains (tab N y) rate "freq" m σ ↔
      |value .totdev (phaseOf y N rate) (N + 1) rate m - σ|
        ≤ value .totdev (phaseOf y N rate) (N + 1) rate m / √(((N + 1 : ℕ) : ℝ) - 2) := by
  rw [← tot_bar_phase hu hr (phaseOf y N rate) σ, TotBarContains, TotBarContains, tot_run_freq hN hr]

theorem tot_covered_phase (ppf : ℝ → ℝ → NV) {m N n : ℕ} (hu : Usable .totdev N m) {rate : ℝ} (hr : 0 < rate) (x : ℕ → ℝ) (alpha : ℤ)
    (ci σ : ℝ) {r : ℝ} (hc : edf_totdev n m alpha = .ok (some r)) : TotCovered ppf (tab N x) rate "phase" m alpha n ci σ ↔
      CiContains ppf (value .totdev x N rate m) r ci σ := by
  obtain ⟨errs, ns, hrun⟩ := run_at hu hr x
  have hrun' : AT.totdev (tab N x) rate "phase" (.list [(m : ℝ) / rate]) = _ := hrun
  constructor
  · rintro ⟨d, errs', ns', e, h1, h2, h3⟩
    rw [hrun'] at h1
    have e1 : d = value .totdev x N rate m := by simpa using (congrArg DevOut.devs (Except.ok.inj h1)).symm
    have e2 : e = r := (Option.some.inj (Except.ok.inj (hc.symm.trans h2))).symm
    exact e2 ▸ e1 ▸ h3
  · exact fun h3 => ⟨_, errs, ns, r, hrun', hc, h3⟩

theorem tot_covered_freq (ppf : ℝ → ℝ → NV) {m N n : ℕ} (hN : 0 < N) (hu : Usable .totdev (N + 1) m) {rate : ℝ} (hr : 0 < rate)
    (y : ℕ → ℝ) (alpha : ℤ) (ci σ : ℝ) {r : ℝ} (hc : edf_totdev n m alpha = .ok (some r)) :
    TotCovered ppf (tab N y) rate "freq" m alpha n ci σ ↔
      CiContains ppf (value .totdev (phaseOf y N rate) (N + 1) rate m) r ci σ := by
  rw [← tot_covered_phase ppf hu hr (phaseOf y N rate) alpha ci σ hc, TotCovered, TotCovered, tot_run_freq hN hr]

/-! ## Long records -/

variable {Ω : Type} [MeasurableSpace Ω] {P : Measure Ω} [IsProbabilityMeasure P] {W : ℕ → Ω → ℝ} {s2 : ℝ≥0} {rate : ℝ}

theorem trueVar_pos (hr : 0 < rate) (c : CiDev) (k : Kind) {m : ℕ} (hm : 0 < m) : 0 < trueVar c k m (m / rate) := by
  have h1 := kernelScale_pos c m hm hr
  have h2 := kernelMean_pos c k m hm
  rw [trueVar_eq]
  positivity

theorem ciEdf_pos' (k : Kind) {m N : ℕ} (hm : 0 < m) (hN : 2 * m + 2 ≤ N) : 0 < ciEdf .oadev k m N :=
  filterEdf_pos (M := N - 2 * m) (filt_ne .oadev k m (ciHop .oadev m) hm) (by omega)

theorem tot_bars_core (h : NormalNoise P W s2) (hs : 0 < s2) (hr : 0 < rate) (k : Kind) {m : ℕ} (hm : 0 < m)
    {κ : ℝ} (hκ : κ ≠ 0) {x : ℕ → ℕ → Ω → ℝ} (hxm : ∀ L i, AEMeasurable (x L i) P)
    (hx : ∀ L ω, IsNoise k κ (fun i => x L i ω) (fun i => W i ω)) {σ : ℝ}
    (hσ : σ = √(κ ^ 2 * s2 * trueVar .oadev k m (m / rate))) :
    Tendsto (fun L : ℕ => P.real {ω | |value .totdev (fun i => x L i ω) L rate m - σ|
      ≤ value .totdev (fun i => x L i ω) L rate m / √((L : ℝ) - 2)}) atTop (𝓝 (gaussI √(2 * barRatio m .oadev k))) := by
  obtain ⟨n0, hn0⟩ := eventually_atTop.1 (usable_eventually .oadev hm (by simp))
  rw [← tendsto_add_atTop_iff_nat n0]
  have hu : ∀ n, Usable .oadev (n + n0) m := fun n => hn0 _ (by omega)
  have hge : ∀ n, 2 * m + 2 ≤ n + n0 := fun n => (oadev_usable (hu n)).2
  have hs' : (0 : ℝ) < s2 := by exact_mod_cast hs
  have htv := trueVar_pos hr .oadev k hm
  have hσ0 : 0 < σ := by rw [hσ]; positivity
  have hinf : Tendsto (fun n : ℕ => ((n + n0 : ℕ) : ℝ) - 2) atTop atTop :=
    tendsto_atTop_add_const_right _ _ (tendsto_natCast_atTop_atTop.comp (tendsto_add_atTop_nat n0))
  refine bar_tendsto hσ0 (fun n => tot_meas (hxm _) hr hm (hge n)) (fun n ω => value_nonneg _ _ _ _ hr _)
    (e := fun n => ciEdf .oadev k m (n + n0)) (k := fun n : ℕ => ((n + n0 : ℕ) : ℝ) - 2) (fun n => ciEdf_pos' k hm (hge n)) hinf ?_
    (Real.sqrt_nonneg _) (tot_lim h hs hr k hm hκ hxm hx hσ hu)
  refine (Real.continuous_sqrt.tendsto _).comp ?_
  have h1 := ((bar_rho hm .oadev k).comp (summands_tendsto .oadev hm)).comp (tendsto_add_atTop_nat n0)
  have h2 : Tendsto (fun n : ℕ => ((n + n0 - 2 * m : ℕ) : ℝ) / (((n + n0 : ℕ) : ℝ) - 2)) atTop (𝓝 1) := by
    have h3 : Tendsto (fun n : ℕ => 1 - (2 * (m : ℝ) - 2) / (((n + n0 : ℕ) : ℝ) - 2)) atTop (𝓝 (1 - 0)) :=
      tendsto_const_nhds.sub (hinf.const_div_atTop _)
    rw [sub_zero] at h3
    refine h3.congr fun n => ?_
    have h4 : (2 * (m : ℝ) + 2) ≤ ((n + n0 : ℕ) : ℝ) := by exact_mod_cast hge n
    have hm' : (0 : ℝ) < m := by exact_mod_cast hm
    have h5 : ((n + n0 : ℕ) : ℝ) - 2 ≠ 0 := by linarith
    rw [Nat.cast_sub (by have := hge n; omega : 2 * m ≤ n + n0), eq_div_iff h5, sub_mul, div_mul_cancel₀ _ h5]
    push_cast
    ring
  have h3 := (h1.mul h2).const_mul 2
  rw [mul_one] at h3
  refine h3.congr fun n => ?_
  have hM : ((n + n0 - 2 * m : ℕ) : ℝ) ≠ 0 := by
    have := hge n
    exact_mod_cast (by omega : n + n0 - 2 * m ≠ 0)
  show 2 * (ciEdf .oadev k m (n + n0) / (n + n0 - 2 * m : ℕ) * (((n + n0 - 2 * m : ℕ) : ℝ) / (((n + n0 : ℕ) : ℝ) - 2))) = _
  rw [div_mul_div_cancel₀ hM]
  ring

theorem tot_covers_core (h : NormalNoise P W s2) (hs : 0 < s2) (hr : 0 < rate) (k : Kind) {m : ℕ} (hm : 0 < m)
    {κ : ℝ} (hκ : κ ≠ 0) {x : ℕ → ℕ → Ω → ℝ} (hxm : ∀ L i, AEMeasurable (x L i) P)
    (hx : ∀ L ω, IsNoise k κ (fun i => x L i ω) (fun i => W i ω)) {ppf : ℝ → ℝ → NV} (hp : Chi2Ppf ppf) {ci z : ℝ}
    (h0 : 1 / 2 ≤ ci) (h1 : ci < 1) (hz0 : 0 ≤ z) (hz : gaussI z = ci) {σ : ℝ}
    (hσ : σ = √(κ ^ 2 * s2 * trueVar .oadev k m (m / rate))) :
    Tendsto (fun L : ℕ => P.real {ω | CiContains ppf (value .totdev (fun i => x L i ω) L rate m) (totEdf m L k) ci σ}) atTop
      (𝓝 (gaussI (z / √(totRatio m k)))) := by
  obtain ⟨n0, hn0⟩ := eventually_atTop.1 ((usable_eventually .oadev hm (by simp)).and (totEdf_ok k hm))
  rw [← tendsto_add_atTop_iff_nat n0]
  have hu : ∀ n, Usable .oadev (n + n0) m := fun n => (hn0 _ (by omega)).1
  have hge : ∀ n, 2 * m + 2 ≤ n + n0 := fun n => (oadev_usable (hu n)).2
  have hs' : (0 : ℝ) < s2 := by exact_mod_cast hs
  have htv := trueVar_pos hr .oadev k hm
  have hσ0 : 0 < σ := by rw [hσ]; positivity
  have hρ := totRatio_pos k hm
  have hlim := (totEdf_limit k hm).comp (tendsto_add_atTop_nat n0)
  have he := fun n => ciEdf_pos' k hm (hge n)
  have hr0 : ∀ n, 0 < totEdf m (n + n0) k := fun n => (hn0 _ (by omega)).2.2
  have hedf : Tendsto (fun n => ciEdf .oadev k m (n + n0)) atTop atTop := by
    have h2 : Tendsto (fun n => ((n + n0 - 2 * m : ℕ) : ℝ) / (2 * (filtLen .oadev k m + 1))) atTop atTop :=
      (tendsto_natCast_atTop_atTop.comp ((summands_tendsto .oadev hm).comp (tendsto_add_atTop_nat n0))).atTop_div_const (by positivity)
    refine tendsto_atTop_mono (fun n => ?_) h2
    exact filterEdf_ge h hs (filt_zero .oadev k m) (filt_ne .oadev k m (ciHop .oadev m) hm) (by simp [ciHop, CiDev.fn, hop])
      (M := n + n0 - 2 * m) (by have := hge n; omega)
  have hinf : Tendsto (fun n => totEdf m (n + n0) k) atTop atTop := by
    refine (hlim.pos_mul_atTop hρ hedf).congr fun n => ?_
    exact div_mul_cancel₀ _ (he n).ne'
  have hinv : Tendsto (fun n => ciEdf .oadev k m (n + n0) / totEdf m (n + n0) k) atTop (𝓝 (totRatio m k)⁻¹) :=
    (hlim.inv₀ hρ.ne').congr fun n => inv_div _ _
  have key := coverage_tendsto hp (D := fun n ω => value .totdev (fun i => x (n + n0) i ω) (n + n0) rate m) hσ0 h0 h1 hz0 hz
    (fun n => tot_meas (hxm _) hr hm (hge n)) (e := fun n => ciEdf .oadev k m (n + n0)) (e' := fun n => totEdf m (n + n0) k)
    he hr0 hinf ((Real.continuous_sqrt.tendsto _).comp hinv) (Real.sqrt_nonneg _) (tot_lim h hs hr k hm hκ hxm hx hσ hu)
  rw [Real.sqrt_inv, show (√(totRatio m k))⁻¹ * z = z / √(totRatio m k) by ring] at key
  exact key

omit [IsProbabilityMeasure P] in
theorem noise_meas (h : NormalNoise P W s2) (k : Kind) (i : ℕ) : AEMeasurable (fun ω => noise k (fun j => W j ω) i) P := by
  have hW : ∀ i, AEMeasurable (W i) P := fun i => (h.law i).aemeasurable
  cases k <;> simp only [noise] <;> fun_prop

omit [IsProbabilityMeasure P] in
theorem phaseOf_meas {y : ℕ → Ω → ℝ} (hy : ∀ i, AEMeasurable (y i) P) (N i : ℕ) :
    AEMeasurable (fun ω => phaseOf (fun j => y j ω) N rate i) P := by
  unfold phaseOf
  fun_prop

/-! ## The claims -/

/-- **C98, error bars of phase data.** The phase is a line plus white phase noise, white frequency noise or a random walk of the
frequency.  The probability that the error bar of the total deviation contains the Allan deviation of the noise tends to the same
limit as that of the overlapping Allan deviation. -/
theorem tot_bars_phase (h : NormalNoise P W s2) (hs : 0 < s2) (hr : 0 < rate) (k : Kind) (a b : ℝ) {m : ℕ} (hm : 0 < m) :
    Tendsto (fun N => P.real {ω | TotBarContains (tab N (fun i => a + b * i + noise k (fun j => W j ω) i)) rate "phase" m
      √(s2 * trueVar .oadev k m (m / rate))}) atTop
      (𝓝 ((gaussianReal 0 1).real (Set.Icc (-√(2 * barRatio m .oadev k)) √(2 * barRatio m .oadev k)))) := by
  refine (tot_bars_core h hs hr k hm one_ne_zero (x := fun _ i ω => a + b * i + noise k (fun j => W j ω) i)
    (fun _ i => (noise_meas h k i).const_add _)
    (fun _ ω => noise_line k a b _) (σ := √(s2 * trueVar .oadev k m (m / rate))) (by rw [one_pow, one_mul])).congr' ?_
  filter_upwards [usable_eventually .totdev hm (by simp)] with N hu
  simp only [tot_bar_phase hu hr]

/-- **C98, error bars of white frequency noise.** -/
theorem tot_bars_white_freq {Y : ℕ → Ω → ℝ} (h : NormalNoise P Y s2) (hs : 0 < s2) (hr : 0 < rate) (y0 : ℝ) {m : ℕ}
    (hm : 0 < m) :
    Tendsto (fun N => P.real {ω | TotBarContains (tab N (fun i => y0 + Y i ω)) rate "freq" m
      √(s2 / rate ^ 2 * trueVar .oadev .wfm m (m / rate))}) atTop
      (𝓝 ((gaussianReal 0 1).real (Set.Icc (-√(2 * barRatio m .oadev .wfm)) √(2 * barRatio m .oadev .wfm)))) := by
  have hY : ∀ i, AEMeasurable (Y i) P := fun i => (h.law i).aemeasurable
  have key := tot_bars_core h hs hr .wfm hm (one_div_pos.2 hr).ne'
    (x := fun L i ω => phaseOf (fun i => y0 + Y i ω) (L - 1) rate i)
    (fun L i => phaseOf_meas (y := fun i ω => y0 + Y i ω) (fun i => (hY i).const_add _) _ _)
    (fun L ω => noise_wfm y0 (fun i => Y i ω) (L - 1) rate)
    (σ := √(s2 / rate ^ 2 * trueVar .oadev .wfm m (m / rate))) (by congr 1; ring)
  refine (key.comp (tendsto_add_atTop_nat 1)).congr' ?_
  filter_upwards [(tendsto_add_atTop_nat 1).eventually (usable_eventually .totdev hm (by simp)),
    eventually_gt_atTop 0] with N hu hN
  simp only [tot_bar_freq hN hu hr, Function.comp_apply, Nat.add_sub_cancel]

/-- **C98, error bars of frequency data that are a random walk.** -/
theorem tot_bars_walk_freq {Y : ℕ → Ω → ℝ} (h : NormalNoise P Y s2) (hs : 0 < s2) (hr : 0 < rate) (y0 : ℝ) {m : ℕ}
    (hm : 0 < m) :
    Tendsto (fun N => P.real {ω | TotBarContains (tab N (fun i => y0 + ∑ j ∈ range i, Y j ω)) rate "freq" m
      √(s2 / rate ^ 2 * trueVar .oadev .rwfm m (m / rate))}) atTop
      (𝓝 ((gaussianReal 0 1).real (Set.Icc (-√(2 * barRatio m .oadev .rwfm)) √(2 * barRatio m .oadev .rwfm)))) := by
  have hY : ∀ i, AEMeasurable (Y i) P := fun i => (h.law i).aemeasurable
  have key := tot_bars_core h hs hr .rwfm hm (one_div_pos.2 hr).ne'
    (x := fun L i ω => phaseOf (fun i => y0 + ∑ j ∈ range i, Y j ω) (L - 1) rate i)
    (fun L i => phaseOf_meas (y := fun i ω => y0 + ∑ j ∈ range i, Y j ω)
      (fun i => (Finset.aemeasurable_fun_sum _ fun j _ => hY j).const_add _) _ _)
    (fun L ω => noise_walk y0 (fun i => Y i ω) (L - 1) rate)
    (σ := √(s2 / rate ^ 2 * trueVar .oadev .rwfm m (m / rate))) (by congr 1; ring)
  refine (key.comp (tendsto_add_atTop_nat 1)).congr' ?_
  filter_upwards [(tendsto_add_atTop_nat 1).eventually (usable_eventually .totdev hm (by simp)),
    eventually_gt_atTop 0] with N hu hN
  simp only [tot_bar_freq hN hu hr, Function.comp_apply, Nat.add_sub_cancel]

/-- **C98, confidence intervals of phase data.** The probability that the interval computed with `edf_totdev` contains the
Allan deviation of the noise tends to the probability of the normal distribution between `-z / √ρ` and `z / √ρ`, where `ρ` is
`totRatio` and `z` is the bound that belongs to the probability `ci` asked for. -/
theorem coverage_tot_phase (h : NormalNoise P W s2) (hs : 0 < s2) (hr : 0 < rate) (k : Kind) (a b : ℝ) {m : ℕ} (hm : 0 < m)
    {ppf : ℝ → ℝ → NV} (hp : Chi2Ppf ppf) {ci z : ℝ} (h0 : 1 / 2 ≤ ci) (h1 : ci < 1) (hz0 : 0 ≤ z)
    (hz : (gaussianReal 0 1).real (Set.Icc (-z) z) = ci) :
    Tendsto (fun N => P.real {ω | TotCovered ppf (tab N (fun i => a + b * i + noise k (fun j => W j ω) i)) rate "phase" m
      (alphaOf k) N ci √(s2 * trueVar .oadev k m (m / rate))}) atTop
      (𝓝 ((gaussianReal 0 1).real (Set.Icc (-(z / √(totRatio m k))) (z / √(totRatio m k))))) := by
  refine (tot_covers_core h hs hr k hm one_ne_zero (x := fun _ i ω => a + b * i + noise k (fun j => W j ω) i)
    (fun _ i => (noise_meas h k i).const_add _) (fun _ ω => noise_line k a b _) hp h0 h1 hz0 hz
    (σ := √(s2 * trueVar .oadev k m (m / rate))) (by rw [one_pow, one_mul])).congr' ?_
  filter_upwards [usable_eventually .totdev hm (by simp), totEdf_ok k hm] with N hu hc
  simp only [tot_covered_phase ppf hu hr _ _ _ _ hc.1]

/-- **C98, confidence intervals of white frequency noise.** -/
theorem coverage_tot_white_freq {Y : ℕ → Ω → ℝ} (h : NormalNoise P Y s2) (hs : 0 < s2) (hr : 0 < rate) (y0 : ℝ) {m : ℕ}
    (hm : 0 < m) {ppf : ℝ → ℝ → NV} (hp : Chi2Ppf ppf) {ci z : ℝ} (h0 : 1 / 2 ≤ ci) (h1 : ci < 1) (hz0 : 0 ≤ z)
    (hz : (gaussianReal 0 1).real (Set.Icc (-z) z) = ci) :
    Tendsto (fun N => P.real {ω | TotCovered ppf (tab N (fun i => y0 + Y i ω)) rate "freq" m 0 (N + 1) ci
      √(s2 / rate ^ 2 * trueVar .oadev .wfm m (m / rate))}) atTop
      (𝓝 ((gaussianReal 0 1).real (Set.Icc (-(z / √(totRatio m .wfm))) (z / √(totRatio m .wfm))))) := by
  have hY : ∀ i, AEMeasurable (Y i) P := fun i => (h.law i).aemeasurable
  have key := tot_covers_core h hs hr .wfm hm (one_div_pos.2 hr).ne'
    (x := fun L i ω => phaseOf (fun i => y0 + Y i ω) (L - 1) rate i)
    (fun L i => phaseOf_meas (y := fun i ω => y0 + Y i ω) (fun i => (hY i).const_add _) _ _)
    (fun L ω => noise_wfm y0 (fun i => Y i ω) (L - 1) rate) hp h0 h1 hz0 hz
    (σ := √(s2 / rate ^ 2 * trueVar .oadev .wfm m (m / rate))) (by congr 1; ring)
  refine (key.comp (tendsto_add_atTop_nat 1)).congr' ?_
  filter_upwards [(tendsto_add_atTop_nat 1).eventually (usable_eventually .totdev hm (by simp)),
    (tendsto_add_atTop_nat 1).eventually (totEdf_ok .wfm hm), eventually_gt_atTop 0] with N hu hc hN
  rw [show alphaOf .wfm = 0 from rfl] at hc
  simp only [tot_covered_freq ppf hN hu hr _ _ _ _ hc.1, Function.comp_apply, Nat.add_sub_cancel]

/-- **C98, confidence intervals of frequency data that are a random walk.** -/
theorem coverage_tot_walk_freq {Y : ℕ → Ω → ℝ} (h : NormalNoise P Y s2) (hs : 0 < s2) (hr : 0 < rate) (y0 : ℝ) {m : ℕ}
    (hm : 0 < m) {ppf : ℝ → ℝ → NV} (hp : Chi2Ppf ppf) {ci z : ℝ} (h0 : 1 / 2 ≤ ci) (h1 : ci < 1) (hz0 : 0 ≤ z)
    (hz : (gaussianReal 0 1).real (Set.Icc (-z) z) = ci) :
    Tendsto (fun N => P.real {ω | TotCovered ppf (tab N (fun i => y0 + ∑ j ∈ range i, Y j ω)) rate "freq" m (-2) (N + 1) ci
      √(s2 / rate ^ 2 * trueVar .oadev .rwfm m (m / rate))}) atTop
      (𝓝 ((gaussianReal 0 1).real (Set.Icc (-(z / √(totRatio m .rwfm))) (z / √(totRatio m .rwfm))))) := by
  have hY : ∀ i, AEMeasurable (Y i) P := fun i => (h.law i).aemeasurable
  have key := tot_covers_core h hs hr .rwfm hm (one_div_pos.2 hr).ne'
    (x := fun L i ω => phaseOf (fun i => y0 + ∑ j ∈ range i, Y j ω) (L - 1) rate i)
    (fun L i => phaseOf_meas (y := fun i ω => y0 + ∑ j ∈ range i, Y j ω)
      (fun i => (Finset.aemeasurable_fun_sum _ fun j _ => hY j).const_add _) _ _)
    (fun L ω => noise_walk y0 (fun i => Y i ω) (L - 1) rate) hp h0 h1 hz0 hz
    (σ := √(s2 / rate ^ 2 * trueVar .oadev .rwfm m (m / rate))) (by congr 1; ring)
  refine (key.comp (tendsto_add_atTop_nat 1)).congr' ?_
  filter_upwards [(tendsto_add_atTop_nat 1).eventually (usable_eventually .totdev hm (by simp)),
    (tendsto_add_atTop_nat 1).eventually (totEdf_ok .rwfm hm), eventually_gt_atTop 0] with N hu hc hN
  rw [show alphaOf .rwfm = -2 from rfl] at hc
  simp only [tot_covered_freq ppf hN hu hr _ _ _ _ hc.1, Function.comp_apply, Nat.add_sub_cancel]

/-! ## How far the limits are from the probability asked for -/

/-- C98: for white frequency noise the interval is too short at every averaging factor -/
theorem tot_white_short {m : ℕ} (hm : 0 < m) {ci z : ℝ} (hz0 : 0 < z) (hz : (gaussianReal 0 1).real (Set.Icc (-z) z) = ci) :
    (gaussianReal 0 1).real (Set.Icc (-(z / √(totRatio m .wfm))) (z / √(totRatio m .wfm))) < ci := by
  have hm' : (0 : ℝ) < m := by exact_mod_cast hm
  have h1 : 1 < totRatio m .wfm := by
    rw [totRatio, one_lt_div (by positivity)]
    linarith
  have h2 : 1 < √(totRatio m .wfm) := by rw [Real.lt_sqrt (by norm_num)]; simpa using h1
  rw [← hz]
  exact gaussI_strictMono (by positivity) (by rw [div_lt_iff₀ (by linarith)]; nlinarith)

theorem gaussI_over {ρ lo hi z : ℝ} (hz0 : 0 ≤ z) (hlo0 : 0 < lo) (h1 : lo ≤ 1) (h2 : 1 ≤ hi) (hlo : 1 / hi ^ 2 ≤ ρ) (hhi : ρ ≤ 1 / lo ^ 2) :
    lo * gaussI z ≤ gaussI (z / √ρ) ∧ gaussI (z / √ρ) ≤ hi * gaussI z := by
  have hh : 0 < hi := by linarith
  have hρ : 0 < ρ := lt_of_lt_of_le (by positivity) hlo
  have hs : 0 < √ρ := Real.sqrt_pos.2 hρ
  have e1 : 1 / hi ≤ √ρ := Real.le_sqrt_of_sq_le (by rw [div_pow, one_pow]; exact hlo)
  have e2 : √ρ ≤ 1 / lo := Real.sqrt_le_left (by positivity) |>.2 (by rw [div_pow, one_pow]; exact hhi)
  constructor
  · refine (gaussI_scale hlo0 h1 hz0).trans (gaussI_mono ?_)
    rw [le_div_iff₀ hs]
    have := mul_le_mul_of_nonneg_left e2 (mul_nonneg hlo0.le hz0)
    rwa [show lo * z * (1 / lo) = z by field_simp] at this
  · refine (gaussI_mono ?_).trans (gaussI_scale' h2 hz0)
    rw [div_le_iff₀ hs]
    have := mul_le_mul_of_nonneg_left e1 (mul_nonneg hh.le hz0)
    rwa [show hi * z * (1 / hi) = z by field_simp] at this

/-- C98: the relative loss for white frequency noise is at most `5 / (8 m²)` -/
theorem tot_white_near {m : ℕ} (hm : 0 < m) {ci z : ℝ} (hz0 : 0 ≤ z) (hz : (gaussianReal 0 1).real (Set.Icc (-z) z) = ci) :
    (1 - 5 / (8 * m ^ 2)) * ci ≤ (gaussianReal 0 1).real (Set.Icc (-(z / √(totRatio m .wfm))) (z / √(totRatio m .wfm))) := by
  have hm' : (1 : ℝ) ≤ m := by exact_mod_cast hm
  have e : 5 / (8 * (m : ℝ) ^ 2) ≤ 5 / 8 := by
    rw [div_le_div_iff₀ (by positivity) (by norm_num)]
    nlinarith
  have hp : 0 < 5 / (8 * (m : ℝ) ^ 2) := by positivity
  rw [← hz]
  refine (gaussI_over (ρ := totRatio m .wfm) (hi := 1) hz0 (by linarith) (by linarith) le_rfl ?_ ?_).1
  · rw [totRatio, one_pow, div_one, one_le_div (by positivity)]
    linarith
  · rw [totRatio, show (4 * (m : ℝ) ^ 2 + 5) / (4 * m ^ 2) = 1 + 2 * (5 / (8 * (m : ℝ) ^ 2)) by field_simp; ring]
    generalize 5 / (8 * (m : ℝ) ^ 2) = u at e hp
    rw [le_div_iff₀ (by nlinarith)]
    nlinarith [sq_nonneg u, mul_nonneg hp.le (sq_nonneg u)]

/-- C98: for white phase noise and for a random walk of the frequency the limit differs from the probability asked for by at most
6 percent of it, at every averaging factor -/
theorem tot_other_near {k : Kind} (hk : k ≠ .wfm) {m : ℕ} (hm : 0 < m) {ci z : ℝ} (hz0 : 0 ≤ z)
    (hz : (gaussianReal 0 1).real (Set.Icc (-z) z) = ci) :
    0.998 * ci ≤ (gaussianReal 0 1).real (Set.Icc (-(z / √(totRatio m k))) (z / √(totRatio m k))) ∧
    (gaussianReal 0 1).real (Set.Icc (-(z / √(totRatio m k))) (z / √(totRatio m k))) ≤ 1.06 * ci := by
  rw [← hz]
  refine gaussI_over (ρ := totRatio m k) hz0 (by norm_num) (by norm_num) (by norm_num) ?_ ?_
  · cases k
    · norm_num [totRatio]
    · exact absurd rfl hk
    · obtain rfl | h2 := (show 1 ≤ m from hm).eq_or_lt
      · norm_num [totRatio]
      obtain ⟨n, rfl⟩ := Nat.exists_eq_add_of_le' (show 2 ≤ m from h2)
      rw [totRatio, div_le_div_iff₀ (by positivity) (by positivity), ← sub_nonneg]
      push_cast
      ring_nf
      positivity
  · cases k
    · norm_num [totRatio]
    · exact absurd rfl hk
    · obtain ⟨n, rfl⟩ := Nat.exists_eq_add_of_le' hm
      rw [totRatio, div_le_div_iff₀ (by positivity) (by positivity), ← sub_nonneg]
      push_cast
      ring_nf
      positivity

/-! ## The hypotheses are met -/

/-- white frequency noise without averaging: the total deviation is the Allan deviation, `edf_totdev` claims 9/4 of its degrees of
freedom, and the interval that is asked to contain the deviation in 95 of 100 cases contains it less often -/
example : ∃ l < 0.95, Tendsto (fun N => gaussNoise.real {ω | TotCovered (fun q k => some (chi2Quantile q k))
    (tab N (fun i => 3 + ω i)) 10 "freq" 1 0 (N + 1) 0.95
      √((1 : ℝ≥0) / 10 ^ 2 * (2 * (1 : ℕ) / (2 * ((1 : ℕ) / 10) ^ 2)))}) atTop (𝓝 l) := by
  obtain ⟨z, hz0, hz⟩ := exists_normal_interval (ci := 0.95) (by norm_num) (by norm_num)
  have hz1 : 0 < z := by
    refine lt_of_le_of_ne hz0 fun h => ?_
    rw [← h] at hz
    have : gaussI 0 = 0.95 := by rw [gaussI]; exact hz
    rw [gaussI_eq le_rfl] at this
    norm_num at this
  exact ⟨_, tot_white_short one_pos hz1 hz, coverage_tot_white_freq normal_gauss one_pos (by norm_num) 3 one_pos
    (fun _ _ _ _ _ => rfl) (by norm_num) (by norm_num) hz0 hz⟩

end AT
