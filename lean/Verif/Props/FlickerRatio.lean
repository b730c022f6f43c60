import Verif.Lemmas.FlickerSpread

/-!
# C86: the ratios R(n) and B1 of long simulated noise of all five types
-/

namespace AT

open Spec Finset MeasureTheory ProbabilityTheory Filter
open scoped NNReal ENNReal

/-- `R` lies where the boundaries of R(n) put the phase noise exponent `b`: below both for white phase noise, between them
for flicker phase noise, above both for frequency noise -/
def Spec.RnSays (m : ℕ) (R b : ℝ) : Prop :=
  if b = 0 then R < rn_boundary m 0
  else if b = -1 then rn_boundary m 0 < R ∧ R < rn_boundary m (-1)
  else rn_boundary m (-1) < R

/-- `R` lies where the boundaries of B1 for `M` samples put the phase noise exponent `b`; B1 does not distinguish white from
flicker phase noise -/
def Spec.B1Says (M : ℕ) (R b : ℝ) : Prop :=
  if b = 0 ∨ b = -1 then ∃ hi, b1_boundary (-1) M = .ok (some hi) ∧ R < hi
  else ∃ n : ℤ, (n : ℝ) = b ∧ ∃ lo hi, b1_boundary (n + 1) M = .ok (some lo) ∧ b1_boundary n M = .ok (some hi) ∧ lo < R ∧ R < hi

/-- the averaging factors at which the boundaries of R(n) put frequency noise among the flicker phase noise -/
def Spec.RnFails (m : ℕ) (b : ℝ) : Prop := b = -2 ∧ m ≤ 19 ∨ b = -3 ∧ m = 2

variable {Ω : Type} [MeasurableSpace Ω] {P : Measure Ω} [IsProbabilityMeasure P] {W : ℕ → Ω → ℝ} {s2 : ℝ≥0}

/-! ## Limits of the variances -/

theorem avarOf_offset (x : ℕ → ℝ) (A B : ℝ) (m n : ℕ) : AT.avarOf (fun i => A + B * i + x i) m n = AT.avarOf x m n := by
  unfold AT.avarOf
  simp only [d2_offset]

theorem mvarOf_offset (x : ℕ → ℝ) (A B : ℝ) (m n : ℕ) : AT.mvarOf (fun i => A + B * i + x i) m n = AT.mvarOf x m n := by
  unfold AT.mvarOf
  simp only [d2_offset]

/-- the even exponents are the noises of C80 -/
theorem kasdin_even {b : ℝ} (hb : b = 0 ∨ b = -2 ∨ b = -4) : ∃ (k : Kind) (r : ℕ),
    (b = 0 ∧ k = .wpm ∨ b = -2 ∧ k = .wfm ∨ b = -4 ∧ k = .rwfm) ∧
    ∀ w : ℕ → ℝ, ∃ A B : ℝ, kasdinNoise b w = fun i => A + B * i + noise k (fun j => w (j + r)) i := by
  rcases hb with rfl | rfl | rfl
  · exact ⟨.wpm, 0, by simp, fun w => ⟨0, 0, by funext i; simp [kasdinNoise_white, noise]⟩⟩
  · exact ⟨.wfm, 1, by norm_num, fun w => ⟨kasdinNoise (-2) w 0, 0, by funext i; rw [kasdin_walk]; simp [noise]⟩⟩
  · refine ⟨.rwfm, 2, by norm_num, fun w => ?_⟩
    obtain ⟨B, hB⟩ := kasdin_run w
    exact ⟨kasdinNoise (-4) w 0, B, by funext i; rw [hB]; simp [noise]⟩

theorem sim_even {b : ℝ} {k : Kind} (h : b = 0 ∧ k = .wpm ∨ b = -2 ∧ k = .wfm ∨ b = -4 ∧ k = .rwfm) {m : ℕ} (hm : 0 < m) :
    d2Mean m k * s2 / (2 * (m : ℝ) ^ 2) = s2 * simAvar b m ∧ d2SumMean m k * s2 / (2 * (m : ℝ) ^ 4) = s2 * simMvar b m := by
  have hm0 : (0 : ℝ) < m := by exact_mod_cast hm
  rcases h with ⟨rfl, rfl⟩ | ⟨rfl, rfl⟩ | ⟨rfl, rfl⟩ <;> norm_num [d2Mean, d2SumMean, simAvar, simMvar] <;> constructor <;> field_simp <;> ring_nf

section

variable (h : NormalNoise P W s2) {m : ℕ}
include h

theorem kasdin_var_lim (hm : 0 < m) {b : ℝ} (hb : KasdinType b) :
    InProb P (fun n ω => AT.avarOf (kasdinNoise b (fun j => W j ω)) m n) (s2 * simAvar b m) ∧
    InProb P (fun n ω => AT.mvarOf (kasdinNoise b (fun j => W j ω)) m n) (s2 * simMvar b m) := by
  have hm' : (0 : ℝ) < m := by exact_mod_cast hm
  have even : (b = 0 ∨ b = -2 ∨ b = -4) → InProb P (fun n ω => AT.avarOf (kasdinNoise b (fun j => W j ω)) m n) (s2 * simAvar b m) ∧
      InProb P (fun n ω => AT.mvarOf (kasdinNoise b (fun j => W j ω)) m n) (s2 * simMvar b m) := fun hb' => by
    obtain ⟨k, r, hk, hw⟩ := kasdin_even hb'
    rw [← (sim_even hk hm).1, ← (sim_even hk hm).2]
    refine ⟨(avar_lim (window_normal' h r) hm k).congr (Eventually.of_forall fun n ω => ?_),
      (mvar_lim (window_normal' h r) k).congr (Eventually.of_forall fun n ω => ?_)⟩
    · obtain ⟨A, B, e⟩ := hw (fun j => W j ω)
      rw [e, avarOf_offset]
    · obtain ⟨A, B, e⟩ := hw (fun j => W j ω)
      rw [e, mvarOf_offset]
  have hd : ∀ ω i, kasdinNoise (-3) (fun k => W k ω) (i + 1) - kasdinNoise (-3) (fun k => W k ω) i
      = kasdinNoise (-1) (fun k => W k ω) (i + 1) := fun ω i => by
    rw [kasdinNoise_diff, show (-3 + 2 : ℝ) = -1 by norm_num]
  have hpi := Real.pi_pos
  rcases hb with hb | hb | hb | hb | hb
  · exact even (Or.inl hb)
  · subst hb
    have ka := (flicker_lln h (range 3) w2 (fun u => u * m + 0) w2_sum hm).map (fun t => t / (2 * (m : ℝ) ^ 2)) (by fun_prop)
    have km := (flicker_lln h (range 3 ×ˢ range m) (fun u => w2 u.1) (fun u => u.1 * m + u.2 + 0) (wsum_prod w2_sum _) one_pos).map
      (fun t => t / (2 * (m : ℝ) ^ 4)) (by fun_prop)
    have qa := quad_a1 m 0
    have qm := quad_m1 m 0
    simp only [zO] at qa qm
    rw [qa] at ka
    rw [qm] at km
    constructor
    · have e : (s2 : ℝ) * (-(2 / Real.pi) * (-8 * oddSum m + 2 * oddSum (2 * m))) / (2 * (m : ℝ) ^ 2) = s2 * simAvar (-1) m := by
        norm_num [simAvar]; field_simp; ring
      rw [e] at ka
      refine ka.congr (Eventually.of_forall fun n ω => ?_)
      simp only [AT.avarOf, d2_pts]
    · have e : (s2 : ℝ) * (-(2 / Real.pi) * (30 * oddG m - 12 * oddG (2 * m) + 2 * oddG (3 * m))) / (2 * (m : ℝ) ^ 4) = s2 * simMvar (-1) m := by
        norm_num [simMvar]; field_simp; ring
      rw [e] at km
      refine km.congr (Eventually.of_forall fun n ω => ?_)
      simp only [AT.mvarOf, mod_pts, mul_one]
  · exact even (Or.inr (Or.inl hb))
  · subst hb
    have ka := (flicker_lln h (range 2 ×ˢ range m) (fun u => w1 u.1) (fun u => u.1 * m + u.2 + 1) (wsum_prod w1_sum _) hm).map
      (fun t => t / (2 * (m : ℝ) ^ 2)) (by fun_prop)
    have km := (flicker_lln h (range 2 ×ˢ (range m ×ˢ range m)) (fun u => w1 u.1) (fun u => u.1 * m + u.2.1 + u.2.2 + 1)
      (wsum_prod w1_sum _) one_pos).map (fun t => t / (2 * (m : ℝ) ^ 4)) (by fun_prop)
    have qa := quad_a3 m 1
    have qm := quad_m3 m 1
    simp only [zO] at qa qm
    rw [qa] at ka
    rw [qm] at km
    constructor
    · have e : (s2 : ℝ) * (-(2 / Real.pi) * (8 * oddG m - 2 * oddG (2 * m))) / (2 * (m : ℝ) ^ 2) = s2 * simAvar (-3) m := by
        norm_num [simAvar]; field_simp; ring
      rw [e] at ka
      refine ka.congr (Eventually.of_forall fun n ω => ?_)
      simp only [AT.avarOf, d2_pts_diff _ _ (hd ω)]
    · have e : (s2 : ℝ) * (-(2 / Real.pi) * (-2 * oddH (3 * m) + 12 * oddH (2 * m) - 30 * oddH m)) / (2 * (m : ℝ) ^ 4) = s2 * simMvar (-3) m := by
        norm_num [simMvar]; field_simp; ring
      rw [e] at km
      refine km.congr (Eventually.of_forall fun n ω => ?_)
      simp only [AT.mvarOf, mod_pts_diff _ _ (hd ω), mul_one]
  · exact even (Or.inr (Or.inr hb))

omit [MeasurableSpace Ω] [IsProbabilityMeasure P] h in
theorem simAvar_pos (hm : 0 < m) {b : ℝ} (hb : KasdinType b) : 0 < simAvar b m := by
  have hm' : (0 : ℝ) < m := by exact_mod_cast hm
  have hpi := Real.pi_pos
  rcases hb with rfl | rfl | rfl | rfl | rfl
  · norm_num [simAvar]; positivity
  · have h1 := (parts_small (m := m)).1
    have h2 := oddSum_one_le hm
    have : 0 < 8 * oddSum m - 2 * oddSum (2 * m) := by norm_num at h1; linarith
    norm_num [simAvar]
    positivity
  · norm_num [simAvar]; positivity
  · have h1 := (ffm_bounds hm).1
    norm_num [simAvar]
    positivity
  · norm_num [simAvar]; positivity

/-- R(n) settles -/
theorem kasdin_rn_settles (hs : 0 < s2) (hm : 0 < m) {b : ℝ} (hb : KasdinType b) (A B : Ω → ℝ) {ε δ : ℝ} (hε : 0 < ε) (hδ : 0 < δ) :
    ∀ᶠ N in atTop, P {ω | ¬ ∃ R, rn (offsetData (A ω) (B ω) (kasdinNoise b (fun j => W j ω)) N) m 1 = .ok (some R) ∧
      |R - simMvar b m / simAvar b m| < ε} ≤ ENNReal.ofReal δ := by
  have hs' : (0 : ℝ) < s2 := hs
  obtain ⟨ka, km⟩ := kasdin_var_lim h hm hb
  have hA := ka.comp ((tendsto_sub_atTop 1).comp (tendsto_groups hm))
  have hB := km.comp (u := fun N => N - 3 * m + 1) ((tendsto_add_atTop_nat 1).comp (tendsto_sub_atTop (3 * m)))
  have hp := mul_pos hs' (simAvar_pos hm hb)
  have hR := hB.div hA hp.ne'
  rw [mul_div_mul_left _ _ hs'.ne'] at hR
  refine (((hR ε hε).and (hA.pos hp)).mono ?_) δ hδ
  filter_upwards [eventually_gt_atTop (4 * m)] with N hN ω hω
  exact ⟨_, rn_data (A ω) (B ω) _ hm hN hω.2, hω.1⟩

omit [MeasurableSpace Ω] [IsProbabilityMeasure P] h in
theorem sim_ratio_even {b : ℝ} {k : Kind} (hk : b = 0 ∧ k = .wpm ∨ b = -2 ∧ k = .wfm ∨ b = -4 ∧ k = .rwfm) (hm : 0 < m) :
    simMvar b m / simAvar b m = rnSettled m k := by
  rw [← rnSettled_eq (s2 := 1) hm one_pos k, (sim_even hk hm).1, (sim_even hk hm).2, NNReal.coe_one, one_mul, one_mul]

omit [MeasurableSpace Ω] [IsProbabilityMeasure P] h in
/-- where the limits lie -/
theorem sim_ratio_says (hm : 2 ≤ m) {b : ℝ} (hb : KasdinType b) :
    (¬ RnFails m b → RnSays m (simMvar b m / simAvar b m) b) ∧ (RnFails m b → RnSays m (simMvar b m / simAvar b m) (-1)) := by
  rcases hb with rfl | rfl | rfl | rfl | rfl
  · rw [sim_ratio_even (k := .wpm) (by simp) (by omega)]
    norm_num [RnFails, RnSays]
    exact rn_wpm_lt hm
  · norm_num [RnFails, RnSays]
    exact ⟨fpm_ratio_gt hm, fpm_ratio_lt hm⟩
  · rw [sim_ratio_even (k := .wfm) (by norm_num) (by omega)]
    norm_num [RnFails, RnSays]
    exact ⟨fun h => rn_wfm_right (by omega), fun h => ⟨rn_wfm_gt hm, rn_wfm_wrong hm h⟩⟩
  · norm_num [RnFails, RnSays]
    refine ⟨fun h => ffm_ratio_gt (by omega), fun h => ?_⟩
    subst h
    exact_mod_cast ffm_ratio_two
  · rw [sim_ratio_even (k := .rwfm) (by norm_num) (by omega)]
    norm_num [RnFails, RnSays]
    exact rn_rwfm_gt hm

omit [MeasurableSpace Ω] [IsProbabilityMeasure P] h in
theorem rnSays_open {b ρ : ℝ} (hρ : RnSays m ρ b) : ∃ ε > 0, ∀ R, |R - ρ| < ε → RnSays m R b := by
  unfold RnSays at *
  split_ifs at * with h1 h2
  · exact ⟨_, sub_pos.2 hρ, fun R hR => by linarith [(abs_lt.1 hR).2]⟩
  · refine ⟨min (ρ - rn_boundary m 0) (rn_boundary m (-1) - ρ), lt_min (by linarith) (by linarith), fun R hR => ?_⟩
    rw [abs_lt] at hR
    constructor
    · linarith [hR.1, min_le_left (ρ - rn_boundary m 0) (rn_boundary m (-1) - ρ)]
    · linarith [hR.2, min_le_right (ρ - rn_boundary m 0) (rn_boundary m (-1) - ρ)]
  · exact ⟨_, sub_pos.2 hρ, fun R hR => by linarith [(abs_lt.1 hR).1]⟩

/-- what R(n) says -/
theorem kasdin_rn_says (hs : 0 < s2) (hm : 2 ≤ m) {b : ℝ} (hb : KasdinType b) (A B : Ω → ℝ) {δ : ℝ} (hδ : 0 < δ) {b' : ℝ}
    (hb' : RnSays m (simMvar b m / simAvar b m) b') :
    ∀ᶠ N in atTop, P {ω | ¬ ∃ R, rn (offsetData (A ω) (B ω) (kasdinNoise b (fun j => W j ω)) N) m 1 = .ok (some R) ∧ RnSays m R b'}
      ≤ ENNReal.ofReal δ := by
  obtain ⟨ε, hε, he⟩ := rnSays_open hb'
  refine (Whp.mono (E := fun N ω => ∃ R, rn (offsetData (A ω) (B ω) (kasdinNoise b (fun j => W j ω)) N) m 1 = .ok (some R) ∧
      |R - simMvar b m / simAvar b m| < ε)
    (fun δ hδ => kasdin_rn_settles h hs (by omega) hb A B hε hδ) ?_) δ hδ
  filter_upwards with N ω
  rintro ⟨R, e, hR⟩
  exact ⟨R, e, he R hR⟩

/-! ## B1 -/

omit h in
/-- the sample variance of a series with bounded sums -/
theorem noisy_sampleVar {w : ℕ → Ω → ℝ} {γ η : ℝ} (hw : Noisy P w γ η) : InProb P (fun n ω => sampleVar (fun i => w i ω) n) γ := by
  have h1 : InProb P (fun n ω => (∑ i ∈ range n, w i ω ^ 2) / n) γ := fun ε hε => by
    refine (hw.sq (half_pos hε)).mono ?_
    filter_upwards [eventually_gt_atTop 0] with n hn ω hω
    have hn0 : (0 : ℝ) < n := by exact_mod_cast hn
    have e : (∑ i ∈ range n, w i ω ^ 2) / n - γ = (∑ i ∈ range n, w i ω ^ 2 - n * γ) / n := by field_simp
    rw [e, abs_div, abs_of_pos hn0, div_lt_iff₀ hn0]
    nlinarith
  obtain ⟨V, hV, hsum⟩ := hw.sum_sq
  have h2 : InProb P (fun n ω => ((∑ i ∈ range n, w i ω) / n) ^ 2) 0 := fun ε hε => by
    have := whp_of_mean (P := P) (X := fun n ω => ((∑ i ∈ range n, w i ω) / n) ^ 2) (c := fun n => V / n) (fun n ω => sq_nonneg _)
      (fun n => by simp only [div_pow]; exact (hsum n).1.div_const _) (fun n => by
        simp only [div_pow]
        rw [integral_div]
        rcases Nat.eq_zero_or_pos n with rfl | hn
        · simp
        have hn0 : (0 : ℝ) < n := by exact_mod_cast hn
        rw [div_le_div_iff₀ (by positivity) hn0]
        have := (hsum n).2
        nlinarith) (tendsto_const_nhds.div_atTop tendsto_natCast_atTop_atTop) hε
    refine this.mono (Eventually.of_forall fun n ω hω => ?_)
    rwa [sub_zero, abs_of_nonneg (sq_nonneg _)]
  have h3 : Tendsto (fun n : ℕ => (n : ℝ) / (n - 1)) atTop (nhds 1) := by
    have := tendsto_natCast_div_add_atTop (𝕜 := ℝ) (-1)
    simpa only [← sub_eq_add_neg] using this
  have h4 := (InProb.of_tendsto (P := P) h3).mul (h1.sub h2)
  rw [sub_zero, one_mul] at h4
  refine h4.congr ?_
  filter_upwards [eventually_gt_atTop 1] with n hn ω
  exact sampleVar_eq _ hn

omit [MeasurableSpace Ω] [IsProbabilityMeasure P] h in
theorem fpm_b1_ratio (hm : 0 < m) : 4 * oddSum m / (8 * oddSum m - 2 * oddSum (2 * m)) < 0.79 := by
  have h1 := (parts_small (m := m)).1
  have h2 := oddSum_one_le hm
  norm_num at h1
  rw [div_lt_iff₀ (by linarith)]
  linarith

/-- B1 of flicker phase noise -/
theorem fpm_b1 (hs : 0 < s2) (hm : 0 < m) (A B : Ω → ℝ) : Whp P (fun N ω => ∃ R, b1 (offsetData (A ω) (B ω)
    (kasdinNoise (-1) (fun j => W j ω)) N) m 1 = .ok (some R) ∧ B1Says ((N - 1) / m) R (-1)) := by
  have hs' : (0 : ℝ) < s2 := hs
  have hm0 : (0 : ℝ) < m := by exact_mod_cast hm
  have hpi := Real.pi_pos
  have hb : KasdinType (-1) := by norm_num [KasdinType]
  have hA := (kasdin_var_lim h hm hb).1.comp ((tendsto_sub_atTop 1).comp (tendsto_groups hm))
  have hp := mul_pos hs' (simAvar_pos hm hb)
  have hQ := (noisy_sampleVar ((fpm_noisy h hm).smul (r := (m : ℝ)⁻¹) (by positivity))).comp (tendsto_groups hm)
  have hR := hQ.div hA hp.ne'
  have h1 := (parts_small (m := m)).1
  have h2 := oddSum_one_le hm
  norm_num at h1
  have e : (m : ℝ)⁻¹ ^ 2 * (s2 * (2 / Real.pi) * (2 * oddSum m)) / (s2 * simAvar (-1) m) = 4 * oddSum m / (8 * oddSum m - 2 * oddSum (2 * m)) := by
    have h3 : 8 * oddSum m - 2 * oddSum (2 * m) ≠ 0 := by linarith
    have ea : simAvar (-1) m = (8 * oddSum m - 2 * oddSum (2 * m)) / (Real.pi * m ^ 2) := by norm_num [simAvar]
    rw [ea]
    field_simp
    ring
  rw [e] at hR
  refine ((hR 0.01 (by norm_num)).and (hA.pos hp)).mono ?_
  filter_upwards [eventually_gt_atTop (4 * m), (tendsto_groups hm).eventually (eventually_ge_atTop 8)] with N hN hN8 ω hω
  refine ⟨_, b1_data (A ω) (B ω) _ hm hN hω.2, ?_⟩
  unfold B1Says
  rw [if_pos (Or.inr rfl)]
  refine ⟨_, (b1_boundary_values (by omega)).1, ?_⟩
  have h3 := (abs_lt.1 hω.1).2
  have h4 := fpm_b1_ratio hm
  have h5 := (b1_low_bound hN8).1
  simp only [Function.comp] at h3
  have e2 : (fun i => (m : ℝ)⁻¹ * (Bl W 1 m 0 (i + 1) ω - Bl W 1 m 0 i ω)) = groupFreq (kasdinNoise (-1) fun j => W j ω) m := by
    funext i
    simp only [bl_fpm, groupFreq, add_mul, one_mul]
    ring
  rw [e2] at h3
  norm_num at h3 h4 h5 ⊢
  linarith

omit [MeasurableSpace Ω] [IsProbabilityMeasure P] h in
/-- the boundary between white and flicker frequency noise grows slower than `oddSum` of the fourth root -/
theorem b1_mid_growth (K : ℝ) : ∀ᶠ M : ℕ in atTop,
    K * √((M : ℝ) * Real.log M / (2 * (M - 1) * Real.log 2) * 1) < oddSum (Nat.sqrt (Nat.sqrt M)) := by
  filter_upwards [(oddSum_atTop.comp tendsto_fourth).eventually (eventually_gt_atTop (12 * K ^ 2)),
    tendsto_fourth.eventually (eventually_ge_atTop 2), eventually_ge_atTop 2] with M hO hq2 hM2
  obtain ⟨q, hq, -, h2⟩ := fourth_root M
  simp only [Function.comp] at hO
  rw [← hq] at hO hq2 ⊢
  have hM' : (2 : ℝ) ≤ M := by exact_mod_cast hM2
  have hq' : (2 : ℝ) ≤ q := by exact_mod_cast hq2
  have hO1 := oddSum_one_le (show 0 < q by omega)
  have l1 := Real.log_two_gt_d9
  have l2 := Real.log_two_lt_d9
  norm_num at l1 l2
  have hlog0 : 0 ≤ Real.log M := Real.log_nonneg (by linarith)
  have hMq : (M : ℝ) ≤ (2 * q) ^ 4 := by
    have h3 : (M : ℝ) ≤ (q + 1) ^ 4 := by exact_mod_cast h2.le
    refine h3.trans ?_
    gcongr
    linarith
  have hlog : Real.log M ≤ 8 * oddSum q := by
    have h3 : Real.log M ≤ Real.log ((2 * (q : ℝ)) ^ 4) := Real.log_le_log (by linarith) hMq
    rw [Real.log_pow, Real.log_mul (by norm_num) (by linarith)] at h3
    have h4 := (oddSum_log_bounds hq2).1
    norm_num at h3 h4
    linarith
  have hd : (0 : ℝ) < 2 * (M - 1) * Real.log 2 := mul_pos (mul_pos two_pos (by linarith)) (by linarith)
  have h5 : (M : ℝ) * Real.log M / (2 * (M - 1) * Real.log 2) * 1 ≤ 12 * oddSum q := by
    rw [mul_one, div_le_iff₀ hd]
    have h6 : (M : ℝ) * Real.log M ≤ M * (8 * oddSum q) := by gcongr
    have h7 : (M : ℝ) * 8 ≤ 12 * (2 * (M - 1) * Real.log 2) := by nlinarith
    nlinarith
  refine lt_of_le_of_lt (le_abs_self _) (abs_lt_of_sq_lt_sq ?_ (by linarith))
  rw [mul_pow, Real.sq_sqrt (by positivity)]
  have h8 : K ^ 2 * ((M : ℝ) * Real.log M / (2 * (M - 1) * Real.log 2) * 1) ≤ K ^ 2 * (12 * oddSum q) := by gcongr
  nlinarith

/-- B1 of flicker frequency noise -/
theorem ffm_b1 (hs : 0 < s2) (hm : 0 < m) (A B : Ω → ℝ) : Whp P (fun N ω => ∃ R, b1 (offsetData (A ω) (B ω)
    (kasdinNoise (-3) (fun j => W j ω)) N) m 1 = .ok (some R) ∧ B1Says ((N - 1) / m) R (-3)) := by
  have hs' : (0 : ℝ) < s2 := hs
  have hm0 : (0 : ℝ) < m := by exact_mod_cast hm
  have hb : KasdinType (-3) := by norm_num [KasdinType]
  have hG := tendsto_groups (m := m) hm
  have hA := (kasdin_var_lim h hm hb).1.comp ((tendsto_sub_atTop 1).comp hG)
  have hp := mul_pos hs' (simAvar_pos hm hb)
  set v := (s2 : ℝ) * simAvar (-3) m
  have hU := (ffm_upper h hm (ε := v / 4) (by positivity)).comp hG
  have hL := (ffm_lower h hs hm).comp hG
  refine ((hA (v / 2) (by positivity)).and (hU.and hL)).mono ?_
  filter_upwards [hG.eventually (b1_mid_growth (2 * v * 128 / s2)), hG.eventually (eventually_ge_atTop 2),
    eventually_gt_atTop (4 * m)] with N hN hN2 hN4 ω hω
  obtain ⟨h1, h2, h3⟩ := hω
  have h1' := abs_lt.1 h1
  simp only [Function.comp] at h1'
  have e2 : (fun i => Bl W m m 1 i ω / m) = groupFreq (kasdinNoise (-3) fun j => W j ω) m := by
    funext i
    simp only [bl_ffm, groupFreq, add_mul, one_mul]
  rw [e2] at h2 h3
  have hA0 : 0 < AT.avarOf (kasdinNoise (-3) fun j => W j ω) m ((N - 1) / m - 1) := by linarith
  refine ⟨_, b1_data (A ω) (B ω) _ hm hN4 hA0, ?_⟩
  unfold B1Says
  rw [if_neg (by norm_num)]
  have hb2 := (b1_boundary_values hN2).2.1
  rw [show (-2 : ℤ) = -3 + 1 by norm_num] at hb2
  refine ⟨-3, by norm_num, _, _, hb2, (b1_boundary_values hN2).2.2.1, ?_, ?_⟩
  · rw [lt_div_iff₀ hA0]
    refine lt_of_lt_of_le ?_ h3
    have hb := Real.sqrt_nonneg ((((N - 1) / m : ℕ) : ℝ) * Real.log (((N - 1) / m : ℕ) : ℝ)
        / (2 * ((((N - 1) / m : ℕ) : ℝ) - 1) * Real.log 2) * 1)
    generalize √((((N - 1) / m : ℕ) : ℝ) * Real.log (((N - 1) / m : ℕ) : ℝ)
        / (2 * ((((N - 1) / m : ℕ) : ℝ) - 1) * Real.log 2) * 1) = β at *
    have h5 : 2 * v * β < s2 / 128 * oddSum (Nat.sqrt (Nat.sqrt ((N - 1) / m))) := by
      rw [div_mul_eq_mul_div, div_lt_iff₀ hs'] at hN
      linarith
    refine lt_of_le_of_lt ?_ h5
    nlinarith
  · have hM : (2 : ℝ) ≤ (((N - 1) / m : ℕ) : ℝ) := by exact_mod_cast hN2
    generalize (((N - 1) / m : ℕ) : ℝ) = M at *
    have hsq : 0 < √M := Real.sqrt_pos.2 (by linarith)
    have hl2 : 0 < Real.log 2 := Real.log_pos one_lt_two
    have hl : Real.log 2 ≤ Real.log M := Real.log_le_log two_pos hM
    have h5 : √M / 2 ≤ √(M / 2 * (M * Real.log M / (2 * (M - 1) * Real.log 2))) := by
      refine Real.le_sqrt_of_sq_le ?_
      rw [div_pow, Real.sq_sqrt (by linarith), show M / 2 ^ 2 = M / 2 * (1 / 2) by ring]
      refine mul_le_mul_of_nonneg_left ?_ (by linarith)
      rw [le_div_iff₀ (mul_pos (mul_pos two_pos (by linarith)) hl2)]
      nlinarith
    refine lt_of_lt_of_le ?_ h5
    rw [div_lt_iff₀ hA0]
    refine lt_of_lt_of_le h2 ?_
    nlinarith

/-- what B1 says -/
theorem kasdin_b1_says (hs : 0 < s2) (hm : 0 < m) {b : ℝ} (hb : KasdinType b) (A B : Ω → ℝ) {δ : ℝ} (hδ : 0 < δ) :
    ∀ᶠ N in atTop, P {ω | ¬ ∃ R, b1 (offsetData (A ω) (B ω) (kasdinNoise b (fun j => W j ω)) N) m 1 = .ok (some R) ∧
      B1Says ((N - 1) / m) R b} ≤ ENNReal.ofReal δ := by
  have even : (b = 0 ∨ b = -2 ∨ b = -4) → Whp P (fun N ω => ∃ R, b1 (offsetData (A ω) (B ω) (kasdinNoise b (fun j => W j ω)) N) m 1
      = .ok (some R) ∧ B1Says ((N - 1) / m) R b) := fun hb' => by
    obtain ⟨k, r, hk, hw⟩ := kasdin_even hb'
    choose A' B' hAB using hw
    have := fun δ (hδ : 0 < δ) => b1_identifies (window_normal' h r) hs hm k (fun ω => A ω + A' (fun j => W j ω))
      (fun ω => B ω + B' (fun j => W j ω)) hδ
    refine Whp.mono (E := fun N ω => ∃ R hi, b1 (noiseData k (A ω + A' (fun j => W j ω)) (B ω + B' (fun j => W j ω))
      (fun i => W (i + r) ω) N) m 1 = .ok (some R) ∧ b1_boundary (bExponent k) ((N - 1) / m) = .ok (some hi) ∧ R < hi ∧
      (k ≠ .wpm → ∃ lo, b1_boundary (bExponent k + 1) ((N - 1) / m) = .ok (some lo) ∧ lo < R)) this (Eventually.of_forall fun N ω => ?_)
    rintro ⟨R, hi, e1, e2, e3, e4⟩
    have ed : offsetData (A ω) (B ω) (kasdinNoise b (fun j => W j ω)) N
        = noiseData k (A ω + A' (fun j => W j ω)) (B ω + B' (fun j => W j ω)) (fun i => W (i + r) ω) N := by
      rw [hAB]
      unfold noiseData offsetData
      congr 1
      funext i
      ring
    refine ⟨R, by rw [ed]; exact e1, ?_⟩
    unfold B1Says
    rcases hk with ⟨rfl, rfl⟩ | ⟨rfl, rfl⟩ | ⟨rfl, rfl⟩
    · rw [if_pos (Or.inl rfl)]
      exact ⟨hi, e2, e3⟩
    · rw [if_neg (by norm_num)]
      obtain ⟨lo, e5, e6⟩ := e4 (by decide)
      exact ⟨-2, by norm_num, lo, hi, e5, e2, e6, e3⟩
    · rw [if_neg (by norm_num)]
      obtain ⟨lo, e5, e6⟩ := e4 (by decide)
      exact ⟨-4, by norm_num, lo, hi, e5, e2, e6, e3⟩
  rcases hb with hb | hb | hb | hb | hb
  · exact even (Or.inl hb) δ hδ
  · subst hb
    exact fpm_b1 h hs hm A B δ hδ
  · exact even (Or.inr (Or.inl hb)) δ hδ
  · subst hb
    exact ffm_b1 h hs hm A B δ hδ
  · exact even (Or.inr (Or.inr hb)) δ hδ

end

/-- C86: R(n) and B1 of the noise that `generateNoise` makes from standard normal numbers -/
theorem generateNoise_ratios {Z : ℕ → Ω → ℝ} (hZ : NormalNoise P Z 1) (s : Noise) (hb : KasdinType s.b) (hq : 0 < s.qd)
    {m : ℕ} (hm : 2 ≤ m) :
    ∃ X : ℕ → Ω → List ℝ,
      (∀ N > 0, ∀ ω, { s with nr := N }.generateNoise (tab N (fun i => Z i ω)) = .ok { s with nr := N, time_series := X N ω }) ∧
      ∀ ε > 0, ∀ δ > 0, ∀ᶠ N in atTop,
        P {ω | ¬ ∃ R, rn (X N ω) m 1 = .ok (some R) ∧ |R - simMvar s.b m / simAvar s.b m| < ε} ≤ ENNReal.ofReal δ ∧
        (¬ RnFails m s.b → P {ω | ¬ ∃ R, rn (X N ω) m 1 = .ok (some R) ∧ RnSays m R s.b} ≤ ENNReal.ofReal δ) ∧
        (RnFails m s.b → P {ω | ¬ ∃ R, rn (X N ω) m 1 = .ok (some R) ∧ RnSays m R (-1)} ≤ ENNReal.ofReal δ) ∧
        P {ω | ¬ ∃ R, b1 (X N ω) m 1 = .ok (some R) ∧ B1Says ((N - 1) / m) R s.b} ≤ ENNReal.ofReal δ := by
  refine ⟨fun N ω => tab N (kasdinNoise s.b (fun i => √s.qd * Z i ω)),
    fun N hN ω => generateNoise_random { s with nr := N } Z hN ω, fun ε hε δ hδ => ?_⟩
  have h0 : √s.qd ≠ 0 := (Real.sqrt_pos.2 hq).ne'
  have hs : 0 < NNReal.mk (√s.qd ^ 2) (sq_nonneg √s.qd) * 1 := by
    rw [mul_one]
    exact (show (0 : ℝ) < √s.qd ^ 2 by positivity)
  have hn := normal_smul hZ (√s.qd)
  have e : ∀ (x : ℕ → ℝ) (N : ℕ), offsetData 0 0 x N = tab N x := fun x N => by
    unfold offsetData
    simp
  have k1 := kasdin_rn_settles hn hs (m := m) (by omega) hb (fun _ => 0) (fun _ => 0) hε hδ
  have k4 := kasdin_b1_says hn hs (m := m) (by omega) hb (fun _ => 0) (fun _ => 0) hδ
  simp only [e] at k1 k4
  have k2 : ∀ {b'}, RnSays m (simMvar s.b m / simAvar s.b m) b' → ∀ᶠ N in atTop, P {ω | ¬ ∃ R,
      rn (tab N (kasdinNoise s.b (fun i => √s.qd * Z i ω))) m 1 = .ok (some R) ∧ RnSays m R b'} ≤ ENNReal.ofReal δ := fun hb' => by
    have := kasdin_rn_says hn hs hm hb (fun _ => 0) (fun _ => 0) hδ hb'
    simpa only [e] using this
  obtain ⟨s1, s2⟩ := sim_ratio_says hm hb
  by_cases hf : RnFails m s.b
  · filter_upwards [k1, k4, k2 (s2 hf)] with N g1 g2 g3
    exact ⟨g1, fun h => absurd hf h, fun _ => g3, g2⟩
  · filter_upwards [k1, k4, k2 (s1 hf)] with N g1 g2 g3
    exact ⟨g1, fun _ => g3, fun h => absurd h hf, g2⟩

/-- the three answers of R(n) exclude each other -/
theorem rnSays_unique {m : ℕ} (hm : 1 ≤ m) {R b b' : ℝ} (hb : KasdinType b) (hb' : KasdinType b') (h : RnSays m R b) (h' : RnSays m R b') :
    b = b' ∨ b ≤ -2 ∧ b' ≤ -2 := by
  have hl := rn_boundaries_le hm
  unfold RnSays at h h'
  rcases hb with rfl | rfl | rfl | rfl | rfl <;> rcases hb' with rfl | rfl | rfl | rfl | rfl <;> norm_num at h h' ⊢ <;> linarith

/-- flicker frequency noise of a `Noise` object at averaging factors 2 and 3 -/
example := generateNoise_ratios normal_gauss (Noise.init 1000 2 (-3)) (by norm_num [Noise.init, KasdinType]) (by norm_num [Noise.init])
  (m := 2) (by norm_num)
example := generateNoise_ratios normal_gauss (Noise.init 1000 2 (-3)) (by norm_num [Noise.init, KasdinType]) (by norm_num [Noise.init])
  (m := 3) (by norm_num)

example : RnFails 2 (-3) ∧ ¬ RnFails 3 (-3) ∧ ∀ m, ¬ RnFails m (-1) := by norm_num [RnFails]

end AT
