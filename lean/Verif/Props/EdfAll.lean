import Verif.Lemmas.EdfCoarse

/-!
# C90: `edf_greenhall` of white noise at every averaging factor
-/

namespace AT

open Spec Finset MeasureTheory ProbabilityTheory
open scoped NNReal ENNReal

variable {Ω : Type} [MeasurableSpace Ω] {P : Measure Ω}

theorem Spec.EdfWithin.mono {call : Py NV} {D : Ω → ℝ} {ε ε' : ℝ} (h : EdfWithin P call D ε) (he : ε ≤ ε') :
    EdfWithin P call D ε' := by
  obtain ⟨r, e, h1, h2, h3, h4, h5⟩ := h
  exact ⟨r, e, h1, h2, h3, h4, h5.trans (mul_le_mul_of_nonneg_right he (Real.sqrt_nonneg _))⟩

/-- what `edf_greenhall` returns when it uses 100 terms -/
theorem edf_call_coarse (alpha : ℤ) (d m N : ℕ) (md : Bool) (F : FArg) (h0 : -4 ≤ alpha) (h1 : alpha ≤ 2) (hd : 1 ≤ d)
    (hd3 : d ≤ 3) (h : 1 < alpha + 2 * d) (hm : 0 < m) (hN : ghL d m md ≤ N)
    (hc : ghCrash alpha d m N true md = none)
    (hi : ghInv alpha d m N true md = (ghSum 100 100 (100 / ghR d m N true md) F alpha d, ghSz F alpha d 0 ^ 2 * 100))
    (hz : ghSz F alpha d 0 ≠ 0) :
    edf_greenhall alpha d m N true md = .ok (some (1 / (2 * trapz 100 (lagWt (ghSz F alpha d) (ghR d m N true md))))) := by
  rw [edf_greenhall_eq_partial alpha d m N true md h0 h1 hd hd3 h hm hN, hc]
  simp only
  rw [hi]
  simp only
  rw [(invEdf_pos (ghSum_pos 100 100 _ _ _ _ (by norm_num) (by norm_num) hz) (by positivity)).1, trapz_coarse F alpha d _ hz]

/-- the sum of 100 terms and the sum over all lags -/
theorem within_coarse {D : Ω → ℝ} (alpha : ℤ) (d m N M : ℕ) (md : Bool) (F : FArg) (h0 : -4 ≤ alpha) (h1 : alpha ≤ 2)
    (hd : 1 ≤ d) (hd3 : d ≤ 3) (h : 1 < alpha + 2 * d) (hm : 0 < m) (hN : ghL d m md ≤ N)
    (hc : ghCrash alpha d m N true md = none)
    (hi : ghInv alpha d m N true md = (ghSum 100 100 (100 / ghR d m N true md) F alpha d, ghSz F alpha d 0 ^ 2 * 100))
    (hz : ghSz F alpha d 0 ≠ 0) (hM : ghM d m N true md = M) (B K η ε : ℝ) (hB : 0 < B)
    (hlow : B ≤ trapz 100 (lagWt (ghSz F alpha d) ((M : ℝ) / m)))
    (hnear : TrapNear 100 M (lagWt (ghSz F alpha d) ((M : ℝ) / m)) K) (hK : K / 80000 ≤ η * B) (hη : η < 1)
    (hε : η ≤ ε * (2 - η)) (δ e : ℝ) (he : HasEdf P (fun ω => D ω ^ 2) e) (he0 : 0 < e) (hε0 : 0 ≤ ε)
    (hmix : |√((M : ℝ) ^ 2 * ghSz F alpha d 0 ^ 2 / lagN M (fun l => ghSz F alpha d ((l : ℝ) / m))) - √e| ≤ δ * √e) :
    EdfWithin P (edf_greenhall alpha d m N true md) D (ε * (1 + δ) + δ) := by
  have hM0 : 0 < M := hM ▸ ghM_pos d m N true md
  have eR : ghR d m N true md = (M : ℝ) / m := by rw [ghR, hM]; rfl
  have hcall := edf_call_coarse alpha d m N md F h0 h1 hd hd3 h hm hN hc hi hz
  rw [eR] at hcall
  have hK' : |trapz 100 (lagWt (ghSz F alpha d) ((M : ℝ) / m)) - trapz M (lagWt (ghSz F alpha d) ((M : ℝ) / m))| ≤ K / 80000 := by
    have := hnear
    unfold TrapNear at this
    norm_num at this
    exact this
  obtain ⟨hb, hs⟩ := coarse_sqrt _ _ B _ η ε hB hlow hK' hK hη hε
  rw [trapz_lagN (ghSz F alpha d) hz m M hM0] at hmix
  refine ⟨_, e, hcall, by have : 0 < trapz 100 (lagWt (ghSz F alpha d) ((M : ℝ) / m)) := by linarith
                          positivity, he, he0, ?_⟩
  set c := √(1 / (2 * trapz 100 (lagWt (ghSz F alpha d) ((M : ℝ) / m))))
  set r := √(1 / (2 * trapz M (lagWt (ghSz F alpha d) ((M : ℝ) / m))))
  have hr : r ≤ (1 + δ) * √e := by
    have := (abs_le.1 hmix).2
    linarith
  calc |c - √e| ≤ |c - r| + |r - √e| := abs_sub_le _ _ _
    _ ≤ ε * ((1 + δ) * √e) + δ * √e := add_le_add (hs.trans (mul_le_mul_of_nonneg_left hr hε0)) hmix
    _ = (ε * (1 + δ) + δ) * √e := by ring

variable [IsProbabilityMeasure P] {s2 : ℝ≥0} {rate : ℝ}

theorem oadev_hasEdf {Y : ℕ → Ω → ℝ} (h : NormalNoise P Y s2) (hs : 0 < s2) (hr : 0 < rate) (c : ℝ) (N m : ℕ)
    (hm : 0 < m) (hN : 2 * m < N + 1) :
    HasEdf P (fun ω => value .oadev (phaseOf (fun i => c + Y i ω) N rate) (N + 1) rate m ^ 2)
      (((N + 1 - 2 * m : ℕ) : ℝ) ^ 2 * ghSz .inf 0 2 0 ^ 2 / lagN (N + 1 - 2 * m) (fun l => ghSz .inf 0 2 ((l : ℝ) / m))) := by
  have hm' : (0 : ℝ) < m := by exact_mod_cast hm
  have hN' : ((N + 1 - 2 * m : ℕ) : ℝ) = N + 1 - 2 * m := by
    rw [Nat.cast_sub (by omega)]
    push_cast
    ring
  have hp : (0 : ℝ) < N + 1 - 2 * m := by
    rw [← hN']
    exact_mod_cast (by omega : 0 < N + 1 - 2 * m)
  have h3 := edf_filter h hs (N + 1 - 2 * m) (by omega) (blocks tapf 2 m) (2 * m) 1 (blocks_zero tapf 2 m) (by
      rw [cov_fm2 m 1 0 hm]
      simpa using ⟨hm.ne', ghSz_inf_ne 2 (.inl rfl)⟩)
    (1 / (2 * (m / rate) ^ 2 * (((N + 1 : ℕ) : ℝ) - 2 * m)) * (1 / rate) ^ 2) (by push_cast; positivity)
  refine h3.congr (fun ω => ?_) ?_
  · simp only [value, Spec.oadev]
    rw [rms_sq _ _ _ (by push_cast; positivity)]
    simp only [d2_fmBlocks, mul_pow, ← mul_sum, mul_one]
    ring
  · have e : filterCov (blocks tapf 2 m) (2 * m) 1 = fun l : ℕ => (m : ℝ) / 2 * ghSz .inf 0 2 ((l : ℝ) / m) := by
      funext l
      rw [cov_fm2 m 1 l hm, mul_one]
    rw [← lagN_eq _ (by omega), e, lagN_mul]
    simp only [Nat.cast_zero, zero_div]
    rw [mul_pow, mul_left_comm, mul_div_mul_left _ _ (by positivity)]

theorem ohdev_hasEdf {Y : ℕ → Ω → ℝ} (h : NormalNoise P Y s2) (hs : 0 < s2) (hr : 0 < rate) (c : ℝ) (N m : ℕ)
    (hm : 0 < m) (hN : 3 * m < N + 1) :
    HasEdf P (fun ω => value .ohdev (phaseOf (fun i => c + Y i ω) N rate) (N + 1) rate m ^ 2)
      (((N + 1 - 3 * m : ℕ) : ℝ) ^ 2 * ghSz .inf 0 3 0 ^ 2 / lagN (N + 1 - 3 * m) (fun l => ghSz .inf 0 3 ((l : ℝ) / m))) := by
  have hm' : (0 : ℝ) < m := by exact_mod_cast hm
  have hN' : ((N + 1 - 3 * m : ℕ) : ℝ) = N + 1 - 3 * m := by
    rw [Nat.cast_sub (by omega)]
    push_cast
    ring
  have hp : (0 : ℝ) < N + 1 - 3 * m := by
    rw [← hN']
    exact_mod_cast (by omega : 0 < N + 1 - 3 * m)
  have h3 := edf_filter h hs (N + 1 - 3 * m) (by omega) (blocks tap2 3 m) (3 * m) 1 (blocks_zero tap2 3 m) (by
      rw [cov_fm3 m 1 0 hm]
      simpa using ⟨hm.ne', ghSz_inf_ne 3 (.inr rfl)⟩)
    (1 / (6 * (m / rate) ^ 2 * (((N + 1 : ℕ) : ℝ) - 3 * m)) * (1 / rate) ^ 2) (by push_cast; positivity)
  refine h3.congr (fun ω => ?_) ?_
  · simp only [value, Spec.ohdev]
    rw [rms_sq _ _ _ (by push_cast; positivity)]
    simp only [d3_fmBlocks, mul_pow, ← mul_sum, mul_one]
    ring
  · have e : filterCov (blocks tap2 3 m) (3 * m) 1 = fun l : ℕ => (m : ℝ) / 2 * ghSz .inf 0 3 ((l : ℝ) / m) := by
      funext l
      rw [cov_fm3 m 1 l hm, mul_one]
    rw [← lagN_eq _ (by omega), e, lagN_mul]
    simp only [Nat.cast_zero, zero_div]
    rw [mul_pow, mul_left_comm, mul_div_mul_left _ _ (by positivity)]

theorem mdev_hasEdf_pm {W : ℕ → Ω → ℝ} (h : NormalNoise P W s2) (hs : 0 < s2) (hr : 0 < rate) (a b : ℝ) (N m : ℕ) (hm : 0 < m)
    (hN : 3 * m ≤ N) (k : ℝ) (hk : k ≠ 0) :
    HasEdf P (fun ω => (k * Spec.mdev (offsetPhase a b (fun i => W i ω)) N m (m / rate)) ^ 2)
      (((N - 3 * m + 1 : ℕ) : ℝ) ^ 2 * ghSz (.fin 1) 2 2 0 ^ 2
        / lagN (N - 3 * m + 1) (fun l => ghSz (.fin 1) 2 2 ((l : ℝ) / m))) := by
  have hm' : (0 : ℝ) < m := by exact_mod_cast hm
  have hp : (0 : ℝ) < N - 3 * m + 1 := by
    have : (3 : ℝ) * m ≤ N := by exact_mod_cast hN
    linarith
  have h3 := edf_filter h hs (N - 3 * m + 1) (by omega) (blocks tap2 3 m) (3 * m) 1
    (blocks_zero tap2 3 m) (by
      rw [cov_mdev m 0 hm, Nat.cast_zero, zero_div, pm_piece0 0 le_rfl zero_le_one]
      norm_num
      exact hm.ne')
    (k ^ 2 / (2 * m ^ 2 * (m / rate) ^ 2 * (N - 3 * m + 1))) (by positivity)
  refine h3.congr (fun ω => ?_) ?_
  · simp only [Spec.mdev]
    rw [mul_pow, rms_sq _ _ _ (by positivity)]
    simp only [mdev_blocks]
    ring
  · have e : filterCov (blocks tap2 3 m) (3 * m) 1 = fun l : ℕ => (m : ℝ) / 2 * ghSz (.fin 1) 2 2 ((l : ℝ) / m) := by
      funext l
      rw [cov_mdev m l hm]
    rw [← lagN_eq _ (by omega), e, lagN_mul]
    simp only [Nat.cast_zero, zero_div]
    rw [mul_pow, mul_left_comm, mul_div_mul_left _ _ (by positivity)]

theorem lag_pos (z : ℝ → ℝ) (hz : z 0 ≠ 0) (m M : ℕ) (hM : 0 < M) :
    0 < (M : ℝ) ^ 2 * z 0 ^ 2 / lagN M (fun l => z ((l : ℝ) / m)) := by
  have hM' : (0 : ℝ) < M := by exact_mod_cast hM
  refine div_pos (by positivity) (lt_of_lt_of_le ?_ (lagN_ge M hM _))
  simp only [Nat.cast_zero, zero_div]
  positivity

/-! ## The overlapping Allan and Hadamard deviations of white frequency noise -/

theorem oadev_all {Y : ℕ → Ω → ℝ} (h : NormalNoise P Y s2) (hs : 0 < s2) (hr : 0 < rate) (c : ℝ) (N m : ℕ)
    (hu : Usable .oadev (N + 1) m) :
    EdfWithin P (edf_greenhall 0 2 m (N + 1) true false)
      (fun ω => value .oadev (phaseOf (fun i => c + Y i ω) N rate) (N + 1) rate m) (5 / 4 / m + 1 / 50) := by
  have hm := hu.1
  have hm' : (0 : ℝ) < m := by exact_mod_cast hm
  have hc : 1 < ((N + 1 : ℕ) : ℤ) - 2 * m := hu.2.2.2.2
  by_cases hJ : min (N + 1 - 2 * m) (3 * m) ≤ 100
  · exact (oadev_near_fm h hs hr c N m hu hJ).mono (by linarith)
  · have hJ1 : 100 < 3 * m := by omega
    have hm34 : (34 : ℝ) ≤ m := by exact_mod_cast (by omega : 34 ≤ m)
    by_cases hT : 5 * m < N + 1
    · refine (oadev_table h hs hr c N m hm hJ1 hT).mono ?_
      have : 3 / 2 / (m : ℝ) ^ 2 ≤ 5 / 4 / m := by
        rw [div_le_div_iff₀ (by positivity) hm']
        nlinarith
      linarith
    · have eL : ghL 2 m false ≤ N + 1 := by simp only [ghL, Bool.false_eq_true, if_false]; omega
      have eM : ghM 2 m (N + 1) true false = N + 1 - 2 * m := by
        rw [ghM_ov _ _ _ _ hm]
        simp only [ghL, Bool.false_eq_true, if_false]
        omega
      have hr3 : ((N + 1 - 2 * m : ℕ) : ℝ) / m ≤ 3 := by
        rw [div_le_iff₀ hm']
        exact_mod_cast (by omega : N + 1 - 2 * m ≤ 3 * m)
      have hr0 : 0 < ((N + 1 - 2 * m : ℕ) : ℝ) / m := by
        have : (0 : ℝ) < ((N + 1 - 2 * m : ℕ) : ℝ) := by exact_mod_cast (by omega : 0 < N + 1 - 2 * m)
        positivity
      have hz := ghSz_inf_ne 2 (.inl rfl)
      refine (within_coarse 0 2 m (N + 1) (N + 1 - 2 * m) false .inf (by norm_num) (by norm_num) (by norm_num) (by norm_num)
        (by norm_num) hm eL (by simp [ghCrash]) ?_ hz eM 0.07 (363 / 2) 0.0325 (1 / 50) (by norm_num) (fm2_lower _ hr0 hr3)
        (fm2_trap _ hr0 hr3 _ (by omega)) (by norm_num) (by norm_num) (by norm_num) 0 _
        (oadev_hasEdf h hs hr c N m hm (by omega)) (lag_pos _ hz m _ (by omega)) (by norm_num) (by simp)).mono ?_
      · unfold ghInv
        have hJ' : ¬ ghJ 2 m (N + 1) true false ≤ 100 := by
          rw [ghJ, eM, show ghS m true = m from rfl]
          exact hJ
        rw [if_neg (by simp), if_pos (by norm_num), if_neg hJ', if_neg]
        rw [ghR, eM, show ghS m true = m from rfl]
        push_cast at hr3 ⊢
        linarith
      · have : 0 < 5 / 4 / (m : ℝ) := by positivity
        linarith

theorem ohdev_all {Y : ℕ → Ω → ℝ} (h : NormalNoise P Y s2) (hs : 0 < s2) (hr : 0 < rate) (c : ℝ) (N m : ℕ)
    (hu : Usable .ohdev (N + 1) m) :
    EdfWithin P (edf_greenhall 0 3 m (N + 1) true false)
      (fun ω => value .ohdev (phaseOf (fun i => c + Y i ω) N rate) (N + 1) rate m) (7 / 5 / m + 3 / 50) := by
  have hm := hu.1
  have hm' : (0 : ℝ) < m := by exact_mod_cast hm
  have hc : 1 < ((N + 1 : ℕ) : ℤ) - 3 * m := hu.2.2.2.2
  by_cases hJ : min (N + 1 - 3 * m) (4 * m) ≤ 100
  · exact (ohdev_near_fm h hs hr c N m hu hJ).mono (by linarith)
  · have hJ1 : 100 < 4 * m := by omega
    have hm34 : (26 : ℝ) ≤ m := by exact_mod_cast (by omega : 26 ≤ m)
    by_cases hT : 7 * m < N + 1
    · refine (ohdev_table h hs hr c N m hm hJ1 hT).mono ?_
      have : 2 / (m : ℝ) ^ 2 ≤ 7 / 5 / m := by
        rw [div_le_div_iff₀ (by positivity) hm']
        nlinarith
      linarith
    · have eL : ghL 3 m false ≤ N + 1 := by simp only [ghL, Bool.false_eq_true, if_false]; omega
      have eM : ghM 3 m (N + 1) true false = N + 1 - 3 * m := by
        rw [ghM_ov _ _ _ _ hm]
        simp only [ghL, Bool.false_eq_true, if_false]
        omega
      have hr3 : ((N + 1 - 3 * m : ℕ) : ℝ) / m ≤ 4 := by
        rw [div_le_iff₀ hm']
        exact_mod_cast (by omega : N + 1 - 3 * m ≤ 4 * m)
      have hr0 : 0 < ((N + 1 - 3 * m : ℕ) : ℝ) / m := by
        have : (0 : ℝ) < ((N + 1 - 3 * m : ℕ) : ℝ) := by exact_mod_cast (by omega : 0 < N + 1 - 3 * m)
        positivity
      have hz := ghSz_inf_ne 3 (.inr rfl)
      have e3 : ghSz .inf 0 3 = ghSz (.fin 1) 2 2 := funext fm3_eq_pm
      refine (within_coarse 0 3 m (N + 1) (N + 1 - 3 * m) false .inf (by norm_num) (by norm_num) (by norm_num) (by norm_num)
        (by norm_num) hm eL (by simp [ghCrash]) ?_ hz eM 0.048 _ 0.105 (3 / 50) (by norm_num)
        (by rw [e3]; exact pm_lower4 _ hr0 hr3)
        (by rw [e3]; exact pm_trap _ 4 hr0 hr3 (by norm_num) _ (by omega)) (by norm_num) (by norm_num) (by norm_num) 0 _
        (ohdev_hasEdf h hs hr c N m hm (by omega)) (lag_pos _ hz m _ (by omega)) (by norm_num) (by simp)).mono ?_
      · unfold ghInv
        have hJ' : ¬ ghJ 3 m (N + 1) true false ≤ 100 := by
          rw [ghJ, eM, show ghS m true = m from rfl]
          exact hJ
        rw [if_neg (by simp), if_pos (by norm_num), if_neg hJ', if_neg]
        rw [ghR, eM, show ghS m true = m from rfl]
        push_cast at hr3 ⊢
        linarith
      · have : 0 < 7 / 5 / (m : ℝ) := by positivity
        linarith

/-! ## The modified Allan and the time deviation -/

/-- the call in the coarse regime -/
theorem mod_coarse_call (alpha : ℤ) (m N : ℕ) (hm : 0 < m) (hN : 3 * m ≤ N) (hJ : ¬ min (N - 3 * m + 1) (3 * m) ≤ 100)
    (hT : ¬ 6 * m < N + 1) :
    ghL 2 m true ≤ N ∧ ghM 2 m N true true = N - 3 * m + 1 ∧ 0 < ((N - 3 * m + 1 : ℕ) : ℝ) / m ∧
      ((N - 3 * m + 1 : ℕ) : ℝ) / m ≤ 3 ∧
      ghInv alpha 2 m N true true = (ghSum 100 100 (100 / ghR 2 m N true true) (.fin 1) alpha 2, ghSz (.fin 1) alpha 2 0 ^ 2 * 100) := by
  have hm' : (0 : ℝ) < m := by exact_mod_cast hm
  have eM : ghM 2 m N true true = N - 3 * m + 1 := by
    rw [ghM_ov _ _ _ _ hm]
    simp only [ghL, if_true]
    omega
  have hr3 : ((N - 3 * m + 1 : ℕ) : ℝ) / m ≤ 3 := by
    rw [div_le_iff₀ hm']
    exact_mod_cast (by omega : N - 3 * m + 1 ≤ 3 * m)
  refine ⟨by simp only [ghL, if_true]; omega, eM, by positivity, hr3, ?_⟩
  unfold ghInv
  have hJ' : ¬ ghJ 2 m N true true ≤ 100 := by
    rw [ghJ, eM, show ghS m true = m from rfl]
    exact hJ
  rw [if_pos rfl, if_neg hJ', if_neg]
  rw [ghR, eM, show ghS m true = m from rfl]
  push_cast at hr3 ⊢
  linarith

theorem mdev_all {Y : ℕ → Ω → ℝ} (h : NormalNoise P Y s2) (hs : 0 < s2) (hr : 0 < rate) (c : ℝ) (N m : ℕ) (hm : 0 < m)
    (hc : 1 < ((N + 1 : ℕ) : ℤ) - 3 * m + 1) (k : ℝ) (hk : k ≠ 0) :
    EdfWithin P (edf_greenhall 0 2 m (N + 1) true true)
      (fun ω => k * Spec.mdev (phaseOf (fun i => c + Y i ω) N rate) (N + 1) m (m / rate)) (6 / (m ^ 2 + 1) + 1 / 50) := by
  have hm' : (0 : ℝ) < m := by exact_mod_cast hm
  by_cases hJ : min (N + 1 - 3 * m + 1) (3 * m) ≤ 100
  · exact (mdev_near_fm h hs hr c N m hm hc hJ k hk).mono (by linarith)
  · have hJ1 : 100 < 3 * m := by omega
    have hm34 : (34 : ℝ) ≤ m := by exact_mod_cast (by omega : 34 ≤ m)
    by_cases hT : 6 * m < N + 2
    · refine (mdev_table h hs hr c N m hm hJ1 hT k hk).mono ?_
      have : 1 / (m : ℝ) ^ 2 ≤ 6 / (m ^ 2 + 1) := by
        rw [div_le_div_iff₀ (by positivity) (by positivity)]
        nlinarith
      linarith
    · obtain ⟨eL, eM, hr0, hr3, hi⟩ := mod_coarse_call 0 m (N + 1) hm (by omega) hJ (by omega)
      have hz : ghSz (.fin 1) 0 2 0 ≠ 0 := by rw [ghSz_mod_at0]; norm_num
      have g0 : modCov m 0 ≠ 0 := by rw [modCov_zero]; positivity
      have hM : 0 < N + 1 - 3 * m + 1 := by omega
      have h1 : 1 / ((m : ℝ) ^ 2 + 1) ≤ 1 := by
        rw [div_le_one (by positivity)]
        nlinarith [sq_nonneg (m : ℝ)]
      have hmix := edf_near (N + 1 - 3 * m + 1) hM (modCov m) (fun l : ℕ => ghSz (.fin 1) 0 2 ((l : ℝ) / m))
        (fun l => ghSz (.fin 1) 2 2 (l / m) / 12) g0 (by simpa using hz) (1 / (m ^ 2 + 1)) 5 (by positivity) h1
        (fun l _ => by
          rw [modCov_zero, modCov, Nat.cast_zero, zero_div, ghSz_mod_at0]
          field_simp
          ring)
        (mod_norm _ m hM hm) (by norm_num)
      simp only [Nat.cast_zero, zero_div] at hmix
      rw [show 1 / ((m : ℝ) ^ 2 + 1) * (1 + 5) = 6 / (m ^ 2 + 1) by ring] at hmix
      have he0 : 0 < ((N + 1 - 3 * m + 1 : ℕ) : ℝ) ^ 2 * modCov m 0 ^ 2 / lagN (N + 1 - 3 * m + 1) (modCov m) :=
        div_pos (by positivity) (lt_of_lt_of_le (by positivity) (lagN_ge _ hM _))
      have hδ : 6 / ((m : ℝ) ^ 2 + 1) ≤ 1 := by
        rw [div_le_one (by positivity)]
        nlinarith
      refine (within_coarse 0 2 m (N + 1) (N + 1 - 3 * m + 1) true (.fin 1) (by norm_num) (by norm_num) (by norm_num) (by norm_num)
        (by norm_num) hm eL (by simp [ghCrash]) hi hz eM 0.096 128 0.017 (1 / 100) (by norm_num) (mod_lower _ hr0 hr3)
        (mod_trap _ hr0 hr3 _ (by omega)) (by norm_num) (by norm_num) (by norm_num) (6 / (m ^ 2 + 1)) _
        (mdev_hasEdf_fm h hs hr c N m hm hc k hk) he0 (by norm_num) hmix).mono ?_
      linarith

theorem mdev_all_pm {W : ℕ → Ω → ℝ} (h : NormalNoise P W s2) (hs : 0 < s2) (hr : 0 < rate) (a b : ℝ) (N m : ℕ) (hm : 0 < m)
    (hc : 1 < (N : ℤ) - 3 * m + 1) (k : ℝ) (hk : k ≠ 0) :
    EdfWithin P (edf_greenhall 2 2 m N true true)
      (fun ω => k * Spec.mdev (offsetPhase a b (fun i => W i ω)) N m (m / rate)) (1 / 40) := by
  have hm' : (0 : ℝ) < m := by exact_mod_cast hm
  by_cases hJ : min (N - 3 * m + 1) (3 * m) ≤ 100
  · obtain ⟨r, h1, h2⟩ := mdev_edf_pm h hs hr a b N m hm hc hJ k hk
    have hz : ghSz (.fin 1) 2 2 0 ≠ 0 := by rw [pm_piece0 0 le_rfl zero_le_one]; norm_num
    have h3 := mdev_hasEdf_pm h hs hr a b N m hm (by omega) k hk
    have h4 := lag_pos _ hz m (N - 3 * m + 1) (by omega)
    rw [h3.2.2, ← h2.2.2] at h4
    exact ⟨r, r, h1, h4, h2, h4, by rw [sub_self, abs_zero]; positivity⟩
  · have hJ1 : 100 < 3 * m := by omega
    have hm34 : (34 : ℝ) ≤ m := by exact_mod_cast (by omega : 34 ≤ m)
    by_cases hT : 6 * m < N + 1
    · refine (mdev_table_pm h hs hr a b N m hm hJ1 hT k hk).mono ?_
      rw [div_le_div_iff₀ (by positivity) (by norm_num)]
      nlinarith
    · obtain ⟨eL, eM, hr0, hr3, hi⟩ := mod_coarse_call 2 m N hm (by omega) hJ hT
      have hz : ghSz (.fin 1) 2 2 0 ≠ 0 := by rw [pm_piece0 0 le_rfl zero_le_one]; norm_num
      refine (within_coarse 2 2 m N (N - 3 * m + 1) true (.fin 1) (by norm_num) (by norm_num) (by norm_num) (by norm_num)
        (by norm_num) hm eL (by simp [ghCrash]) hi hz eM 0.063 _ 0.045 (1 / 40) (by norm_num) (pm_lower3 _ hr0 hr3)
        (pm_trap _ 3 hr0 hr3 le_rfl _ (by omega)) (by norm_num) (by norm_num) (by norm_num) 0 _
        (mdev_hasEdf_pm h hs hr a b N m hm (by omega) k hk) (lag_pos _ hz m _ (by omega)) (by norm_num) (by simp)).mono ?_
      norm_num

/-! ## The claim -/

/-- **C90.** White frequency noise (a constant `c` plus independent normal samples): at every averaging factor `m` that
the overlapping or modified deviation function reports, `edf_greenhall` called with `alpha = 0`, the order of the
difference, `m` and the number of phase points returns a positive number, and its square root differs from that of the
equivalent degrees of freedom of the squared deviation by a relative error of at most `5/(4m) + 1/50` (`oadev`),
`7/(5m) + 3/50` (`ohdev`) and `6/(m²+1) + 1/50` (`mdev`, `tdev`).  White phase noise (a line plus independent normal
samples), `mdev` and `tdev`: the relative error is at most `1/40`. -/
theorem edf_white_all {Y : ℕ → Ω → ℝ} (h : NormalNoise P Y s2) (hs : 0 < s2) (hr : 0 < rate) (a b c : ℝ) (N : ℕ) :
    Reports .oadev (fun ω => tab N (fun i => c + Y i ω)) rate "freq"
      (fun m D => EdfWithin P (edf_greenhall 0 2 m (N + 1) true false) D (5 / 4 / m + 1 / 50)) ∧
    Reports .ohdev (fun ω => tab N (fun i => c + Y i ω)) rate "freq"
      (fun m D => EdfWithin P (edf_greenhall 0 3 m (N + 1) true false) D (7 / 5 / m + 3 / 50)) ∧
    Reports .mdev (fun ω => tab N (fun i => c + Y i ω)) rate "freq"
      (fun m D => EdfWithin P (edf_greenhall 0 2 m (N + 1) true true) D (6 / (m ^ 2 + 1) + 1 / 50)) ∧
    Reports .tdev (fun ω => tab N (fun i => c + Y i ω)) rate "freq"
      (fun m D => EdfWithin P (edf_greenhall 0 2 m (N + 1) true true) D (6 / (m ^ 2 + 1) + 1 / 50)) ∧
    Reports .mdev (fun ω => tab N (offsetPhase a b (fun i => Y i ω))) rate "phase"
      (fun m D => EdfWithin P (edf_greenhall 2 2 m N true true) D (1 / 40)) ∧
    Reports .tdev (fun ω => tab N (offsetPhase a b (fun i => Y i ω))) rate "phase"
      (fun m D => EdfWithin P (edf_greenhall 2 2 m N true true) D (1 / 40)) := by
  have hp : ∀ fn Q, (∀ m, Usable fn (N + 1) m →
      Q m (fun ω => value fn (phaseOf (fun i => c + Y i ω) N rate) (N + 1) rate m)) →
      Reports fn (fun ω => tab N (fun i => c + Y i ω)) rate "freq" Q := fun fn Q hv =>
    reports_freq fn (fun i ω => c + Y i ω) N rate hr Q hv
  have hq : ∀ fn Q, (∀ m, Usable fn N m → Q m (fun ω => value fn (offsetPhase a b (fun i => Y i ω)) N rate m)) →
      Reports fn (fun ω => tab N (offsetPhase a b (fun i => Y i ω))) rate "phase" Q := fun fn Q hv =>
    reports_phase fn (fun i ω => offsetPhase a b (fun i => Y i ω) i) N rate hr Q hv
  refine ⟨hp _ _ fun m hu => oadev_all h hs hr c N m hu, hp _ _ fun m hu => ohdev_all h hs hr c N m hu,
    hp _ _ fun m hu => ?_, hp _ _ fun m hu => ?_, hq _ _ fun m hu => ?_, hq _ _ fun m hu => ?_⟩
  · have := mdev_all h hs hr c N m hu.1 hu.2.2.2.2 1 one_ne_zero
    simp only [one_mul] at this
    exact this
  · have hm' : (0 : ℝ) < m := by exact_mod_cast hu.1
    exact mdev_all h hs hr c N m hu.1 hu.2.2.2.2 (m / rate / √3) (by positivity)
  · have := mdev_all_pm h hs hr a b N m hu.1 hu.2.2.2.2 1 one_ne_zero
    simp only [one_mul] at this
    exact this
  · have hm' : (0 : ℝ) < m := by exact_mod_cast hu.1
    exact mdev_all_pm h hs hr a b N m hu.1 hu.2.2.2.2 (m / rate / √3) (by positivity)

/-- 1000 standard normal frequency values plus 3 at 2 Hz, `oadev` asked for the averaging time 125 s (`m = 250`): the
estimate has 501 summands, fewer than `3 m`, so `edf_greenhall` uses a sum of 100 terms; its square root is within 2.5 % -/
example : ∃ d : (ℕ → ℝ) → ℝ,
    (∀ ω, ∃ errs ns, DevName.oadev.run (tab 1000 (fun i => 3 + ω i)) 2 "freq" (.list [(250 : ℕ) / 2])
      = .ok ⟨[(250 : ℕ) / 2], [d ω], errs, ns⟩) ∧
    EdfWithin gaussNoise (edf_greenhall 0 2 250 1001 true false) d (5 / 4 / (250 : ℕ) + 1 / 50) := by
  have hr : (0 : ℝ) < 2 := by norm_num
  have hu : Usable .oadev (1000 + 1) 250 := ⟨by norm_num, by simp [lenOf], by simp [maxOf]; norm_num, by simp, by simp [count]⟩
  exact ⟨_, fun ω => run_freq_at (by norm_num) hu hr _,
    (edf_white_all normal_gauss one_pos hr 0 0 3 1000).1.single hr.ne' (fun _ => 0) 250 _
      (fun ω => run_freq_at (by norm_num) hu hr _)⟩

end AT
