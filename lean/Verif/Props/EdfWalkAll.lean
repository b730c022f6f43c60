import Verif.Props.EdfAll
import Verif.Props.EdfWalk
import Verif.Lemmas.EdfWalkSmooth

/-!
# C94: `edf_greenhall` of random walk frequency noise at every averaging factor
-/

namespace AT

open Spec Finset MeasureTheory ProbabilityTheory
open scoped NNReal ENNReal

variable {Ω : Type} [MeasurableSpace Ω] {P : Measure Ω}

/-- the number from the tables and the sum over all lags -/
theorem within_table_mix {D : Ω → ℝ} (alpha : ℤ) (d m N M : ℕ) (md : Bool) (F : FArg) (a : ℝ × ℝ) (A0 A1 ε δ e : ℝ)
    (h0 : -4 ≤ alpha) (h1 : alpha ≤ 2)
    (hd : 1 ≤ d) (hd3 : d ≤ 3) (h : 1 < alpha + 2 * d) (hm : 0 < m) (hN : ghL d m md ≤ N)
    (hc : ghCrash alpha d m N true md = none)
    (hi : ghInv alpha d m N true md = (a.1 - a.2 / ghR d m N true md, ghR d m N true md))
    (hM : ghM d m N true md = M) (hz : ghSz F alpha d 0 ≠ 0)
    (hL : lagN M (fun l : ℕ => ghSz F alpha d ((l : ℝ) / m)) = ghSz F alpha d 0 ^ 2 * (M * (A0 * m) - A1 * m ^ 2))
    (hb : 0 < a.1 - a.2 * (1 / ((M : ℝ) / m)) ∧ 0 < A0 - A1 * (1 / ((M : ℝ) / m)) ∧
      |A0 - A1 * (1 / ((M : ℝ) / m)) - (a.1 - a.2 * (1 / ((M : ℝ) / m)))| ≤ ε * (a.1 - a.2 * (1 / ((M : ℝ) / m))))
    (hε : 0 ≤ ε) (he : HasEdf P (fun ω => D ω ^ 2) e) (he0 : 0 < e)
    (hmix : |√((M : ℝ) ^ 2 * ghSz F alpha d 0 ^ 2 / lagN M (fun l => ghSz F alpha d ((l : ℝ) / m))) - √e| ≤ δ * √e) :
    EdfWithin P (edf_greenhall alpha d m N true md) D (ε * (1 + δ) + δ) := by
  have hM0 : 0 < M := hM ▸ ghM_pos d m N true md
  have hM' : (0 : ℝ) < M := by exact_mod_cast hM0
  have hm' : (0 : ℝ) < m := by exact_mod_cast hm
  have eR : ghR d m N true md = (M : ℝ) / m := by rw [ghR, hM]; rfl
  rw [← eR, mul_one_div, mul_one_div] at hb
  obtain ⟨b1, b2, b3⟩ := hb
  have hR : 0 < ghR d m N true md := by rw [eR]; positivity
  have eE : (M : ℝ) ^ 2 * ghSz F alpha d 0 ^ 2 / lagN M (fun l => ghSz F alpha d ((l : ℝ) / m))
      = ghR d m N true md / (A0 - A1 / ghR d m N true md) := by
    rw [hL]
    rw [eR] at b2 ⊢
    have e1 : (M : ℝ) * (A0 * m) - A1 * m ^ 2 = M * m * (A0 - A1 / (M / m)) := by
      field_simp
    rw [e1]
    generalize A0 - A1 / ((M : ℝ) / m) = y at b2
    field_simp
  rw [eE] at hmix
  refine ⟨_, e, edf_call_table alpha d m N true md a h0 h1 hd hd3 h hm hN hc hi b1, div_pos hR b1, he, he0, ?_⟩
  have hs := sqrt_near _ _ _ ε hR b1 b2 b3
  set c := √(ghR d m N true md / (a.1 - a.2 / ghR d m N true md))
  set r := √(ghR d m N true md / (A0 - A1 / ghR d m N true md))
  have hr : r ≤ (1 + δ) * √e := by
    have := (abs_le.1 hmix).2
    linarith
  calc |c - √e| ≤ |c - r| + |r - √e| := abs_sub_le _ _ _
    _ ≤ ε * ((1 + δ) * √e) + δ * √e := add_le_add (hs.trans (mul_le_mul_of_nonneg_left hr hε)) hmix
    _ = (ε * (1 + δ) + δ) * √e := by ring

/-! ## The tables and the closed forms -/

theorem table_walk2 (u t : ℝ) (hu : 0 < u) (hu1 : u ≤ 1 / 1000) (ht : 0 < t) (h : 3 * t < 1) :
    0 < 1.079 - 0.368 * t ∧ 0 < 151 / 140 + u ^ 2 / 60 + 5 * u ^ 3 / 168 - (103 / 280 - u / 6 - 7 * u ^ 2 / 120 - u ^ 3 / 56) * t ∧
      |151 / 140 + u ^ 2 / 60 + 5 * u ^ 3 / 168 - (103 / 280 - u / 6 - 7 * u ^ 2 / 120 - u ^ 3 / 56) * t - (1.079 - 0.368 * t)|
        ≤ 1 / 1000 * (1.079 - 0.368 * t) := by
  have h2 : 0 < u ^ 2 := by positivity
  have h3 : 0 < u ^ 3 := by positivity
  have h4 : u ^ 2 ≤ u / 1000 := by nlinarith
  have h5 : u ^ 3 ≤ u / 1000 := by nlinarith
  have b1 : 0 < u * t := by positivity
  have b2 : 0 < u ^ 2 * t := by positivity
  have b3 : 0 < u ^ 3 * t := by positivity
  have c1 : 3 * (u * t) < u := by nlinarith
  have c2 : 3 * (u ^ 2 * t) < u ^ 2 := by nlinarith
  have c3 : 3 * (u ^ 3 * t) < u ^ 3 := by nlinarith
  refine ⟨by linarith, by linarith, abs_le.2 ⟨by linarith, by linarith⟩⟩

theorem table_walk3 (u t : ℝ) (hu : 0 < u) (hu1 : u ≤ 1 / 600) (ht : 0 < t) (h : 4 * t < 1) :
    0 < 1.033 - 0.607 * t ∧ 0 < 31 / 30 + 7 * u ^ 2 / 90 + u ^ 3 / 6 - (17 / 28 - u / 6 - u ^ 2 / 12 - u ^ 3 / 42) * t ∧
      |31 / 30 + 7 * u ^ 2 / 90 + u ^ 3 / 6 - (17 / 28 - u / 6 - u ^ 2 / 12 - u ^ 3 / 42) * t - (1.033 - 0.607 * t)|
        ≤ 1 / 1000 * (1.033 - 0.607 * t) := by
  have h2 : 0 < u ^ 2 := by positivity
  have h3 : 0 < u ^ 3 := by positivity
  have h4 : u ^ 2 ≤ u / 600 := by nlinarith
  have h5 : u ^ 3 ≤ u / 600 := by nlinarith
  have b1 : 0 < u * t := by positivity
  have b2 : 0 < u ^ 2 * t := by positivity
  have b3 : 0 < u ^ 3 * t := by positivity
  have c1 : 4 * (u * t) < u := by nlinarith
  have c2 : 4 * (u ^ 2 * t) < u ^ 2 := by nlinarith
  have c3 : 4 * (u ^ 3 * t) < u ^ 3 := by nlinarith
  refine ⟨by linarith, by linarith, abs_le.2 ⟨by linarith, by linarith⟩⟩

theorem table_walkQ (u t : ℝ) (hu : 0 < u) (hu1 : u ≤ 1 / 1000) (ht : 0 < t) (h : 3 * t < 1) :
    0 < 1.302 - 0.535 * t ∧ 0 < 655177 / 503118 + 23 * u ^ 3 / 22869 + 7 * u ^ 4 / 2178 + 35 * u ^ 5 / 7986
        - (2851 / 5324 - u / 6 - u ^ 2 / 33 - u ^ 3 / 66 - 13 * u ^ 4 / 1452 - 25 * u ^ 5 / 7986) * t ∧
      |655177 / 503118 + 23 * u ^ 3 / 22869 + 7 * u ^ 4 / 2178 + 35 * u ^ 5 / 7986
        - (2851 / 5324 - u / 6 - u ^ 2 / 33 - u ^ 3 / 66 - 13 * u ^ 4 / 1452 - 25 * u ^ 5 / 7986) * t - (1.302 - 0.535 * t)|
        ≤ 1 / 1000 * (1.302 - 0.535 * t) := by
  have p2 : 0 < u ^ 2 := by positivity
  have p3 : 0 < u ^ 3 := by positivity
  have p4 : 0 < u ^ 4 := by positivity
  have p5 : 0 < u ^ 5 := by positivity
  have h2 : u ^ 2 ≤ u / 1000 := by nlinarith
  have h3 : u ^ 3 ≤ u / 1000 := by nlinarith
  have h4 : u ^ 4 ≤ u / 1000 := by nlinarith
  have h5 : u ^ 5 ≤ u / 1000 := by nlinarith
  have k : ∀ v, 0 < v → 0 < v * t ∧ 3 * (v * t) < v := fun v hv => ⟨by positivity, by nlinarith⟩
  obtain ⟨b1, c1⟩ := k u hu
  obtain ⟨b2, c2⟩ := k _ p2
  obtain ⟨b3, c3⟩ := k _ p3
  obtain ⟨b4, c4⟩ := k _ p4
  obtain ⟨b5, c5⟩ := k _ p5
  clear k
  refine ⟨by linarith, by linarith, abs_le.2 ⟨by linarith, by linarith⟩⟩

theorem form_walk2 (m M : ℝ) (hm : 0 < m) : M * (151 * m / 140 + 1 / (60 * m ^ 3) + 5 / (168 * m ^ 5))
      - (103 * m ^ 2 / 280 - 1 / 6 - 7 / (120 * m ^ 2) - 1 / (56 * m ^ 4))
    = M * ((151 / 140 + (1 / m ^ 2) ^ 2 / 60 + 5 * (1 / m ^ 2) ^ 3 / 168) * m)
      - (103 / 280 - 1 / m ^ 2 / 6 - 7 * (1 / m ^ 2) ^ 2 / 120 - (1 / m ^ 2) ^ 3 / 56) * m ^ 2 := by
  field_simp

theorem form_walk3 (m M : ℝ) (hm : 0 < m) : M * (31 * m / 30 + 7 / (90 * m ^ 3) + 1 / (6 * m ^ 5))
      - (17 * m ^ 2 / 28 - 1 / 6 - 1 / (12 * m ^ 2) - 1 / (42 * m ^ 4))
    = M * ((31 / 30 + 7 * (1 / m ^ 2) ^ 2 / 90 + (1 / m ^ 2) ^ 3 / 6) * m)
      - (17 / 28 - 1 / m ^ 2 / 6 - (1 / m ^ 2) ^ 2 / 12 - (1 / m ^ 2) ^ 3 / 42) * m ^ 2 := by
  field_simp

theorem form_walkQ (m M : ℝ) (hm : 0 < m) : M * (655177 * m / 503118 + 23 / (22869 * m ^ 5)
        + 7 / (2178 * m ^ 7) + 35 / (7986 * m ^ 9))
      - (2851 * m ^ 2 / 5324 - 1 / 6 - 1 / (33 * m ^ 2) - 1 / (66 * m ^ 4) - 13 / (1452 * m ^ 6) - 25 / (7986 * m ^ 8))
    = M * ((655177 / 503118 + 23 * (1 / m ^ 2) ^ 3 / 22869 + 7 * (1 / m ^ 2) ^ 4 / 2178 + 35 * (1 / m ^ 2) ^ 5 / 7986) * m)
      - (2851 / 5324 - 1 / m ^ 2 / 6 - (1 / m ^ 2) ^ 2 / 33 - (1 / m ^ 2) ^ 3 / 66 - 13 * (1 / m ^ 2) ^ 4 / 1452
        - 25 * (1 / m ^ 2) ^ 5 / 7986) * m ^ 2 := by
  field_simp

variable [IsProbabilityMeasure P] {s2 : ℝ≥0} {rate : ℝ}

/-- the degrees of freedom of the mean square of overlapping differences, and the same without the discretisation -/
theorem walk_hasEdf {W : ℕ → Ω → ℝ} (h : NormalNoise P W s2) (hs : 0 < s2) (d m M : ℕ) (hd : d = 2 ∨ d = 3)
    (hm : 0 < m) (hM : 0 < M) (V : Ω → ℝ) (κ : ℝ) (hκ : 0 < κ)
    (hV : ∀ ω, V ω ^ 2 = κ * ∑ i ∈ range M, (∑ k ∈ range (d * m), walkTaps d m k * W (i * 1 + k) ω) ^ 2) :
    ∃ e, HasEdf P (fun ω => V ω ^ 2) e ∧ 0 < e ∧
      |√((M : ℝ) ^ 2 * ghSz .inf (-2) d 0 ^ 2 / lagN M (fun l => ghSz .inf (-2) d ((l : ℝ) / m))) - √e|
        ≤ (if d = 2 then 12 / 5 else 61 / 10) / m ^ 2 * √e := by
  have hM' : (0 : ℝ) < M := by exact_mod_cast hM
  have hm' : (0 : ℝ) < m := by exact_mod_cast hm
  have g0 : filterCov (walkTaps d m) (d * m) 1 0 ≠ 0 := by
    rw [walkTaps_cov d m 1 0 hd hm, Nat.zero_mul, walkCov, Nat.cast_zero, zero_div, kernA_at0 d hd, kernZ_at0 d hd]
    split_ifs <;> positivity
  have h3 := edf_filter h hs M hM (walkTaps d m) (d * m) 1 (walkTaps_zero d m hd) g0 κ hκ
  rw [← lagN_eq _ hM] at h3
  have epos : 0 < (M : ℝ) ^ 2 * filterCov (walkTaps d m) (d * m) 1 0 ^ 2 / lagN M (filterCov (walkTaps d m) (d * m) 1) :=
    div_pos (by positivity) (lt_of_lt_of_le (by positivity) (lagN_ge _ hM _))
  refine ⟨_, h3.congr (fun ω => (hV ω).symm) rfl, epos, ?_⟩
  have hcov : filterCov (walkTaps d m) (d * m) 1 = fun l => walkCov d m (l * 1) :=
    funext fun l => walkTaps_cov d m 1 l hd hm
  have := walk_near_cov d M m 1 m hd hM hm (one_mul m) .inf (.inl rfl)
  rw [walkK] at this
  rw [hcov]
  simpa only [Nat.cast_zero, zero_div] using this

/-- overlapping second differences when the basic sum has more than 100 terms -/
theorem walk2_all {W : ℕ → Ω → ℝ} (h : NormalNoise P W s2) (hs : 0 < s2) (m N : ℕ) (hm : 0 < m) (hN : 2 * m < N)
    (hJ : ¬ min (N - 2 * m) (3 * m) ≤ 100) (V : Ω → ℝ) (κ : ℝ) (hκ : 0 < κ)
    (hV : ∀ ω, V ω ^ 2 = κ * ∑ i ∈ range (N - 2 * m), (∑ k ∈ range (2 * m), walkTaps 2 m k * W (i * 1 + k) ω) ^ 2) :
    EdfWithin P (edf_greenhall (-2) 2 m N true false) V (walkErr 2 m + 1 / 100) := by
  have hm' : (0 : ℝ) < m := by exact_mod_cast hm
  have hm34 : (34 : ℝ) ≤ m := by exact_mod_cast (by omega : 34 ≤ m)
  have eL : ghL 2 m false ≤ N := by simp only [ghL, Bool.false_eq_true, if_false]; omega
  have eM : ghM 2 m N true false = N - 2 * m := by
    rw [ghM_ov _ _ _ _ hm]
    simp only [ghL, Bool.false_eq_true, if_false]
    omega
  have hJ' : ¬ ghJ 2 m N true false ≤ 100 := by
    rw [ghJ, eM, show ghS m true = m from rfl]
    exact hJ
  have eR : ghR 2 m N true false = ((N - 2 * m : ℕ) : ℝ) / m := by rw [ghR, eM]; rfl
  have hM : 0 < N - 2 * m := by omega
  have hM' : (0 : ℝ) < ((N - 2 * m : ℕ) : ℝ) := by exact_mod_cast hM
  have hr0 : 0 < ((N - 2 * m : ℕ) : ℝ) / m := by positivity
  have hz : ghSz .inf (-2) 2 0 ≠ 0 := by rw [walk2_zero]; norm_num
  obtain ⟨e, he, he0, hmix⟩ := walk_hasEdf h hs 2 m (N - 2 * m) (.inl rfl) hm hM V κ hκ hV
  rw [if_pos rfl] at hmix
  have hδ : 12 / 5 / (m : ℝ) ^ 2 ≤ 1 / 400 := by
    rw [div_le_div_iff₀ (by positivity) (by norm_num)]
    nlinarith
  have eW : walkErr 2 m = 12 / 5 / m ^ 2 := by
    rw [walkErr, if_neg (by omega), if_pos rfl]
  rw [eW]
  by_cases hT : 3 * m < N - 2 * m
  · have hr3 : (3 : ℝ) < ((N - 2 * m : ℕ) : ℝ) / m := by
      rw [lt_div_iff₀ hm']
      exact_mod_cast hT
    have hb := table_walk2 (1 / m ^ 2) (1 / (((N - 2 * m : ℕ) : ℝ) / m)) (by positivity)
      (by rw [div_le_div_iff₀ (by positivity) (by norm_num)]; nlinarith) (by positivity)
      (by rw [mul_one_div, div_lt_one hr0]; exact hr3)
    refine (within_table_mix (-2) 2 m N (N - 2 * m) false .inf (1.079, 0.368) _ _ (1 / 1000) (12 / 5 / m ^ 2) e (by norm_num)
      (by norm_num) (by norm_num) (by norm_num) (by norm_num) hm eL (by simp [ghCrash]) ?_ eM hz ?_ hb (by norm_num) he he0
      hmix).mono (by linarith)
    · unfold ghInv
      rw [if_neg (by simp), if_pos (by norm_num), if_neg hJ', if_pos (by rw [eR]; push_cast; linarith)]
      simp only [ghTable2]
    · rw [lagN_walk2 m _ hm (by omega), form_walk2 _ _ hm', walk2_zero]
      norm_num
  · have hr3 : ((N - 2 * m : ℕ) : ℝ) / m ≤ 3 := by
      rw [div_le_iff₀ hm']
      exact_mod_cast (by omega : N - 2 * m ≤ 3 * m)
    refine (within_coarse (-2) 2 m N (N - 2 * m) false .inf (by norm_num) (by norm_num) (by norm_num) (by norm_num)
        (by norm_num) hm eL (by simp [ghCrash]) ?_ hz eM 0.12 _ 0.0065 (1 / 200) (by norm_num) (walk2_lower _ hr0 hr3)
        (walk2_trap _ hr0 hr3 _ (by omega)) (by norm_num) (by norm_num) (by norm_num) (12 / 5 / m ^ 2) e he he0
        (by norm_num) hmix).mono (by linarith)
    unfold ghInv
    rw [if_neg (by simp), if_pos (by norm_num), if_neg hJ', if_neg]
    rw [eR]
    push_cast at hr3 ⊢
    linarith

/-- overlapping third differences when the basic sum has more than 100 terms -/
theorem walk3_all {W : ℕ → Ω → ℝ} (h : NormalNoise P W s2) (hs : 0 < s2) (m N : ℕ) (hm : 0 < m) (hN : 3 * m < N)
    (hJ : ¬ min (N - 3 * m) (4 * m) ≤ 100) (V : Ω → ℝ) (κ : ℝ) (hκ : 0 < κ)
    (hV : ∀ ω, V ω ^ 2 = κ * ∑ i ∈ range (N - 3 * m), (∑ k ∈ range (3 * m), walkTaps 3 m k * W (i * 1 + k) ω) ^ 2) :
    EdfWithin P (edf_greenhall (-2) 3 m N true false) V (walkErr 3 m + 1 / 40) := by
  have hm' : (0 : ℝ) < m := by exact_mod_cast hm
  have hm34 : (26 : ℝ) ≤ m := by exact_mod_cast (by omega : 26 ≤ m)
  have eL : ghL 3 m false ≤ N := by simp only [ghL, Bool.false_eq_true, if_false]; omega
  have eM : ghM 3 m N true false = N - 3 * m := by
    rw [ghM_ov _ _ _ _ hm]
    simp only [ghL, Bool.false_eq_true, if_false]
    omega
  have hJ' : ¬ ghJ 3 m N true false ≤ 100 := by
    rw [ghJ, eM, show ghS m true = m from rfl]
    exact hJ
  have eR : ghR 3 m N true false = ((N - 3 * m : ℕ) : ℝ) / m := by rw [ghR, eM]; rfl
  have hM : 0 < N - 3 * m := by omega
  have hM' : (0 : ℝ) < ((N - 3 * m : ℕ) : ℝ) := by exact_mod_cast hM
  have hr0 : 0 < ((N - 3 * m : ℕ) : ℝ) / m := by positivity
  have hz : ghSz .inf (-2) 3 0 ≠ 0 := by rw [walk3_zero]; norm_num
  obtain ⟨e, he, he0, hmix⟩ := walk_hasEdf h hs 3 m (N - 3 * m) (.inr rfl) hm hM V κ hκ hV
  rw [if_neg (by norm_num)] at hmix
  have hδ : 61 / 10 / (m : ℝ) ^ 2 ≤ 1 / 100 := by
    rw [div_le_div_iff₀ (by positivity) (by norm_num)]
    nlinarith
  have eW : walkErr 3 m = 61 / 10 / m ^ 2 := by
    rw [walkErr, if_neg (by omega), if_neg (by norm_num)]
  rw [eW]
  by_cases hT : 4 * m < N - 3 * m
  · have hr3 : (4 : ℝ) < ((N - 3 * m : ℕ) : ℝ) / m := by
      rw [lt_div_iff₀ hm']
      exact_mod_cast hT
    have hb := table_walk3 (1 / m ^ 2) (1 / (((N - 3 * m : ℕ) : ℝ) / m)) (by positivity)
      (by rw [div_le_div_iff₀ (by positivity) (by norm_num)]; nlinarith) (by positivity)
      (by rw [mul_one_div, div_lt_one hr0]; exact hr3)
    refine (within_table_mix (-2) 3 m N (N - 3 * m) false .inf (1.033, 0.607) _ _ (1 / 1000) (61 / 10 / m ^ 2) e (by norm_num)
      (by norm_num) (by norm_num) (by norm_num) (by norm_num) hm eL (by simp [ghCrash]) ?_ eM hz ?_ hb (by norm_num) he he0
      hmix).mono (by linarith)
    · unfold ghInv
      rw [if_neg (by simp), if_pos (by norm_num), if_neg hJ', if_pos (by rw [eR]; push_cast; linarith)]
      simp only [ghTable2]
    · rw [lagN_walk3 m _ hm (by omega), form_walk3 _ _ hm', walk3_zero]
      norm_num
  · have hr3 : ((N - 3 * m : ℕ) : ℝ) / m ≤ 4 := by
      rw [div_le_iff₀ hm']
      exact_mod_cast (by omega : N - 3 * m ≤ 4 * m)
    refine (within_coarse (-2) 3 m N (N - 3 * m) false .inf (by norm_num) (by norm_num) (by norm_num) (by norm_num)
        (by norm_num) hm eL (by simp [ghCrash]) ?_ hz eM 0.072 _ 0.0385 (1 / 50) (by norm_num) (walk3_lower _ hr0 hr3)
        (walk3_trap _ hr0 hr3 _ (by omega)) (by norm_num) (by norm_num) (by norm_num) (61 / 10 / m ^ 2) e he he0
        (by norm_num) hmix).mono (by linarith)
    unfold ghInv
    rw [if_neg (by simp), if_pos (by norm_num), if_neg hJ', if_neg]
    rw [eR]
    push_cast at hr3 ⊢
    linarith

section devs

variable {W x : ℕ → Ω → ℝ} {κ : ℝ}

theorem oadev_walk_all (h : NormalNoise P W s2) (hs : 0 < s2) (hr : 0 < rate) (hκ : κ ≠ 0)
    (hx : ∀ i ω, x (i + 2) ω - 2 * x (i + 1) ω + x i ω = κ * W i ω) (N m : ℕ) (hu : Usable .oadev N m) :
    EdfWithin P (edf_greenhall (-2) 2 m N true false) (fun ω => value .oadev (fun i => x i ω) N rate m)
      (walkErr 2 m + 1 / 100) := by
  by_cases hJ : min (N - 2 * m) (3 * m) ≤ 100
  · exact (oadev_walk h hs hr hκ hx N m hu hJ).mono (by linarith)
  obtain ⟨hm, -, -, -, hc⟩ := hu
  have hc' : 1 < (N : ℤ) - 2 * m := hc
  have hm' : (0 : ℝ) < m := by exact_mod_cast hm
  have hN : (0 : ℝ) < (N : ℝ) - 2 * m := by
    have : (1 : ℝ) < (N : ℝ) - 2 * m := by exact_mod_cast hc'
    linarith
  refine walk2_all h hs m N hm (by omega) hJ _ (1 / (2 * (m / rate) ^ 2 * ((N : ℝ) - 2 * m)) * κ ^ 2) (by positivity) fun ω => ?_
  simp only [value, Spec.oadev]
  rw [rms_sq _ _ _ (by positivity)]
  simp only [d2_walk (x := fun i => x i ω) (w := fun i => W i ω) (fun i => hx i ω), mul_pow, ← mul_sum, mul_one]
  ring

theorem ohdev_walk_all (h : NormalNoise P W s2) (hs : 0 < s2) (hr : 0 < rate) (hκ : κ ≠ 0)
    (hx : ∀ i ω, x (i + 2) ω - 2 * x (i + 1) ω + x i ω = κ * W i ω) (N m : ℕ) (hu : Usable .ohdev N m) :
    EdfWithin P (edf_greenhall (-2) 3 m N true false) (fun ω => value .ohdev (fun i => x i ω) N rate m)
      (walkErr 3 m + 1 / 40) := by
  by_cases hJ : min (N - 3 * m) (4 * m) ≤ 100
  · exact (ohdev_walk h hs hr hκ hx N m hu hJ).mono (by linarith)
  obtain ⟨hm, -, -, -, hc⟩ := hu
  have hc' : 1 < (N : ℤ) - 3 * m := hc
  have hm' : (0 : ℝ) < m := by exact_mod_cast hm
  have hN : (0 : ℝ) < (N : ℝ) - 3 * m := by
    have : (1 : ℝ) < (N : ℝ) - 3 * m := by exact_mod_cast hc'
    linarith
  refine walk3_all h hs m N hm (by omega) hJ _ (1 / (6 * (m / rate) ^ 2 * ((N : ℝ) - 3 * m)) * κ ^ 2) (by positivity) fun ω => ?_
  simp only [value, Spec.ohdev]
  rw [rms_sq _ _ _ (by positivity)]
  simp only [d3_walk (x := fun i => x i ω) (w := fun i => W i ω) (fun i => hx i ω), mul_pow, ← mul_sum, mul_one]
  ring

theorem mdev_walk_all (h : NormalNoise P W s2) (hs : 0 < s2) (hr : 0 < rate) (hκ : κ ≠ 0)
    (hx : ∀ i ω, x (i + 2) ω - 2 * x (i + 1) ω + x i ω = κ * W i ω) (N m : ℕ) (hm : 0 < m)
    (hc : 1 < (N : ℤ) - 3 * m + 1) (k : ℝ) (hk : k ≠ 0) :
    EdfWithin P (edf_greenhall (-2) 2 m N true true)
      (fun ω => k * Spec.mdev (fun i => x i ω) N m (m / rate)) (modWalkErr m + 1 / 100) := by
  by_cases hJ : min (N - 3 * m + 1) (3 * m) ≤ 100
  · exact (mdev_walk h hs hr hκ hx N m hm hc hJ k hk).mono (by linarith)
  have hm' : (0 : ℝ) < m := by exact_mod_cast hm
  have hm34 : (34 : ℝ) ≤ m := by exact_mod_cast (by omega : 34 ≤ m)
  have hM : 0 < N - 3 * m + 1 := by omega
  have hz : ghSz (.fin 1) (-2) 2 0 ≠ 0 := by rw [quintic_at0]; norm_num
  have g0 : modWalkCov m 0 ≠ 0 := by rw [modWalkCov_zero m hm]; positivity
  have he := mdev_hasEdf_walk h hs hr hκ hx N m hm hc k hk
  have he0 : 0 < ((N - 3 * m + 1 : ℕ) : ℝ) ^ 2 * modWalkCov m 0 ^ 2 / lagN (N - 3 * m + 1) (modWalkCov m) :=
    div_pos (by positivity) (lt_of_lt_of_le (by positivity) (lagN_ge _ hM _))
  have hmix := mod_near_cov (N - 3 * m + 1) m hM hm
  simp only [Nat.cast_zero, zero_div] at hmix
  have hδ : 5 / 4 / (m : ℝ) ^ 2 ≤ 1 / 400 := by
    rw [div_le_div_iff₀ (by positivity) (by norm_num)]
    nlinarith
  have eW : modWalkErr m = 5 / 4 / m ^ 2 := by rw [modWalkErr, if_neg (by omega)]
  rw [eW]
  by_cases hT : 6 * m < N + 1
  · obtain ⟨eL, eR, hr3, hi⟩ := mod_table_call (-2) m N hm (by omega) hT
    have eM : ghM 2 m N true true = N - 3 * m + 1 := by
      rw [ghM_ov _ _ _ _ hm]
      simp only [ghL, if_true]
      omega
    have eN : ((N : ℝ) + 1 - 3 * m) = ((N - 3 * m + 1 : ℕ) : ℝ) := by
      push_cast [Nat.cast_sub (by omega : 3 * m ≤ N)]
      ring
    rw [eN] at hr3
    have hb := table_walkQ (1 / m ^ 2) (1 / (((N - 3 * m + 1 : ℕ) : ℝ) / m)) (by positivity)
      (by rw [div_le_div_iff₀ (by positivity) (by norm_num)]; nlinarith) (by positivity)
      (by rw [mul_one_div, div_lt_one (by positivity)]; exact hr3)
    refine (within_table_mix (-2) 2 m N (N - 3 * m + 1) true (.fin 1) (1.302, 0.535) _ _ (1 / 1000) (5 / 4 / m ^ 2) _ (by norm_num)
      (by norm_num) (by norm_num) (by norm_num) (by norm_num) hm eL (by simp [ghCrash]) ?_ eM hz ?_ hb (by norm_num) he he0
      hmix).mono (by linarith)
    · rw [hi]
      simp only [ghTable1]
    · rw [lagN_walkQ m _ hm (by omega), form_walkQ _ _ hm', quintic_at0]
      norm_num
  · obtain ⟨eL, eM, hr0, hr3, hi⟩ := mod_coarse_call (-2) m N hm (by omega) hJ hT
    exact (within_coarse (-2) 2 m N (N - 3 * m + 1) true (.fin 1) (by norm_num) (by norm_num) (by norm_num) (by norm_num)
        (by norm_num) hm eL (by simp [ghCrash]) hi hz eM 0.16 _ 0.0125 (1 / 150) (by norm_num) (quintic_lower _ hr0 hr3)
        (quintic_trap _ hr0 hr3 _ (by omega)) (by norm_num) (by norm_num) (by norm_num) (5 / 4 / m ^ 2) _ he he0
        (by norm_num) hmix).mono (by linarith)

end devs

/-! ## The claims -/

/-- **C94, frequency data.** The frequencies are a random walk: successive values differ by independent normal samples,
and the first value is arbitrary.  At every averaging factor `m` that the overlapping or modified deviation function
reports, `edf_greenhall` called with `alpha = -2`, the order of the difference, `m` and the number of phase points
returns a positive number, whichever of the basic sum, the tables and the sum of 100 terms it uses.  Its square root
differs from that of the equivalent degrees of freedom of the squared deviation by the relative error of C92 plus 1 %
(`oadev`, `mdev`, `tdev`) or 2.5 % (`ohdev`) at most. -/
theorem edf_walk_freq_all {Y W : ℕ → Ω → ℝ} (h : NormalNoise P W s2) (hs : 0 < s2) (hr : 0 < rate)
    (hY : ∀ i ω, Y (i + 1) ω = Y i ω + W i ω) (N : ℕ) :
    Reports .oadev (fun ω => tab N (fun i => Y i ω)) rate "freq"
      (fun m D => EdfWithin P (edf_greenhall (-2) 2 m (N + 1) true false) D (walkErr 2 m + 1 / 100)) ∧
    Reports .ohdev (fun ω => tab N (fun i => Y i ω)) rate "freq"
      (fun m D => EdfWithin P (edf_greenhall (-2) 3 m (N + 1) true false) D (walkErr 3 m + 1 / 40)) ∧
    Reports .mdev (fun ω => tab N (fun i => Y i ω)) rate "freq"
      (fun m D => EdfWithin P (edf_greenhall (-2) 2 m (N + 1) true true) D (modWalkErr m + 1 / 100)) ∧
    Reports .tdev (fun ω => tab N (fun i => Y i ω)) rate "freq"
      (fun m D => EdfWithin P (edf_greenhall (-2) 2 m (N + 1) true true) D (modWalkErr m + 1 / 100)) := by
  have hp : ∀ fn Q, (∀ m, Usable fn (N + 1) m → Q m (fun ω => value fn (phaseOf (fun i => Y i ω) N rate) (N + 1) rate m)) →
      Reports fn (fun ω => tab N (fun i => Y i ω)) rate "freq" Q := fun fn Q hv =>
    reports_freq fn Y N rate hr Q hv
  have hκ : 1 / rate ≠ 0 := (one_div_pos.2 hr).ne'
  have hx : ∀ i ω, phaseOf (fun i => Y i ω) N rate (i + 2) - 2 * phaseOf (fun i => Y i ω) N rate (i + 1)
      + phaseOf (fun i => Y i ω) N rate i = 1 / rate * W i ω := by
    intro i ω
    unfold phaseOf
    simp only [sum_range_succ _ (i + 1), sum_range_succ _ i, hY]
    field_simp
    ring
  refine ⟨hp _ _ fun m hu => oadev_walk_all h hs hr hκ (x := fun i ω => phaseOf (fun i => Y i ω) N rate i) hx _ m hu,
    hp _ _ fun m hu => ohdev_walk_all h hs hr hκ (x := fun i ω => phaseOf (fun i => Y i ω) N rate i) hx _ m hu,
    hp _ _ fun m hu => ?_, hp _ _ fun m hu => ?_⟩
  · have := mdev_walk_all h hs hr hκ (x := fun i ω => phaseOf (fun i => Y i ω) N rate i) hx _ m hu.1 hu.2.2.2.2 1 one_ne_zero
    simp only [one_mul] at this
    exact this
  · have hm' : (0 : ℝ) < m := by exact_mod_cast hu.1
    exact mdev_walk_all h hs hr hκ (x := fun i ω => phaseOf (fun i => Y i ω) N rate i) hx _ m hu.1 hu.2.2.2.2 (m / rate / √3) (by positivity)

/-- **C94, phase data.** The same when the second differences of the phase are independent normal samples; the first
two phases are arbitrary. -/
theorem edf_walk_phase_all {X W : ℕ → Ω → ℝ} (h : NormalNoise P W s2) (hs : 0 < s2) (hr : 0 < rate)
    (hX : ∀ i ω, X (i + 2) ω - 2 * X (i + 1) ω + X i ω = W i ω) (N : ℕ) :
    Reports .oadev (fun ω => tab N (fun i => X i ω)) rate "phase"
      (fun m D => EdfWithin P (edf_greenhall (-2) 2 m N true false) D (walkErr 2 m + 1 / 100)) ∧
    Reports .ohdev (fun ω => tab N (fun i => X i ω)) rate "phase"
      (fun m D => EdfWithin P (edf_greenhall (-2) 3 m N true false) D (walkErr 3 m + 1 / 40)) ∧
    Reports .mdev (fun ω => tab N (fun i => X i ω)) rate "phase"
      (fun m D => EdfWithin P (edf_greenhall (-2) 2 m N true true) D (modWalkErr m + 1 / 100)) ∧
    Reports .tdev (fun ω => tab N (fun i => X i ω)) rate "phase"
      (fun m D => EdfWithin P (edf_greenhall (-2) 2 m N true true) D (modWalkErr m + 1 / 100)) := by
  have hp : ∀ fn Q, (∀ m, Usable fn N m → Q m (fun ω => value fn (fun i => X i ω) N rate m)) →
      Reports fn (fun ω => tab N (fun i => X i ω)) rate "phase" Q := fun fn Q hv =>
    reports_phase fn X N rate hr Q hv
  have hκ : (1 : ℝ) ≠ 0 := one_ne_zero
  have hx : ∀ i ω, X (i + 2) ω - 2 * X (i + 1) ω + X i ω = 1 * W i ω := fun i ω => by rw [hX, one_mul]
  refine ⟨hp _ _ fun m hu => oadev_walk_all h hs hr hκ hx _ m hu, hp _ _ fun m hu => ohdev_walk_all h hs hr hκ hx _ m hu,
    hp _ _ fun m hu => ?_, hp _ _ fun m hu => ?_⟩
  · have := mdev_walk_all h hs hr hκ hx _ m hu.1 hu.2.2.2.2 1 one_ne_zero
    simp only [one_mul] at this
    exact this
  · have hm' : (0 : ℝ) < m := by exact_mod_cast hu.1
    exact mdev_walk_all h hs hr hκ hx _ m hu.1 hu.2.2.2.2 (m / rate / √3) (by positivity)

/-! ## Non-vacuity -/

/-- 1000 frequencies at 2 Hz that start at 3 and walk by standard normal steps: at 25 s (`m = 50`) `oadev` has more than
`3 m` summands and the tables are used, at 125 s (`m = 250`) fewer, and the sum of 100 terms is used -/
example :
    (∃ d : (ℕ → ℝ) → ℝ, (∀ ω, ∃ errs ns,
        DevName.oadev.run (tab 1000 (fun i => 3 + ∑ j ∈ range i, ω j)) 2 "freq" (.list [(50 : ℕ) / 2])
          = .ok ⟨[(50 : ℕ) / 2], [d ω], errs, ns⟩) ∧
      EdfWithin gaussNoise (edf_greenhall (-2) 2 50 1001 true false) d (12 / 5 / 2500 + 1 / 100)) ∧
    ∃ d : (ℕ → ℝ) → ℝ, (∀ ω, ∃ errs ns,
        DevName.mdev.run (tab 1000 (fun i => 3 + ∑ j ∈ range i, ω j)) 2 "freq" (.list [(250 : ℕ) / 2])
          = .ok ⟨[(250 : ℕ) / 2], [d ω], errs, ns⟩) ∧
      EdfWithin gaussNoise (edf_greenhall (-2) 2 250 1001 true true) d (5 / 4 / 62500 + 1 / 100) := by
  have hr : (0 : ℝ) < 2 := by norm_num
  have h := edf_walk_freq_all (Y := fun i ω => 3 + ∑ j ∈ range i, ω j) normal_gauss one_pos hr
    (fun i ω => by simp only [sum_range_succ, add_assoc]) 1000
  have h1 : Usable .oadev (1000 + 1) 50 := ⟨by norm_num, by simp [lenOf], by simp [maxOf]; norm_num, by simp, by simp [count]⟩
  have h2 : Usable .mdev (1000 + 1) 250 := ⟨by norm_num, by simp [lenOf], by simp [maxOf]; norm_num, by simp, by simp [count]⟩
  have e1 : walkErr 2 50 = 12 / 5 / 2500 := by norm_num [walkErr]
  have e2 : modWalkErr 250 = 5 / 4 / 62500 := by norm_num [modWalkErr]
  rw [← e1, ← e2]
  exact ⟨⟨_, fun ω => run_freq_at (by norm_num) h1 hr _,
      h.1.single hr.ne' (fun _ => 0) 50 _ (fun ω => run_freq_at (by norm_num) h1 hr _)⟩,
    ⟨_, fun ω => run_freq_at (by norm_num) h2 hr _,
      h.2.2.1.single hr.ne' (fun _ => 0) 250 _ (fun ω => run_freq_at (by norm_num) h2 hr _)⟩⟩

end AT
