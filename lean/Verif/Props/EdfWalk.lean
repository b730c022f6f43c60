import Verif.Props.EdfNear
import Verif.Lemmas.EdfWalkNear

/-!
# C92: how far `edf_greenhall` is from the degrees of freedom of random walk frequency noise
-/

namespace AT

open Spec Finset MeasureTheory ProbabilityTheory
open scoped NNReal ENNReal

/-- the relative error of the square root of the degrees of freedom of unmodified differences of order `d` -/
noncomputable def Spec.walkErr (d m : ℕ) : ℝ :=
  if m = 1 then 3 / 20 else (if d = 2 then 12 / 5 else 61 / 10) / m ^ 2

/-- the relative error of the square root of the degrees of freedom of the modified second differences -/
noncomputable def Spec.modWalkErr (m : ℕ) : ℝ := if m = 1 then 3 / 20 else 5 / 4 / m ^ 2

/-! ## The differences as filters of the innovations -/

section filters

variable {x w : ℕ → ℝ} {κ : ℝ} (hx : ∀ i, x (i + 2) - 2 * x (i + 1) + x i = κ * w i)

omit hx in
theorem step_sums (x : ℕ → ℝ) (i k : ℕ) : x (i + k) = x i + ∑ s ∈ range k, (x (i + s + 1) - x (i + s)) := by
  induction k with
  | zero => simp
  | succ k ih => rw [sum_range_succ, ← add_assoc i k 1, ← add_assoc (x i), ← ih]; ring

include hx

theorem walk_parts (d m i : ℕ) (hd : d = 2 ∨ d = 3) :
    ∑ k ∈ range (d * m), freqTaps d m k * (x (i + k + 1) - x (i + k))
      = -κ * ∑ k ∈ range (d * m), walkTaps d m k * w (i + k) := by
  have h := sum_cumCoef (freqTaps d m) (fun k => x (i + k + 1) - x (i + k)) (d * m)
  rw [freqTaps_sum d m hd, zero_mul, zero_sub] at h
  rw [h, mul_sum, ← sum_neg_distrib]
  refine sum_congr rfl fun k _ => ?_
  have := hx (i + k)
  rw [walkTaps, show i + (k + 1) + 1 = i + k + 2 by ring, show i + (k + 1) = i + k + 1 by ring]
  linear_combination (-cumCoef (freqTaps d m) k) * this

theorem d2_walk (m i : ℕ) : d2 x m i = -κ * ∑ k ∈ range (2 * m), walkTaps 2 m k * w (i + k) := by
  rw [← walk_parts hx 2 m i (.inl rfl), freqTaps, if_pos rfl,
    blocks_sum tapf 2 m (fun k => x (i + k + 1) - x (i + k)), d2_step (u := fun i => x (i + 1) - x i) (step_sums x)]
  simp only [tapf, ← add_assoc]

theorem d3_walk (m i : ℕ) : d3 x m i = -κ * ∑ k ∈ range (3 * m), walkTaps 3 m k * w (i + k) := by
  rw [← walk_parts hx 3 m i (.inr rfl), freqTaps, if_neg (by norm_num),
    blocks_sum tap2 3 m (fun k => x (i + k + 1) - x (i + k)), d3_step (u := fun i => x (i + 1) - x i) (step_sums x)]
  simp only [tap2, ← add_assoc]

theorem mod_walk (m j : ℕ) : ∑ i ∈ range m, d2 x m (j + i) = κ * ∑ k ∈ range (3 * m), modTaps m k * w (j + k) := by
  have e : ∑ i ∈ range m, d2 x m (j + i) = ∑ k ∈ range (3 * m), freqTaps 3 m k * x (j + k) := by
    rw [freqTaps, if_neg (by norm_num), blocks_sum tap2 3 m (fun k => x (j + k))]
    simp only [sum_range_succ (n := 2), sum_range_succ (n := 1), sum_range_succ (n := 0), sum_range_zero, tap2]
    rw [zero_add, ← sum_add_distrib, ← sum_add_distrib]
    refine sum_congr rfl fun i _ => ?_
    simp only [d2]
    norm_num
    rw [show j + i + 2 * m = j + (2 * m + i) by ring, show j + i + m = j + (m + i) by ring]
    ring
  have h1 := sum_cumCoef (freqTaps 3 m) (fun k => x (j + k)) (3 * m)
  have h2 := sum_cumCoef (walkTaps 3 m) (fun k => x (j + (k + 1)) - x (j + k)) (3 * m)
  rw [freqTaps_sum 3 m (.inr rfl), zero_mul, zero_sub] at h1
  rw [walkTaps_sum, zero_mul, zero_sub] at h2
  rw [walkTaps] at h2
  rw [e, h1, h2, neg_neg, mul_sum]
  refine sum_congr rfl fun k _ => ?_
  have := hx (j + k)
  rw [modTaps, walkTaps, show j + (k + 1 + 1) = j + k + 2 by ring, show j + (k + 1) = j + k + 1 by ring]
  linear_combination (cumCoef (cumCoef (freqTaps 3 m)) k) * this

end filters

variable {Ω : Type} [MeasurableSpace Ω] {P : Measure Ω} [IsProbabilityMeasure P] {s2 : ℝ≥0} {rate : ℝ}

/-- the mean square of differences of random walk frequency noise -/
theorem walk_near {W : ℕ → Ω → ℝ} (h : NormalNoise P W s2) (hs : 0 < s2) (d m N S : ℕ) (ov : Bool) (hd : d = 2 ∨ d = 3)
    (hm : 0 < m) (hS : S * ghS m ov = m) (hN : ghL d m false ≤ N) (hJ : ghJ d m N ov false ≤ 100)
    (V : Ω → ℝ) (κ : ℝ) (hκ : 0 < κ)
    (hV : ∀ ω, V ω ^ 2 = κ * ∑ i ∈ range (ghM d m N ov false), (∑ k ∈ range (d * m), walkTaps d m k * W (i * S + k) ω) ^ 2) :
    EdfWithin P (edf_greenhall (-2) d m N ov false) V (walkErr d m) := by
  have hm' : (0 : ℝ) < m := by exact_mod_cast hm
  have hm1 : (1 : ℝ) ≤ m := by exact_mod_cast hm
  have hS0 := ghS_pos m ov hm
  have hM := ghM_pos d m N ov false
  have hM' : (0 : ℝ) < ghM d m N ov false := by exact_mod_cast hM
  have g0 : filterCov (walkTaps d m) (d * m) S 0 ≠ 0 := by
    rw [walkTaps_cov d m S 0 hd hm, Nat.zero_mul, walkCov, Nat.cast_zero, zero_div, kernA_at0 d hd, kernZ_at0 d hd]
    split_ifs <;> positivity
  have h3 := edf_filter h hs (ghM d m N ov false) hM (walkTaps d m) (d * m) S (walkTaps_zero d m hd) g0 κ hκ
  rw [← lagN_eq _ hM] at h3
  have epos : 0 < (ghM d m N ov false : ℝ) ^ 2 * filterCov (walkTaps d m) (d * m) S 0 ^ 2
      / lagN (ghM d m N ov false) (filterCov (walkTaps d m) (d * m) S) :=
    div_pos (by positivity) (lt_of_lt_of_le (by positivity) (lagN_ge _ hM _))
  have hcov : filterCov (walkTaps d m) (d * m) S = fun l => walkCov d m (l * S) :=
    funext fun l => walkTaps_cov d m S l hd hm
  obtain ⟨F, hF, hinv, hz, hfar⟩ : ∃ F : FArg, ((F = .inf ∧ m ≠ 1) ∨ F = .fin m) ∧
      ghInv (-2) d m N ov false = (ghSum (ghJ d m N ov false) (ghM d m N ov false) (ghS m ov) F (-2) d,
        ghSz F (-2) d 0 ^ 2 * ghM d m N ov false) ∧ ghSz F (-2) d 0 ≠ 0 ∧
      ∀ t : ℝ, (d : ℝ) + 1 ≤ t → ghSz F (-2) d t = 0 := by
    by_cases h100 : m * (d + 1) ≤ 100
    · refine ⟨.fin m, .inr rfl, ?_, (walk_fin0 d m hd hm).ne, kern_fin_far m hm1 d hd⟩
      unfold ghInv
      simp only [hJ, if_true, Bool.false_eq_true, if_false]
      rw [if_pos (by norm_num), if_pos h100]
    · refine ⟨.inf, .inl ⟨rfl, fun h1 => h100 (by rw [h1]; omega)⟩, ?_, ?_, kern_inf_far d hd⟩
      · unfold ghInv
        simp only [hJ, if_true, Bool.false_eq_true, if_false]
        rw [if_pos (by norm_num), if_neg h100]
      · rw [kernA_at0 d hd]
        split_ifs <;> norm_num
  refine ⟨_, _, edf_call_sum (-2) d m N ov false F (by norm_num) (by norm_num) (by omega) (by omega) (by omega) hm
    hN (by simp [ghCrash]) hinv hz, ?_, h3.congr (fun ω => (hV ω).symm) rfl, epos, ?_⟩
  · exact div_pos (by positivity) (ghSum_pos _ _ _ _ _ _ hM' (by exact_mod_cast min_le_left _ _) hz)
  · unfold ghJ
    rw [ghSum_norm _ _ d hM hS0 F (-2) hfar hz, hcov, walkErr]
    by_cases h1 : m = 1
    · rw [if_pos h1]
      subst h1
      have eS : ghS 1 ov = 1 := by cases ov <;> rfl
      have eF : F = .fin 1 := by
        rcases hF with ⟨-, hF⟩ | hF
        · exact absurd rfl hF
        · rw [hF, Nat.cast_one]
      rw [eS, mul_one] at hS
      subst hS
      simp only [eS, eF, Nat.cast_one, div_one, mul_one]
      rcases hd with rfl | rfl
      · exact unit_near2 _ hM _ unit_cov2
      · exact unit_near3 _ hM _ unit_cov3
    · rw [if_neg h1]
      have := walk_near_cov d (ghM d m N ov false) m S (ghS m ov) hd hM hm hS F (hF.imp (·.1) id)
      rw [walkK] at this
      exact this

/-! ## The deviations -/

section devs

variable {W x : ℕ → Ω → ℝ} {κ : ℝ}

theorem oadev_walk (h : NormalNoise P W s2) (hs : 0 < s2) (hr : 0 < rate) (hκ : κ ≠ 0)
    (hx : ∀ i ω, x (i + 2) ω - 2 * x (i + 1) ω + x i ω = κ * W i ω) (N m : ℕ)
    (hu : Usable .oadev N m) (hJ : min (N - 2 * m) (3 * m) ≤ 100) :
    EdfWithin P (edf_greenhall (-2) 2 m N true false) (fun ω => value .oadev (fun i => x i ω) N rate m) (walkErr 2 m) := by
  obtain ⟨hm, -, -, -, hc⟩ := hu
  have hc' : 1 < (N : ℤ) - 2 * m := hc
  have hm' : (0 : ℝ) < m := by exact_mod_cast hm
  have eM : ghM 2 m N true false = N - 2 * m := by
    rw [ghM_ov _ _ _ _ hm]
    simp only [ghL, Bool.false_eq_true, if_false]
    omega
  have hN : (0 : ℝ) < (N : ℝ) - 2 * m := by
    have : (1 : ℝ) < (N : ℝ) - 2 * m := by exact_mod_cast hc'
    linarith
  refine walk_near h hs 2 m N 1 true (.inl rfl) hm (by simp [ghS]) (by simp [ghL]; omega)
    (by unfold ghJ; rw [eM]; simpa [ghS] using hJ) _
    (1 / (2 * (m / rate) ^ 2 * ((N : ℝ) - 2 * m)) * κ ^ 2)
    (by positivity) (fun ω => ?_)
  rw [eM]
  simp only [value, Spec.oadev]
  rw [rms_sq _ _ _ (by positivity)]
  simp only [d2_walk (x := fun i => x i ω) (w := fun i => W i ω) (fun i => hx i ω), mul_pow, ← mul_sum, mul_one]
  ring

theorem adev_walk (h : NormalNoise P W s2) (hs : 0 < s2) (hr : 0 < rate) (hκ : κ ≠ 0)
    (hx : ∀ i ω, x (i + 2) ω - 2 * x (i + 1) ω + x i ω = κ * W i ω) (N m : ℕ) (hu : Usable .adev N m) :
    EdfWithin P (edf_greenhall (-2) 2 m N false false) (fun ω => value .adev (fun i => x i ω) N rate m) (walkErr 2 m) := by
  have hN0 := hu.pos
  obtain ⟨hm, -, -, -, hc⟩ := hu
  have hc' : 1 < (decimated N m : ℤ) - 2 := hc
  have hm' : (0 : ℝ) < m := by exact_mod_cast hm
  have hN : (0 : ℝ) < decimated N m - 2 := by
    have : (1 : ℝ) < (decimated N m : ℝ) - 2 := by exact_mod_cast hc'
    linarith
  refine walk_near h hs 2 m N m false (.inl rfl) hm (by simp [ghS]) (by
      have := dec_len (N := N) (d := 2) hm hN0 (by omega)
      simpa [ghL] using this)
    ((min_le_right _ _).trans (by simp [ghS])) _
    (1 / (2 * (m / rate) ^ 2 * (decimated N m - 2)) * κ ^ 2)
    (by positivity) (fun ω => ?_)
  rw [ghM_dec 2 m N (by omega)]
  simp only [value, Spec.adev]
  rw [rms_sq _ _ _ (by positivity)]
  simp only [d2_dec (fun i => x i ω)]
  simp only [d2_walk (x := fun i => x i ω) (w := fun i => W i ω) (fun i => hx i ω), mul_pow, ← mul_sum]
  ring

theorem ohdev_walk (h : NormalNoise P W s2) (hs : 0 < s2) (hr : 0 < rate) (hκ : κ ≠ 0)
    (hx : ∀ i ω, x (i + 2) ω - 2 * x (i + 1) ω + x i ω = κ * W i ω) (N m : ℕ)
    (hu : Usable .ohdev N m) (hJ : min (N - 3 * m) (4 * m) ≤ 100) :
    EdfWithin P (edf_greenhall (-2) 3 m N true false) (fun ω => value .ohdev (fun i => x i ω) N rate m) (walkErr 3 m) := by
  obtain ⟨hm, -, -, -, hc⟩ := hu
  have hc' : 1 < (N : ℤ) - 3 * m := hc
  have hm' : (0 : ℝ) < m := by exact_mod_cast hm
  have eM : ghM 3 m N true false = N - 3 * m := by
    rw [ghM_ov _ _ _ _ hm]
    simp only [ghL, Bool.false_eq_true, if_false]
    omega
  have hN : (0 : ℝ) < (N : ℝ) - 3 * m := by
    have : (1 : ℝ) < (N : ℝ) - 3 * m := by exact_mod_cast hc'
    linarith
  refine walk_near h hs 3 m N 1 true (.inr rfl) hm (by simp [ghS]) (by simp [ghL]; omega)
    (by unfold ghJ; rw [eM]; simpa [ghS] using hJ) _
    (1 / (6 * (m / rate) ^ 2 * ((N : ℝ) - 3 * m)) * κ ^ 2)
    (by positivity) (fun ω => ?_)
  rw [eM]
  simp only [value, Spec.ohdev]
  rw [rms_sq _ _ _ (by positivity)]
  simp only [d3_walk (x := fun i => x i ω) (w := fun i => W i ω) (fun i => hx i ω), mul_pow, ← mul_sum, mul_one]
  ring

theorem hdev_walk (h : NormalNoise P W s2) (hs : 0 < s2) (hr : 0 < rate) (hκ : κ ≠ 0)
    (hx : ∀ i ω, x (i + 2) ω - 2 * x (i + 1) ω + x i ω = κ * W i ω) (N m : ℕ) (hu : Usable .hdev N m) :
    EdfWithin P (edf_greenhall (-2) 3 m N false false) (fun ω => value .hdev (fun i => x i ω) N rate m) (walkErr 3 m) := by
  have hN0 := hu.pos
  obtain ⟨hm, -, -, -, hc⟩ := hu
  have hc' : 1 < (decimated N m : ℤ) - 3 := hc
  have hm' : (0 : ℝ) < m := by exact_mod_cast hm
  have hN : (0 : ℝ) < decimated N m - 3 := by
    have : (1 : ℝ) < (decimated N m : ℝ) - 3 := by exact_mod_cast hc'
    linarith
  refine walk_near h hs 3 m N m false (.inr rfl) hm (by simp [ghS]) (by
      have := dec_len (N := N) (d := 3) hm hN0 (by omega)
      simpa [ghL] using this)
    ((min_le_right _ _).trans (by simp [ghS])) _
    (1 / (6 * (m / rate) ^ 2 * (decimated N m - 3)) * κ ^ 2)
    (by positivity) (fun ω => ?_)
  rw [ghM_dec 3 m N (by omega)]
  simp only [value, Spec.hdev]
  rw [rms_sq _ _ _ (by positivity)]
  simp only [d3_dec (fun i => x i ω)]
  simp only [d3_walk (x := fun i => x i ω) (w := fun i => W i ω) (fun i => hx i ω), mul_pow, ← mul_sum]
  ring

/-- the exact degrees of freedom of the modified variance -/
theorem mdev_hasEdf_walk (h : NormalNoise P W s2) (hs : 0 < s2) (hr : 0 < rate) (hκ : κ ≠ 0)
    (hx : ∀ i ω, x (i + 2) ω - 2 * x (i + 1) ω + x i ω = κ * W i ω) (N m : ℕ) (hm : 0 < m)
    (hc : 1 < (N : ℤ) - 3 * m + 1) (k : ℝ) (hk : k ≠ 0) :
    HasEdf P (fun ω => (k * Spec.mdev (fun i => x i ω) N m (m / rate)) ^ 2)
      (((N - 3 * m + 1 : ℕ) : ℝ) ^ 2 * modWalkCov m 0 ^ 2 / lagN (N - 3 * m + 1) (modWalkCov m)) := by
  have hm' : (0 : ℝ) < m := by exact_mod_cast hm
  have hN : (0 : ℝ) < (N : ℝ) - 3 * m + 1 := by
    have : (1 : ℝ) < (N : ℝ) - 3 * m + 1 := by exact_mod_cast hc
    linarith
  have hcov : filterCov (modTaps m) (3 * m) 1 = modWalkCov m := funext fun l => modTaps_cov m l hm
  have h3 := edf_filter h hs (N - 3 * m + 1) (by omega) (modTaps m) (3 * m) 1 (modTaps_zero m)
    (by rw [hcov, modWalkCov_zero m hm]; positivity)
    (k ^ 2 / (2 * m ^ 2 * (m / rate) ^ 2 * ((N : ℝ) - 3 * m + 1)) * κ ^ 2) (by positivity)
  rw [← lagN_eq _ (by omega), hcov] at h3
  refine h3.congr (fun ω => ?_) rfl
  simp only [Spec.mdev]
  rw [mul_pow, rms_sq _ _ _ (by positivity)]
  simp only [mod_walk (x := fun i => x i ω) (w := fun i => W i ω) (fun i => hx i ω), mul_pow, ← mul_sum, mul_one]
  ring

theorem mdev_walk (h : NormalNoise P W s2) (hs : 0 < s2) (hr : 0 < rate) (hκ : κ ≠ 0)
    (hx : ∀ i ω, x (i + 2) ω - 2 * x (i + 1) ω + x i ω = κ * W i ω) (N m : ℕ) (hm : 0 < m)
    (hc : 1 < (N : ℤ) - 3 * m + 1) (hJ : min (N - 3 * m + 1) (3 * m) ≤ 100) (k : ℝ) (hk : k ≠ 0) :
    EdfWithin P (edf_greenhall (-2) 2 m N true true)
      (fun ω => k * Spec.mdev (fun i => x i ω) N m (m / rate)) (modWalkErr m) := by
  have hm' : (0 : ℝ) < m := by exact_mod_cast hm
  have hM : 0 < N - 3 * m + 1 := by omega
  have hM' : (0 : ℝ) < ((N - 3 * m + 1 : ℕ) : ℝ) := by exact_mod_cast hM
  have eM : ghM 2 m N true true = N - 3 * m + 1 := by
    rw [ghM_ov _ _ _ _ hm]
    simp only [ghL, if_true]
    omega
  have hJ' : ghJ 2 m N true true ≤ 100 := by
    unfold ghJ
    rw [eM]
    exact hJ
  have hz : ghSz (.fin 1) (-2) 2 0 ≠ 0 := by rw [quintic_at0]; norm_num
  have g0 : modWalkCov m 0 ≠ 0 := by rw [modWalkCov_zero m hm]; positivity
  have h3 := mdev_hasEdf_walk h hs hr hκ hx N m hm hc k hk
  refine ⟨_, _, edf_call_sum (-2) 2 m N true true (.fin 1) (by norm_num) (by norm_num) (by norm_num) (by norm_num)
    (by norm_num) hm (by simp only [ghL, if_true]; omega) (by simp [ghCrash])
    (by unfold ghInv; simp only [if_true, hJ']) hz, ?_, h3, ?_, ?_⟩
  · exact div_pos (by rw [eM]; positivity) (ghSum_pos _ _ _ _ _ _ (by rw [eM]; exact hM')
      (by exact_mod_cast min_le_left _ _) hz)
  · exact div_pos (by positivity) (lt_of_lt_of_le (by positivity) (lagN_ge _ hM _))
  · unfold ghJ
    rw [eM, show ghS m true = m from rfl, ghSum_norm _ m 2 hM hm (.fin 1) (-2)
      (fun t ht => kern_fin_far 1 le_rfl 2 (.inl rfl) t ht) hz, modWalkErr]
    split_ifs with h1
    · subst h1
      simp only [Nat.cast_one, div_one]
      refine unit_near2 _ hM (modWalkCov 1) (fun l => ?_)
      rw [modWalkCov, Nat.cast_one, div_one, unit_kern2, unit_A3, unit_Z3]
      split_ifs <;> norm_num
    · exact mod_near_cov _ m hM hm

end devs

/-! ## The claims -/

/-- **C92, frequency data.** The frequencies are a random walk: successive values differ by independent normal
samples, and the first value is arbitrary.  At every averaging factor `m` that the deviation function reports,
`edf_greenhall` called with `alpha = -2`, the order of the difference, `m` and the number of phase points returns a
positive number; its square root differs from that of the equivalent degrees of freedom of the squared deviation by
the relative error 2.4/m² at most for second differences, by 6.1/m² for third differences and by 1.25/m² for the
modified Allan and the time deviation, and at `m = 1` by 15 % at most.  For the overlapping deviations the basic sum is
supposed to have at most 100 terms. -/
theorem edf_walk_freq_near {Y W : ℕ → Ω → ℝ} (h : NormalNoise P W s2) (hs : 0 < s2) (hr : 0 < rate)
    (hY : ∀ i ω, Y (i + 1) ω = Y i ω + W i ω) (N : ℕ) :
    Reports .adev (fun ω => tab N (fun i => Y i ω)) rate "freq"
      (fun m D => EdfWithin P (edf_greenhall (-2) 2 m (N + 1) false false) D (walkErr 2 m)) ∧
    Reports .oadev (fun ω => tab N (fun i => Y i ω)) rate "freq"
      (fun m D => min (N + 1 - 2 * m) (3 * m) ≤ 100 →
        EdfWithin P (edf_greenhall (-2) 2 m (N + 1) true false) D (walkErr 2 m)) ∧
    Reports .hdev (fun ω => tab N (fun i => Y i ω)) rate "freq"
      (fun m D => EdfWithin P (edf_greenhall (-2) 3 m (N + 1) false false) D (walkErr 3 m)) ∧
    Reports .ohdev (fun ω => tab N (fun i => Y i ω)) rate "freq"
      (fun m D => min (N + 1 - 3 * m) (4 * m) ≤ 100 →
        EdfWithin P (edf_greenhall (-2) 3 m (N + 1) true false) D (walkErr 3 m)) ∧
    Reports .mdev (fun ω => tab N (fun i => Y i ω)) rate "freq"
      (fun m D => min (N + 1 - 3 * m + 1) (3 * m) ≤ 100 →
        EdfWithin P (edf_greenhall (-2) 2 m (N + 1) true true) D (modWalkErr m)) ∧
    Reports .tdev (fun ω => tab N (fun i => Y i ω)) rate "freq"
      (fun m D => min (N + 1 - 3 * m + 1) (3 * m) ≤ 100 →
        EdfWithin P (edf_greenhall (-2) 2 m (N + 1) true true) D (modWalkErr m)) := by
  have hp : ∀ fn Q, (∀ m, Usable fn (N + 1) m → Q m (fun ω => value fn (phaseOf (fun i => Y i ω) N rate) (N + 1) rate m)) →
      Reports fn (fun ω => tab N (fun i => Y i ω)) rate "freq" Q := fun fn Q hv =>
    reports_freq fn Y N rate hr Q hv
  have hκ : 1 / rate ≠ 0 := (one_div_pos.2 hr).ne'
  have hx : ∀ i ω, phaseOf (fun i => Y i ω) N rate (i + 2) - 2 * phaseOf (fun i => Y i ω) N rate (i + 1)
      + phaseOf (fun i => Y i ω) N rate i = 1 / rate * W i ω := by
    intro i ω
    unfold phaseOf
    simp only [sum_range_succ _ (i + 1), sum_range_succ _ i, hY]
    field_simp
    ring
  refine ⟨hp _ _ fun m hu => adev_walk h hs hr hκ (x := fun i ω => phaseOf (fun i => Y i ω) N rate i) hx _ m hu, hp _ _ fun m hu hJ => oadev_walk h hs hr hκ (x := fun i ω => phaseOf (fun i => Y i ω) N rate i) hx _ m hu hJ,
    hp _ _ fun m hu => hdev_walk h hs hr hκ (x := fun i ω => phaseOf (fun i => Y i ω) N rate i) hx _ m hu, hp _ _ fun m hu hJ => ohdev_walk h hs hr hκ (x := fun i ω => phaseOf (fun i => Y i ω) N rate i) hx _ m hu hJ,
    hp _ _ fun m hu hJ => ?_, hp _ _ fun m hu hJ => ?_⟩
  · have := mdev_walk h hs hr hκ (x := fun i ω => phaseOf (fun i => Y i ω) N rate i) hx _ m hu.1 hu.2.2.2.2 hJ 1 one_ne_zero
    simp only [one_mul] at this
    exact this
  · have hm' : (0 : ℝ) < m := by exact_mod_cast hu.1
    exact mdev_walk h hs hr hκ (x := fun i ω => phaseOf (fun i => Y i ω) N rate i) hx _ m hu.1 hu.2.2.2.2 hJ (m / rate / √3) (by positivity)

/-- **C92, phase data.** The same when the second differences of the phase are independent normal samples; the first
two phases are arbitrary. -/
theorem edf_walk_phase_near {X W : ℕ → Ω → ℝ} (h : NormalNoise P W s2) (hs : 0 < s2) (hr : 0 < rate)
    (hX : ∀ i ω, X (i + 2) ω - 2 * X (i + 1) ω + X i ω = W i ω) (N : ℕ) :
    Reports .adev (fun ω => tab N (fun i => X i ω)) rate "phase"
      (fun m D => EdfWithin P (edf_greenhall (-2) 2 m N false false) D (walkErr 2 m)) ∧
    Reports .oadev (fun ω => tab N (fun i => X i ω)) rate "phase"
      (fun m D => min (N - 2 * m) (3 * m) ≤ 100 →
        EdfWithin P (edf_greenhall (-2) 2 m N true false) D (walkErr 2 m)) ∧
    Reports .hdev (fun ω => tab N (fun i => X i ω)) rate "phase"
      (fun m D => EdfWithin P (edf_greenhall (-2) 3 m N false false) D (walkErr 3 m)) ∧
    Reports .ohdev (fun ω => tab N (fun i => X i ω)) rate "phase"
      (fun m D => min (N - 3 * m) (4 * m) ≤ 100 →
        EdfWithin P (edf_greenhall (-2) 3 m N true false) D (walkErr 3 m)) ∧
    Reports .mdev (fun ω => tab N (fun i => X i ω)) rate "phase"
      (fun m D => min (N - 3 * m + 1) (3 * m) ≤ 100 →
        EdfWithin P (edf_greenhall (-2) 2 m N true true) D (modWalkErr m)) ∧
    Reports .tdev (fun ω => tab N (fun i => X i ω)) rate "phase"
      (fun m D => min (N - 3 * m + 1) (3 * m) ≤ 100 →
        EdfWithin P (edf_greenhall (-2) 2 m N true true) D (modWalkErr m)) := by
  have hp : ∀ fn Q, (∀ m, Usable fn N m → Q m (fun ω => value fn (fun i => X i ω) N rate m)) →
      Reports fn (fun ω => tab N (fun i => X i ω)) rate "phase" Q := fun fn Q hv =>
    reports_phase fn X N rate hr Q hv
  have hκ : (1 : ℝ) ≠ 0 := one_ne_zero
  have hx : ∀ i ω, X (i + 2) ω - 2 * X (i + 1) ω + X i ω = 1 * W i ω := fun i ω => by rw [hX, one_mul]
  refine ⟨hp _ _ fun m hu => adev_walk h hs hr hκ hx _ m hu, hp _ _ fun m hu hJ => oadev_walk h hs hr hκ hx _ m hu hJ,
    hp _ _ fun m hu => hdev_walk h hs hr hκ hx _ m hu, hp _ _ fun m hu hJ => ohdev_walk h hs hr hκ hx _ m hu hJ,
    hp _ _ fun m hu hJ => ?_, hp _ _ fun m hu hJ => ?_⟩
  · have := mdev_walk h hs hr hκ hx _ m hu.1 hu.2.2.2.2 hJ 1 one_ne_zero
    simp only [one_mul] at this
    exact this
  · have hm' : (0 : ℝ) < m := by exact_mod_cast hu.1
    exact mdev_walk h hs hr hκ hx _ m hu.1 hu.2.2.2.2 hJ (m / rate / √3) (by positivity)

/-! ## Non-vacuity -/

/-- 1000 frequencies at 2 Hz that start at 3 and walk by standard normal steps: at the averaging time 5 s (`m = 10`)
`edf_greenhall` is within 2.4 % of the degrees of freedom of `oadev` (square roots) and within 1.25 % of those of
`mdev` -/
example :
    (∃ d : (ℕ → ℝ) → ℝ, (∀ ω, ∃ errs ns,
        DevName.oadev.run (tab 1000 (fun i => 3 + ∑ j ∈ range i, ω j)) 2 "freq" (.list [(10 : ℕ) / 2])
          = .ok ⟨[(10 : ℕ) / 2], [d ω], errs, ns⟩) ∧
      EdfWithin gaussNoise (edf_greenhall (-2) 2 10 1001 true false) d (12 / 5 / 100)) ∧
    ∃ d : (ℕ → ℝ) → ℝ, (∀ ω, ∃ errs ns,
        DevName.mdev.run (tab 1000 (fun i => 3 + ∑ j ∈ range i, ω j)) 2 "freq" (.list [(10 : ℕ) / 2])
          = .ok ⟨[(10 : ℕ) / 2], [d ω], errs, ns⟩) ∧
      EdfWithin gaussNoise (edf_greenhall (-2) 2 10 1001 true true) d (5 / 4 / 100) := by
  have hr : (0 : ℝ) < 2 := by norm_num
  have h := edf_walk_freq_near (Y := fun i ω => 3 + ∑ j ∈ range i, ω j) normal_gauss one_pos hr
    (fun i ω => by simp only [sum_range_succ, add_assoc]) 1000
  have h1 : Usable .oadev (1000 + 1) 10 := ⟨by norm_num, by simp [lenOf], by simp [maxOf]; norm_num, by simp, by simp [count]⟩
  have h2 : Usable .mdev (1000 + 1) 10 := ⟨by norm_num, by simp [lenOf], by simp [maxOf]; norm_num, by simp, by simp [count]⟩
  have e1 : walkErr 2 10 = 12 / 5 / 100 := by norm_num [walkErr]
  have e2 : modWalkErr 10 = 5 / 4 / 100 := by norm_num [modWalkErr]
  rw [← e1, ← e2]
  exact ⟨⟨_, fun ω => run_freq_at (by norm_num) h1 hr _,
      h.2.1.single hr.ne' (fun _ => 0) 10 _ (fun ω => run_freq_at (by norm_num) h1 hr _) (by norm_num)⟩,
    ⟨_, fun ω => run_freq_at (by norm_num) h2 hr _,
      h.2.2.2.2.1.single hr.ne' (fun _ => 0) 10 _ (fun ω => run_freq_at (by norm_num) h2 hr _) (by norm_num)⟩⟩

/-- 100 phases at 1 Hz whose second differences are standard normal: `ohdev` at `m = 20` -/
example :
    ∃ d : (ℕ → ℝ) → ℝ, (∀ ω, ∃ errs ns,
        DevName.ohdev.run (tab 100 (fun i => ∑ j ∈ range i, ∑ k ∈ range j, ω k)) 1 "phase" (.list [(20 : ℕ) / 1])
          = .ok ⟨[(20 : ℕ) / 1], [d ω], errs, ns⟩) ∧
      EdfWithin gaussNoise (edf_greenhall (-2) 3 20 100 true false) d (61 / 10 / 400) := by
  have hr : (0 : ℝ) < 1 := by norm_num
  have h := edf_walk_phase_near (X := fun i ω => ∑ j ∈ range i, ∑ k ∈ range j, ω k) normal_gauss one_pos hr
    (fun i ω => by simp only [sum_range_succ]; ring) 100
  have h1 : Usable .ohdev 100 20 := ⟨by norm_num, by simp [lenOf], by simp [maxOf]; norm_num, by simp, by simp [count]⟩
  have e1 : walkErr 3 20 = 61 / 10 / 400 := by norm_num [walkErr]
  rw [← e1]
  exact ⟨_, fun ω => run_at h1 hr _,
      h.2.2.2.1.single hr.ne' (fun _ => 0) 20 _ (fun ω => run_at h1 hr _) (by norm_num)⟩

end AT
