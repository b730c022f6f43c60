import Verif.Props.Settle
import Verif.Lemmas.EdfMod

/-!
# C88: how far `edf_greenhall` is from the degrees of freedom of white frequency noise
-/

namespace AT

open Spec Finset MeasureTheory ProbabilityTheory
open scoped NNReal ENNReal

variable {Ω : Type} [MeasurableSpace Ω] {P : Measure Ω}

/-- the call of `edf_greenhall` returns a positive number `r` whose square root differs from that of the
equivalent degrees of freedom of `D²` by the relative error `ε` at most -/
def Spec.EdfWithin (P : Measure Ω) (call : Py NV) (D : Ω → ℝ) (ε : ℝ) : Prop :=
  ∃ r e, call = .ok (some r) ∧ 0 < r ∧ HasEdf P (fun ω => D ω ^ 2) e ∧ 0 < e ∧ |√r - √e| ≤ ε * √e

variable [IsProbabilityMeasure P] {s2 : ℝ≥0} {rate : ℝ}

theorem ghSz_inf_at0 (d : ℕ) (hd : d = 2 ∨ d = 3) : ghSz .inf 0 d 0 = if d = 2 then 4 else 12 := by
  rcases hd with rfl | rfl
  · rw [ghSz_fm2]; norm_num [tri]
  · rw [ghSz_fm3]; norm_num [tri]

/-- the basic sum as the norm of the covariances -/
theorem ghSum_norm (M S d : ℕ) (hM : 0 < M) (hS : 0 < S) (F : FArg) (alpha : ℤ)
    (hz : ∀ t : ℝ, d + 1 ≤ t → ghSz F alpha d t = 0) (h0 : ghSz F alpha d 0 ≠ 0) :
    ghSz F alpha d 0 ^ 2 * M / ghSum (min M ((d + 1) * S)) M S F alpha d
      = M ^ 2 * (fun l : ℕ => ghSz F alpha d ((l : ℝ) / S)) 0 ^ 2 / lagN M (fun l => ghSz F alpha d ((l : ℝ) / S)) := by
  rw [lagN_eq M hM, ← ghSum_lags M S d hM hS F alpha (fun l => ghSz F alpha d ((l : ℝ) / S)) 1 one_ne_zero
    (fun l => (one_mul _).symm) hz h0]

theorem mix_alg (m Z C a z t : ℝ) (hm : 0 < m) (hz : z ≠ 0) (ht : t ≠ 0) (ha : t = 3 * z * a)
    (hX : 6 * z - 2 / m * t ≠ 0) :
    m / 2 * Z / (m / 2 * z) = (1 - a / m) * ((6 * Z - 2 / m * C) / (6 * z - 2 / m * t)) + a / m * (C / t) := by
  have e : 6 * z - 2 / m * t = 6 * z * (1 - a / m) := by rw [ha]; ring
  rw [e] at hX ⊢
  have h1 : (1 - a / m) ≠ 0 := right_ne_zero_of_mul hX
  have h2 : a ≠ 0 := by rintro rfl; simp [ha] at ht
  rw [show (1 - a / m) * ((6 * Z - 2 / m * C) / (6 * z * (1 - a / m))) = (6 * Z - 2 / m * C) / (6 * z) by
    rw [mul_div_assoc', mul_comm (6 * z), mul_div_mul_left _ _ h1], ha]
  field_simp
  ring

/-- the unmodified variances at short averaging times -/
theorem fm_near {Y : ℕ → Ω → ℝ} (h : NormalNoise P Y s2) (hs : 0 < s2) (d m N S : ℕ) (ov : Bool) (hd : d = 2 ∨ d = 3)
    (hm : 0 < m) (hS : S * ghS m ov = m) (hN : ghL d m false ≤ N) (hJ : ghJ d m N ov false ≤ 100)
    (V : Ω → ℝ) (κ : ℝ) (hκ : 0 < κ)
    (hV : ∀ ω, V ω ^ 2 = κ * ∑ i ∈ range (ghM d m N ov false),
      (∑ k ∈ range (d * m), blocks (if d = 2 then tapf else tap2) d m k * Y (i * S + k) ω) ^ 2) :
    EdfWithin P (edf_greenhall 0 d m N ov false) V ((if d = 2 then 5 / 4 else 7 / 5) / m) := by
  have hm' : (0 : ℝ) < m := by exact_mod_cast hm
  have hm1 : (1 : ℝ) ≤ m := by exact_mod_cast hm
  have hS0 := ghS_pos m ov hm
  have hS0' : (0 : ℝ) < ghS m ov := by exact_mod_cast hS0
  have hz := ghSz_inf_ne d hd
  have hM := ghM_pos d m N ov false
  have hM' : (0 : ℝ) < ghM d m N ov false := by exact_mod_cast hM
  have e1 : ∀ l : ℕ, (((l * S : ℕ) : ℝ) / m) = l / ghS m ov := fun l => by
    have h2 : (S : ℝ) * ghS m ov = m := by exact_mod_cast hS
    rw [div_eq_div_iff hm'.ne' hS0'.ne', ← h2]
    push_cast
    ring
  have hcov : ∀ l, filterCov (blocks (if d = 2 then tapf else tap2) d m) (d * m) S l
      = m / 2 * ghSz .inf 0 d ((l * S : ℕ) / m) := by
    intro l
    rcases hd with rfl | rfl
    · exact cov_fm2 m S l hm
    · exact cov_fm3 m S l hm
  have g0 : filterCov (blocks (if d = 2 then tapf else tap2) d m) (d * m) S 0 ≠ 0 := by
    rw [hcov 0]
    simpa using ⟨hm.ne', hz⟩
  have h3 := edf_filter h hs (ghM d m N ov false) hM (blocks (if d = 2 then tapf else tap2) d m) (d * m) S
    (blocks_zero _ d m) g0 κ hκ
  rw [← lagN_eq _ hM] at h3
  have epos : 0 < (ghM d m N ov false : ℝ) ^ 2 * filterCov (blocks (if d = 2 then tapf else tap2) d m) (d * m) S 0 ^ 2
      / lagN (ghM d m N ov false) (filterCov (blocks (if d = 2 then tapf else tap2) d m) (d * m) S) :=
    div_pos (by positivity) (lt_of_lt_of_le (by positivity) (lagN_ge _ hM _))
  by_cases h100 : 100 < m * (d + 1)
  · obtain ⟨r, hr, he⟩ := fm_edf h hs d m N S ov hd hm hS hN hJ h100 (fun ω => V ω ^ 2) κ hκ hV
    have hV' : (fun ω => κ * ∑ i ∈ range (ghM d m N ov false),
      (∑ k ∈ range (d * m), blocks (if d = 2 then tapf else tap2) d m k * Y (i * S + k) ω) ^ 2) = fun ω => V ω ^ 2 :=
      funext fun ω => (hV ω).symm
    rw [hV'] at h3
    have er : r = _ := he.2.2.trans h3.2.2.symm
    refine ⟨r, r, hr, by rw [er]; exact epos, he, by rw [er]; exact epos, ?_⟩
    rw [sub_self, abs_zero]
    split_ifs <;> positivity
  · have hsz0 := sz_fin_grid d m 0 hd hm
    have hz0 := ghSz_inf_at0 d hd
    rw [Nat.cast_zero, zero_div] at hsz0
    have c0pos : 0 < ghSz (.fin m) 0 d 0 := by
      have h1m : 1 / (m : ℝ) ≤ 1 := by rwa [div_le_one hm']
      rw [hsz0, hz0]
      rcases hd with rfl | rfl
      · simp only [tapCov, if_true]
        have : 2 / (m : ℝ) * 6 = 12 * (1 / m) := by ring
        linarith
      · simp only [tapCov, if_true]
        norm_num
        have : 2 / (m : ℝ) * 20 = 40 * (1 / m) := by ring
        linarith
    refine ⟨_, _, edf_call_sum 0 d m N ov false (.fin m) (by norm_num) (by norm_num) (by omega) (by omega) (by omega) hm
      hN (by simp [ghCrash]) (by
        unfold ghInv
        simp only [hJ, if_true, Bool.false_eq_true, if_false, le_refl]
        rw [if_pos (by omega)]) c0pos.ne', ?_, h3.congr (fun ω => (hV ω).symm) rfl, epos, ?_⟩
    · exact div_pos (by positivity) (ghSum_pos _ _ _ _ _ _ hM' (by exact_mod_cast min_le_left _ _) c0pos.ne')
    · unfold ghJ
      rw [ghSum_norm _ _ d hM hS0 (.fin m) 0 (fun t ht => sz_fin_zero m hm1 d hd t ht) c0pos.ne']
      have tc0 : tapCov d m 0 = if d = 2 then 6 else 20 := by simp [tapCov]
      have hn := tapCov_norm d (ghM d m N ov false) (ghS m ov) S m hd hM hm hS
      have hc1 : (ghM d m N ov false : ℝ) ≤ lagN (ghM d m N ov false)
          (fun l => ghSz (.fin m) 0 d ((l : ℝ) / ghS m ov) / ghSz (.fin m) 0 d (((0 : ℕ) : ℝ) / ghS m ov)) := by
        refine le_trans (le_of_eq ?_) (lagN_ge _ hM _)
        rw [Nat.cast_zero, zero_div, div_self c0pos.ne']
        ring
      have hmix : ∀ l : ℕ, filterCov (blocks (if d = 2 then tapf else tap2) d m) (d * m) S l /
          filterCov (blocks (if d = 2 then tapf else tap2) d m) (d * m) S 0
          = (1 - (if d = 2 then 1 / 2 else 5 / 9) / m) * (ghSz (.fin m) 0 d ((l : ℝ) / ghS m ov) /
            ghSz (.fin m) 0 d (((0 : ℕ) : ℝ) / ghS m ov))
            + (if d = 2 then 1 / 2 else 5 / 9) / m * (tapCov d m (l * S) / tapCov d m 0) := by
        intro l
        rw [hcov l, hcov 0, Nat.cast_zero, zero_div, Nat.zero_mul, Nat.cast_zero, zero_div, ← e1 l,
          sz_fin_grid d m (l * S) hd hm, hz0, hsz0, hz0, tc0]
        generalize ghSz .inf 0 d (((l * S : ℕ) : ℝ) / m) = Z
        generalize tapCov d m (l * S) = C
        rw [hsz0, hz0, tc0] at c0pos
        refine mix_alg m Z C _ _ _ hm' ?_ ?_ ?_ c0pos.ne'
        · split_ifs <;> norm_num
        · split_ifs <;> norm_num
        · split_ifs <;> norm_num
      have hδ : ∀ a : ℝ, 0 ≤ a → a ≤ 1 → 0 ≤ a / m ∧ a / m ≤ 1 := fun a h0 h1 =>
        ⟨by positivity, by rw [div_le_one hm']; linarith⟩
      rcases hd with rfl | rfl
      · have := edf_near (ghM 2 m N ov false) hM _ (fun l : ℕ => ghSz (.fin m) 0 2 ((l : ℝ) / ghS m ov))
          (fun l => tapCov 2 m (l * S) / tapCov 2 m 0) g0 (by simpa using c0pos.ne') (1 / 2 / m) (3 / 2)
          (hδ _ (by norm_num) (by norm_num)).1 (hδ _ (by norm_num) (by norm_num)).2 (fun l _ => hmix l)
          (by
            refine hn.trans ?_
            rw [if_pos rfl, show (9 / 4 : ℝ) = (3 / 2) ^ 2 by norm_num]
            exact mul_le_mul_of_nonneg_left hc1 (by norm_num)) (by norm_num)
        refine this.trans (le_of_eq ?_)
        rw [show (if 2 = 2 then 5 / 4 else 7 / 5 : ℝ) = 5 / 4 from if_pos rfl]
        congr 1
        ring
      · have := edf_near (ghM 3 m N ov false) hM _ (fun l : ℕ => ghSz (.fin m) 0 3 ((l : ℝ) / ghS m ov))
          (fun l => tapCov 3 m (l * S) / tapCov 3 m 0) g0 (by simpa using c0pos.ne') (5 / 9 / m) (38 / 25)
          (hδ _ (by norm_num) (by norm_num)).1 (hδ _ (by norm_num) (by norm_num)).2 (fun l _ => hmix l)
          (by
            refine hn.trans ?_
            rw [if_neg (by norm_num)]
            refine le_trans ?_ (mul_le_mul_of_nonneg_left hc1 (by norm_num))
            exact mul_le_mul_of_nonneg_right (by norm_num) hM'.le) (by norm_num)
        refine this.trans (le_of_eq ?_)
        rw [show (if 3 = 2 then 5 / 4 else 7 / 5 : ℝ) = 7 / 5 from if_neg (by norm_num)]
        congr 1
        ring

theorem oadev_near_fm {Y : ℕ → Ω → ℝ} (h : NormalNoise P Y s2) (hs : 0 < s2) (hr : 0 < rate) (c : ℝ) (N m : ℕ)
    (hu : Usable .oadev (N + 1) m) (hJ : min (N + 1 - 2 * m) (3 * m) ≤ 100) :
    EdfWithin P (edf_greenhall 0 2 m (N + 1) true false)
      (fun ω => value .oadev (phaseOf (fun i => c + Y i ω) N rate) (N + 1) rate m) (5 / 4 / m) := by
  obtain ⟨hm, -, -, -, hc⟩ := hu
  have hc' : 1 < ((N + 1 : ℕ) : ℤ) - 2 * m := hc
  have hm' : (0 : ℝ) < m := by exact_mod_cast hm
  have eM : ghM 2 m (N + 1) true false = N + 1 - 2 * m := by
    rw [ghM_ov _ _ _ _ hm]
    simp only [ghL, Bool.false_eq_true, if_false]
    omega
  have hN : (0 : ℝ) < ((N + 1 : ℕ) : ℝ) - 2 * m := by
    have : (1 : ℝ) < ((N + 1 : ℕ) : ℝ) - 2 * m := by exact_mod_cast hc'
    linarith
  refine fm_near h hs 2 m (N + 1) 1 true (.inl rfl) hm (by simp [ghS]) (by simp [ghL]; omega)
    (by unfold ghJ; rw [eM]; simpa [ghS] using hJ) _
    (1 / (2 * (m / rate) ^ 2 * (((N + 1 : ℕ) : ℝ) - 2 * m)) * (1 / rate) ^ 2)
    (by positivity) (fun ω => ?_)
  rw [eM]
  simp only [value, Spec.oadev]
  rw [rms_sq _ _ _ (by positivity)]
  simp only [d2_fmBlocks, mul_pow, ← mul_sum, if_true, mul_one]
  ring

theorem adev_near_fm {Y : ℕ → Ω → ℝ} (h : NormalNoise P Y s2) (hs : 0 < s2) (hr : 0 < rate) (c : ℝ) (N m : ℕ)
    (hu : Usable .adev (N + 1) m) :
    EdfWithin P (edf_greenhall 0 2 m (N + 1) false false)
      (fun ω => value .adev (phaseOf (fun i => c + Y i ω) N rate) (N + 1) rate m) (5 / 4 / m) := by
  have hN0 := hu.pos
  obtain ⟨hm, -, -, -, hc⟩ := hu
  have hc' : 1 < (decimated (N + 1) m : ℤ) - 2 := hc
  have hm' : (0 : ℝ) < m := by exact_mod_cast hm
  have hN : (0 : ℝ) < decimated (N + 1) m - 2 := by
    have : (1 : ℝ) < (decimated (N + 1) m : ℝ) - 2 := by exact_mod_cast hc'
    linarith
  refine fm_near h hs 2 m (N + 1) m false (.inl rfl) hm (by simp [ghS]) (by
      have := dec_len (N := N + 1) (d := 2) hm hN0 (by omega)
      simpa [ghL] using this)
    ((min_le_right _ _).trans (by simp [ghS])) _
    (1 / (2 * (m / rate) ^ 2 * (decimated (N + 1) m - 2)) * (1 / rate) ^ 2)
    (by positivity) (fun ω => ?_)
  rw [ghM_dec 2 m (N + 1) (by omega)]
  simp only [value, Spec.adev]
  rw [rms_sq _ _ _ (by positivity)]
  simp only [d2_dec, d2_fmBlocks, mul_pow, ← mul_sum, if_true]
  ring

theorem ohdev_near_fm {Y : ℕ → Ω → ℝ} (h : NormalNoise P Y s2) (hs : 0 < s2) (hr : 0 < rate) (c : ℝ) (N m : ℕ)
    (hu : Usable .ohdev (N + 1) m) (hJ : min (N + 1 - 3 * m) (4 * m) ≤ 100) :
    EdfWithin P (edf_greenhall 0 3 m (N + 1) true false)
      (fun ω => value .ohdev (phaseOf (fun i => c + Y i ω) N rate) (N + 1) rate m) (7 / 5 / m) := by
  obtain ⟨hm, -, -, -, hc⟩ := hu
  have hc' : 1 < ((N + 1 : ℕ) : ℤ) - 3 * m := hc
  have hm' : (0 : ℝ) < m := by exact_mod_cast hm
  have eM : ghM 3 m (N + 1) true false = N + 1 - 3 * m := by
    rw [ghM_ov _ _ _ _ hm]
    simp only [ghL, Bool.false_eq_true, if_false]
    omega
  have hN : (0 : ℝ) < ((N + 1 : ℕ) : ℝ) - 3 * m := by
    have : (1 : ℝ) < ((N + 1 : ℕ) : ℝ) - 3 * m := by exact_mod_cast hc'
    linarith
  have h0 := fm_near h hs 3 m (N + 1) 1 true (.inr rfl) hm (by simp [ghS]) (by simp [ghL]; omega)
    (by unfold ghJ; rw [eM]; simpa [ghS] using hJ)
    (fun ω => value .ohdev (phaseOf (fun i => c + Y i ω) N rate) (N + 1) rate m)
    (1 / (6 * (m / rate) ^ 2 * (((N + 1 : ℕ) : ℝ) - 3 * m)) * (1 / rate) ^ 2)
    (by positivity) (fun ω => by
      rw [eM]
      simp only [value, Spec.ohdev]
      rw [rms_sq _ _ _ (by positivity)]
      simp only [d3_fmBlocks, mul_pow, ← mul_sum, mul_one]
      norm_num
      ring)
  rwa [if_neg (by norm_num)] at h0

theorem hdev_near_fm {Y : ℕ → Ω → ℝ} (h : NormalNoise P Y s2) (hs : 0 < s2) (hr : 0 < rate) (c : ℝ) (N m : ℕ)
    (hu : Usable .hdev (N + 1) m) :
    EdfWithin P (edf_greenhall 0 3 m (N + 1) false false)
      (fun ω => value .hdev (phaseOf (fun i => c + Y i ω) N rate) (N + 1) rate m) (7 / 5 / m) := by
  have hN0 := hu.pos
  obtain ⟨hm, -, -, -, hc⟩ := hu
  have hc' : 1 < (decimated (N + 1) m : ℤ) - 3 := hc
  have hm' : (0 : ℝ) < m := by exact_mod_cast hm
  have hN : (0 : ℝ) < decimated (N + 1) m - 3 := by
    have : (1 : ℝ) < (decimated (N + 1) m : ℝ) - 3 := by exact_mod_cast hc'
    linarith
  have h0 := fm_near h hs 3 m (N + 1) m false (.inr rfl) hm (by simp [ghS]) (by
      have := dec_len (N := N + 1) (d := 3) hm hN0 (by omega)
      simpa [ghL] using this)
    ((min_le_right _ _).trans (by simp [ghS]))
    (fun ω => value .hdev (phaseOf (fun i => c + Y i ω) N rate) (N + 1) rate m)
    (1 / (6 * (m / rate) ^ 2 * (decimated (N + 1) m - 3)) * (1 / rate) ^ 2)
    (by positivity) (fun ω => by
      rw [ghM_dec 3 m (N + 1) (by omega)]
      simp only [value, Spec.hdev]
      rw [rms_sq _ _ _ (by positivity)]
      simp only [d3_dec, d3_fmBlocks, mul_pow, ← mul_sum]
      norm_num
      ring)
  rwa [if_neg (by norm_num)] at h0

/-! ## The modified Allan variance -/

theorem ghSz_mod_at0 : ghSz (.fin 1) 0 2 0 = 12 := by
  rw [ghSz_mod_small 0 le_rfl zero_le_one]
  norm_num

theorem modCov_zero (m : ℕ) : modCov m 0 = m * (m ^ 2 + 1) := by
  have h : ghSz (.fin 1) 2 2 0 = 12 := by
    rw [ghSz_pm]
    norm_num [tri]
  rw [modCov, Nat.cast_zero, zero_div, ghSz_mod_at0, h]
  ring

omit [MeasurableSpace Ω] in
theorem mod_lin (Y : ℕ → Ω → ℝ) (c : ℝ) (N m j n : ℕ) (hn : j + 3 * m ≤ n) (ω : Ω) :
    ∑ i ∈ range m, d2 (phaseOf (fun i => c + Y i ω) N rate) m (j + i) = 1 / rate * Lin Y n (modCoef m j) ω := by
  simp only [d2_fmBlocks (rate := rate) c (fun i => Y i ω)]
  rw [← mul_sum]
  congr 1
  unfold Lin modCoef
  simp only [sum_mul]
  conv_rhs => rw [sum_comm]
  refine sum_congr rfl fun s hs => ?_
  rw [mem_range] at hs
  have := shift_lin Y (blocks tapf 2 m) (2 * m) 1 (j + s) n (blocks_zero tapf 2 m) (by omega) ω
  unfold Lin at this
  rw [this]
  simp only [mul_one]

/-- the exact degrees of freedom of the modified variance -/
theorem mdev_hasEdf_fm {Y : ℕ → Ω → ℝ} (h : NormalNoise P Y s2) (hs : 0 < s2) (hr : 0 < rate) (c : ℝ) (N m : ℕ) (hm : 0 < m)
    (hc : 1 < ((N + 1 : ℕ) : ℤ) - 3 * m + 1) (k : ℝ) (hk : k ≠ 0) :
    HasEdf P (fun ω => (k * Spec.mdev (phaseOf (fun i => c + Y i ω) N rate) (N + 1) m (m / rate)) ^ 2)
      (((N + 1 - 3 * m + 1 : ℕ) : ℝ) ^ 2 * modCov m 0 ^ 2 / lagN (N + 1 - 3 * m + 1) (modCov m)) := by
  have hm' : (0 : ℝ) < m := by exact_mod_cast hm
  have hN : (0 : ℝ) < ((N + 1 : ℕ) : ℝ) - 3 * m + 1 := by
    have : (1 : ℝ) < ((N + 1 : ℕ) : ℝ) - 3 * m + 1 := by exact_mod_cast hc
    linarith
  have h3 := edf_lin h hs (N + 2 + 3 * m) (N + 1 - 3 * m + 1) (by omega) (modCoef m) (modCov m)
    (fun i j hij hj => modCoef_cov m i j _ hm hij (by omega)) (by rw [modCov_zero]; positivity)
    (k ^ 2 / (2 * m ^ 2 * (m / rate) ^ 2 * (((N + 1 : ℕ) : ℝ) - 3 * m + 1)) * (1 / rate) ^ 2) (by positivity)
  rw [← lagN_eq _ (by omega)] at h3
  refine h3.congr (fun ω => ?_) rfl
  simp only [Spec.mdev]
  rw [mul_pow, rms_sq _ _ _ (by positivity)]
  have e : ∀ i ∈ range (N + 1 - 3 * m + 1), (∑ k ∈ range m, d2 (phaseOf (fun i => c + Y i ω) N rate) m (i + k)) ^ 2
      = (1 / rate) ^ 2 * Lin Y (N + 2 + 3 * m) (modCoef m i) ω ^ 2 := fun i hi => by
    rw [mod_lin Y c N m i (N + 2 + 3 * m) (by have := mem_range.1 hi; omega) ω, mul_pow]
  rw [sum_congr rfl e, ← mul_sum]
  ring

theorem mdev_near_fm {Y : ℕ → Ω → ℝ} (h : NormalNoise P Y s2) (hs : 0 < s2) (hr : 0 < rate) (c : ℝ) (N m : ℕ) (hm : 0 < m)
    (hc : 1 < ((N + 1 : ℕ) : ℤ) - 3 * m + 1) (hJ : min (N + 1 - 3 * m + 1) (3 * m) ≤ 100) (k : ℝ) (hk : k ≠ 0) :
    EdfWithin P (edf_greenhall 0 2 m (N + 1) true true)
      (fun ω => k * Spec.mdev (phaseOf (fun i => c + Y i ω) N rate) (N + 1) m (m / rate)) (6 / (m ^ 2 + 1)) := by
  have hm' : (0 : ℝ) < m := by exact_mod_cast hm
  have hM : 0 < N + 1 - 3 * m + 1 := by omega
  have hM' : (0 : ℝ) < ((N + 1 - 3 * m + 1 : ℕ) : ℝ) := by exact_mod_cast hM
  have eM : ghM 2 m (N + 1) true true = N + 1 - 3 * m + 1 := by
    rw [ghM_ov _ _ _ _ hm]
    simp only [ghL, if_true]
    omega
  have hJ' : ghJ 2 m (N + 1) true true ≤ 100 := by
    unfold ghJ
    rw [eM]
    exact hJ
  have hz : ghSz (.fin 1) 0 2 0 ≠ 0 := by rw [ghSz_mod_at0]; norm_num
  have g0 : modCov m 0 ≠ 0 := by rw [modCov_zero]; positivity
  have h3 := mdev_hasEdf_fm h hs hr c N m hm hc k hk
  refine ⟨_, _, edf_call_sum 0 2 m (N + 1) true true (.fin 1) (by norm_num) (by norm_num) (by norm_num) (by norm_num)
    (by norm_num) hm (by simp only [ghL, if_true]; omega) (by simp [ghCrash])
    (by unfold ghInv; simp only [if_true, hJ']) hz, ?_, h3, ?_, ?_⟩
  · exact div_pos (by rw [eM]; positivity) (ghSum_pos _ _ _ _ _ _ (by rw [eM]; exact hM')
      (by exact_mod_cast min_le_left _ _) hz)
  · exact div_pos (by positivity) (lt_of_lt_of_le (by positivity) (lagN_ge _ hM _))
  · unfold ghJ
    rw [eM, show ghS m true = m from rfl, ghSum_norm _ m 2 hM hm (.fin 1) 0
      (fun t ht => sz_fin_zero 1 le_rfl 2 (.inl rfl) t ht) hz]
    have h1 : 1 / ((m : ℝ) ^ 2 + 1) ≤ 1 := by
      rw [div_le_one (by positivity)]
      nlinarith [sq_nonneg (m : ℝ)]
    have := edf_near (N + 1 - 3 * m + 1) hM (modCov m) (fun l : ℕ => ghSz (.fin 1) 0 2 ((l : ℝ) / m))
      (fun l => ghSz (.fin 1) 2 2 (l / m) / 12) g0 (by simpa using hz) (1 / (m ^ 2 + 1)) 5 (by positivity) h1
      (fun l _ => by
        rw [modCov_zero, modCov, Nat.cast_zero, zero_div, ghSz_mod_at0]
        field_simp
        ring)
      (mod_norm _ m hM hm) (by norm_num)
    refine this.trans (le_of_eq ?_)
    congr 1
    ring

/-! ## The claims -/

/-- **C88.** The frequencies are a constant `c` plus independent normal samples.  At every averaging factor `m`
that the deviation function reports, `edf_greenhall` called with `alpha = 0`, the order of the difference, `m`
and the number of phase points returns a positive number; its square root differs from that of the equivalent
degrees of freedom of the squared deviation by the relative error 1.25/m at most for second differences, by 1.4/m for
third differences and by 6/(m²+1) for the modified Allan and the time deviation.  For the overlapping deviations the
basic sum is supposed to have at most 100 terms. -/
theorem edf_white_freq_near {Y : ℕ → Ω → ℝ} (h : NormalNoise P Y s2) (hs : 0 < s2) (hr : 0 < rate) (c : ℝ) (N : ℕ) :
    Reports .adev (fun ω => tab N (fun i => c + Y i ω)) rate "freq"
      (fun m D => EdfWithin P (edf_greenhall 0 2 m (N + 1) false false) D (5 / 4 / m)) ∧
    Reports .oadev (fun ω => tab N (fun i => c + Y i ω)) rate "freq"
      (fun m D => min (N + 1 - 2 * m) (3 * m) ≤ 100 → EdfWithin P (edf_greenhall 0 2 m (N + 1) true false) D (5 / 4 / m)) ∧
    Reports .hdev (fun ω => tab N (fun i => c + Y i ω)) rate "freq"
      (fun m D => EdfWithin P (edf_greenhall 0 3 m (N + 1) false false) D (7 / 5 / m)) ∧
    Reports .ohdev (fun ω => tab N (fun i => c + Y i ω)) rate "freq"
      (fun m D => min (N + 1 - 3 * m) (4 * m) ≤ 100 → EdfWithin P (edf_greenhall 0 3 m (N + 1) true false) D (7 / 5 / m)) ∧
    Reports .mdev (fun ω => tab N (fun i => c + Y i ω)) rate "freq"
      (fun m D => min (N + 1 - 3 * m + 1) (3 * m) ≤ 100 →
        EdfWithin P (edf_greenhall 0 2 m (N + 1) true true) D (6 / (m ^ 2 + 1))) ∧
    Reports .tdev (fun ω => tab N (fun i => c + Y i ω)) rate "freq"
      (fun m D => min (N + 1 - 3 * m + 1) (3 * m) ≤ 100 →
        EdfWithin P (edf_greenhall 0 2 m (N + 1) true true) D (6 / (m ^ 2 + 1))) := by
  have hp : ∀ fn Q, (∀ m, Usable fn (N + 1) m →
      Q m (fun ω => value fn (phaseOf (fun i => c + Y i ω) N rate) (N + 1) rate m)) →
      Reports fn (fun ω => tab N (fun i => c + Y i ω)) rate "freq" Q := fun fn Q hv =>
    reports_freq fn (fun i ω => c + Y i ω) N rate hr Q hv
  refine ⟨hp _ _ fun m hu => adev_near_fm h hs hr c N m hu, hp _ _ fun m hu hJ => oadev_near_fm h hs hr c N m hu hJ,
    hp _ _ fun m hu => hdev_near_fm h hs hr c N m hu, hp _ _ fun m hu hJ => ohdev_near_fm h hs hr c N m hu hJ,
    hp _ _ fun m hu hJ => ?_, hp _ _ fun m hu hJ => ?_⟩
  · have := mdev_near_fm h hs hr c N m hu.1 hu.2.2.2.2 hJ 1 one_ne_zero
    simp only [one_mul] at this
    exact this
  · have hm' : (0 : ℝ) < m := by exact_mod_cast hu.1
    exact mdev_near_fm h hs hr c N m hu.1 hu.2.2.2.2 hJ (m / rate / √3) (by positivity)

/-! ## Non-vacuity -/

/-- on frequency data a deviation function asked for one usable factor succeeds -/
theorem run_freq_at {fn : DevName} {N m : ℕ} (hN : 0 < N) (hu : Usable fn (N + 1) m) {rate : ℝ} (hr : 0 < rate) (y : ℕ → ℝ) :
    ∃ errs ns, fn.run (tab N y) rate "freq" (.list [(m : ℝ) / rate])
      = .ok ⟨[(m : ℝ) / rate], [value fn (phaseOf y N rate) (N + 1) rate m], errs, ns⟩ := by
  rw [run_freq, frequency2phase_phaseOf _ N hN rate hr.ne', ok_bind]
  exact run_at hu hr _

omit [MeasurableSpace Ω] in
/-- what `Reports` says of a call with one averaging time -/
theorem Spec.Reports.single {fn : DevName} {data : Ω → List ℝ} {dt : String} {Q : ℕ → (Ω → ℝ) → Prop}
    (h : Reports fn data rate dt Q) (hr : rate ≠ 0) (ω₀ : Ω) (m : ℕ) (v : Ω → ℝ)
    (hv : ∀ ω, ∃ errs ns, fn.run (data ω) rate dt (.list [(m : ℝ) / rate]) = .ok ⟨[(m : ℝ) / rate], [v ω], errs, ns⟩) :
    Q m v := by
  obtain ⟨errs, ns, h0⟩ := hv ω₀
  obtain ⟨ms, D, h1, h2, h3⟩ := h _ ω₀ _ h0
  have hms : ms = [m] := by
    have : ms.map (fun (m : ℕ) => (m : ℝ) / rate) = [m].map (fun (m : ℕ) => (m : ℝ) / rate) := by
      rw [← h1]; rfl
    exact List.map_injective_iff.2 (fun a b hab => by
      have : (a : ℝ) = b := (div_left_inj' hr).1 hab
      exact_mod_cast this) this
  subst hms
  have e : D m = v := by
    funext ω
    obtain ⟨e1, n1, g1⟩ := hv ω
    obtain ⟨e2, n2, g2⟩ := h2 ω
    rw [g1] at g2
    have g3 := congrArg DevOut.devs (Except.ok.inj g2)
    simpa using g3.symm
  rw [← e]
  exact (h3 m (by simp)).2

/-- 1000 standard normal frequency values plus 3 at 2 Hz: at the averaging time 5 s (`m = 10`) `edf_greenhall` is
within 12.5 % of the degrees of freedom of `oadev` (square roots) and within 6 % of those of `mdev` -/
example :
    (∃ d : (ℕ → ℝ) → ℝ, (∀ ω, ∃ errs ns, DevName.oadev.run (tab 1000 (fun i => 3 + ω i)) 2 "freq" (.list [(10 : ℕ) / 2])
      = .ok ⟨[(10 : ℕ) / 2], [d ω], errs, ns⟩) ∧
      EdfWithin gaussNoise (edf_greenhall 0 2 10 1001 true false) d (5 / 4 / (10 : ℕ))) ∧
    ∃ d : (ℕ → ℝ) → ℝ, (∀ ω, ∃ errs ns, DevName.mdev.run (tab 1000 (fun i => 3 + ω i)) 2 "freq" (.list [(10 : ℕ) / 2])
      = .ok ⟨[(10 : ℕ) / 2], [d ω], errs, ns⟩) ∧
      EdfWithin gaussNoise (edf_greenhall 0 2 10 1001 true true) d (6 / ((10 : ℕ) ^ 2 + 1)) := by
  have hr : (0 : ℝ) < 2 := by norm_num
  have h := edf_white_freq_near normal_gauss one_pos hr 3 1000
  have h1 : Usable .oadev (1000 + 1) 10 := ⟨by norm_num, by simp [lenOf], by simp [maxOf]; norm_num, by simp, by simp [count]⟩
  have h2 : Usable .mdev (1000 + 1) 10 := ⟨by norm_num, by simp [lenOf], by simp [maxOf]; norm_num, by simp, by simp [count]⟩
  exact ⟨⟨_, fun ω => run_freq_at (by norm_num) h1 hr _,
      h.2.1.single hr.ne' (fun _ => 0) 10 _ (fun ω => run_freq_at (by norm_num) h1 hr _) (by norm_num)⟩,
    ⟨_, fun ω => run_freq_at (by norm_num) h2 hr _,
      h.2.2.2.2.1.single hr.ne' (fun _ => 0) 10 _ (fun ω => run_freq_at (by norm_num) h2 hr _) (by norm_num)⟩⟩

end AT
