import Verif.Lemmas.EdfFilter
import Verif.Props.WhiteMean

/-!
# C74: the degrees of freedom of `edf_greenhall` for normally distributed white noise
-/

namespace AT

open Spec Finset MeasureTheory ProbabilityTheory
open scoped NNReal ENNReal

variable {Ω : Type} [MeasurableSpace Ω] {P : Measure Ω}

/-- the call of `edf_greenhall` returns the equivalent degrees of freedom of `D²` -/
def Spec.EdfExact (P : Measure Ω) (call : Py NV) (D : Ω → ℝ) : Prop :=
  ∃ r, call = .ok (some r) ∧ HasEdf P (fun ω => D ω ^ 2) r

theorem rms_sq (n : ℕ) (f : ℕ → ℝ) (norm : ℝ) (hn : 0 ≤ norm) :
    rms n f norm ^ 2 = 1 / norm * ∑ i ∈ range n, f i ^ 2 := by
  unfold rms
  rw [Real.sq_sqrt (div_nonneg (sum_nonneg fun i _ => sq_nonneg _) hn)]
  ring

theorem Spec.NormalNoise.decimate {W : ℕ → Ω → ℝ} {s2 : ℝ≥0} (h : NormalNoise P W s2) {m : ℕ} (hm : 0 < m) :
    NormalNoise P (fun k => W (k * m)) s2 where
  indep := h.indep.precomp (g := fun k => k * m) fun _ _ hab => Nat.eq_of_mul_eq_mul_right hm hab
  law := fun _ => h.law _

/-- the phase of a clock with the offset `a`, the frequency offset `b` and the noise `w` -/
noncomputable def Spec.offsetPhase (a b : ℝ) (w : ℕ → ℝ) (i : ℕ) : ℝ := a + b * i + w i

/-! ## White phase noise -/

/-- taps of the second difference -/
def tap2 (b : ℕ) : ℝ := if b = 1 then -2 else 1

/-- taps of the third difference -/
def tap3 (b : ℕ) : ℝ := if b = 0 then -1 else if b = 1 then 3 else if b = 2 then -3 else 1

theorem tap_lt (q m : ℕ) (hq : 0 < q) : ∀ b < q, b * m < (q - 1) * m + 1 := fun b hb => by
  have := Nat.mul_le_mul_right m (show b ≤ q - 1 by omega)
  omega

theorem d2_taps (a b : ℝ) (w : ℕ → ℝ) (m i : ℕ) :
    d2 (offsetPhase a b w) m i = ∑ k ∈ range (2 * m + 1), taps tap2 3 m k * w (i * 1 + k) := by
  rw [taps_sum tap2 3 m _ (tap_lt 3 m (by omega)) (fun k => w (i * 1 + k))]
  simp only [sum_range_succ, sum_range_zero, tap2, d2, offsetPhase]
  norm_num
  ring

theorem d3_taps (a b : ℝ) (w : ℕ → ℝ) (m i : ℕ) :
    d3 (offsetPhase a b w) m i = ∑ k ∈ range (3 * m + 1), taps tap3 4 m k * w (i * 1 + k) := by
  rw [taps_sum tap3 4 m _ (tap_lt 4 m (by omega)) (fun k => w (i * 1 + k))]
  simp only [sum_range_succ, sum_range_zero, tap3, d3, offsetPhase]
  norm_num
  ring

theorem cov_tap2 (m l : ℕ) (hm : 0 < m) : filterCov (taps tap2 3 m) (2 * m + 1) 1 l
    = if l = 0 then 6 else if l = m then -4 else if l = 2 * m then 1 else 0 := by
  rw [taps_cov tap2 3 m _ (tap_lt 3 m (by omega))]
  simp only [sum_range_succ, sum_range_zero, tap2]
  rcases Nat.eq_zero_or_pos l with h0 | h0
  all_goals rcases eq_or_ne l m with h1 | h1
  all_goals rcases eq_or_ne l (2 * m) with h2 | h2
  all_goals rcases eq_or_ne l (3 * m) with h3 | h3
  all_goals first
    | (exfalso; omega)
    | (norm_num
       repeat (first | rw [if_pos (by omega)] | rw [if_neg (by omega)])
       norm_num)

theorem cov_tap3 (m l : ℕ) (hm : 0 < m) : filterCov (taps tap3 4 m) (3 * m + 1) 1 l
    = if l = 0 then 20 else if l = m then -15 else if l = 2 * m then 6 else if l = 3 * m then -1 else 0 := by
  rw [taps_cov tap3 4 m _ (tap_lt 4 m (by omega))]
  simp only [sum_range_succ, sum_range_zero, tap3]
  rcases Nat.eq_zero_or_pos l with h0 | h0
  all_goals rcases eq_or_ne l m with h1 | h1
  all_goals rcases eq_or_ne l (2 * m) with h2 | h2
  all_goals rcases eq_or_ne l (3 * m) with h3 | h3
  all_goals first
    | (exfalso; omega)
    | (norm_num
       repeat (first | rw [if_pos (by omega)] | rw [if_neg (by omega)])
       norm_num)

theorem sum_point (M p : ℕ) (hp : 0 < p) (f : ℕ → ℝ) :
    ∑ l ∈ Ico 1 M, (if l = p then f l else 0) = if p < M then f p else 0 := by
  rw [sum_ite_eq']
  simp only [mem_Ico]
  split_ifs <;> first | rfl | (exfalso; omega)

theorem edf_tap2 (m M : ℕ) (hm : 0 < m) (hM : 2 * m < M) :
    (M : ℝ) ^ 2 * filterCov (taps tap2 3 m) (2 * m + 1) 1 0 ^ 2 / (M * filterCov (taps tap2 3 m) (2 * m + 1) 1 0 ^ 2
      + 2 * ∑ l ∈ Ico 1 M, ((M : ℝ) - l) * filterCov (taps tap2 3 m) (2 * m + 1) 1 l ^ 2)
      = M / (35 / 18 - m / M) := by
  have e : ∀ l ∈ Ico 1 M, ((M : ℝ) - l) * filterCov (taps tap2 3 m) (2 * m + 1) 1 l ^ 2
      = (if l = m then 16 * ((M : ℝ) - l) else 0) + (if l = 2 * m then ((M : ℝ) - l) else 0) := by
    intro l hl
    rw [cov_tap2 m l hm]
    rw [mem_Ico] at hl
    split_ifs <;> first | (exfalso; omega) | ring
  rw [sum_congr rfl e, sum_add_distrib, sum_point M m hm, sum_point M (2 * m) (by omega), if_pos (by omega),
    if_pos hM, cov_tap2 m 0 hm, if_pos rfl]
  have hM' : (0 : ℝ) < M := by exact_mod_cast (show 0 < M by omega)
  have h2 : (2 : ℝ) * m < M := by exact_mod_cast hM
  have h3 : (0 : ℝ) < 35 / 18 - m / M := by
    rw [sub_pos, div_lt_iff₀ hM']
    linarith
  push_cast
  rw [div_eq_div_iff (by nlinarith) h3.ne']
  field_simp
  ring

theorem edf_tap3 (m M : ℕ) (hm : 0 < m) (hM : 3 * m < M) :
    (M : ℝ) ^ 2 * filterCov (taps tap3 4 m) (3 * m + 1) 1 0 ^ 2 / (M * filterCov (taps tap3 4 m) (3 * m + 1) 1 0 ^ 2
      + 2 * ∑ l ∈ Ico 1 M, ((M : ℝ) - l) * filterCov (taps tap3 4 m) (3 * m + 1) 1 l ^ 2)
      = M / (231 / 100 - 3 / 2 * (m / M)) := by
  have e : ∀ l ∈ Ico 1 M, ((M : ℝ) - l) * filterCov (taps tap3 4 m) (3 * m + 1) 1 l ^ 2
      = (if l = m then 225 * ((M : ℝ) - l) else 0) + ((if l = 2 * m then 36 * ((M : ℝ) - l) else 0)
        + (if l = 3 * m then ((M : ℝ) - l) else 0)) := by
    intro l hl
    rw [cov_tap3 m l hm]
    rw [mem_Ico] at hl
    split_ifs <;> first | (exfalso; omega) | ring
  rw [sum_congr rfl e, sum_add_distrib, sum_add_distrib, sum_point M m hm, sum_point M (2 * m) (by omega),
    sum_point M (3 * m) (by omega), if_pos (by omega), if_pos (by omega), if_pos hM, cov_tap3 m 0 hm, if_pos rfl]
  have hM' : (0 : ℝ) < M := by exact_mod_cast (show 0 < M by omega)
  have h2 : (3 : ℝ) * m < M := by exact_mod_cast hM
  have h3 : (0 : ℝ) < 231 / 100 - 3 / 2 * (m / M) := by
    have : (m : ℝ) / M < 1 / 3 := by
      rw [div_lt_iff₀ hM']
      linarith
    linarith
  push_cast
  rw [div_eq_div_iff (by nlinarith) h3.ne']
  field_simp
  ring

/-- what `edf_greenhall` returns for white phase noise and an unmodified variance -/
theorem edf_call_pm (d m N : ℕ) (ov : Bool) (hd : d = 2 ∨ d = 3) (hm : 0 < m) (hN : ghL d m false ≤ N)
    (hlt : d * ghS m ov < ghM d m N ov false) :
    edf_greenhall 2 d m N ov false = .ok (some ((ghM d m N ov false : ℝ) / ((if d = 2 then 35 / 18 else 231 / 100)
        - (if d = 2 then 1 else 3 / 2) * ((ghS m ov : ℝ) / ghM d m N ov false)))) := by
  have hM : 0 < ghM d m N ov false := ghM_pos d m N ov false
  have hM' : (0 : ℝ) < ghM d m N ov false := by exact_mod_cast hM
  have hS' : (0 : ℝ) < ghS m ov := by exact_mod_cast ghS_pos m ov hm
  have hr : (d : ℝ) < ghR d m N ov false := by
    unfold ghR
    rw [lt_div_iff₀ hS']
    exact_mod_cast hlt
  rw [edf_greenhall_eq_partial 2 d m N ov false (by norm_num) (by norm_num) (by omega) (by omega) (by omega) hm hN]
  have hc : ghCrash 2 d m N ov false = none := by
    unfold ghCrash
    rw [if_neg (fun h => absurd h.2.1 (by norm_num)), if_neg (fun h => absurd h.2.2 (not_le.2 hr))]
  rw [hc]
  simp only
  have e1 : ghInv 2 d m N ov false
      = ((4 * d).choose (2 * d) / ((2 * d).choose d : ℝ) ^ 2 - d / 2 / ghR d m N ov false, (ghM d m N ov false : ℝ)) := by
    unfold ghInv
    simp
  have e2 : ((4 * d).choose (2 * d) / ((2 * d).choose d : ℝ) ^ 2 - d / 2 / ghR d m N ov false : ℝ)
      = (if d = 2 then 35 / 18 else 231 / 100) - (if d = 2 then 1 else 3 / 2) * (ghS m ov / ghM d m N ov false) := by
    unfold ghR
    rcases hd with rfl | rfl
    · rw [show Nat.choose (4 * 2) (2 * 2) = 70 by decide, show Nat.choose (2 * 2) 2 = 6 by decide]
      push_cast
      norm_num
    · rw [show Nat.choose (4 * 3) (2 * 3) = 924 by decide, show Nat.choose (2 * 3) 3 = 20 by decide]
      push_cast
      norm_num
      field_simp
  have hpos : 0 < (if d = 2 then 35 / 18 else 231 / 100 : ℝ)
      - (if d = 2 then 1 else 3 / 2) * (ghS m ov / ghM d m N ov false) := by
    have h1 : (ghS m ov : ℝ) / ghM d m N ov false < 1 / d := by
      have : (0 : ℝ) < d := by exact_mod_cast (show 0 < d by omega)
      rw [div_lt_div_iff₀ hM' this]
      have : (d : ℝ) * ghS m ov < ghM d m N ov false := by exact_mod_cast hlt
      linarith
    rcases hd with rfl | rfl
    · norm_num at h1 ⊢
      linarith
    · norm_num at h1 ⊢
      linarith
  rw [e1]
  simp only
  rw [e2, (invEdf_pos hpos hM').1]

theorem Spec.HasEdf.congr {V V' : Ω → ℝ} {e e' : ℝ} (h : HasEdf P V e) (hV : ∀ ω, V ω = V' ω) (he : e = e') :
    HasEdf P V' e' := by
  obtain rfl : V = V' := funext hV
  exact he ▸ h

variable [IsProbabilityMeasure P] {W : ℕ → Ω → ℝ} {s2 : ℝ≥0} {rate : ℝ}

/-- overlapping: the number of summands -/
theorem ghM_ov (d m N : ℕ) (md : Bool) (hm : 0 < m) : ghM d m N true md = 1 + (N - ghL d m md) := by
  simp only [ghM, ghS, if_true]
  rw [Nat.mul_div_cancel_left _ hm]

/-- not overlapping: the number of summands -/
theorem ghM_dec (d m N : ℕ) (hL : d + 1 ≤ decimated N m) : ghM d m N false false = decimated N m - d := by
  simp only [ghM, ghS, ghL, decimated] at hL ⊢
  simp only [Bool.false_eq_true, if_false, one_mul]
  have e : N - (1 + m * d) = (N - 1) - m * d := by omega
  rw [e, Nat.sub_mul_div]
  omega

theorem offset_dec (a b : ℝ) (w : ℕ → ℝ) (m : ℕ) :
    (fun k => offsetPhase a b w (k * m)) = offsetPhase a (b * m) (fun k => w (k * m)) := by
  funext k
  simp only [offsetPhase]
  push_cast
  ring

theorem dec_len {N m d : ℕ} (hm : 0 < m) (hN : 0 < N) (hL : d + 1 ≤ decimated N m) : 1 + m * d ≤ N := by
  unfold decimated at hL
  have h1 : d ≤ (N - 1) / m := by omega
  have h2 := (Nat.le_div_iff_mul_le hm).1 h1
  rw [mul_comm] at h2
  omega

theorem oadev_edf_pm (h : NormalNoise P W s2) (hs : 0 < s2) (hr : 0 < rate) (a b : ℝ) (N m : ℕ) (hu : Usable .oadev N m)
    (hlt : 4 * m < N) :
    EdfExact P (edf_greenhall 2 2 m N true false)
      (fun ω => value .oadev (offsetPhase a b (fun i => W i ω)) N rate m) := by
  obtain ⟨hm, -, -, -, hc⟩ := hu
  have hc' : 1 < (N : ℤ) - 2 * m := hc
  have hm' : (0 : ℝ) < m := by exact_mod_cast hm
  have eM : ghM 2 m N true false = N - 2 * m := by
    rw [ghM_ov _ _ _ _ hm]
    simp only [ghL, Bool.false_eq_true, if_false]
    omega
  have eS : ghS m true = m := rfl
  have h1 : 2 * m < N - 2 * m := by omega
  have h2 := edf_call_pm 2 m N true (by omega) hm (by simp only [ghL]; simp; omega) (by rw [eM, eS]; exact h1)
  rw [eM, eS] at h2
  refine ⟨_, h2, ?_⟩
  have hN : (0 : ℝ) < N - 2 * m := by
    have : (1 : ℝ) < (N : ℝ) - 2 * m := by exact_mod_cast hc'
    linarith
  have h3 := edf_filter h hs (N - 2 * m) (by omega) (taps tap2 3 m) (2 * m + 1) 1
    (taps_zero tap2 3 m _ (tap_lt 3 m (by omega))) (by rw [cov_tap2 m 0 hm]; norm_num)
    (1 / (2 * (m / rate) ^ 2 * (N - 2 * m))) (by positivity)
  rw [edf_tap2 m _ hm h1] at h3
  refine h3.congr (fun ω => ?_) (by simp)
  simp only [value, Spec.oadev]
  rw [rms_sq _ _ _ (by positivity)]
  simp only [d2_taps]

theorem adev_edf_pm (h : NormalNoise P W s2) (hs : 0 < s2) (hr : 0 < rate) (a b : ℝ) (N m : ℕ) (hu : Usable .adev N m)
    (hlt : 4 < decimated N m) :
    EdfExact P (edf_greenhall 2 2 m N false false)
      (fun ω => value .adev (offsetPhase a b (fun i => W i ω)) N rate m) := by
  have hN0 := hu.pos
  obtain ⟨hm, -, -, -, hc⟩ := hu
  have hc' : 1 < (decimated N m : ℤ) - 2 := hc
  have hm' : (0 : ℝ) < m := by exact_mod_cast hm
  have eM := ghM_dec 2 m N (by omega)
  have eS : ghS m false = 1 := rfl
  have h2 := edf_call_pm 2 m N false (by omega) hm (by
    have := dec_len (N := N) (d := 2) hm hN0 (by omega)
    simpa [ghL] using this) (by rw [eM, eS]; omega)
  rw [eM, eS] at h2
  refine ⟨_, h2, ?_⟩
  have hN : (0 : ℝ) < decimated N m - 2 := by
    have : (1 : ℝ) < (decimated N m : ℝ) - 2 := by exact_mod_cast hc'
    linarith
  have h3 := edf_filter (h.decimate hm) hs (decimated N m - 2) (by omega) (taps tap2 3 1) (2 * 1 + 1) 1
    (taps_zero tap2 3 1 _ (tap_lt 3 1 (by omega))) (by rw [cov_tap2 1 0 one_pos]; norm_num)
    (1 / (2 * (m / rate) ^ 2 * (decimated N m - 2))) (by positivity)
  rw [edf_tap2 1 _ one_pos (by omega)] at h3
  refine h3.congr (fun ω => ?_) (by simp)
  simp only [value, Spec.adev]
  rw [rms_sq _ _ _ (by positivity), offset_dec]
  simp only [d2_taps]

theorem ohdev_edf_pm (h : NormalNoise P W s2) (hs : 0 < s2) (hr : 0 < rate) (a b : ℝ) (N m : ℕ) (hu : Usable .ohdev N m)
    (hlt : 6 * m < N) :
    EdfExact P (edf_greenhall 2 3 m N true false)
      (fun ω => value .ohdev (offsetPhase a b (fun i => W i ω)) N rate m) := by
  obtain ⟨hm, -, -, -, hc⟩ := hu
  have hc' : 1 < (N : ℤ) - 3 * m := hc
  have hm' : (0 : ℝ) < m := by exact_mod_cast hm
  have eM : ghM 3 m N true false = N - 3 * m := by
    rw [ghM_ov _ _ _ _ hm]
    simp only [ghL, Bool.false_eq_true, if_false]
    omega
  have eS : ghS m true = m := rfl
  have h1 : 3 * m < N - 3 * m := by omega
  have h2 := edf_call_pm 3 m N true (by omega) hm (by simp only [ghL]; simp; omega) (by rw [eM, eS]; exact h1)
  rw [eM, eS] at h2
  refine ⟨_, h2, ?_⟩
  have hN : (0 : ℝ) < N - 3 * m := by
    have : (1 : ℝ) < (N : ℝ) - 3 * m := by exact_mod_cast hc'
    linarith
  have h3 := edf_filter h hs (N - 3 * m) (by omega) (taps tap3 4 m) (3 * m + 1) 1
    (taps_zero tap3 4 m _ (tap_lt 4 m (by omega))) (by rw [cov_tap3 m 0 hm]; norm_num)
    (1 / (6 * (m / rate) ^ 2 * (N - 3 * m))) (by positivity)
  rw [edf_tap3 m _ hm h1] at h3
  refine h3.congr (fun ω => ?_) (by simp)
  simp only [value, Spec.ohdev]
  rw [rms_sq _ _ _ (by positivity)]
  simp only [d3_taps]

theorem hdev_edf_pm (h : NormalNoise P W s2) (hs : 0 < s2) (hr : 0 < rate) (a b : ℝ) (N m : ℕ) (hu : Usable .hdev N m)
    (hlt : 6 < decimated N m) :
    EdfExact P (edf_greenhall 2 3 m N false false)
      (fun ω => value .hdev (offsetPhase a b (fun i => W i ω)) N rate m) := by
  have hN0 := hu.pos
  obtain ⟨hm, -, -, -, hc⟩ := hu
  have hc' : 1 < (decimated N m : ℤ) - 3 := hc
  have hm' : (0 : ℝ) < m := by exact_mod_cast hm
  have eM := ghM_dec 3 m N (by omega)
  have eS : ghS m false = 1 := rfl
  have h2 := edf_call_pm 3 m N false (by omega) hm (by
    have := dec_len (N := N) (d := 3) hm hN0 (by omega)
    simpa [ghL] using this) (by rw [eM, eS]; omega)
  rw [eM, eS] at h2
  refine ⟨_, h2, ?_⟩
  have hN : (0 : ℝ) < decimated N m - 3 := by
    have : (1 : ℝ) < (decimated N m : ℝ) - 3 := by exact_mod_cast hc'
    linarith
  have h3 := edf_filter (h.decimate hm) hs (decimated N m - 3) (by omega) (taps tap3 4 1) (3 * 1 + 1) 1
    (taps_zero tap3 4 1 _ (tap_lt 4 1 (by omega))) (by rw [cov_tap3 1 0 one_pos]; norm_num)
    (1 / (6 * (m / rate) ^ 2 * (decimated N m - 3))) (by positivity)
  rw [edf_tap3 1 _ one_pos (by omega)] at h3
  refine h3.congr (fun ω => ?_) (by simp)
  simp only [value, Spec.hdev]
  rw [rms_sq _ _ _ (by positivity), offset_dec]
  simp only [d3_taps]

/-! ## The modified Allan variance of white phase noise -/

theorem mdev_blocks (a b : ℝ) (w : ℕ → ℝ) (m j : ℕ) :
    ∑ i ∈ range m, d2 (offsetPhase a b w) m (j + i) = ∑ k ∈ range (3 * m), blocks tap2 3 m k * w (j * 1 + k) := by
  rw [blocks_sum tap2 3 m (fun k => w (j * 1 + k))]
  simp only [sum_range_succ (n := 2), sum_range_succ (n := 1), sum_range_succ (n := 0), sum_range_zero, tap2]
  rw [zero_add, ← sum_add_distrib, ← sum_add_distrib]
  refine sum_congr rfl fun i _ => ?_
  simp only [d2, offsetPhase]
  norm_num
  rw [show j + i + 2 * m = j + (2 * m + i) by ring, show j + i + m = j + (m + i) by ring]
  ring

theorem tri_far (t : ℝ) (h : 1 ≤ t) : tri t = 0 := tri_zero (by rw [abs_of_pos (by linarith)]; exact h)

theorem ghSz_pm_zero (t : ℝ) (h : ((2 : ℕ) : ℝ) + 1 ≤ t) : ghSz (.fin 1) 2 2 t = 0 := by
  push_cast at h
  rw [ghSz_pm, tri_far _ (by linarith), tri_far _ (by linarith), tri_far _ (by linarith), tri_far _ (by linarith),
    tri_far _ (by linarith)]
  ring

theorem cov_mdev (m l : ℕ) (hm : 0 < m) :
    filterCov (blocks tap2 3 m) (3 * m) 1 l = m / 2 * ghSz (.fin 1) 2 2 (l / m) := by
  rw [blocks_cov tap2 3 m 1 l hm, ghSz_pm]
  simp only [sum_range_succ, sum_range_zero, tap2]
  norm_num
  ring_nf

/-- what `edf_greenhall` returns when the basic sum is evaluated directly -/
theorem edf_call_sum (alpha : ℤ) (d m N : ℕ) (ov md : Bool) (F : FArg) (h0 : -4 ≤ alpha) (h1 : alpha ≤ 2) (hd : 1 ≤ d)
    (hd3 : d ≤ 3) (h : 1 < alpha + 2 * d) (hm : 0 < m) (hN : ghL d m md ≤ N)
    (hc : ghCrash alpha d m N ov md = none)
    (hi : ghInv alpha d m N ov md = (ghSum (ghJ d m N ov md) (ghM d m N ov md) (ghS m ov) F alpha d,
      ghSz F alpha d 0 ^ 2 * ghM d m N ov md)) (hz : ghSz F alpha d 0 ≠ 0) :
    edf_greenhall alpha d m N ov md = .ok (some (ghSz F alpha d 0 ^ 2 * ghM d m N ov md
      / ghSum (ghJ d m N ov md) (ghM d m N ov md) (ghS m ov) F alpha d)) := by
  have hM : (0 : ℝ) < ghM d m N ov md := by exact_mod_cast ghM_pos d m N ov md
  have hJM : (ghJ d m N ov md : ℝ) ≤ ghM d m N ov md := by exact_mod_cast min_le_left _ _
  rw [edf_greenhall_eq_partial alpha d m N ov md h0 h1 hd hd3 h hm hN, hc]
  simp only
  rw [hi]
  simp only
  rw [(invEdf_pos (ghSum_pos _ _ _ _ _ _ hM hJM hz) (by positivity)).1]

theorem mdev_edf_pm (h : NormalNoise P W s2) (hs : 0 < s2) (hr : 0 < rate) (a b : ℝ) (N m : ℕ) (hm : 0 < m)
    (hc : 1 < (N : ℤ) - 3 * m + 1) (hJ : min (N - 3 * m + 1) (3 * m) ≤ 100) (k : ℝ) (hk : k ≠ 0) :
    EdfExact P (edf_greenhall 2 2 m N true true)
      (fun ω => k * Spec.mdev (offsetPhase a b (fun i => W i ω)) N m (m / rate)) := by
  have hm' : (0 : ℝ) < m := by exact_mod_cast hm
  have eM : ghM 2 m N true true = N - 3 * m + 1 := by
    rw [ghM_ov _ _ _ _ hm]
    simp only [ghL, if_true]
    omega
  have hJ' : ghJ 2 m N true true ≤ 100 := by
    unfold ghJ
    rw [eM]
    exact hJ
  have hz : ghSz (.fin 1) 2 2 0 ≠ 0 := by
    intro h0
    have := ghSz_fin_pos 1 one_pos 2 2 (by norm_num) (by norm_num) (by norm_num) (by norm_num) (by norm_num)
    rw [h0, mul_zero] at this
    exact lt_irrefl _ this
  refine ⟨_, edf_call_sum 2 2 m N true true (.fin 1) (by norm_num) (by norm_num) (by norm_num) (by norm_num)
    (by norm_num) hm (by simp only [ghL, if_true]; omega) (by simp [ghCrash])
    (by unfold ghInv; simp only [if_true, hJ']) hz, ?_⟩
  have hN : (0 : ℝ) < N - 3 * m + 1 := by
    have : (1 : ℝ) < (N : ℝ) - 3 * m + 1 := by exact_mod_cast hc
    linarith
  have h3 := edf_filter h hs (N - 3 * m + 1) (by omega) (blocks tap2 3 m) (3 * m) 1
    (blocks_zero tap2 3 m) (by rw [cov_mdev m 0 hm]; simpa using ⟨hm.ne', hz⟩)
    (k ^ 2 / (2 * m ^ 2 * (m / rate) ^ 2 * (N - 3 * m + 1))) (by positivity)
  refine h3.congr (fun ω => ?_) ?_
  · simp only [Spec.mdev]
    rw [mul_pow, rms_sq _ _ _ (by positivity)]
    simp only [mdev_blocks]
    ring
  · rw [ghSum_lags (N - 3 * m + 1) m 2 (by omega) hm (.fin 1) 2 _ (m / 2) (by positivity) (fun l => cov_mdev m l hm)
      ghSz_pm_zero hz]
    unfold ghJ
    rw [eM]
    rfl

/-! ## White frequency noise -/

/-- the second difference of the phase: the difference of two blocks of frequencies -/
def tapf (b : ℕ) : ℝ := if b = 0 then -1 else 1

theorem blocks_mean (c : ℕ → ℝ) (q m i : ℕ) (y Y : ℕ → ℝ) (κ r : ℝ) (hc : ∑ b ∈ range q, c b = 0)
    (hy : ∀ j, y j = Y j / r + κ) :
    ∑ b ∈ range q, ∑ k ∈ range m, c b * y (i + b * m + k)
      = 1 / r * ∑ k ∈ range (q * m), blocks c q m k * Y (i + k) := by
  rw [blocks_sum c q m (fun k => Y (i + k)), mul_sum]
  have e : ∀ b ∈ range q, ∑ k ∈ range m, c b * y (i + b * m + k)
      = 1 / r * ∑ k ∈ range m, c b * Y (i + (b * m + k)) + c b * (m * κ) := by
    intro b _
    rw [mul_sum, ← mul_assoc]
    have : c b * m * κ = ∑ k ∈ range m, c b * κ := by simp; ring
    rw [this, ← sum_add_distrib]
    refine sum_congr rfl fun k _ => ?_
    rw [hy, add_assoc]
    ring
  rw [sum_congr rfl e, sum_add_distrib, ← sum_mul, hc, zero_mul, add_zero]

theorem d2_fmBlocks (c : ℝ) (Y : ℕ → ℝ) (N m i : ℕ) :
    d2 (phaseOf (fun j => c + Y j) N rate) m i = 1 / rate * ∑ k ∈ range (2 * m), blocks tapf 2 m k * Y (i + k) := by
  rw [d2_step (u := incr (fun j => c + Y j) N rate) (phaseOf_add _ N rate)]
  exact blocks_mean tapf 2 m i _ Y ((c - (∑ k ∈ range N, (c + Y k)) / N) / rate) rate
    (by simp [sum_range_succ, tapf]) (fun j => by unfold incr; ring)

theorem d3_fmBlocks (c : ℝ) (Y : ℕ → ℝ) (N m i : ℕ) :
    d3 (phaseOf (fun j => c + Y j) N rate) m i = 1 / rate * ∑ k ∈ range (3 * m), blocks tap2 3 m k * Y (i + k) := by
  rw [d3_step (u := incr (fun j => c + Y j) N rate) (phaseOf_add _ N rate)]
  exact blocks_mean tap2 3 m i _ Y ((c - (∑ k ∈ range N, (c + Y k)) / N) / rate) rate
    (by simp [sum_range_succ, tap2]; norm_num) (fun j => by unfold incr; ring)

theorem d2_dec (x : ℕ → ℝ) (m i : ℕ) : d2 (fun k => x (k * m)) 1 i = d2 x m (i * m) := by
  simp only [d2]
  rw [show (i + 2 * 1) * m = i * m + 2 * m by ring, show (i + 1) * m = i * m + m by ring]

theorem d3_dec (x : ℕ → ℝ) (m i : ℕ) : d3 (fun k => x (k * m)) 1 i = d3 x m (i * m) := by
  simp only [d3]
  rw [show (i + 3 * 1) * m = i * m + 3 * m by ring, show (i + 2 * 1) * m = i * m + 2 * m by ring,
    show (i + 1) * m = i * m + m by ring]

theorem ghSz_fm2_zero (t : ℝ) (h : ((2 : ℕ) : ℝ) + 1 ≤ t) : ghSz .inf 0 2 t = 0 := by
  push_cast at h
  rw [ghSz_fm2, tri_far _ (by linarith), tri_far _ (by linarith), tri_far _ (by linarith)]
  ring

theorem ghSz_fm3_zero (t : ℝ) (h : ((3 : ℕ) : ℝ) + 1 ≤ t) : ghSz .inf 0 3 t = 0 := by
  push_cast at h
  rw [ghSz_fm3, tri_far _ (by linarith), tri_far _ (by linarith), tri_far _ (by linarith), tri_far _ (by linarith),
    tri_far _ (by linarith)]
  ring

theorem cov_fm2 (m S l : ℕ) (hm : 0 < m) :
    filterCov (blocks tapf 2 m) (2 * m) S l = m / 2 * ghSz .inf 0 2 ((l * S : ℕ) / m) := by
  rw [blocks_cov tapf 2 m S l hm, ghSz_fm2]
  simp only [sum_range_succ, sum_range_zero, tapf]
  norm_num
  ring_nf

theorem cov_fm3 (m S l : ℕ) (hm : 0 < m) :
    filterCov (blocks tap2 3 m) (3 * m) S l = m / 2 * ghSz .inf 0 3 ((l * S : ℕ) / m) := by
  rw [blocks_cov tap2 3 m S l hm, ghSz_fm3]
  simp only [sum_range_succ, sum_range_zero, tap2]
  norm_num
  ring_nf

theorem ghSz_inf_ne (d : ℕ) (hd : d = 2 ∨ d = 3) : ghSz .inf 0 d 0 ≠ 0 := by
  intro h0
  have := ghSz_inf_pos 0 d (by omega) (by omega) (by norm_num) (by norm_num) (by omega)
  rw [h0, mul_zero] at this
  exact lt_irrefl _ this

/-- the mean square of the differences of blocks of white frequency noise -/
theorem fm_edf {Y : ℕ → Ω → ℝ} (h : NormalNoise P Y s2) (hs : 0 < s2) (d m N S : ℕ) (ov : Bool) (hd : d = 2 ∨ d = 3)
    (hm : 0 < m) (hS : S * ghS m ov = m) (hN : ghL d m false ≤ N) (hJ : ghJ d m N ov false ≤ 100)
    (h100 : 100 < m * (d + 1)) (V : Ω → ℝ) (κ : ℝ) (hκ : 0 < κ)
    (hV : ∀ ω, V ω = κ * ∑ i ∈ range (ghM d m N ov false),
      (∑ k ∈ range (d * m), blocks (if d = 2 then tapf else tap2) d m k * Y (i * S + k) ω) ^ 2) :
    ∃ r, edf_greenhall 0 d m N ov false = .ok (some r) ∧ HasEdf P V r := by
  have hm' : (0 : ℝ) < m := by exact_mod_cast hm
  have hS0 := ghS_pos m ov hm
  have hz := ghSz_inf_ne d hd
  refine ⟨_, edf_call_sum 0 d m N ov false .inf (by norm_num) (by norm_num) (by omega) (by omega) (by omega) hm
    hN (by simp [ghCrash]) (by
      unfold ghInv
      simp only [hJ, if_true, Bool.false_eq_true, if_false, le_refl]
      rw [if_neg (by omega)]) hz, ?_⟩
  have hcov : ∀ l, filterCov (blocks (if d = 2 then tapf else tap2) d m) (d * m) S l
      = m / 2 * ghSz .inf 0 d ((l : ℝ) / ghS m ov) := by
    intro l
    have e1 : (((l * S : ℕ) : ℝ) / m) = l / ghS m ov := by
      have h1 : (0 : ℝ) < ghS m ov := by exact_mod_cast hS0
      have h2 : (S : ℝ) * ghS m ov = m := by exact_mod_cast hS
      rw [div_eq_div_iff hm'.ne' h1.ne', ← h2]
      push_cast
      ring
    rw [← e1]
    rcases hd with rfl | rfl
    · exact cov_fm2 m S l hm
    · exact cov_fm3 m S l hm
  have h3 := edf_filter h hs (ghM d m N ov false) (ghM_pos _ _ _ _ _) (blocks (if d = 2 then tapf else tap2) d m) (d * m) S
    (blocks_zero _ d m) (by rw [hcov 0]; simpa using ⟨hm.ne', hz⟩) κ hκ
  refine h3.congr (fun ω => (hV ω).symm) ?_
  rw [ghSum_lags (ghM d m N ov false) (ghS m ov) d (ghM_pos _ _ _ _ _) hS0 .inf 0 _ (m / 2) (by positivity) hcov ?_ hz]
  · rfl
  · rcases hd with rfl | rfl
    · exact ghSz_fm2_zero
    · exact ghSz_fm3_zero

theorem oadev_edf_fm {Y : ℕ → Ω → ℝ} (h : NormalNoise P Y s2) (hs : 0 < s2) (hr : 0 < rate) (c : ℝ) (N m : ℕ)
    (hu : Usable .oadev (N + 1) m) (h100 : 100 < 3 * m) (hJ : N + 1 - 2 * m ≤ 100) :
    EdfExact P (edf_greenhall 0 2 m (N + 1) true false)
      (fun ω => value .oadev (phaseOf (fun i => c + Y i ω) N rate) (N + 1) rate m) := by
  obtain ⟨hm, -, -, -, hc⟩ := hu
  have hc' : 1 < ((N + 1 : ℕ) : ℤ) - 2 * m := hc
  have hm' : (0 : ℝ) < m := by exact_mod_cast hm
  have eM : ghM 2 m (N + 1) true false = N + 1 - 2 * m := by
    rw [ghM_ov _ _ _ _ hm]
    simp only [ghL, Bool.false_eq_true, if_false]
    omega
  have hN : (0 : ℝ) < ((N + 1 : ℕ) : ℝ) - 2 * m := by
    have : (1 : ℝ) < ((N + 1 : ℕ) : ℝ) - 2 * m := by exact_mod_cast hc'
    linarith
  refine fm_edf h hs 2 m (N + 1) 1 true (.inl rfl) hm (by simp [ghS]) (by simp [ghL]; omega)
    ((min_le_left _ _).trans (by omega)) (by omega) _ (1 / (2 * (m / rate) ^ 2 * (((N + 1 : ℕ) : ℝ) - 2 * m)) * (1 / rate) ^ 2)
    (by positivity) (fun ω => ?_)
  rw [eM]
  simp only [value, Spec.oadev]
  rw [rms_sq _ _ _ (by positivity)]
  simp only [d2_fmBlocks, mul_pow, ← mul_sum, if_true, mul_one]
  ring

theorem adev_edf_fm {Y : ℕ → Ω → ℝ} (h : NormalNoise P Y s2) (hs : 0 < s2) (hr : 0 < rate) (c : ℝ) (N m : ℕ)
    (hu : Usable .adev (N + 1) m) (h100 : 100 < 3 * m) :
    EdfExact P (edf_greenhall 0 2 m (N + 1) false false)
      (fun ω => value .adev (phaseOf (fun i => c + Y i ω) N rate) (N + 1) rate m) := by
  have hN0 := hu.pos
  obtain ⟨hm, -, -, -, hc⟩ := hu
  have hc' : 1 < (decimated (N + 1) m : ℤ) - 2 := hc
  have hm' : (0 : ℝ) < m := by exact_mod_cast hm
  have hN : (0 : ℝ) < decimated (N + 1) m - 2 := by
    have : (1 : ℝ) < (decimated (N + 1) m : ℝ) - 2 := by exact_mod_cast hc'
    linarith
  refine fm_edf h hs 2 m (N + 1) m false (.inl rfl) hm (by simp [ghS]) (by
      have := dec_len (N := N + 1) (d := 2) hm hN0 (by omega)
      simpa [ghL] using this)
    ((min_le_right _ _).trans (by simp [ghS])) (by omega) _
    (1 / (2 * (m / rate) ^ 2 * (decimated (N + 1) m - 2)) * (1 / rate) ^ 2)
    (by positivity) (fun ω => ?_)
  rw [ghM_dec 2 m (N + 1) (by omega)]
  simp only [value, Spec.adev]
  rw [rms_sq _ _ _ (by positivity)]
  simp only [d2_dec, d2_fmBlocks, mul_pow, ← mul_sum, if_true]
  ring

theorem ohdev_edf_fm {Y : ℕ → Ω → ℝ} (h : NormalNoise P Y s2) (hs : 0 < s2) (hr : 0 < rate) (c : ℝ) (N m : ℕ)
    (hu : Usable .ohdev (N + 1) m) (h100 : 100 < 4 * m) (hJ : N + 1 - 3 * m ≤ 100) :
    EdfExact P (edf_greenhall 0 3 m (N + 1) true false)
      (fun ω => value .ohdev (phaseOf (fun i => c + Y i ω) N rate) (N + 1) rate m) := by
  obtain ⟨hm, -, -, -, hc⟩ := hu
  have hc' : 1 < ((N + 1 : ℕ) : ℤ) - 3 * m := hc
  have hm' : (0 : ℝ) < m := by exact_mod_cast hm
  have eM : ghM 3 m (N + 1) true false = N + 1 - 3 * m := by
    rw [ghM_ov _ _ _ _ hm]
    simp only [ghL, Bool.false_eq_true, if_false]
    omega
  have hN : (0 : ℝ) < ((N + 1 : ℕ) : ℝ) - 3 * m := by
    have : (1 : ℝ) < ((N + 1 : ℕ) : ℝ) - 3 * m := by exact_mod_cast hc'
    linarith
  refine fm_edf h hs 3 m (N + 1) 1 true (.inr rfl) hm (by simp [ghS]) (by simp [ghL]; omega)
    ((min_le_left _ _).trans (by omega)) (by omega) _ (1 / (6 * (m / rate) ^ 2 * (((N + 1 : ℕ) : ℝ) - 3 * m)) * (1 / rate) ^ 2)
    (by positivity) (fun ω => ?_)
  rw [eM]
  simp only [value, Spec.ohdev]
  rw [rms_sq _ _ _ (by positivity)]
  simp only [d3_fmBlocks, mul_pow, ← mul_sum, mul_one]
  norm_num
  ring

theorem hdev_edf_fm {Y : ℕ → Ω → ℝ} (h : NormalNoise P Y s2) (hs : 0 < s2) (hr : 0 < rate) (c : ℝ) (N m : ℕ)
    (hu : Usable .hdev (N + 1) m) (h100 : 100 < 4 * m) :
    EdfExact P (edf_greenhall 0 3 m (N + 1) false false)
      (fun ω => value .hdev (phaseOf (fun i => c + Y i ω) N rate) (N + 1) rate m) := by
  have hN0 := hu.pos
  obtain ⟨hm, -, -, -, hc⟩ := hu
  have hc' : 1 < (decimated (N + 1) m : ℤ) - 3 := hc
  have hm' : (0 : ℝ) < m := by exact_mod_cast hm
  have hN : (0 : ℝ) < decimated (N + 1) m - 3 := by
    have : (1 : ℝ) < (decimated (N + 1) m : ℝ) - 3 := by exact_mod_cast hc'
    linarith
  refine fm_edf h hs 3 m (N + 1) m false (.inr rfl) hm (by simp [ghS]) (by
      have := dec_len (N := N + 1) (d := 3) hm hN0 (by omega)
      simpa [ghL] using this)
    ((min_le_right _ _).trans (by simp [ghS])) (by omega) _
    (1 / (6 * (m / rate) ^ 2 * (decimated (N + 1) m - 3)) * (1 / rate) ^ 2)
    (by positivity) (fun ω => ?_)
  rw [ghM_dec 3 m (N + 1) (by omega)]
  simp only [value, Spec.hdev]
  rw [rms_sq _ _ _ (by positivity)]
  simp only [d3_dec, d3_fmBlocks, mul_pow, ← mul_sum]
  norm_num
  ring

/-! ## The claims -/

/-- **C74, white phase noise.** The phase is that of a clock with a constant phase offset `a` and a
constant frequency offset `b`, plus independent normal samples.  At every averaging factor `m` that the
deviation function reports, `edf_greenhall` called with `alpha = 2`, the order of the difference, `m` and the
number of phase points returns exactly the equivalent degrees of freedom `2 E[D²]² / Var[D²]` of the squared
deviation `D`, provided the averaging time is less than about half the record length divided by the order of the
difference; for the modified Allan and the time deviation provided that the basic sum has at most 100 terms. -/
theorem edf_white_phase_partial (h : NormalNoise P W s2) (hs : 0 < s2) (hr : 0 < rate) (a b : ℝ) (N : ℕ) :
    Reports .adev (fun ω => tab N (offsetPhase a b (fun i => W i ω))) rate "phase"
      (fun m D => 4 < decimated N m → EdfExact P (edf_greenhall 2 2 m N false false) D) ∧
    Reports .oadev (fun ω => tab N (offsetPhase a b (fun i => W i ω))) rate "phase"
      (fun m D => 4 * m < N → EdfExact P (edf_greenhall 2 2 m N true false) D) ∧
    Reports .hdev (fun ω => tab N (offsetPhase a b (fun i => W i ω))) rate "phase"
      (fun m D => 6 < decimated N m → EdfExact P (edf_greenhall 2 3 m N false false) D) ∧
    Reports .ohdev (fun ω => tab N (offsetPhase a b (fun i => W i ω))) rate "phase"
      (fun m D => 6 * m < N → EdfExact P (edf_greenhall 2 3 m N true false) D) ∧
    Reports .mdev (fun ω => tab N (offsetPhase a b (fun i => W i ω))) rate "phase"
      (fun m D => min (N - 3 * m + 1) (3 * m) ≤ 100 → EdfExact P (edf_greenhall 2 2 m N true true) D) ∧
    Reports .tdev (fun ω => tab N (offsetPhase a b (fun i => W i ω))) rate "phase"
      (fun m D => min (N - 3 * m + 1) (3 * m) ≤ 100 → EdfExact P (edf_greenhall 2 2 m N true true) D) := by
  have hp : ∀ fn Q, (∀ m, Usable fn N m → Q m (fun ω => value fn (offsetPhase a b (fun i => W i ω)) N rate m)) →
      Reports fn (fun ω => tab N (offsetPhase a b (fun i => W i ω))) rate "phase" Q := fun fn Q hv =>
    reports_phase fn (fun i ω => offsetPhase a b (fun i => W i ω) i) N rate hr Q hv
  refine ⟨hp _ _ fun m hu hc => adev_edf_pm h hs hr a b N m hu hc, hp _ _ fun m hu hc => oadev_edf_pm h hs hr a b N m hu hc,
    hp _ _ fun m hu hc => hdev_edf_pm h hs hr a b N m hu hc, hp _ _ fun m hu hc => ohdev_edf_pm h hs hr a b N m hu hc,
    hp _ _ fun m hu hc => ?_, hp _ _ fun m hu hc => ?_⟩
  · have := mdev_edf_pm h hs hr a b N m hu.1 hu.2.2.2.2 hc 1 one_ne_zero
    simp only [one_mul] at this
    exact this
  · have hm' : (0 : ℝ) < m := by exact_mod_cast hu.1
    exact mdev_edf_pm h hs hr a b N m hu.1 hu.2.2.2.2 hc (m / rate / √3) (by positivity)

/-- **C74, white frequency noise.** The frequencies are a constant `c` plus independent normal samples.  For
averaging factors `m` with `m (d+1) > 100` and a basic sum of at most 100 terms `edf_greenhall` called with
`alpha = 0`, the order `d` of the difference, `m` and the number of phase points is exact. -/
theorem edf_white_freq_partial {Y : ℕ → Ω → ℝ} (h : NormalNoise P Y s2) (hs : 0 < s2) (hr : 0 < rate) (c : ℝ) (N : ℕ) :
    Reports .adev (fun ω => tab N (fun i => c + Y i ω)) rate "freq"
      (fun m D => 100 < 3 * m → EdfExact P (edf_greenhall 0 2 m (N + 1) false false) D) ∧
    Reports .oadev (fun ω => tab N (fun i => c + Y i ω)) rate "freq"
      (fun m D => 100 < 3 * m → N + 1 - 2 * m ≤ 100 → EdfExact P (edf_greenhall 0 2 m (N + 1) true false) D) ∧
    Reports .hdev (fun ω => tab N (fun i => c + Y i ω)) rate "freq"
      (fun m D => 100 < 4 * m → EdfExact P (edf_greenhall 0 3 m (N + 1) false false) D) ∧
    Reports .ohdev (fun ω => tab N (fun i => c + Y i ω)) rate "freq"
      (fun m D => 100 < 4 * m → N + 1 - 3 * m ≤ 100 → EdfExact P (edf_greenhall 0 3 m (N + 1) true false) D) := by
  have hp : ∀ fn Q, (∀ m, Usable fn (N + 1) m →
      Q m (fun ω => value fn (phaseOf (fun i => c + Y i ω) N rate) (N + 1) rate m)) →
      Reports fn (fun ω => tab N (fun i => c + Y i ω)) rate "freq" Q := fun fn Q hv =>
    reports_freq fn (fun i ω => c + Y i ω) N rate hr Q hv
  exact ⟨hp _ _ fun m hu hc => adev_edf_fm h hs hr c N m hu hc,
    hp _ _ fun m hu hc hJ => oadev_edf_fm h hs hr c N m hu hc hJ,
    hp _ _ fun m hu hc => hdev_edf_fm h hs hr c N m hu hc,
    hp _ _ fun m hu hc hJ => ohdev_edf_fm h hs hr c N m hu hc hJ⟩

theorem ghSz_fm_one (k : ℕ) : ghSz (.fin 1) 0 2 k
    = if k = 0 then 12 else if k = 1 then -4 else if k = 2 then -2 else 0 := by
  have hx : ∀ u, ghSx (.fin 1) 0 u = 2 * |u| ^ 3 - |u - 1| ^ 3 - |u + 1| ^ 3 := by
    intro u
    simp [ghSx, ghSw]
  unfold ghSz
  simp only [sum_range_succ, sum_range_zero, hx]
  obtain rfl | rfl | rfl | hk : k = 0 ∨ k = 1 ∨ k = 2 ∨ 3 ≤ k := by omega
  · norm_num [Nat.choose]
  · norm_num [Nat.choose]
  · norm_num [Nat.choose]
  · rw [if_neg (by omega), if_neg (by omega), if_neg (by omega)]
    have h3 : (3 : ℝ) ≤ k := by exact_mod_cast hk
    norm_num [Nat.choose]
    simp only [abs_of_nonneg (show (0 : ℝ) ≤ (k : ℝ) - 2 by linarith), abs_of_nonneg (show (0 : ℝ) ≤ (k : ℝ) - 2 - 1 by linarith),
      abs_of_nonneg (show (0 : ℝ) ≤ (k : ℝ) - 2 + 1 by linarith), abs_of_nonneg (show (0 : ℝ) ≤ (k : ℝ) + 1 - 2 by linarith),
      abs_of_nonneg (show (0 : ℝ) ≤ (k : ℝ) + 1 - 2 - 1 by linarith), abs_of_nonneg (show (0 : ℝ) ≤ (k : ℝ) + 1 - 2 + 1 by linarith),
      abs_of_nonneg (show (0 : ℝ) ≤ (k : ℝ) - 1 by linarith), abs_of_nonneg (show (0 : ℝ) ≤ (k : ℝ) + 1 by linarith),
      abs_of_nonneg (show (0 : ℝ) ≤ (k : ℝ) + 3 - 2 by linarith),
      abs_of_nonneg (show (0 : ℝ) ≤ (k : ℝ) + 3 - 2 - 1 by linarith), abs_of_nonneg (show (0 : ℝ) ≤ (k : ℝ) + 3 - 2 + 1 by linarith),
      abs_of_nonneg (show (0 : ℝ) ≤ (k : ℝ) + 4 - 2 by linarith), abs_of_nonneg (show (0 : ℝ) ≤ (k : ℝ) + 4 - 2 - 1 by linarith),
      abs_of_nonneg (show (0 : ℝ) ≤ (k : ℝ) + 4 - 2 + 1 by linarith)]
    ring

theorem cov_fm_one (l : ℕ) : filterCov (blocks tapf 2 1) 2 1 l = if l = 0 then 2 else if l = 1 then -1 else 0 := by
  have hb : ∀ k, blocks tapf 2 1 k = if k = 0 then -1 else if k = 1 then 1 else 0 := by
    intro k
    simp only [blocks, sum_range_succ, sum_range_zero, tapf, blockInd]
    obtain rfl | rfl | hk : k = 0 ∨ k = 1 ∨ 2 ≤ k := by omega
    · simp
    · simp
    · rw [if_neg (show ¬ (0 * 1 ≤ k ∧ k < 0 * 1 + 1) by omega), if_neg (show ¬ (1 * 1 ≤ k ∧ k < 1 * 1 + 1) by omega),
        if_neg (show ¬ k = 0 by omega), if_neg (show ¬ k = 1 by omega)]
      simp
  unfold filterCov
  simp only [sum_range_succ, sum_range_zero, hb]
  obtain rfl | rfl | hl : l = 0 ∨ l = 1 ∨ 2 ≤ l := by omega
  · norm_num
  · norm_num
  · norm_num
    rw [if_neg (show ¬ l = 0 by omega), if_neg (show ¬ l = 1 by omega), if_neg (show ¬ l = 0 by omega)]
    norm_num
    omega

/-- **C74, white frequency noise at the shortest averaging time.** At `m = 1`, with `M = N - 1` summands, the
overlapping Allan variance has `2 M² / (3 M - 1)` equivalent degrees of freedom; `edf_greenhall` returns
`18 M² / (23 M - 6)`, up to 17 percent more. -/
theorem edf_white_freq_one {Y : ℕ → Ω → ℝ} (h : NormalNoise P Y s2) (hs : 0 < s2) (hr : 0 < rate) (c : ℝ) (N : ℕ)
    (hN : 4 ≤ N) :
    Reports .oadev (fun ω => tab N (fun i => c + Y i ω)) rate "freq" (fun m D => m = 1 →
      HasEdf P (fun ω => D ω ^ 2) (2 * (N - 1) ^ 2 / (3 * (N - 1) - 1)) ∧
      edf_greenhall 0 2 1 (N + 1) true false = .ok (some (18 * (N - 1) ^ 2 / (23 * (N - 1) - 6))) ∧
      (2 * (N - 1) ^ 2 / (3 * (N - 1) - 1) : ℝ) < 18 * (N - 1) ^ 2 / (23 * (N - 1) - 6)) := by
  refine reports_freq _ (fun i ω => c + Y i ω) N rate hr _ ?_
  rintro m hu rfl
  obtain ⟨M, rfl⟩ : ∃ M, N = M + 1 := ⟨N - 1, by omega⟩
  have hM : 3 ≤ M := by omega
  have hM' : (3 : ℝ) ≤ M := by exact_mod_cast hM
  have eM : ghM 2 1 (M + 1 + 1) true false = M := by
    rw [ghM_ov _ _ _ _ one_pos]
    simp only [ghL, Bool.false_eq_true, if_false]
    omega
  have eJ : ghJ 2 1 (M + 1 + 1) true false = 3 := by
    unfold ghJ
    rw [eM]
    simp only [ghS, if_true]
    omega
  have e1 : (((M + 1 : ℕ) : ℝ) - 1) = M := by push_cast; ring
  rw [e1]
  have z0 := ghSz_fm_one 0
  have z1 := ghSz_fm_one 1
  have z2 := ghSz_fm_one 2
  have z3 := ghSz_fm_one 3
  norm_num at z0 z1 z2 z3
  refine ⟨?_, ?_, ?_⟩
  · have h3 := edf_filter h hs M (by omega) (blocks tapf 2 1) 2 1 (blocks_zero tapf 2 1) (by rw [cov_fm_one]; norm_num)
      (1 / (2 * ((1 : ℕ) / rate) ^ 2 * (((M + 1 + 1 : ℕ) : ℝ) - 2 * (1 : ℕ))) * (1 / rate) ^ 2) (by
        have : (((M + 1 + 1 : ℕ) : ℝ) - 2 * (1 : ℕ)) = M := by push_cast; ring
        rw [this]
        positivity)
    refine h3.congr (fun ω => ?_) ?_
    · simp only [value, Spec.oadev]
      rw [rms_sq _ _ _ (by
        have : (((M + 1 + 1 : ℕ) : ℝ) - 2 * (1 : ℕ)) = M := by push_cast; ring
        rw [this]
        positivity)]
      simp only [d2_fmBlocks, mul_pow, ← mul_sum, mul_one, show M + 1 + 1 - 2 = M by omega]
      ring
    · have e : ∀ l ∈ Ico 1 M, ((M : ℝ) - l) * filterCov (blocks tapf 2 1) 2 1 l ^ 2 = if l = 1 then (M : ℝ) - l else 0 := by
        intro l hl
        rw [mem_Ico] at hl
        rw [cov_fm_one, if_neg (by omega)]
        split_ifs <;> norm_num
      rw [sum_congr rfl e, sum_point M 1 one_pos, if_pos (by omega), cov_fm_one, if_pos rfl]
      rw [div_eq_div_iff (by push_cast; nlinarith) (by nlinarith)]
      push_cast
      ring
  · rw [edf_call_sum 0 2 1 (M + 1 + 1) true false (.fin 1) (by norm_num) (by norm_num) (by norm_num) (by norm_num)
      (by norm_num) one_pos (by simp [ghL]; omega) (by simp [ghCrash]) (by
        unfold ghInv
        simp only [eJ, Bool.false_eq_true, if_false, le_refl, if_true]
        norm_num) (by rw [z0]; norm_num), eM, eJ]
    have e2 : ghSum 3 M (ghS 1 true) (.fin 1) 0 2 = 8 * (23 * M - 6) / M := by
      unfold ghSum
      rw [show Ico 1 3 = {1, 2} from rfl, sum_pair (by norm_num)]
      simp only [ghS, if_true]
      norm_num [z0, z1, z2, z3]
      field_simp
      ring
    rw [e2, z0]
    congr 2
    have : (23 * (M : ℝ) - 6) ≠ 0 := by linarith
    field_simp
    norm_num
  · rw [div_lt_div_iff₀ (by linarith) (by linarith)]
    nlinarith [sq_nonneg (M : ℝ), mul_pos (show (0 : ℝ) < M by linarith) (show (0 : ℝ) < M by linarith)]

/-! ## The hypotheses are met -/

theorem normal_gauss : NormalNoise gaussNoise (fun i ω => ω i) 1 where
  indep := iIndepFun_infinitePi (X := fun _ => id) (fun _ => measurable_id)
  law := fun i => ⟨(measurable_pi_apply i).aemeasurable, Measure.infinitePi_map_eval (fun _ : ℕ => gaussianReal 0 1) i⟩

/-- 13 phase values of a clock that is 3 s late and runs fast by 2 s per sample, with standard normal noise:
`oadev` reports a deviation at `m = 2` and `edf_greenhall` returns its degrees of freedom -/
example : ∃ d : (ℕ → ℝ) → ℝ,
    (∀ ω, ∃ errs ns, AT.oadev (tab 13 (offsetPhase 3 2 ω)) 2 "phase" (.list [(2 : ℕ) / 2])
      = .ok ⟨[(2 : ℕ) / 2], [d ω], errs, ns⟩) ∧ EdfExact gaussNoise (edf_greenhall 2 2 2 13 true false) d := by
  have hrun : ∀ ω : ℕ → ℝ, AT.oadev (tab 13 (offsetPhase 3 2 ω)) 2 "phase" (.list [(2 : ℕ) / 2])
      = .ok ⟨[(2 : ℕ) / 2], [Spec.oadev (seq (tab 13 (offsetPhase 3 2 ω))) 13 2 ((2 : ℕ) / 2)],
        .arr [Spec.oadev (seq (tab 13 (offsetPhase 3 2 ω))) 13 2 ((2 : ℕ) / 2) / √((13 : ℕ) - 2 * (2 : ℕ))], [9]⟩ := by
    intro ω
    rw [oadev_phase_eq _ _ (by norm_num), table_single _ _ (by norm_num) _ _ _ _ _ 2 (by norm_num) (by simp)
      (by norm_num) (by simp) (by simp)]
    simp
  obtain ⟨ms, D, h1, h2, h3⟩ := (edf_white_phase_partial normal_gauss one_pos (rate := 2) (by norm_num) 3 2 13).2.1
    (.list [(2 : ℕ) / 2]) (fun _ => 0) _ (hrun _)
  have hms : ms = [2] := by
    have : ms.map (fun (m : ℕ) => (m : ℝ) / 2) = [2].map (fun (m : ℕ) => (m : ℝ) / 2) := by
      rw [← h1]; rfl
    exact List.map_injective_iff.2 (fun a b hab => by
      have : (a : ℝ) = b := by linarith
      exact_mod_cast this) this
  subst hms
  exact ⟨D 2, fun ω => h2 ω, (h3 2 (by simp)).2 (by norm_num)⟩

/-- factors inside the range of `edf_white_freq_partial` -/
example : Usable .oadev 121 34 ∧ 100 < 3 * 34 ∧ 121 - 2 * 34 ≤ 100 := by
  refine ⟨⟨by norm_num, by simp [lenOf], by simp [maxOf]; norm_num, by simp, by simp [count]⟩, by norm_num, by norm_num⟩

end AT
