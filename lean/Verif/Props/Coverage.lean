import Verif.Lemmas.CoverageNear
import Verif.Props.EdfAll
import Verif.Props.EdfWalkAll
import Verif.Props.Settle
import Verif.Props.NoiseIdOk

/-!
# C93: how often the confidence intervals contain the deviation
-/

namespace AT

open Spec Finset MeasureTheory ProbabilityTheory Filter Topology
open scoped NNReal ENNReal

/-! ## Specification -/

/-- the deviations for which confidence intervals can be computed -/
inductive Spec.CiDev
  | adev | oadev | mdev | tdev | hdev | ohdev

/-- the function -/
def Spec.CiDev.fn : CiDev → DevName
  | .adev => .adev
  | .oadev => .oadev
  | .mdev => .mdev
  | .tdev => .tdev
  | .hdev => .hdev
  | .ohdev => .ohdev

/-- the name of the function -/
def Spec.CiDev.name : CiDev → String
  | .adev => "adev"
  | .oadev => "oadev"
  | .mdev => "mdev"
  | .tdev => "tdev"
  | .hdev => "hdev"
  | .ohdev => "ohdev"

/-- order of the difference -/
def Spec.CiDev.order : CiDev → ℕ
  | .hdev | .ohdev => 3
  | _ => 2

def Spec.CiDev.overlapping : CiDev → Bool
  | .adev | .hdev => false
  | _ => true

def Spec.CiDev.modified : CiDev → Bool
  | .mdev | .tdev => true
  | _ => false

/-- the mean squares of a second difference of step `m`, of a third difference and of the sum of `m` consecutive second
differences of the phase, for a noise of the given kind driven by white noise of unit variance -/
noncomputable def Spec.diffMean (m : ℕ) : Kind → ℝ × ℝ × ℝ
  | .wpm => (6, 20, 6 * m)
  | .wfm => (2 * m, 6 * m, m * (m ^ 2 + 1))
  | .rwfm => (m * (2 * m ^ 2 + 1) / 3, m * (m ^ 2 + 1), m * (11 * m ^ 4 + 5 * m ^ 2 + 4) / 20)

/-- the variance (the square of the deviation) for the averaging time `τ = m τ₀` of a phase noise of the given kind driven
by white noise of variance 1 -/
noncomputable def Spec.trueVar (c : CiDev) (k : Kind) (m : ℕ) (τ : ℝ) : ℝ :=
  match c with
  | .adev | .oadev => (diffMean m k).1 / (2 * τ ^ 2)
  | .hdev | .ohdev => (diffMean m k).2.1 / (6 * τ ^ 2)
  | .mdev => (diffMean m k).2.2 / (2 * m ^ 2 * τ ^ 2)
  | .tdev => (diffMean m k).2.2 / (6 * m ^ 2)

/-- bound of the relative error of the square root of the degrees of freedom that `edf_greenhall` returns for long records
(C74, C88, C90, C92, C94) -/
noncomputable def Spec.covErr (c : CiDev) (k : Kind) (m : ℕ) : ℝ :=
  match k, c with
  | .wpm, .mdev | .wpm, .tdev => if 3 * m ≤ 100 then 0 else 1 / 40
  | .wpm, _ => 0
  | .wfm, .adev => 5 / 4 / m
  | .wfm, .oadev => 5 / 4 / m + (if 3 * m ≤ 100 then 0 else 1 / 50)
  | .wfm, .hdev => 7 / 5 / m
  | .wfm, .ohdev => 7 / 5 / m + (if 4 * m ≤ 100 then 0 else 3 / 50)
  | .wfm, _ => 6 / (m ^ 2 + 1) + (if 3 * m ≤ 100 then 0 else 1 / 50)
  | .rwfm, .adev => walkErr 2 m
  | .rwfm, .oadev => walkErr 2 m + (if 3 * m ≤ 100 then 0 else 1 / 100)
  | .rwfm, .hdev => walkErr 3 m
  | .rwfm, .ohdev => walkErr 3 m + (if 4 * m ≤ 100 then 0 else 1 / 40)
  | .rwfm, _ => modWalkErr m + (if 3 * m ≤ 100 then 0 else 1 / 100)

/-- The deviation function, asked for the averaging time `m / rate`, reports a deviation; `edf_greenhall`, called with the
exponent `alpha`, the factor `m`, the number `n` of phase points and the parameters of the deviation, returns degrees of
freedom; and the confidence interval that is computed from them contains `σ`. -/
def Spec.Covered (ppf : ℝ → ℝ → NV) (c : CiDev) (data : List ℝ) (rate : ℝ) (data_type : String) (m : ℕ) (alpha : ℤ)
    (n : ℕ) (ci σ : ℝ) : Prop :=
  ∃ d errs ns e, c.fn.run data rate data_type (.list [(m : ℝ) / rate]) = .ok ⟨[(m : ℝ) / rate], [d], errs, ns⟩ ∧
    edf_greenhall alpha c.order m n c.overlapping c.modified = .ok (some e) ∧ CiContains ppf d e ci σ

/-- The same for `confidence_interval_noiseID`, which identifies the noise from the data. -/
def Spec.IdCovered (ppf : ℝ → ℝ → NV) (fit : List ℝ → ℕ → ℕ → ℝ) (c : CiDev) (data : List ℝ) (rate : ℝ) (m : ℕ)
    (ci σ : ℝ) : Prop :=
  ∃ d errs ns lo hi, c.fn.run data rate "phase" (.list [(m : ℝ) / rate]) = .ok ⟨[(m : ℝ) / rate], [d], errs, ns⟩ ∧
    confidence_interval_noiseID ppf fit data d m c.name "phase" ci = .ok (some lo, some hi) ∧ lo ≤ σ ∧ σ ≤ hi

/-- as the number of data grows the limits of the probabilities lie between `ci / (1 + ε)` and `ci / (1 - ε)` -/
def Spec.CoversNear (p : ℕ → ℝ) (ci ε : ℝ) : Prop :=
  ∀ η > 0, ∀ᶠ N in atTop, ci / (1 + ε) - η ≤ p N ∧ p N ≤ ci / (1 - ε) + η

theorem Spec.CoversNear.exact {p : ℕ → ℝ} {ci : ℝ} (h : CoversNear p ci 0) : Tendsto p atTop (𝓝 ci) := by
  rw [Metric.tendsto_atTop]
  intro η hη
  obtain ⟨n, hn⟩ := eventually_atTop.1 (h (η / 2) (by positivity))
  refine ⟨n, fun N hN => ?_⟩
  have := hn N hN
  rw [add_zero, sub_zero, div_one] at this
  rw [Real.dist_eq, abs_lt]
  constructor <;> linarith [this.1, this.2]

/-! ## The differences as filters -/

/-- the phase `x` is a noise of kind `k` driven by `w`, up to a line -/
def IsNoise (k : Kind) (κ : ℝ) (x w : ℕ → ℝ) : Prop :=
  match k with
  | .wpm => ∃ a b : ℝ, ∀ i, x i = a + b * i + κ * w i
  | .wfm => ∃ b : ℝ, ∀ i, x (i + 1) - x i = b + κ * w i
  | .rwfm => ∀ i, x (i + 2) - 2 * x (i + 1) + x i = κ * w i

theorem IsNoise.shift {k : Kind} {κ : ℝ} {x w : ℕ → ℝ} (h : IsNoise k κ x w) (s : ℕ) :
    IsNoise k κ (fun j => x (s + j)) (fun j => w (s + j)) := by
  cases k
  · obtain ⟨a, b, h⟩ := h
    exact ⟨a + b * s, b, fun i => by simp only [h]; push_cast; ring⟩
  · obtain ⟨b, h⟩ := h
    exact ⟨b, fun i => by simp only [← add_assoc, h]⟩
  · exact fun i => by simp only [← add_assoc]; exact h (s + i)

/-- what is squared in a deviation -/
def kernel (c : CiDev) (m : ℕ) (x : ℕ → ℝ) : ℝ :=
  match c with
  | .adev | .oadev => d2 x m 0
  | .hdev | .ohdev => d3 x m 0
  | .mdev | .tdev => ∑ i ∈ range m, d2 x m i

/-- the coefficients of the filter -/
noncomputable def filt (c : CiDev) (k : Kind) (m : ℕ) : ℕ → ℝ :=
  match k, c with
  | .wpm, .adev | .wpm, .oadev => taps tap2 3 m
  | .wpm, .hdev | .wpm, .ohdev => taps tap3 4 m
  | .wpm, _ => blocks tap2 3 m
  | .wfm, .adev | .wfm, .oadev => blocks tapf 2 m
  | .wfm, .hdev | .wfm, .ohdev => blocks tap2 3 m
  | .wfm, _ => walkTaps 3 m
  | .rwfm, .adev | .rwfm, .oadev => walkTaps 2 m
  | .rwfm, .hdev | .rwfm, .ohdev => walkTaps 3 m
  | .rwfm, _ => modTaps m

/-- their number -/
def filtLen (c : CiDev) (k : Kind) (m : ℕ) : ℕ :=
  match k, c with
  | .wpm, .adev | .wpm, .oadev => 2 * m + 1
  | .wpm, .hdev | .wpm, .ohdev => 3 * m + 1
  | .wfm, .adev | .wfm, .oadev | .rwfm, .adev | .rwfm, .oadev => 2 * m
  | _, _ => 3 * m

theorem filt_zero (c : CiDev) (k : Kind) (m i : ℕ) (hi : filtLen c k m ≤ i) : filt c k m i = 0 := by
  cases k <;> cases c <;> simp only [filt, filtLen] at *
  case wpm.adev => exact taps_zero tap2 3 m _ (tap_lt 3 m (by omega)) _ hi
  case wpm.oadev => exact taps_zero tap2 3 m _ (tap_lt 3 m (by omega)) _ hi
  case wpm.hdev => exact taps_zero tap3 4 m _ (tap_lt 4 m (by omega)) _ hi
  case wpm.ohdev => exact taps_zero tap3 4 m _ (tap_lt 4 m (by omega)) _ hi
  case wpm.mdev => exact blocks_zero tap2 3 m _ hi
  case wpm.tdev => exact blocks_zero tap2 3 m _ hi
  case wfm.adev => exact blocks_zero tapf 2 m _ hi
  case wfm.oadev => exact blocks_zero tapf 2 m _ hi
  case wfm.hdev => exact blocks_zero tap2 3 m _ hi
  case wfm.ohdev => exact blocks_zero tap2 3 m _ hi
  case wfm.mdev => exact walkTaps_zero 3 m (.inr rfl) _ hi
  case wfm.tdev => exact walkTaps_zero 3 m (.inr rfl) _ hi
  case rwfm.adev => exact walkTaps_zero 2 m (.inl rfl) _ hi
  case rwfm.oadev => exact walkTaps_zero 2 m (.inl rfl) _ hi
  case rwfm.hdev => exact walkTaps_zero 3 m (.inr rfl) _ hi
  case rwfm.ohdev => exact walkTaps_zero 3 m (.inr rfl) _ hi
  case rwfm.mdev => exact modTaps_zero m _ hi
  case rwfm.tdev => exact modTaps_zero m _ hi

/-- the mean square of the kernel -/
noncomputable def kernelMean (c : CiDev) (k : Kind) (m : ℕ) : ℝ :=
  match c with
  | .adev | .oadev => (diffMean m k).1
  | .hdev | .ohdev => (diffMean m k).2.1
  | .mdev | .tdev => (diffMean m k).2.2

theorem filterCov_at0 (A : ℕ → ℝ) (K S S' : ℕ) : filterCov A K S 0 = filterCov A K S' 0 := by
  unfold filterCov
  simp only [zero_mul]

theorem filt_cov0 (c : CiDev) (k : Kind) (m S : ℕ) (hm : 0 < m) :
    filterCov (filt c k m) (filtLen c k m) S 0 = kernelMean c k m := by
  have hm' : (0 : ℝ) < m := by exact_mod_cast hm
  have a2 := cov_tap2 m 0 hm
  have a3 := cov_tap3 m 0 hm
  have am := cov_mdev m 0 hm
  have b2 := cov_fm2 m 1 0 hm
  have b3 := cov_fm3 m 1 0 hm
  have c2 := walkTaps_cov 2 m 1 0 (.inl rfl) hm
  have c3 := walkTaps_cov 3 m 1 0 (.inr rfl) hm
  have cm := modTaps_cov m 0 hm
  have hpm : ghSz (.fin 1) 2 2 0 = 12 := by rw [ghSz_pm]; norm_num [tri]
  rw [if_pos rfl] at a2 a3
  simp only [Nat.cast_zero, zero_div, hpm] at am
  simp only [zero_mul, Nat.cast_zero, zero_div, kernZ_at0 2 (.inl rfl), kernZ_at0 3 (.inr rfl), if_true] at b2 b3
  simp only [zero_mul, walkCov, Nat.cast_zero, zero_div, kernZ_at0 2 (.inl rfl), kernZ_at0 3 (.inr rfl), kernA_at0 2 (.inl rfl),
    kernA_at0 3 (.inr rfl), if_true] at c2 c3
  rw [if_neg (by norm_num)] at b3
  rw [if_neg (by norm_num), if_neg (by norm_num)] at c3
  rw [modWalkCov_zero m hm] at cm
  rw [filterCov_at0 _ _ S 1]
  cases k <;> cases c <;> simp only [filt, filtLen, kernelMean, diffMean]
  case wpm.adev => exact a2
  case wpm.oadev => exact a2
  case wpm.hdev => exact a3
  case wpm.ohdev => exact a3
  case wpm.mdev => rw [am]; ring
  case wpm.tdev => rw [am]; ring
  case wfm.adev => rw [b2]; ring
  case wfm.oadev => rw [b2]; ring
  case wfm.hdev => rw [b3]; ring
  case wfm.ohdev => rw [b3]; ring
  case wfm.mdev => rw [c3]; ring
  case wfm.tdev => rw [c3]; ring
  case rwfm.adev => rw [c2]; ring
  case rwfm.oadev => rw [c2]; ring
  case rwfm.hdev => rw [c3]; ring
  case rwfm.ohdev => rw [c3]; ring
  case rwfm.mdev => rw [cm]; field_simp; ring
  case rwfm.tdev => rw [cm]; field_simp; ring

theorem kernelMean_pos (c : CiDev) (k : Kind) (m : ℕ) (hm : 0 < m) : 0 < kernelMean c k m := by
  have hm' : (0 : ℝ) < m := by exact_mod_cast hm
  cases k <;> cases c <;> simp only [kernelMean, diffMean] <;> positivity

theorem kernel_sq {k : Kind} {κ : ℝ} {x w : ℕ → ℝ} (h : IsNoise k κ x w) (c : CiDev) (m : ℕ) :
    kernel c m x ^ 2 = κ ^ 2 * (∑ j ∈ range (filtLen c k m), filt c k m j * w j) ^ 2 := by
  cases k
  · obtain ⟨a, b, h⟩ := h
    have hx : x = offsetPhase a b (fun i => κ * w i) := funext fun i => by rw [h, offsetPhase]
    have e2 := d2_taps a b (fun i => κ * w i) m 0
    have e3 := d3_taps a b (fun i => κ * w i) m 0
    have em := mdev_blocks a b (fun i => κ * w i) m 0
    rw [← hx] at e2 e3 em
    simp only [zero_mul, zero_add] at e2 e3 em
    have hκ : ∀ (K : ℕ) (A : ℕ → ℝ), ∑ j ∈ range K, A j * (κ * w j) = κ * ∑ j ∈ range K, A j * w j := fun K A => by
      rw [mul_sum]
      exact sum_congr rfl fun j _ => by ring
    rw [hκ] at e2 e3 em
    cases c <;> simp only [kernel, filt, filtLen, e2, e3, em, mul_pow]
  · obtain ⟨b, h⟩ := h
    have hu : ∀ i, x (i + 1) - x i = κ * w i / 1 + b := fun i => by rw [h]; ring
    have hκ : ∀ (K : ℕ) (A : ℕ → ℝ), ∑ j ∈ range K, A j * (κ * w (0 + j)) = κ * ∑ j ∈ range K, A j * w j := fun K A => by
      rw [mul_sum]
      exact sum_congr rfl fun j _ => by rw [zero_add]; ring
    have e2 : d2 x m 0 = κ * ∑ j ∈ range (2 * m), blocks tapf 2 m j * w j := by
      rw [d2_step (u := fun i => x (i + 1) - x i) (step_sums x)]
      have := blocks_mean tapf 2 m 0 _ (fun i => κ * w i) b 1 (by simp [sum_range_succ, tapf]) hu
      rw [one_div_one, one_mul, hκ] at this
      exact this
    have e3 : d3 x m 0 = κ * ∑ j ∈ range (3 * m), blocks tap2 3 m j * w j := by
      rw [d3_step (u := fun i => x (i + 1) - x i) (step_sums x)]
      have := blocks_mean tap2 3 m 0 _ (fun i => κ * w i) b 1 (by simp [sum_range_succ, tap2]; norm_num) hu
      rw [one_div_one, one_mul, hκ] at this
      exact this
    have em : ∑ i ∈ range m, d2 x m i = -κ * ∑ j ∈ range (3 * m), walkTaps 3 m j * w j := by
      have e0 := mdev_blocks 0 0 x m 0
      have hx : offsetPhase 0 0 x = x := funext fun i => by simp [offsetPhase]
      rw [hx] at e0
      simp only [zero_mul, zero_add] at e0
      have h1 := sum_cumCoef (freqTaps 3 m) x (3 * m)
      rw [freqTaps_sum 3 m (.inr rfl), zero_mul, zero_sub] at h1
      have h2 : blocks tap2 3 m = freqTaps 3 m := by rw [freqTaps, if_neg (by norm_num)]
      rw [e0, h2, h1]
      simp only [hu, div_one, mul_add, sum_add_distrib, ← sum_mul]
      rw [show cumCoef (freqTaps 3 m) = walkTaps 3 m from rfl, walkTaps_sum, zero_mul, add_zero, neg_mul, mul_sum]
      congr 1
      exact sum_congr rfl fun j _ => by ring
    cases c <;> simp only [kernel, filt, filtLen, e2, e3, em, mul_pow, neg_sq]
  · have e2 := d2_walk h m 0
    have e3 := d3_walk h m 0
    have em := mod_walk h m 0
    simp only [zero_add] at e2 e3 em
    cases c <;> simp only [kernel, filt, filtLen, e2, e3, em, mul_pow, neg_sq]

/-- the number the square is divided by -/
noncomputable def kernelScale (c : CiDev) (m : ℕ) (τ : ℝ) : ℝ :=
  match c with
  | .adev | .oadev => 2 * τ ^ 2
  | .hdev | .ohdev => 6 * τ ^ 2
  | .mdev => 2 * m ^ 2 * τ ^ 2
  | .tdev => 6 * m ^ 2

theorem trueVar_eq (c : CiDev) (k : Kind) (m : ℕ) (τ : ℝ) : trueVar c k m τ = kernelMean c k m / kernelScale c m τ := by
  cases c <;> rfl

theorem unitTerm_kernel (c : CiDev) (m : ℕ) (hm : 0 < m) {rate : ℝ} (hr : 0 < rate) (x : ℕ → ℝ) :
    unitTerm c.fn rate m x = kernel c m x ^ 2 / kernelScale c m (m / rate) := by
  have hm' : (0 : ℝ) < m := by exact_mod_cast hm
  cases c <;> simp only [CiDev.fn, unitTerm, kernel, kernelScale]
  field_simp
  ring

/-- the distance of the terms -/
def ciHop (c : CiDev) (m : ℕ) : ℕ := hop c.fn m

theorem value_sq {k : Kind} {κ : ℝ} {x w : ℕ → ℝ} (h : IsNoise k κ x w) (c : CiDev) {m N : ℕ} {rate : ℝ} (hr : 0 < rate)
    (hu : Usable c.fn N m) :
    value c.fn x N rate m ^ 2 = κ ^ 2 / kernelScale c m (m / rate) / (summands c.fn N m : ℕ)
      * ∑ i ∈ range (summands c.fn N m), (∑ j ∈ range (filtLen c k m), filt c k m j * w (i * ciHop c m + j)) ^ 2 := by
  rw [value_terms c.fn (by cases c <;> simp [CiDev.fn]) (by cases c <;> simp [CiDev.fn]) x hr hu, mul_sum, mul_sum]
  refine sum_congr rfl fun i _ => ?_
  rw [unitTerm_kernel c m hu.1 hr, kernel_sq (h.shift (i * hop c.fn m)) c m]
  unfold ciHop
  ring

variable {Ω : Type} [MeasurableSpace Ω] {P : Measure Ω} [IsProbabilityMeasure P] {W : ℕ → Ω → ℝ} {s2 : ℝ≥0} {rate : ℝ}

/-! ## The degrees of freedom -/

/-- the degrees of freedom of the squared deviation -/
noncomputable def ciEdf (c : CiDev) (k : Kind) (m N : ℕ) : ℝ :=
  filterEdf (filt c k m) (filtLen c k m) (ciHop c m) (summands c.fn N m)

theorem filt_ne (c : CiDev) (k : Kind) (m S : ℕ) (hm : 0 < m) : filterCov (filt c k m) (filtLen c k m) S 0 ≠ 0 := by
  rw [filt_cov0 c k m S hm]
  exact (kernelMean_pos c k m hm).ne'

theorem kernelScale_pos (c : CiDev) (m : ℕ) (hm : 0 < m) (hr : 0 < rate) : 0 < kernelScale c m (m / rate) := by
  have hm' : (0 : ℝ) < m := by exact_mod_cast hm
  cases c <;> simp only [kernelScale] <;> positivity

theorem num_within (h : NormalNoise P W s2) (hs : 0 < s2) (hr : 0 < rate) {k : Kind} {κ : ℝ} (hκ : κ ≠ 0) {x : ℕ → Ω → ℝ}
    (hx : ∀ ω, IsNoise k κ (fun i => x i ω) (fun i => W i ω)) (c : CiDev) {m N : ℕ} (hu : Usable c.fn N m) {call : Py NV} {ε : ℝ}
    (hw : EdfWithin P call (fun ω => value c.fn (fun i => x i ω) N rate m) ε) : NumNear call (ciEdf c k m N) ε := by
  have hM := summands_pos' hu
  have hM' : (0 : ℝ) < summands c.fn N m := by exact_mod_cast hM
  have hk := kernelScale_pos c m hu.1 hr
  exact EdfWithin.num h hs (filt_zero c k m) (filt_ne c k m _ hu.1) hw hM
    (κ := κ ^ 2 / kernelScale c m (m / rate) / (summands c.fn N m : ℕ)) (by positivity)
    fun ω => value_sq (hx ω) c hr hu

theorem num_exact (h : NormalNoise P W s2) (hs : 0 < s2) (hr : 0 < rate) {k : Kind} {κ : ℝ} (hκ : κ ≠ 0) {x : ℕ → Ω → ℝ}
    (hx : ∀ ω, IsNoise k κ (fun i => x i ω) (fun i => W i ω)) (c : CiDev) {m N : ℕ} (hu : Usable c.fn N m) {call : Py NV}
    (hw : EdfExact P call (fun ω => value c.fn (fun i => x i ω) N rate m)) : NumNear call (ciEdf c k m N) 0 := by
  have hM := summands_pos' hu
  have hM' : (0 : ℝ) < summands c.fn N m := by exact_mod_cast hM
  have hk := kernelScale_pos c m hu.1 hr
  obtain ⟨r, h1, h2⟩ := hw
  have h6 := edf_filter h hs _ hM (filt c k m) (filtLen c k m) (ciHop c m) (filt_zero c k m) (filt_ne c k m _ hu.1)
    (κ ^ 2 / kernelScale c m (m / rate) / (summands c.fn N m : ℕ)) (by positivity)
  rw [← lagN_eq _ hM] at h6
  have h7 := h6.congr (fun ω => (value_sq (hx ω) c hr hu).symm) rfl
  have e : r = ciEdf c k m N := by rw [h2.2.2, ciEdf, filterEdf, h7.2.2]
  exact ⟨r, h1, e ▸ filterEdf_pos (filt_ne c k m _ hu.1) hM, by rw [e]; simp⟩

theorem decimated_tendsto {m : ℕ} (hm : 0 < m) (b : ℕ) : ∀ᶠ N in atTop, b < decimated N m := by
  filter_upwards [eventually_ge_atTop (b * m + 1)] with N hN
  unfold decimated
  have : b ≤ (N - 1) / m := (Nat.le_div_iff_mul_le hm).2 (by omega)
  omega

theorem noise_wpm (a b : ℝ) (w : ℕ → ℝ) : IsNoise .wpm 1 (offsetPhase a b w) w := ⟨a, b, fun i => by rw [one_mul]; rfl⟩

theorem noise_wfm (c : ℝ) (y : ℕ → ℝ) (N : ℕ) (rate : ℝ) : IsNoise .wfm (1 / rate) (phaseOf (fun i => c + y i) N rate) y := by
  refine ⟨(c - (∑ k ∈ range N, (c + y k)) / N) / rate, fun i => ?_⟩
  have := phaseOf_add (fun i => c + y i) N rate i 1
  rw [this, sum_range_one, add_zero]
  unfold incr
  ring

theorem noise_line (k : Kind) (a b : ℝ) (w : ℕ → ℝ) : IsNoise k 1 (fun i => a + b * i + noise k w i) w := by
  cases k
  · exact ⟨a, b, fun i => by simp only [noise, one_mul]⟩
  · refine ⟨b, fun i => ?_⟩
    simp only [noise, sum_range_succ]
    push_cast
    ring
  · intro i
    simp only [noise, sum_range_succ]
    push_cast
    ring

theorem wpm_num (h : NormalNoise P W s2) (hs : 0 < s2) (c : CiDev) {m : ℕ} (hm : 0 < m) : ∀ᶠ N in atTop,
    NumNear (edf_greenhall 2 c.order m N c.overlapping c.modified) (ciEdf c .wpm m N) (covErr c .wpm m) := by
  have hm' : (0 : ℝ) < m := by exact_mod_cast hm
  have key := fun (N : ℕ) (hu : Usable c.fn N m) (call : Py NV) => num_exact h hs (rate := 1) one_pos one_ne_zero
    (x := fun i ω => offsetPhase 0 0 (fun i => W i ω) i) (fun ω => noise_wpm 0 0 _) c hu (call := call)
  have key' := fun (N : ℕ) (hu : Usable c.fn N m) (call : Py NV) (ε : ℝ) => num_within h hs (rate := 1) one_pos one_ne_zero
    (x := fun i ω => offsetPhase 0 0 (fun i => W i ω) i) (fun ω => noise_wpm 0 0 _) c hu (call := call) (ε := ε)
  filter_upwards [usable_eventually c.fn hm (by cases c <;> simp [CiDev.fn]), decimated_tendsto hm 4, decimated_tendsto hm 6,
    eventually_gt_atTop (6 * m)] with N hu h4 h6 hN
  cases c <;> simp only [CiDev.order, CiDev.overlapping, CiDev.modified, covErr, CiDev.fn] at *
  case adev => exact key N hu _ (adev_edf_pm h hs one_pos 0 0 N m hu h4)
  case oadev => exact key N hu _ (oadev_edf_pm h hs one_pos 0 0 N m hu (by omega))
  case hdev => exact key N hu _ (hdev_edf_pm h hs one_pos 0 0 N m hu h6)
  case ohdev => exact key N hu _ (ohdev_edf_pm h hs one_pos 0 0 N m hu hN)
  case mdev =>
    split_ifs with h100
    · have := mdev_edf_pm h hs (rate := 1) one_pos 0 0 N m hu.1 hu.2.2.2.2 (by omega) 1 one_ne_zero
      simp only [one_mul] at this
      exact key N hu _ this
    · have := mdev_all_pm h hs (rate := 1) one_pos 0 0 N m hu.1 hu.2.2.2.2 1 one_ne_zero
      simp only [one_mul] at this
      exact key' N hu _ _ this
  case tdev =>
    split_ifs with h100
    · exact key N hu _ (mdev_edf_pm h hs (rate := 1) one_pos 0 0 N m hu.1 hu.2.2.2.2 (by omega) (m / 1 / √3) (by positivity))
    · exact key' N hu _ _ (mdev_all_pm h hs (rate := 1) one_pos 0 0 N m hu.1 hu.2.2.2.2 (m / 1 / √3) (by positivity))

theorem wfm_num (h : NormalNoise P W s2) (hs : 0 < s2) (c : CiDev) {m : ℕ} (hm : 0 < m) : ∀ᶠ N in atTop,
    NumNear (edf_greenhall 0 c.order m N c.overlapping c.modified) (ciEdf c .wfm m N) (covErr c .wfm m) := by
  have hm' : (0 : ℝ) < m := by exact_mod_cast hm
  have key := fun (N : ℕ) (hu : Usable c.fn (N + 1) m) (call : Py NV) (ε : ℝ) => num_within h hs (rate := 1) one_pos
    (by norm_num : (1 / 1 : ℝ) ≠ 0) (x := fun i ω => phaseOf (fun i => 0 + W i ω) N 1 i)
    (fun ω => noise_wfm 0 (fun i => W i ω) N 1) c hu (call := call) (ε := ε)
  filter_upwards [usable_eventually c.fn hm (by cases c <;> simp [CiDev.fn]), eventually_gt_atTop 0] with N' hu hN
  obtain ⟨N, rfl⟩ : ∃ N, N' = N + 1 := ⟨N' - 1, by omega⟩
  cases c <;> simp only [CiDev.order, CiDev.overlapping, CiDev.modified, covErr, CiDev.fn] at *
  case adev => exact key N hu _ _ (adev_near_fm h hs one_pos 0 N m hu)
  case oadev =>
    split_ifs with h100
    · rw [add_zero]
      exact key N hu _ _ (oadev_near_fm h hs one_pos 0 N m hu (by omega))
    · exact key N hu _ _ (oadev_all h hs one_pos 0 N m hu)
  case hdev => exact key N hu _ _ (hdev_near_fm h hs one_pos 0 N m hu)
  case ohdev =>
    split_ifs with h100
    · rw [add_zero]
      exact key N hu _ _ (ohdev_near_fm h hs one_pos 0 N m hu (by omega))
    · exact key N hu _ _ (ohdev_all h hs one_pos 0 N m hu)
  case mdev =>
    split_ifs with h100
    · have := mdev_near_fm h hs (rate := 1) one_pos 0 N m hu.1 hu.2.2.2.2 (by omega) 1 one_ne_zero
      simp only [one_mul] at this
      rw [add_zero]
      exact key N hu _ _ this
    · have := mdev_all h hs (rate := 1) one_pos 0 N m hu.1 hu.2.2.2.2 1 one_ne_zero
      simp only [one_mul] at this
      exact key N hu _ _ this
  case tdev =>
    split_ifs with h100
    · rw [add_zero]
      exact key N hu _ _ (mdev_near_fm h hs (rate := 1) one_pos 0 N m hu.1 hu.2.2.2.2 (by omega) (m / 1 / √3) (by positivity))
    · exact key N hu _ _ (mdev_all h hs (rate := 1) one_pos 0 N m hu.1 hu.2.2.2.2 (m / 1 / √3) (by positivity))

theorem rwfm_num (h : NormalNoise P W s2) (hs : 0 < s2) (c : CiDev) {m : ℕ} (hm : 0 < m) :
    ∀ᶠ N in atTop,
      NumNear (edf_greenhall (-2) c.order m N c.overlapping c.modified) (ciEdf c .rwfm m N) (covErr c .rwfm m) := by
  have hm' : (0 : ℝ) < m := by exact_mod_cast hm
  have hx : ∀ (i : ℕ) (ω : Ω), noise .rwfm (fun j => W j ω) (i + 2) - 2 * noise .rwfm (fun j => W j ω) (i + 1)
      + noise .rwfm (fun j => W j ω) i = 1 * W i ω := fun i ω => by
    simp only [noise, sum_range_succ]
    ring
  have key := fun (N : ℕ) (hu : Usable c.fn N m) (call : Py NV) (ε : ℝ) => num_within h hs (rate := 1) one_pos one_ne_zero
    (x := fun i ω => noise .rwfm (fun j => W j ω) i) (k := .rwfm) (fun ω i => hx i ω) c hu (call := call) (ε := ε)
  filter_upwards [usable_eventually c.fn hm (by cases c <;> simp [CiDev.fn])] with N hu
  cases c <;> simp only [CiDev.order, CiDev.overlapping, CiDev.modified, covErr, CiDev.fn] at *
  case adev => exact key N hu _ _ (adev_walk h hs one_pos one_ne_zero (x := fun i ω => noise .rwfm (fun j => W j ω) i) hx N m hu)
  case oadev =>
    split_ifs with h100
    · rw [add_zero]
      exact key N hu _ _ (oadev_walk h hs one_pos one_ne_zero (x := fun i ω => noise .rwfm (fun j => W j ω) i) hx N m hu (by omega))
    · exact key N hu _ _ (oadev_walk_all h hs one_pos one_ne_zero (x := fun i ω => noise .rwfm (fun j => W j ω) i) hx N m hu)
  case hdev => exact key N hu _ _ (hdev_walk h hs one_pos one_ne_zero (x := fun i ω => noise .rwfm (fun j => W j ω) i) hx N m hu)
  case ohdev =>
    split_ifs with h100
    · rw [add_zero]
      exact key N hu _ _ (ohdev_walk h hs one_pos one_ne_zero (x := fun i ω => noise .rwfm (fun j => W j ω) i) hx N m hu (by omega))
    · exact key N hu _ _ (ohdev_walk_all h hs one_pos one_ne_zero (x := fun i ω => noise .rwfm (fun j => W j ω) i) hx N m hu)
  case mdev =>
    split_ifs with h100
    · have := mdev_walk h hs (rate := 1) one_pos one_ne_zero (x := fun i ω => noise .rwfm (fun j => W j ω) i) hx N m hu.1 hu.2.2.2.2 (by omega) 1 one_ne_zero
      simp only [one_mul] at this
      rw [add_zero]
      exact key N hu _ _ this
    · have := mdev_walk_all h hs (rate := 1) one_pos one_ne_zero (x := fun i ω => noise .rwfm (fun j => W j ω) i) hx N m hu.1 hu.2.2.2.2 1 one_ne_zero
      simp only [one_mul] at this
      exact key N hu _ _ this
  case tdev =>
    split_ifs with h100
    · rw [add_zero]
      exact key N hu _ _ (mdev_walk h hs (rate := 1) one_pos one_ne_zero (x := fun i ω => noise .rwfm (fun j => W j ω) i) hx N m hu.1 hu.2.2.2.2 (by omega) (m / 1 / √3) (by positivity))
    · exact key N hu _ _ (mdev_walk_all h hs (rate := 1) one_pos one_ne_zero (x := fun i ω => noise .rwfm (fun j => W j ω) i) hx N m hu.1 hu.2.2.2.2 (m / 1 / √3) (by positivity))

theorem all_num (h : NormalNoise P W s2) (hs : 0 < s2) (c : CiDev) (k : Kind) {m : ℕ} (hm : 0 < m) :
    ∀ᶠ N in atTop,
      NumNear (edf_greenhall (alphaOf k) c.order m N c.overlapping c.modified) (ciEdf c k m N) (covErr c k m) := by
  cases k
  · exact wpm_num h hs c hm
  · exact wfm_num h hs c hm
  · exact rwfm_num h hs c hm

theorem covErr_nonneg (c : CiDev) (k : Kind) (m : ℕ) : 0 ≤ covErr c k m := by
  cases k <;> cases c <;> simp only [covErr, walkErr, modWalkErr] <;> (try split_ifs) <;> positivity

/-! ## Long records -/

theorem covers_core (h : NormalNoise P W s2) (hs : 0 < s2) (hr : 0 < rate) (c : CiDev) (k : Kind) {m : ℕ} (hm : 0 < m)
    {κ : ℝ} (hκ : κ ≠ 0) {x : ℕ → ℕ → Ω → ℝ}
    (hx : ∀ L ω, IsNoise k κ (fun i => x L i ω) (fun i => W i ω)) {ppf : ℝ → ℝ → NV} (hp : Chi2Ppf ppf) {ci : ℝ}
    (h0 : 1 / 2 ≤ ci) (h1 : ci < 1) (hε : covErr c k m < 1) {σ : ℝ} (hσ : σ = √(κ ^ 2 * s2 * trueVar c k m (m / rate))) :
    CoversNear (fun L => P.real {ω | ∃ e, edf_greenhall (alphaOf k) c.order m L c.overlapping c.modified = .ok (some e) ∧
      CiContains ppf (value c.fn (fun i => x L i ω) L rate m) e ci σ}) ci (covErr c k m) := by
  intro η hη
  have hks := kernelScale_pos c m hm hr
  have hkm := kernelMean_pos c k m hm
  have hs' : (0 : ℝ) < s2 := by exact_mod_cast hs
  have htv : 0 < trueVar c k m (m / rate) := by rw [trueVar_eq]; positivity
  have hσ0 : 0 < σ := by rw [hσ]; positivity
  have hσ2 : σ ^ 2 = κ ^ 2 * s2 * trueVar c k m (m / rate) := by rw [hσ, Real.sq_sqrt (by positivity)]
  have hS : 0 < ciHop c m := by cases c <;> simp [ciHop, CiDev.fn, hop, hm]
  refine filter_covers h hs (filt_zero c k m) (filt_ne c k m (ciHop c m) hm) hp hσ0 h0 h1 (covErr_nonneg c k m) hε hS
    (summands_tendsto c.fn hm) ?_ (all_num h hs c k hm) hη
  filter_upwards [usable_eventually c.fn hm (by cases c <;> simp [CiDev.fn])] with L hu ω
  have hM : (0 : ℝ) < summands c.fn L m := by exact_mod_cast summands_pos' hu
  rw [value_sq (hx L ω) c hr hu, filt_cov0 c k m _ hm, hσ2, trueVar_eq]
  congr 1
  field_simp

theorem covered_phase (ppf : ℝ → ℝ → NV) (c : CiDev) {m N n : ℕ} (hu : Usable c.fn N m) (hr : 0 < rate) (x : ℕ → ℝ) (alpha : ℤ)
    (ci σ : ℝ) : Covered ppf c (tab N x) rate "phase" m alpha n ci σ ↔
      ∃ e, edf_greenhall alpha c.order m n c.overlapping c.modified = .ok (some e) ∧
        CiContains ppf (value c.fn x N rate m) e ci σ := by
  obtain ⟨errs, ns, hrun⟩ := run_at hu hr x
  constructor
  · rintro ⟨d, errs', ns', e, h1, h2, h3⟩
    rw [hrun] at h1
    have : d = value c.fn x N rate m := by simpa using (congrArg DevOut.devs (Except.ok.inj h1)).symm
    exact ⟨e, h2, this ▸ h3⟩
  · rintro ⟨e, h2, h3⟩
    exact ⟨_, errs, ns, e, hrun, h2, h3⟩

theorem covered_freq (ppf : ℝ → ℝ → NV) (c : CiDev) {m N n : ℕ} (hN : 0 < N) (hu : Usable c.fn (N + 1) m) (hr : 0 < rate)
    (y : ℕ → ℝ) (alpha : ℤ) (ci σ : ℝ) : Covered ppf c (tab N y) rate "freq" m alpha n ci σ ↔
      ∃ e, edf_greenhall alpha c.order m n c.overlapping c.modified = .ok (some e) ∧
        CiContains ppf (value c.fn (phaseOf y N rate) (N + 1) rate m) e ci σ := by
  obtain ⟨errs, ns, hrun⟩ := run_freq_at hN hu hr y
  constructor
  · rintro ⟨d, errs', ns', e, h1, h2, h3⟩
    rw [hrun] at h1
    have : d = value c.fn (phaseOf y N rate) (N + 1) rate m := by simpa using (congrArg DevOut.devs (Except.ok.inj h1)).symm
    exact ⟨e, h2, this ▸ h3⟩
  · rintro ⟨e, h2, h3⟩
    exact ⟨_, errs, ns, e, hrun, h2, h3⟩

theorem Spec.CoversNear.congr {p q : ℕ → ℝ} {ci ε : ℝ} (h : CoversNear p ci ε) (he : ∀ᶠ N in atTop, q N = p N) : CoversNear q ci ε :=
  fun η hη => by filter_upwards [h η hη, he] with N h1 h2; rwa [h2]

/-- C93: how often the confidence interval of a deviation of phase data contains the deviation of the noise -/
theorem coverage_phase (h : NormalNoise P W s2) (hs : 0 < s2) (hr : 0 < rate) (c : CiDev) (k : Kind) (a b : ℝ) {m : ℕ} (hm : 0 < m)
    {ppf : ℝ → ℝ → NV} (hp : Chi2Ppf ppf) {ci : ℝ} (h0 : 1 / 2 ≤ ci) (h1 : ci < 1)
    (hε : covErr c k m < 1) :
    CoversNear (fun N => P.real {ω | Covered ppf c (tab N (fun i => a + b * i + noise k (fun j => W j ω) i)) rate "phase" m
      (alphaOf k) N ci √(s2 * trueVar c k m (m / rate))}) ci (covErr c k m) := by
  refine (covers_core h hs hr c k hm one_ne_zero (x := fun _ i ω => a + b * i + noise k (fun j => W j ω) i)
    (fun _ ω => noise_line k a b _) hp h0 h1 hε (σ := √(s2 * trueVar c k m (m / rate))) (by rw [one_pow, one_mul])).congr ?_
  filter_upwards [usable_eventually c.fn hm (by cases c <;> simp [CiDev.fn])] with N hu
  simp only [covered_phase ppf c hu hr]

/-- C93: for white phase noise the interval contains the deviation with a probability that tends to the probability asked
for -/
theorem coverage_white_phase (h : NormalNoise P W s2) (hs : 0 < s2) (hr : 0 < rate) (c : CiDev) (a b : ℝ) {m : ℕ} (hm : 0 < m)
    (hc : c.modified = true → 3 * m ≤ 100) {ppf : ℝ → ℝ → NV} (hp : Chi2Ppf ppf) {ci : ℝ} (h0 : 1 / 2 ≤ ci) (h1 : ci < 1) :
    Tendsto (fun N => P.real {ω | Covered ppf c (tab N (fun i => a + b * i + W i ω)) rate "phase" m 2 N ci
      √(s2 * trueVar c .wpm m (m / rate))}) atTop (𝓝 ci) := by
  have e : covErr c .wpm m = 0 := by cases c <;> simp_all [covErr, CiDev.modified]
  have := coverage_phase h hs hr c .wpm a b hm hp h0 h1 (by rw [e]; exact one_pos)
  rw [e] at this
  exact Spec.CoversNear.exact this

/-- C93: for frequency data whose noise is white -/
theorem coverage_white_freq {Y : ℕ → Ω → ℝ} (h : NormalNoise P Y s2) (hs : 0 < s2) (hr : 0 < rate) (c : CiDev) (y0 : ℝ) {m : ℕ}
    (hm : 0 < m) {ppf : ℝ → ℝ → NV} (hp : Chi2Ppf ppf) {ci : ℝ} (h0 : 1 / 2 ≤ ci) (h1 : ci < 1) (hε : covErr c .wfm m < 1) :
    CoversNear (fun N => P.real {ω | Covered ppf c (tab N (fun i => y0 + Y i ω)) rate "freq" m 0 (N + 1) ci
      √(s2 / rate ^ 2 * trueVar c .wfm m (m / rate))}) ci (covErr c .wfm m) := by
  have key := covers_core h hs hr c .wfm hm (one_div_pos.2 hr).ne'
    (x := fun L i ω => phaseOf (fun i => y0 + Y i ω) (L - 1) rate i) (fun L ω => noise_wfm y0 (fun i => Y i ω) (L - 1) rate)
    hp h0 h1 hε (σ := √(s2 / rate ^ 2 * trueVar c .wfm m (m / rate))) (by congr 1; ring)
  have key' : CoversNear _ _ _ := fun η hη => (tendsto_add_atTop_nat 1).eventually (key η hη)
  refine key'.congr ?_
  filter_upwards [(tendsto_add_atTop_nat 1).eventually (usable_eventually c.fn hm (by cases c <;> simp [CiDev.fn])),
    eventually_gt_atTop 0] with N hu hN
  simp only [covered_freq ppf c hN hu hr, Nat.add_sub_cancel]
  rfl

theorem noise_walk (c : ℝ) (y : ℕ → ℝ) (N : ℕ) (rate : ℝ) :
    IsNoise .rwfm (1 / rate) (phaseOf (fun i => c + ∑ j ∈ range i, y j) N rate) y := by
  intro i
  have e1 := phaseOf_add (fun i => c + ∑ j ∈ range i, y j) N rate i 1
  have e2 := phaseOf_add (fun i => c + ∑ j ∈ range i, y j) N rate (i + 1) 1
  rw [sum_range_one, add_zero] at e1 e2
  rw [show i + 2 = i + 1 + 1 from rfl, e2, e1]
  unfold incr
  simp only [sum_range_succ]
  ring

/-- C93: for frequency data that are a random walk -/
theorem coverage_walk_freq {Y : ℕ → Ω → ℝ} (h : NormalNoise P Y s2) (hs : 0 < s2) (hr : 0 < rate) (c : CiDev) (y0 : ℝ) {m : ℕ}
    (hm : 0 < m) {ppf : ℝ → ℝ → NV} (hp : Chi2Ppf ppf) {ci : ℝ} (h0 : 1 / 2 ≤ ci) (h1 : ci < 1)
    (hε : covErr c .rwfm m < 1) :
    CoversNear (fun N => P.real {ω | Covered ppf c (tab N (fun i => y0 + ∑ j ∈ range i, Y j ω)) rate "freq" m (-2) (N + 1) ci
      √(s2 / rate ^ 2 * trueVar c .rwfm m (m / rate))}) ci (covErr c .rwfm m) := by
  have key := covers_core h hs hr c .rwfm hm (one_div_pos.2 hr).ne'
    (x := fun L i ω => phaseOf (fun i => y0 + ∑ j ∈ range i, Y j ω) (L - 1) rate i)
    (fun L ω => noise_walk y0 (fun i => Y i ω) (L - 1) rate)
    hp h0 h1 hε (σ := √(s2 / rate ^ 2 * trueVar c .rwfm m (m / rate))) (by congr 1; ring)
  have key' : CoversNear _ _ _ := fun η hη => (tendsto_add_atTop_nat 1).eventually (key η hη)
  refine key'.congr ?_
  filter_upwards [(tendsto_add_atTop_nat 1).eventually (usable_eventually c.fn hm (by cases c <;> simp [CiDev.fn])),
    eventually_gt_atTop 0] with N hu hN
  simp only [covered_freq ppf c hN hu hr, Nat.add_sub_cancel]
  rfl

/-- C93: the same for `confidence_interval_noiseID`, which identifies the noise from the phase data -/
theorem coverage_noise_id {fit : List ℝ → ℕ → ℕ → ℝ} (hfit : IsLSFit fit) (h : NormalNoise P W s2) (hs : 0 < s2) (hr : 0 < rate)
    (c : CiDev) (k : Kind) (a b : ℝ) {m : ℕ} (hm : 0 < m) {ppf : ℝ → ℝ → NV} (hp : Chi2Ppf ppf) {ci : ℝ}
    (h0 : 1 / 2 ≤ ci) (h1 : ci < 1) (hε : covErr c k m < 1) :
    CoversNear (fun N => P.real {ω | IdCovered ppf fit c (tab N (fun i => a + b * i + noise k (fun j => W j ω) i)) rate m ci
      √(s2 * trueVar c k m (m / rate))}) ci (covErr c k m) := by
  intro η hη
  have hf : ciFlags c.name = some (c.order, c.overlapping, c.modified) := by cases c <;> decide
  have key := coverage_phase h hs hr c k a b hm hp h0 h1 hε (η / 2) (by positivity)
  have hu := usable_eventually c.fn hm (by cases c <;> simp [CiDev.fn])
  have hall := all_num h hs c k hm
  have hid : ∀ᶠ N in atTop, ∃ B : Set Ω, P.real B ≤ η / 2 ∧ ∀ ω, ω ∉ B → ∀ edf,
      edf_greenhall (alphaOf k) c.order m N c.overlapping c.modified = .ok (some edf) →
      confidence_interval_noiseID ppf fit (tab N (fun i => a + b * i + noise k (fun j => W j ω) i))
        (value c.fn (fun i => a + b * i + noise k (fun j => W j ω) i) N rate m) m c.name "phase" ci
        = .ok (confidence_interval ppf (value c.fn (fun i => a + b * i + noise k (fun j => W j ω) i) N rate m) edf ci) := by
    filter_upwards [ci_noise_id_ok hfit h hs k a b 0 hm ppf
      (fun N ω => value c.fn (fun i => a + b * i + noise k (fun j => W j ω) i) N rate m) ci hf (half_pos hη)] with N hN
    refine ⟨_, ENNReal.toReal_le_of_le_ofReal (half_pos hη).le hN, fun ω hω edf he => ?_⟩
    simp only [Set.mem_ofPred_eq, not_not, zero_mul, add_zero] at hω
    exact hω edf he
  filter_upwards [key, hu, hall, hid] with N hk hu hnum ⟨B, hB, hgood⟩
  obtain ⟨e, he, -⟩ := hnum
  simp only [covered_phase ppf c hu hr] at hk
  have hiff : ∀ ω, ω ∉ B → (IdCovered ppf fit c (tab N (fun i => a + b * i + noise k (fun j => W j ω) i)) rate m ci
      √(s2 * trueVar c k m (m / rate)) ↔ ∃ e, edf_greenhall (alphaOf k) c.order m N c.overlapping c.modified = .ok (some e) ∧
        CiContains ppf (value c.fn (fun i => a + b * i + noise k (fun j => W j ω) i) N rate m) e ci
          √(s2 * trueVar c k m (m / rate))) := by
    intro ω hω
    obtain ⟨errs, ns, hrun⟩ := run_at hu hr (fun i => a + b * i + noise k (fun j => W j ω) i)
    have hg := hgood ω hω e he
    constructor
    · rintro ⟨d, errs', ns', lo, hi, h1, h2, h3⟩
      rw [hrun] at h1
      have hd : d = value c.fn (fun i => a + b * i + noise k (fun j => W j ω) i) N rate m := by
        simpa using (congrArg DevOut.devs (Except.ok.inj h1)).symm
      rw [hd, hg] at h2
      exact ⟨e, he, lo, hi, Except.ok.inj h2, h3⟩
    · rintro ⟨e', h2, lo, hi, h3, h4⟩
      have : e' = e := by rw [he] at h2; exact (Option.some.inj (Except.ok.inj h2)).symm
      subst this
      exact ⟨_, errs, ns, lo, hi, hrun, by rw [hg, h3], h4⟩
  constructor
  · have hsub : {ω | ∃ e, edf_greenhall (alphaOf k) c.order m N c.overlapping c.modified = .ok (some e) ∧
        CiContains ppf (value c.fn (fun i => a + b * i + noise k (fun j => W j ω) i) N rate m) e ci
          √(s2 * trueVar c k m (m / rate))} ⊆ {ω | IdCovered ppf fit c (tab N (fun i => a + b * i + noise k (fun j => W j ω) i)) rate m ci
      √(s2 * trueVar c k m (m / rate))} ∪ B := fun ω hω => by
      by_cases hb : ω ∈ B
      · exact .inr hb
      · exact .inl ((hiff ω hb).2 hω)
    have := (measureReal_mono hsub (measure_ne_top P _)).trans (measureReal_union_le _ _)
    linarith [hk.1]
  · have hsub : {ω | IdCovered ppf fit c (tab N (fun i => a + b * i + noise k (fun j => W j ω) i)) rate m ci
      √(s2 * trueVar c k m (m / rate))} ⊆ {ω | ∃ e, edf_greenhall (alphaOf k) c.order m N c.overlapping c.modified = .ok (some e) ∧
        CiContains ppf (value c.fn (fun i => a + b * i + noise k (fun j => W j ω) i) N rate m) e ci
          √(s2 * trueVar c k m (m / rate))} ∪ B := fun ω hω => by
      by_cases hb : ω ∈ B
      · exact .inr hb
      · exact .inl ((hiff ω hb).1 hω)
    have := (measureReal_mono hsub (measure_ne_top P _)).trans (measureReal_union_le _ _)
    linarith [hk.2]

/-! ## White frequency noise without averaging -/

theorem ciEdf_fm_one (N : ℕ) (hN : 4 ≤ N) : ciEdf .oadev .wfm 1 (N + 1) = 2 * ((N : ℝ) - 1) ^ 2 / (3 * (N - 1) - 1) := by
  obtain ⟨M, rfl⟩ : ∃ M, N = M + 1 := ⟨N - 1, by omega⟩
  have hM' : (3 : ℝ) ≤ M := by exact_mod_cast (show 3 ≤ M by omega)
  have eM : summands CiDev.oadev.fn (M + 1 + 1) 1 = M := by simp [summands, CiDev.fn]
  unfold ciEdf filterEdf
  rw [eM]
  have e : ∀ l ∈ Ico 1 M, ((M : ℝ) - l) * filterCov (blocks tapf 2 1) 2 1 l ^ 2 = if l = 1 then (M : ℝ) - l else 0 := by
    intro l hl
    rw [mem_Ico] at hl
    rw [cov_fm_one, if_neg (by omega)]
    split_ifs <;> norm_num
  show (M : ℝ) ^ 2 * filterCov (blocks tapf 2 1) 2 1 0 ^ 2 / lagN M (filterCov (blocks tapf 2 1) 2 1) = _
  rw [lagN_eq M (by omega), sum_congr rfl e, sum_point M 1 one_pos, if_pos (by omega), cov_fm_one, if_pos rfl]
  rw [div_eq_div_iff (by push_cast; nlinarith) (by push_cast; nlinarith)]
  push_cast
  ring

/-- C93: for white frequency noise without averaging the interval of `oadev` contains the deviation less often than asked for,
however long the record: the limit is the probability of the normal distribution between `-√(23/27) z` and `√(23/27) z`, where
`z` is the bound of the interval that has the probability `ci` -/
theorem coverage_white_freq_one {Y : ℕ → Ω → ℝ} (h : NormalNoise P Y s2) (hs : 0 < s2) (hr : 0 < rate) (y0 : ℝ)
    {ppf : ℝ → ℝ → NV} (hp : Chi2Ppf ppf) {ci z : ℝ} (h0 : 1 / 2 ≤ ci) (h1 : ci < 1) (hz0 : 0 ≤ z)
    (hz : (gaussianReal 0 1).real (Set.Icc (-z) z) = ci) :
    Tendsto (fun N => P.real {ω | Covered ppf .oadev (tab N (fun i => y0 + Y i ω)) rate "freq" 1 0 (N + 1) ci √s2})
      atTop (𝓝 ((gaussianReal 0 1).real (Set.Icc (-(√(23 / 27) * z)) (√(23 / 27) * z)))) ∧
    (gaussianReal 0 1).real (Set.Icc (-(√(23 / 27) * z)) (√(23 / 27) * z)) < ci := by
  have hs' : (0 : ℝ) < s2 := by exact_mod_cast hs
  have hlt : √(23 / 27 : ℝ) < 1 := by
    rw [Real.sqrt_lt' one_pos]
    norm_num
  have hzp : 0 < z := by
    refine lt_of_le_of_ne hz0 fun e => ?_
    have := nullSingletonClass_gaussianReal (μ := 0) (one_ne_zero : (1 : ℝ≥0) ≠ 0)
    rw [← e, neg_zero, Set.Icc_self] at hz
    simp only [measureReal_def, measure_singleton, ENNReal.toReal_zero] at hz
    linarith
  refine ⟨?_, ?_⟩
  swap
  · rw [← hz]
    exact gaussI_strictMono (by positivity) (by nlinarith)
  have hev : ∀ᶠ N : ℕ in atTop, 4 ≤ N := eventually_ge_atTop 4
  have hu : ∀ᶠ N in atTop, Usable CiDev.oadev.fn (N + 1) 1 :=
    (tendsto_add_atTop_nat 1).eventually (usable_eventually _ one_pos (by simp [CiDev.fn]))
  have key := filter_follows h hs (filt_zero .oadev .wfm 1) (filt_ne .oadev .wfm 1 (ciHop .oadev 1) one_pos) hp
    (Real.sqrt_pos.2 hs') h0 h1 hz0 hz (one_pos : 0 < ciHop .oadev 1) (C := 1)
    (M := fun N => summands CiDev.oadev.fn (N + 1) 1) ((summands_tendsto CiDev.oadev.fn one_pos).comp (tendsto_add_atTop_nat 1))
    (D := fun N ω => value CiDev.oadev.fn (fun i => phaseOf (fun i => y0 + Y i ω) N rate i) (N + 1) rate 1)
    (by
      filter_upwards [hu] with N hu ω
      have hM : (0 : ℝ) < summands CiDev.oadev.fn (N + 1) 1 := by exact_mod_cast summands_pos' hu
      rw [value_sq (noise_wfm y0 (fun i => Y i ω) N rate) .oadev hr hu, filt_cov0 _ _ _ _ one_pos, Real.sq_sqrt hs'.le]
      congr 1
      simp only [kernelScale, kernelMean, diffMean, Nat.cast_one]
      field_simp)
    (r := fun N => 18 * ((N : ℝ) - 1) ^ 2 / (23 * (N - 1) - 6)) one_pos ?_
  · have hlim : Tendsto (fun N : ℕ => gaussI (√((23 * ((N : ℝ) - 1) - 6) / (9 * (3 * (N - 1) - 1))) * z)) atTop
        (𝓝 (gaussI (√(23 / 27) * z))) := by
      refine (gaussI_continuous.tendsto _).comp (Tendsto.mul_const z ((Real.continuous_sqrt.tendsto _).comp ?_))
      have e : Tendsto (fun N : ℕ => (23 - 29 / (N : ℝ)) / (27 - 36 / N)) atTop (𝓝 ((23 - 0) / (27 - 0))) :=
        ((tendsto_const_div_atTop_nhds_zero_nat 29).const_sub 23).div ((tendsto_const_div_atTop_nhds_zero_nat 36).const_sub 27)
          (by norm_num)
      rw [sub_zero, sub_zero] at e
      refine e.congr' ?_
      filter_upwards [hev] with N hN
      have hN' : (4 : ℝ) ≤ N := by exact_mod_cast hN
      have hN0 : (N : ℝ) ≠ 0 := by linarith
      have h27 : (27 : ℝ) - 36 / N ≠ 0 := by
        have : 36 / (N : ℝ) ≤ 9 := by rw [div_le_iff₀ (by linarith)]; linarith
        linarith
      rw [div_eq_div_iff h27 (by nlinarith)]
      field_simp
      ring
    have := key.add hlim
    rw [zero_add] at this
    have hne : Nonempty Ω := nonempty_of_isProbabilityMeasure P
    refine this.congr' ?_
    filter_upwards [hev, hu] with N hN hu
    have hN' : (4 : ℝ) ≤ N := by exact_mod_cast hN
    have hcall := ((edf_white_freq_one h hs hr y0 N hN).single hr.ne' (Classical.choice hne) 1 _ fun ω =>
      run_freq_at (by omega) hu hr (fun i => y0 + Y i ω)) rfl
    simp only [covered_freq ppf .oadev (by omega : 0 < N) hu hr]
    have e2 : ∀ ω, (∃ e, edf_greenhall 0 CiDev.oadev.order 1 (N + 1) CiDev.oadev.overlapping CiDev.oadev.modified = .ok (some e) ∧
        CiContains ppf (value CiDev.oadev.fn (phaseOf (fun i => y0 + Y i ω) N rate) (N + 1) rate 1) e ci √s2) ↔
        CiContains ppf (value CiDev.oadev.fn (phaseOf (fun i => y0 + Y i ω) N rate) (N + 1) rate 1)
          (18 * ((N : ℝ) - 1) ^ 2 / (23 * (N - 1) - 6)) ci √s2 := fun ω => by
      have hc := hcall.2.1
      constructor
      · rintro ⟨e, h1, h2⟩
        have : e = 18 * ((N : ℝ) - 1) ^ 2 / (23 * (N - 1) - 6) := by
          have h3 := h1.symm.trans hc
          exact Option.some.inj (Except.ok.inj h3)
        exact this ▸ h2
      · exact fun h2 => ⟨_, hc, h2⟩
    simp only [e2]
    have e3 : filterEdf (filt .oadev .wfm 1) (filtLen .oadev .wfm 1) (ciHop .oadev 1) (summands CiDev.oadev.fn (N + 1) 1)
        / (18 * ((N : ℝ) - 1) ^ 2 / (23 * (N - 1) - 6)) = (23 * ((N : ℝ) - 1) - 6) / (9 * (3 * (N - 1) - 1)) := by
      rw [← ciEdf, ciEdf_fm_one N hN]
      have : (N : ℝ) - 1 ≠ 0 := by linarith
      have : (3 * ((N : ℝ) - 1) - 1) ≠ 0 := by linarith
      have : (23 * ((N : ℝ) - 1) - 6) ≠ 0 := by linarith
      generalize (N : ℝ) - 1 = M at *
      field_simp
      ring
    rw [e3, sub_add_cancel]
  · filter_upwards [hev] with N hN
    have hN' : (4 : ℝ) ≤ N := by exact_mod_cast hN
    have hp1 : 0 < 23 * ((N : ℝ) - 1) - 6 := by linarith
    have hp2 : 0 < (N : ℝ) - 1 := by linarith
    have hp3 : 0 < 3 * ((N : ℝ) - 1) - 1 := by linarith
    refine ⟨by positivity, ?_⟩
    rw [← ciEdf, ciEdf_fm_one N hN, Real.sqrt_le_left zero_le_one, one_pow, div_le_one (by positivity), div_le_div_iff₀ hp3 hp1]
    nlinarith

/-! ## The hypotheses are met -/

/-- a quantile function that is total -/
example : Chi2Ppf (fun q k => some (chi2Quantile q k)) := fun _ _ _ _ _ => rfl

/-- white phase noise: the interval asked for with probability 0.95 has, in the limit, this probability -/
example : Tendsto (fun N => gaussNoise.real {ω | Covered (fun q k => some (chi2Quantile q k)) .mdev
    (tab N (fun i => 1 + 2 * i + ω i)) 10 "phase" 8 2 N 0.95 √((1 : ℝ≥0) * (6 * (8 : ℕ) / (2 * (8 : ℕ) ^ 2 * ((8 : ℕ) / 10) ^ 2)))})
    atTop (𝓝 0.95) :=
  coverage_white_phase normal_gauss one_pos (by norm_num) .mdev 1 2 (by norm_num) (by norm_num)
    (fun _ _ _ _ _ => rfl) (by norm_num) (by norm_num)

/-- white frequency noise averaged over 25 points: asked for 0.95, the limit is between 0.904 and 1 -/
example : ∀ᶠ N in atTop, (0.904 : ℝ) ≤ gaussNoise.real {ω | Covered (fun q k => some (chi2Quantile q k)) .oadev
    (tab N (fun i => 3 + ω i)) 10 "freq" 25 0 (N + 1) 0.95
      √((1 : ℝ≥0) / 10 ^ 2 * (2 * (25 : ℕ) / (2 * ((25 : ℕ) / 10) ^ 2)))} := by
  have e : covErr .oadev .wfm 25 = 1 / 20 := by norm_num [covErr]
  have := coverage_white_freq normal_gauss one_pos (rate := 10) (by norm_num) .oadev 3 (m := 25) (by norm_num)
    (ppf := fun q k => some (chi2Quantile q k)) (fun _ _ _ _ _ => rfl) (ci := 0.95) (by norm_num) (by norm_num)
    (by rw [e]; norm_num) (1 / 10000) (by norm_num)
  rw [e] at this
  filter_upwards [this] with N hN
  exact le_trans (by norm_num) hN.1

/-- random walk of the frequency, Hadamard deviation, with the noise identified from the data -/
example {fit : List ℝ → ℕ → ℕ → ℝ} (hfit : IsLSFit fit) : ∀ᶠ N in atTop, (0.88 : ℝ) ≤ gaussNoise.real
    {ω | IdCovered (fun q k => some (chi2Quantile q k)) fit .hdev
      (tab N (fun i => 1 + 2 * i + noise .rwfm (fun j => ω j) i)) 10 20 0.9
      √((1 : ℝ≥0) * (((20 : ℕ) : ℝ) * ((20 : ℕ) ^ 2 + 1) / (6 * ((20 : ℕ) / 10) ^ 2)))} := by
  have e : covErr .hdev .rwfm 20 = 61 / 4000 := by norm_num [covErr, walkErr]
  have := coverage_noise_id hfit normal_gauss one_pos (rate := 10) (by norm_num) .hdev .rwfm 1 2 (m := 20) (by norm_num)
    (ppf := fun q k => some (chi2Quantile q k)) (fun _ _ _ _ _ => rfl) (ci := 0.9) (by norm_num) (by norm_num)
    (by rw [e]; norm_num) (1 / 10000) (by norm_num)
  rw [e] at this
  filter_upwards [this] with N hN
  exact le_trans (by norm_num) hN.1

/-- white frequency noise without averaging: there is such a `z`, and the limit is below 0.95 -/
example : ∃ p < (0.95 : ℝ), Tendsto (fun N => gaussNoise.real {ω | Covered (fun q k => some (chi2Quantile q k)) .oadev
    (tab N (fun i => 3 + ω i)) 10 "freq" 1 0 (N + 1) 0.95 √((1 : ℝ≥0) : ℝ)}) atTop (𝓝 p) := by
  obtain ⟨z, hz0, hz⟩ := exists_normal_interval (ci := 0.95) (by norm_num) (by norm_num)
  have := coverage_white_freq_one normal_gauss one_pos (rate := 10) (by norm_num) 3
    (ppf := fun q k => some (chi2Quantile q k)) (fun _ _ _ _ _ => rfl) (by norm_num) (by norm_num) hz0 hz
  exact ⟨_, this.2, this.1⟩

end AT
