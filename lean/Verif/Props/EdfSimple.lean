import Verif.Lemmas.EdfSimple
import Verif.Props.Coverage
import Verif.Props.Edf
import Mathlib.Topology.Algebra.Field

/-!
# C95: how near `edf_simple` is to the degrees of freedom of the overlapping Allan variance
-/

namespace AT

open Spec Finset MeasureTheory ProbabilityTheory Filter Topology
open scoped NNReal ENNReal

variable {Ω : Type} [MeasurableSpace Ω] {P : Measure Ω}

/-! ## Specification -/

/-- The call returns a number that is at least `lo` times and at most `hi` times the equivalent degrees of freedom of the
square of `D`. -/
def Spec.EdfRatio (P : Measure Ω) (call : Py NV) (D : Ω → ℝ) (lo hi : ℝ) : Prop :=
  ∃ r e, call = .ok (some r) ∧ HasEdf P (fun ω => D ω ^ 2) e ∧ 0 < e ∧ lo * e ≤ r ∧ r ≤ hi * e

/-- the bounds -/
noncomputable def Spec.simpleLo : Kind → ℝ
  | .wpm => 3 / 4
  | .wfm => 9 / 10
  | .rwfm => 7 / 8

noncomputable def Spec.simpleHi : Kind → ℝ
  | .wpm => 5 / 4
  | .wfm => 6 / 5
  | .rwfm => 9 / 5

/-- the limit of the ratio for long records -/
noncomputable def Spec.simpleRatio (m : ℕ) : Kind → ℝ
  | .wpm => 35 / 36
  | .wfm => 1
  | .rwfm => (45 + 49 * m ^ 2 + 70 * m ^ 4 + 151 * m ^ 6) / (35 * m ^ 2 * (2 * m ^ 2 + 1) ^ 2)

/-- `oadev`, asked for the averaging time `m / rate`, reports a deviation; `edf_simple`, called with the number `n` of phase
points, the factor `m` and the exponent `alpha`, returns degrees of freedom; and the confidence interval that is computed from
them contains `σ`. -/
def Spec.SimpleCovered (ppf : ℝ → ℝ → NV) (data : List ℝ) (rate : ℝ) (data_type : String) (m : ℕ) (alpha : ℤ)
    (n : ℕ) (ci σ : ℝ) : Prop :=
  ∃ d errs ns e, DevName.oadev.run data rate data_type (.list [(m : ℝ) / rate]) = .ok ⟨[(m : ℝ) / rate], [d], errs, ns⟩ ∧
    edf_simple n m (some alpha) = .ok (some e) ∧ CiContains ppf d e ci σ

/-! ## The degrees of freedom -/

variable [IsProbabilityMeasure P] {W : ℕ → Ω → ℝ} {s2 : ℝ≥0} {rate : ℝ}

theorem ci_hasEdf (h : NormalNoise P W s2) (hs : 0 < s2) (hr : 0 < rate) {k : Kind} {κ : ℝ} (hκ : κ ≠ 0) {x : ℕ → Ω → ℝ}
    (hx : ∀ ω, IsNoise k κ (fun i => x i ω) (fun i => W i ω)) (c : CiDev) {m N : ℕ} (hu : Usable c.fn N m) :
    HasEdf P (fun ω => value c.fn (fun i => x i ω) N rate m ^ 2) (ciEdf c k m N) ∧ 0 < ciEdf c k m N := by
  have hM := summands_pos' hu
  have hM' : (0 : ℝ) < summands c.fn N m := by exact_mod_cast hM
  have hk := kernelScale_pos c m hu.1 hr
  have h6 := edf_filter h hs _ hM (filt c k m) (filtLen c k m) (ciHop c m) (filt_zero c k m) (filt_ne c k m _ hu.1)
    (κ ^ 2 / kernelScale c m (m / rate) / (summands c.fn N m : ℕ)) (by positivity)
  rw [← lagN_eq _ hM] at h6
  exact ⟨h6.congr (fun ω => (value_sq (hx ω) c hr hu).symm) rfl, filterEdf_pos (filt_ne c k m _ hu.1) hM⟩

/-- the covariances of the second differences -/
noncomputable def oCov (k : Kind) (m : ℕ) (l : ℕ) : ℝ :=
  match k with
  | .wpm => if l = 0 then 6 else if l = m then -4 else if l = 2 * m then 1 else 0
  | .wfm => fmCov m l
  | .rwfm => walkCov 2 m l

theorem oCov_eq (k : Kind) {m : ℕ} (hm : 0 < m) (l : ℕ) :
    filterCov (filt .oadev k m) (filtLen .oadev k m) (ciHop .oadev m) l = oCov k m l := by
  have hh : ciHop .oadev m = 1 := rfl
  rw [hh]
  cases k
  · exact cov_tap2 m l hm
  · have := cov_fm2 m 1 l hm
    rw [mul_one] at this
    exact this
  · have := walkTaps_cov 2 m 1 l (.inl rfl) hm
    rw [mul_one] at this
    exact this

theorem ciEdf_oadev (k : Kind) {m : ℕ} (hm : 0 < m) (N : ℕ) :
    ciEdf .oadev k m N = ((N - 2 * m : ℕ) : ℝ) ^ 2 * oCov k m 0 ^ 2 / lagN (N - 2 * m) (oCov k m) := by
  have e : summands CiDev.oadev.fn N m = N - 2 * m := by simp [summands, CiDev.fn]
  rw [ciEdf, filterEdf, e, oCov_eq k hm, show filterCov (filt .oadev k m) (filtLen .oadev k m) (ciHop .oadev m) = oCov k m from
    funext (oCov_eq k hm)]

theorem oCov_zero (k : Kind) {m : ℕ} (hm : 0 < m) :
    oCov k m 0 = match k with | .wpm => 6 | .wfm => 2 * m | .rwfm => m * (2 * m ^ 2 + 1) / 3 := by
  cases k
  · simp [oCov]
  · exact fmCov_zero m
  · exact walk_zero m hm

theorem oCov_ne (k : Kind) {m : ℕ} (hm : 0 < m) : 0 < oCov k m 0 := by
  have hm' : (0 : ℝ) < m := by exact_mod_cast hm
  rw [oCov_zero k hm]
  cases k <;> simp only <;> positivity

/-- the comparison of the formulas -/
theorem simple_ratio (k : Kind) {m M : ℕ} (hm : 0 < m) (hM : 2 ≤ M) (hk : k = .rwfm → 2 ≤ m) :
    simpleLo k * ((M : ℝ) ^ 2 * oCov k m 0 ^ 2 / lagN M (oCov k m)) ≤ edfTable5 ((2 * m + M : ℕ) : ℝ) m (alphaOf k) ∧
    edfTable5 ((2 * m + M : ℕ) : ℝ) m (alphaOf k) ≤ simpleHi k * ((M : ℝ) ^ 2 * oCov k m 0 ^ 2 / lagN M (oCov k m)) := by
  have hm' : (1 : ℝ) ≤ m := by exact_mod_cast hm
  have hM' : (2 : ℝ) ≤ M := by exact_mod_cast hM
  have hL : 0 < lagN M (oCov k m) := lt_of_lt_of_le (by have := oCov_ne k hm; positivity) (lagN_ge _ (by omega) _)
  rw [mul_div_assoc', mul_div_assoc', div_le_iff₀ hL, le_div_iff₀ hL, oCov_zero k hm]
  cases k
  · have hp := pm_ratio m M hm (by omega)
    have hl := lag_pm2 m M hm (by omega) (oCov .wpm m) (fun l => rfl)
    rw [← hl] at hp
    have e : edfTable5 ((2 * m + M : ℕ) : ℝ) m (alphaOf .wpm) * lagN M (oCov .wpm m)
        = ((2 * m + M : ℝ) + 1) * M * lagN M (oCov .wpm m) / (2 * ((2 * m + M : ℝ) - m)) := by
      simp only [edfTable5, alphaOf, if_true]
      push_cast
      ring
    have hd : (0 : ℝ) < 2 * ((2 * m + M : ℝ) - m) := by linarith
    rw [e, le_div_iff₀ hd, div_le_iff₀ hd]
    simp only [simpleLo, simpleHi]
    exact ⟨by linarith [hp.1], by linarith [hp.2]⟩
  · have hp := fm_ratio m M hm hM
    have hl : lagN M (oCov .wfm m) = lagN M (fmCov m) := rfl
    rw [← hl] at hp
    have hn : (0 : ℝ) < 2 * m + M := by linarith
    have e : edfTable5 ((2 * m + M : ℕ) : ℝ) m (alphaOf .wfm) * lagN M (oCov .wfm m)
        = lagN M (oCov .wfm m) * (2 * m * (3 * (2 * m + M) * ((2 * m + M) - 1) - 4 * m * ((2 * m + M) - 2)))
          / ((2 * m + M : ℝ) * (4 * m ^ 2 + 5)) := by
      simp only [edfTable5, alphaOf]
      rw [if_neg (by norm_num), if_neg (by norm_num), if_pos trivial]
      push_cast
      field_simp
      ring
    have hd : (0 : ℝ) < (2 * m + M : ℝ) * (4 * m ^ 2 + 5) := by positivity
    rw [e, le_div_iff₀ hd, div_le_iff₀ hd]
    simp only [simpleLo, simpleHi]
    exact ⟨by linarith [hp.1], by linarith [hp.2]⟩
  · have hm2 : 2 ≤ m := hk rfl
    have hm2' : (2 : ℝ) ≤ m := by exact_mod_cast hm2
    have hp := walk_ratio m M hm2 hM
    have hl : lagN M (oCov .rwfm m) = lagN M (walkCov 2 m) := rfl
    rw [← hl] at hp
    have h3 : (0 : ℝ) < (2 * m + M : ℝ) - 3 := by linarith
    have e : edfTable5 ((2 * m + M : ℕ) : ℝ) m (alphaOf .rwfm) * lagN M (oCov .rwfm m)
        = lagN M (oCov .rwfm m) * (((2 * m + M : ℝ) - 2) * (((2 * m + M : ℝ) - 1) ^ 2 - 3 * m * ((2 * m + M : ℝ) - 1) + 4 * m ^ 2))
          / (m * ((2 * m + M : ℝ) - 3) ^ 2) := by
      simp only [edfTable5, alphaOf]
      rw [if_neg (by norm_num), if_neg (by norm_num), if_neg (by norm_num), if_neg (by norm_num), if_pos trivial]
      push_cast
      ring
    have hd : (0 : ℝ) < m * ((2 * m + M : ℝ) - 3) ^ 2 := by positivity
    rw [e, le_div_iff₀ hd, div_le_iff₀ hd]
    simp only [simpleLo, simpleHi]
    exact ⟨by linarith [hp.1], by linarith [hp.2]⟩

theorem oadev_usable {N m : ℕ} (hu : Usable .oadev N m) : 0 < m ∧ 2 * m + 2 ≤ N := by
  obtain ⟨hm, -, -, -, hc⟩ := hu
  have hc' : 1 < (N : ℤ) - 2 * m := hc
  exact ⟨hm, by omega⟩

theorem simple_near (h : NormalNoise P W s2) (hs : 0 < s2) (hr : 0 < rate) {k : Kind} {κ : ℝ} (hκ : κ ≠ 0) {x : ℕ → Ω → ℝ}
    (hx : ∀ ω, IsNoise k κ (fun i => x i ω) (fun i => W i ω)) {m N : ℕ} (hu : Usable .oadev N m) (hk : k = .rwfm → 2 ≤ m) :
    EdfRatio P (edf_simple N m (some (alphaOf k))) (fun ω => value .oadev (fun i => x i ω) N rate m) (simpleLo k) (simpleHi k) := by
  obtain ⟨hm, hN⟩ := oadev_usable hu
  obtain ⟨h1, h2⟩ := ci_hasEdf h hs hr hκ hx .oadev hu
  have h3 := (edf_simple_eq_partial N m (alphaOf k) hm (by omega) (by omega)).1
  have h4 := simple_ratio k (M := N - 2 * m) hm (by omega) hk
  rw [show 2 * m + (N - 2 * m) = N by omega, ← ciEdf_oadev k hm] at h4
  exact ⟨_, _, h3, h1, h2, h4.1, h4.2⟩

theorem walk_one (h : NormalNoise P W s2) (hs : 0 < s2) (hr : 0 < rate) {κ : ℝ} (hκ : κ ≠ 0) {x : ℕ → Ω → ℝ}
    (hx : ∀ ω, IsNoise .rwfm κ (fun i => x i ω) (fun i => W i ω)) {N : ℕ} (hu : Usable .oadev N 1) :
    EdfRatio P (edf_simple N (1 : ℕ) (some (-2))) (fun ω => value .oadev (fun i => x i ω) N rate 1)
      (((N : ℝ) ^ 2 - 5 * N + 8) / (N - 3) ^ 2) (((N : ℝ) ^ 2 - 5 * N + 8) / (N - 3) ^ 2) := by
  obtain ⟨hm, hN⟩ := oadev_usable hu
  obtain ⟨h1, h2⟩ := ci_hasEdf h hs hr hκ hx .oadev hu
  have h3 := (edf_simple_eq_partial N 1 (-2) hm (by omega) (by omega)).1
  obtain ⟨M, rfl⟩ : ∃ M, N = M + 2 := ⟨N - 2, by omega⟩
  have hM' : (2 : ℝ) ≤ M := by exact_mod_cast (by omega : 2 ≤ M)
  have e1 : ciEdf .oadev .rwfm 1 (M + 2) = M := by
    have hM0 : (M : ℝ) ≠ 0 := by linarith
    have hl : lagN M (walkCov 2 1) = M := by
      rw [lag_walk 1 M one_pos (by omega), Nat.cast_one]
      ring
    rw [ciEdf_oadev .rwfm hm, oCov_zero .rwfm hm, show M + 2 - 2 * 1 = M by omega, show oCov .rwfm 1 = walkCov 2 1 from rfl, hl,
      Nat.cast_one]
    field_simp
    norm_num
  rw [e1] at h1 h2
  have e2 : edfTable5 ((M + 2 : ℕ) : ℝ) (1 : ℕ) (-2) = (((M + 2 : ℕ) : ℝ) ^ 2 - 5 * (M + 2 : ℕ) + 8) / ((M + 2 : ℕ) - 3) ^ 2 * M := by
    simp only [edfTable5]
    rw [if_neg (by norm_num), if_neg (by norm_num), if_neg (by norm_num), if_neg (by norm_num), if_pos trivial]
    push_cast
    ring
  exact ⟨_, _, h3, h1, h2, e2.ge, e2.le⟩

/-! ## Long records -/

theorem simpleRatio_pos (k : Kind) {m : ℕ} (hm : 0 < m) : 0 < simpleRatio m k := by
  have hm' : (0 : ℝ) < m := by exact_mod_cast hm
  cases k <;> simp only [simpleRatio] <;> positivity

theorem ratio_tendsto (m : ℝ) (T U c : ℝ) (hc : c ≠ 0) (g : ℝ → ℝ) (hg : ContinuousAt g 0) :
    Tendsto (fun N : ℕ => g (1 / N) * ((1 - 2 * m * (1 / (N : ℝ))) * T - U * (1 / N)) / ((1 - 2 * m * (1 / (N : ℝ))) ^ 2 * c)) atTop
      (𝓝 (g 0 * T / c)) := by
  have h : ContinuousAt (fun u : ℝ => g u * ((1 - 2 * m * u) * T - U * u) / ((1 - 2 * m * u) ^ 2 * c)) 0 := by
    refine ContinuousAt.div (hg.mul (by fun_prop)) (by fun_prop) ?_
    simpa using hc
  have h2 := h.tendsto.comp tendsto_one_div_atTop_nhds_zero_nat
  simpa [Function.comp_def] using h2

theorem simple_limit (k : Kind) {m : ℕ} (hm : 0 < m) :
    Tendsto (fun N : ℕ => edfTable5 N m (alphaOf k) / ciEdf .oadev k m N) atTop (𝓝 (simpleRatio m k)) := by
  have hm' : (0 : ℝ) < m := by exact_mod_cast hm
  have key : ∀ (T U : ℝ) (g : ℝ → ℝ), (∀ M : ℕ, 2 * m ≤ M → lagN M (oCov k m) = M * T - U) → ContinuousAt g 0 →
      (∀ N : ℕ, 4 * m + 4 ≤ N → edfTable5 N m (alphaOf k) = N * g (1 / N)) → g 0 * T / oCov k m 0 ^ 2 = simpleRatio m k →
      Tendsto (fun N : ℕ => edfTable5 N m (alphaOf k) / ciEdf .oadev k m N) atTop (𝓝 (simpleRatio m k)) := by
    intro T U g h1 h2 h3 h4
    rw [← h4]
    refine (ratio_tendsto m T U (oCov k m 0 ^ 2) (pow_ne_zero 2 (oCov_ne k hm).ne') g h2).congr' ?_
    filter_upwards [eventually_ge_atTop (4 * m + 4)] with N hN
    have hN' : (4 * (m : ℝ) + 4) ≤ N := by exact_mod_cast hN
    have hN0 : (0 : ℝ) < N := by linarith
    have hL : 0 < lagN (N - 2 * m) (oCov k m) := lt_of_lt_of_le (by
      have := oCov_ne k hm
      have : (0 : ℝ) < ((N - 2 * m : ℕ) : ℝ) := by exact_mod_cast (by omega : 0 < N - 2 * m)
      positivity) (lagN_ge _ (by omega) _)
    have eM : ((N - 2 * m : ℕ) : ℝ) = N - 2 * m := by
      push_cast [Nat.cast_sub (by omega : 2 * m ≤ N)]
      ring
    rw [ciEdf_oadev k hm, h3 N hN]
    rw [h1 _ (by omega), eM] at hL ⊢
    have hc := (oCov_ne k hm).ne'
    have hM0 : (N : ℝ) - 2 * m ≠ 0 := by linarith
    have e1 : (1 - 2 * (m : ℝ) * (1 / (N : ℝ))) = (N - 2 * m) / N := by field_simp
    rw [e1]
    generalize g (1 / (N : ℝ)) = y
    generalize oCov k m 0 = c at hc
    generalize (N : ℝ) - 2 * m = M at hM0 hL
    field_simp
  cases k
  · refine key 70 (36 * m) (fun u => (1 + u) * (1 - 2 * m * u) / (2 * (1 - m * u))) (fun M hM => ?_) ?_ (fun N hN => ?_) ?_
    · rw [lag_pm2 m M hm (by omega) (oCov .wpm m) (fun l => rfl), Nat.cast_sub (by omega : m ≤ M), Nat.cast_sub hM]
      push_cast
      ring
    · exact ContinuousAt.div (by fun_prop) (by fun_prop) (by simp)
    · have hN' : (4 * (m : ℝ) + 4) ≤ N := by exact_mod_cast hN
      have hN0 : (0 : ℝ) < N := by linarith
      have h2 : (N : ℝ) - m ≠ 0 := by linarith
      have h1 : 1 - (m : ℝ) * (1 / N) = (N - m) / N := by field_simp
      simp only [edfTable5, alphaOf, if_true, h1]
      field_simp
    · rw [oCov_zero .wpm hm]
      norm_num [simpleRatio]
  · refine key (8 / 3 * m ^ 3 + 10 / 3 * m) (4 * m ^ 2 * (m ^ 2 / 3 + 1 / 6))
      (fun u => (3 * (1 - u) / (2 * m) - 2 * (1 - 2 * u) * u) * (4 * m ^ 2 / (4 * m ^ 2 + 5)))
      (fun M hM => lag_fmC m M hm hM) (by fun_prop) (fun N hN => ?_) ?_
    · have hN' : (4 * (m : ℝ) + 4) ≤ N := by exact_mod_cast hN
      have hN0 : (0 : ℝ) < N := by linarith
      simp only [edfTable5, alphaOf]
      rw [if_neg (by norm_num), if_neg (by norm_num), if_pos trivial]
      field_simp
    · rw [oCov_zero .wfm hm]
      simp only [simpleRatio]
      field_simp
      ring
  · refine key (m / 7 + 7 * m ^ 3 / 45 + 2 * m ^ 5 / 9 + 151 * m ^ 7 / 315) _
      (fun u => (1 - 2 * u) / (m * (1 - 3 * u) ^ 2) * ((1 - u) ^ 2 - 3 * m * (1 - u) * u + 4 * m ^ 2 * u ^ 2))
      (fun M hM => lag_walk m M hm hM) ?_ (fun N hN => ?_) ?_
    · exact ContinuousAt.mul (ContinuousAt.div (by fun_prop) (by fun_prop) (by simpa using hm'.ne')) (by fun_prop)
    · have hN' : (4 * (m : ℝ) + 4) ≤ N := by exact_mod_cast hN
      have hN0 : (0 : ℝ) < N := by linarith
      have h2 : (N : ℝ) - 3 ≠ 0 := by linarith
      have h1 : 1 - 3 * (1 / (N : ℝ)) = (N - 3) / N := by field_simp
      simp only [edfTable5, alphaOf]
      rw [if_neg (by norm_num), if_neg (by norm_num), if_neg (by norm_num), if_neg (by norm_num), if_pos trivial, h1]
      field_simp
    · rw [oCov_zero .rwfm hm]
      simp only [simpleRatio]
      field_simp
      ring

/-- the probability that the interval contains the deviation, if the ratio of the degrees of freedom that are used to those of
the squared deviation has the limit `ρ` -/
theorem covers_limit (h : NormalNoise P W s2) (hs : 0 < s2) (hr : 0 < rate) (c : CiDev) (k : Kind) {m : ℕ} (hm : 0 < m)
    {κ : ℝ} (hκ : κ ≠ 0) {x : ℕ → ℕ → Ω → ℝ}
    (hx : ∀ L ω, IsNoise k κ (fun i => x L i ω) (fun i => W i ω)) {ppf : ℝ → ℝ → NV} (hp : Chi2Ppf ppf) {ci z : ℝ}
    (h0 : 1 / 2 ≤ ci) (h1 : ci < 1) (hz0 : 0 ≤ z) (hz : gaussI z = ci) {r : ℕ → ℝ} (hr0 : ∀ᶠ N in atTop, 0 < r N) {ρ : ℝ}
    (hρ : 0 < ρ) (hlim : Tendsto (fun N => r N / ciEdf c k m N) atTop (𝓝 ρ)) {σ : ℝ}
    (hσ : σ = √(κ ^ 2 * s2 * trueVar c k m (m / rate))) :
    Tendsto (fun L => P.real {ω | CiContains ppf (value c.fn (fun i => x L i ω) L rate m) (r L) ci σ}) atTop
      (𝓝 (gaussI (z / √ρ))) := by
  have hks := kernelScale_pos c m hm hr
  have hkm := kernelMean_pos c k m hm
  have hs' : (0 : ℝ) < s2 := by exact_mod_cast hs
  have htv : 0 < trueVar c k m (m / rate) := by rw [trueVar_eq]; positivity
  have hσ0 : 0 < σ := by rw [hσ]; positivity
  have hσ2 : σ ^ 2 = κ ^ 2 * s2 * trueVar c k m (m / rate) := by rw [hσ, Real.sq_sqrt (by positivity)]
  have hS : 0 < ciHop c m := by cases c <;> simp [ciHop, CiDev.fn, hop, hm]
  have hinv : Tendsto (fun N => ciEdf c k m N / r N) atTop (𝓝 ρ⁻¹) :=
    (hlim.inv₀ hρ.ne').congr fun N => inv_div _ _
  have hsq : Tendsto (fun N => √(ciEdf c k m N / r N)) atTop (𝓝 √ρ⁻¹) := (Real.continuous_sqrt.tendsto _).comp hinv
  have key := filter_follows h hs (filt_zero c k m) (filt_ne c k m (ciHop c m) hm) hp hσ0 h0 h1 hz0 hz hS (C := √ρ⁻¹ + 1)
    (summands_tendsto c.fn hm) (D := fun L ω => value c.fn (fun i => x L i ω) L rate m) (by
      filter_upwards [usable_eventually c.fn hm (by cases c <;> simp [CiDev.fn])] with L hu ω
      have hM : (0 : ℝ) < summands c.fn L m := by exact_mod_cast summands_pos' hu
      rw [value_sq (hx L ω) c hr hu, filt_cov0 c k m _ hm, hσ2, trueVar_eq]
      congr 1
      field_simp) (r := r) (by positivity) (by
      filter_upwards [hr0, hsq.eventually_lt_const (lt_add_one _)] with N h2 h3
      exact ⟨h2, h3.le⟩)
  have h2 : Tendsto (fun N => gaussI (√(ciEdf c k m N / r N) * z)) atTop (𝓝 (gaussI (z / √ρ))) := by
    have e : z / √ρ = √ρ⁻¹ * z := by rw [Real.sqrt_inv]; ring
    rw [e]
    exact (gaussI_continuous.tendsto _).comp (hsq.mul_const z)
  have h3 := key.add h2
  rw [zero_add] at h3
  refine h3.congr fun N => ?_
  show _ - gaussI (√(ciEdf c k m N / r N) * z) + gaussI (√(ciEdf c k m N / r N) * z) = _
  ring

theorem simple_pos (k : Kind) {m : ℕ} (hm : 0 < m) : ∀ᶠ N : ℕ in atTop,
    edf_simple N m (some (alphaOf k)) = .ok (some (edfTable5 N m (alphaOf k))) ∧ 0 < edfTable5 N m (alphaOf k) := by
  filter_upwards [eventually_ge_atTop (2 * m + 2)] with N hN
  exact edf_simple_eq_partial N m (alphaOf k) hm (by omega) (by omega)

theorem simple_covered_phase (ppf : ℝ → ℝ → NV) {m N n : ℕ} (hu : Usable .oadev N m) (hr : 0 < rate) (x : ℕ → ℝ) (alpha : ℤ)
    (ci σ : ℝ) {r : ℝ} (hc : edf_simple n m (some alpha) = .ok (some r)) : SimpleCovered ppf (tab N x) rate "phase" m alpha n ci σ ↔
      CiContains ppf (value .oadev x N rate m) r ci σ := by
  obtain ⟨errs, ns, hrun⟩ := run_at hu hr x
  constructor
  · rintro ⟨d, errs', ns', e, h1, h2, h3⟩
    rw [hrun] at h1
    have e1 : d = value .oadev x N rate m := by simpa using (congrArg DevOut.devs (Except.ok.inj h1)).symm
    have e2 : e = r := (Option.some.inj (Except.ok.inj (hc.symm.trans h2))).symm
    exact e2 ▸ e1 ▸ h3
  · exact fun h3 => ⟨_, errs, ns, r, hrun, hc, h3⟩

theorem simple_covered_freq (ppf : ℝ → ℝ → NV) {m N n : ℕ} (hN : 0 < N) (hu : Usable .oadev (N + 1) m) (hr : 0 < rate) (y : ℕ → ℝ)
    (alpha : ℤ) (ci σ : ℝ) {r : ℝ} (hc : edf_simple n m (some alpha) = .ok (some r)) :
    SimpleCovered ppf (tab N y) rate "freq" m alpha n ci σ ↔
      CiContains ppf (value .oadev (phaseOf y N rate) (N + 1) rate m) r ci σ := by
  obtain ⟨errs, ns, hrun⟩ := run_freq_at hN hu hr y
  constructor
  · rintro ⟨d, errs', ns', e, h1, h2, h3⟩
    rw [hrun] at h1
    have e1 : d = value .oadev (phaseOf y N rate) (N + 1) rate m := by simpa using (congrArg DevOut.devs (Except.ok.inj h1)).symm
    have e2 : e = r := (Option.some.inj (Except.ok.inj (hc.symm.trans h2))).symm
    exact e2 ▸ e1 ▸ h3
  · exact fun h3 => ⟨_, errs, ns, r, hrun, hc, h3⟩

/-! ## The claims -/

/-- **C95, phase data.** The phase is a line plus white phase noise, white frequency noise or a random walk of the frequency.  At
every averaging factor that `oadev` reports, `edf_simple`, called with the number of phase points, the factor and the exponent of
the noise, is at least `simpleLo` times and at most `simpleHi` times the degrees of freedom of the squared deviation (for the
random walk from `m = 2` on); for the random walk and `m = 1` it is `(N² - 5 N + 8) / (N - 3)²` times this number. -/
theorem edf_simple_phase (h : NormalNoise P W s2) (hs : 0 < s2) (hr : 0 < rate) (k : Kind) (a b : ℝ) (N : ℕ) :
    Reports .oadev (fun ω => tab N (fun i => a + b * i + noise k (fun j => W j ω) i)) rate "phase" (fun m D =>
      ((k = .rwfm → 2 ≤ m) → EdfRatio P (edf_simple N m (some (alphaOf k))) D (simpleLo k) (simpleHi k)) ∧
      (k = .rwfm → m = 1 → EdfRatio P (edf_simple N m (some (-2))) D
        (((N : ℝ) ^ 2 - 5 * N + 8) / (N - 3) ^ 2) (((N : ℝ) ^ 2 - 5 * N + 8) / (N - 3) ^ 2))) :=
  reports_phase _ (fun i ω => a + b * i + noise k (fun j => W j ω) i) N rate hr _ fun m hu =>
    ⟨fun hk => simple_near h hs hr one_ne_zero (fun ω => noise_line k a b (fun j => W j ω)) hu hk,
      fun hk h1 => by
        subst hk h1
        exact walk_one h hs hr one_ne_zero (fun ω => noise_line .rwfm a b (fun j => W j ω)) hu⟩

/-- **C95, frequency data.** The same for frequencies that are a constant plus white noise, and for frequencies that are a random
walk. -/
theorem edf_simple_freq {Y : ℕ → Ω → ℝ} (h : NormalNoise P Y s2) (hs : 0 < s2) (hr : 0 < rate) (y0 : ℝ) (N : ℕ) :
    Reports .oadev (fun ω => tab N (fun i => y0 + Y i ω)) rate "freq" (fun m D =>
      EdfRatio P (edf_simple (N + 1 : ℕ) m (some 0)) D (9 / 10) (6 / 5)) ∧
    Reports .oadev (fun ω => tab N (fun i => y0 + ∑ j ∈ range i, Y j ω)) rate "freq" (fun m D =>
      2 ≤ m → EdfRatio P (edf_simple (N + 1 : ℕ) m (some (-2))) D (7 / 8) (9 / 5)) :=
  ⟨reports_freq _ (fun i ω => y0 + Y i ω) N rate hr _ fun m hu =>
      simple_near h hs hr (one_div_pos.2 hr).ne' (x := fun i ω => phaseOf (fun i => y0 + Y i ω) N rate i)
        (fun ω => noise_wfm y0 (fun i => Y i ω) N rate) hu (by intro hk; cases hk),
    reports_freq _ (fun i ω => y0 + ∑ j ∈ range i, Y j ω) N rate hr _ fun m hu hm =>
      simple_near h hs hr (one_div_pos.2 hr).ne' (x := fun i ω => phaseOf (fun i => y0 + ∑ j ∈ range i, Y j ω) N rate i)
        (fun ω => noise_walk y0 (fun i => Y i ω) N rate) hu fun _ => hm⟩

/-- **C95, long records.** For a fixed averaging factor the ratio tends to `simpleRatio`: 35/36 for white phase noise, 1 for white
frequency noise. -/
theorem edf_simple_limit (h : NormalNoise P W s2) (hs : 0 < s2) (hr : 0 < rate) (k : Kind) (a b : ℝ) {m : ℕ} (hm : 0 < m) {η : ℝ}
    (hη : 0 < η) : ∀ᶠ N : ℕ in atTop,
    Reports .oadev (fun ω => tab N (fun i => a + b * i + noise k (fun j => W j ω) i)) rate "phase" (fun m' D =>
      m' = m → EdfRatio P (edf_simple N m (some (alphaOf k))) D (simpleRatio m k - η) (simpleRatio m k + η)) := by
  have hl := simple_limit k hm
  filter_upwards [simple_pos k hm, hl.eventually_le_const (lt_add_of_pos_right _ hη),
    hl.eventually_const_le (sub_lt_self _ hη)] with N h1 h2 h3
  refine reports_phase _ (fun i ω => a + b * i + noise k (fun j => W j ω) i) N rate hr _ fun m' hu hm' => ?_
  subst hm'
  obtain ⟨h4, h5⟩ := ci_hasEdf h hs hr one_ne_zero (fun ω => noise_line k a b (fun j => W j ω)) .oadev hu
  exact ⟨_, _, h1.1, h4, h5, (le_div_iff₀ h5).1 h3, (div_le_iff₀ h5).1 h2⟩

/-- **C95, coverage.** The probability that the interval computed with `edf_simple` contains the deviation of the noise tends to
the probability of the normal distribution between `-z / √ρ` and `z / √ρ`, where `ρ` is `simpleRatio` and `z` is the bound that
belongs to the probability `ci` asked for. -/
theorem coverage_simple_phase (h : NormalNoise P W s2) (hs : 0 < s2) (hr : 0 < rate) (k : Kind) (a b : ℝ) {m : ℕ} (hm : 0 < m)
    {ppf : ℝ → ℝ → NV} (hp : Chi2Ppf ppf) {ci z : ℝ} (h0 : 1 / 2 ≤ ci) (h1 : ci < 1) (hz0 : 0 ≤ z)
    (hz : (gaussianReal 0 1).real (Set.Icc (-z) z) = ci) :
    Tendsto (fun N => P.real {ω | SimpleCovered ppf (tab N (fun i => a + b * i + noise k (fun j => W j ω) i)) rate "phase" m
      (alphaOf k) N ci √(s2 * trueVar .oadev k m (m / rate))}) atTop
      (𝓝 ((gaussianReal 0 1).real (Set.Icc (-(z / √(simpleRatio m k))) (z / √(simpleRatio m k))))) := by
  refine (covers_limit h hs hr .oadev k hm one_ne_zero (x := fun _ i ω => a + b * i + noise k (fun j => W j ω) i)
    (fun _ ω => noise_line k a b (fun j => W j ω)) hp h0 h1 hz0 hz ((simple_pos k hm).mono fun N h => h.2) (simpleRatio_pos k hm)
    (simple_limit k hm) (σ := √(s2 * trueVar .oadev k m (m / rate))) (by rw [one_pow, one_mul])).congr' ?_
  filter_upwards [usable_eventually .oadev hm (by simp), simple_pos k hm] with N hu hc
  simp only [simple_covered_phase ppf hu hr _ _ _ _ hc.1]
  rfl

/-- **C95, coverage for white frequency noise.** The interval computed with `edf_simple` contains the deviation as often as
asked for, at every averaging factor. -/
theorem coverage_simple_white_freq {Y : ℕ → Ω → ℝ} (h : NormalNoise P Y s2) (hs : 0 < s2) (hr : 0 < rate) (y0 : ℝ) {m : ℕ}
    (hm : 0 < m) {ppf : ℝ → ℝ → NV} (hp : Chi2Ppf ppf) {ci : ℝ} (h0 : 1 / 2 ≤ ci) (h1 : ci < 1) :
    Tendsto (fun N => P.real {ω | SimpleCovered ppf (tab N (fun i => y0 + Y i ω)) rate "freq" m 0 (N + 1) ci
      √(s2 / rate ^ 2 * trueVar .oadev .wfm m (m / rate))}) atTop (𝓝 ci) := by
  obtain ⟨z, hz0, hz⟩ := exists_normal_interval (ci := ci) (by linarith) h1
  have key := covers_limit h hs hr .oadev .wfm hm (one_div_pos.2 hr).ne'
    (x := fun L i ω => phaseOf (fun i => y0 + Y i ω) (L - 1) rate i) (fun L ω => noise_wfm y0 (fun i => Y i ω) (L - 1) rate)
    hp h0 h1 hz0 hz ((simple_pos .wfm hm).mono fun N h => h.2) (simpleRatio_pos .wfm hm) (simple_limit .wfm hm)
    (σ := √(s2 / rate ^ 2 * trueVar .oadev .wfm m (m / rate))) (by congr 1; ring)
  rw [show simpleRatio m .wfm = 1 from rfl, Real.sqrt_one, div_one, show gaussI z = ci from hz] at key
  refine (key.comp (tendsto_add_atTop_nat 1)).congr' ?_
  filter_upwards [(tendsto_add_atTop_nat 1).eventually (usable_eventually .oadev hm (by simp)),
    (tendsto_add_atTop_nat 1).eventually (simple_pos .wfm hm), eventually_gt_atTop 0] with N hu hc hN
  rw [show alphaOf .wfm = 0 from rfl] at hc
  simp only [simple_covered_freq ppf hN hu hr _ _ _ _ hc.1, Function.comp_apply, Nat.add_sub_cancel]
  rfl

/-- **C95, coverage for a random walk of the frequency.** -/
theorem coverage_simple_walk_freq {Y : ℕ → Ω → ℝ} (h : NormalNoise P Y s2) (hs : 0 < s2) (hr : 0 < rate) (y0 : ℝ) {m : ℕ}
    (hm : 0 < m) {ppf : ℝ → ℝ → NV} (hp : Chi2Ppf ppf) {ci z : ℝ} (h0 : 1 / 2 ≤ ci) (h1 : ci < 1) (hz0 : 0 ≤ z)
    (hz : (gaussianReal 0 1).real (Set.Icc (-z) z) = ci) :
    Tendsto (fun N => P.real {ω | SimpleCovered ppf (tab N (fun i => y0 + ∑ j ∈ range i, Y j ω)) rate "freq" m (-2) (N + 1) ci
      √(s2 / rate ^ 2 * trueVar .oadev .rwfm m (m / rate))}) atTop
      (𝓝 ((gaussianReal 0 1).real (Set.Icc (-(z / √(simpleRatio m .rwfm))) (z / √(simpleRatio m .rwfm))))) := by
  have key := covers_limit h hs hr .oadev .rwfm hm (one_div_pos.2 hr).ne'
    (x := fun L i ω => phaseOf (fun i => y0 + ∑ j ∈ range i, Y j ω) (L - 1) rate i)
    (fun L ω => noise_walk y0 (fun i => Y i ω) (L - 1) rate)
    hp h0 h1 hz0 hz ((simple_pos .rwfm hm).mono fun N h => h.2) (simpleRatio_pos .rwfm hm) (simple_limit .rwfm hm)
    (σ := √(s2 / rate ^ 2 * trueVar .oadev .rwfm m (m / rate))) (by congr 1; ring)
  refine (key.comp (tendsto_add_atTop_nat 1)).congr' ?_
  filter_upwards [(tendsto_add_atTop_nat 1).eventually (usable_eventually .oadev hm (by simp)),
    (tendsto_add_atTop_nat 1).eventually (simple_pos .rwfm hm), eventually_gt_atTop 0] with N hu hc hN
  rw [show alphaOf .rwfm = -2 from rfl] at hc
  simp only [simple_covered_freq ppf hN hu hr _ _ _ _ hc.1, Function.comp_apply, Nat.add_sub_cancel]
  rfl

/-! ## The hypotheses are met -/

/-- four phase points that are a random walk of the frequency: `edf_simple` returns 8 degrees of freedom, four times too many -/
example : ∃ d : (ℕ → ℝ) → ℝ, (∀ ω, ∃ errs ns,
      DevName.oadev.run (tab 4 (fun i => 1 + 2 * (i : ℝ) + noise .rwfm (fun j => ω j) i)) 10 "phase" (.list [(1 : ℕ) / 10])
        = .ok ⟨[(1 : ℕ) / 10], [d ω], errs, ns⟩) ∧
    EdfRatio gaussNoise (edf_simple (4 : ℕ) (1 : ℕ) (some (-2))) d 4 4 := by
  have hu : Usable .oadev 4 1 := ⟨by norm_num, by simp [lenOf], by simp [maxOf], by simp, by simp [count]⟩
  have hr : (0 : ℝ) < 10 := by norm_num
  have h := ((edf_simple_phase normal_gauss one_pos hr .rwfm 1 2 4).single hr.ne' (fun _ => 0) 1 _
    (fun ω => run_at hu hr (fun i => 1 + 2 * (i : ℝ) + noise .rwfm (fun j => ω j) i))).2 rfl rfl
  have e : (((4 : ℕ) : ℝ) ^ 2 - 5 * (4 : ℕ) + 8) / ((4 : ℕ) - 3) ^ 2 = 4 := by norm_num
  rw [e] at h
  exact ⟨_, fun ω => run_at hu hr _, h⟩

/-- white frequency noise without averaging, where `edf_greenhall` gives too short intervals (`coverage_white_freq_one`) -/
example : Tendsto (fun N => gaussNoise.real {ω | SimpleCovered (fun q k => some (chi2Quantile q k))
    (tab N (fun i => 3 + ω i)) 10 "freq" 1 0 (N + 1) 0.95
      √((1 : ℝ≥0) / 10 ^ 2 * (2 * (1 : ℕ) / (2 * ((1 : ℕ) / 10) ^ 2)))}) atTop (𝓝 0.95) :=
  coverage_simple_white_freq normal_gauss one_pos (by norm_num) 3 one_pos (fun _ _ _ _ _ => rfl) (by norm_num) (by norm_num)

end AT
