import Verif.Lemmas.FloatRangeRun
import Verif.Props.FloatFreq

/-!
# C97: no overflow and no underflow

Property: for phase or frequency data between `2^-100` and `2^100` in magnitude (or zero), a
sampling rate between `2^-40` and `2^40` and up to `2^46` values, no intermediate result of `adev`,
`oadev`, `hdev`, `ohdev`, `mdev` and `tdev` overflows or falls into the range of the subnormal
numbers.  The error bounds of C67 and C82 therefore hold for arithmetic that rounds to nearest in
the normal range only, whatever it does outside.  Without such limits they fail: for phase
values of `2^-600` all squares underflow and `oadev` returns 0.
-/

namespace AT

open Spec

variable {fl : ℝ → ℝ} {sum : List ℝ → ℝ}

theorem arr_of_moderate {x : List ℝ} (hx : ∀ v ∈ x, Moderate v) (hN : x.length ≤ 2 ^ 47) :
    Arr (-343) 240 x :=
  ⟨hN, fun v hv => (Moderate.grid (hx v hv)).mono (by norm_num) (by norm_num)⟩

/-- C97: `adev` of phase data in double precision with a limited range of exponents -/
theorem adev_range (hfl : Binary64Range fl) (hsum : ∀ l, FloatSum fl l (sum l)) (log10grid x : List ℝ)
    (hx : ∀ v ∈ x, Moderate v) (B : ℝ) (hB : ∀ v ∈ x, |v| ≤ B) (rate : ℝ) (hr : ModerateRate rate)
    (taus : TausArg) (hN : x.length ≤ 2 ^ 47) (ht : SafeTaus rate taus) (hR : RangeTaus rate taus) :
    (∃ e, adev_fl fl sum log10grid x rate taus = .error e ∧ adev x rate "phase" taus = .error e) ∨
    ∃ o o', adev_fl fl sum log10grid x rate taus = .ok o ∧ adev x rate "phase" taus = .ok o' ∧
      FloatClose (Spec.adevBound B) o o' := by
  obtain ⟨r, sum', P⟩ := exists_rangePair hfl hsum
  rw [P.adev log10grid (arr_of_moderate hx (hN.trans (by norm_num))) (ModerateRate.mag hr) ht hR]
  exact adev_float P.floatRound P.hsum log10grid x B hB rate (ModerateRate.pos hr) taus hN ht

/-- C97: `oadev` of phase data in double precision with a limited range of exponents -/
theorem oadev_range (hfl : Binary64Range fl) (hsum : ∀ l, FloatSum fl l (sum l)) (log10grid x : List ℝ)
    (hx : ∀ v ∈ x, Moderate v) (B : ℝ) (hB : ∀ v ∈ x, |v| ≤ B) (rate : ℝ) (hr : ModerateRate rate)
    (taus : TausArg) (hN : x.length ≤ 2 ^ 47) (ht : SafeTaus rate taus) (hR : RangeTaus rate taus) :
    (∃ e, oadev_fl fl sum log10grid x rate taus = .error e ∧ oadev x rate "phase" taus = .error e) ∨
    ∃ o o', oadev_fl fl sum log10grid x rate taus = .ok o ∧ oadev x rate "phase" taus = .ok o' ∧
      FloatClose (Spec.adevBound B) o o' := by
  obtain ⟨r, sum', P⟩ := exists_rangePair hfl hsum
  rw [P.oadev log10grid (arr_of_moderate hx (hN.trans (by norm_num))) (ModerateRate.mag hr) ht hR]
  exact oadev_float P.floatRound P.hsum log10grid x B hB rate (ModerateRate.pos hr) taus hN ht

/-- C97: `hdev` of phase data in double precision with a limited range of exponents -/
theorem hdev_range (hfl : Binary64Range fl) (hsum : ∀ l, FloatSum fl l (sum l)) (log10grid x : List ℝ)
    (hx : ∀ v ∈ x, Moderate v) (B : ℝ) (hB : ∀ v ∈ x, |v| ≤ B) (rate : ℝ) (hr : ModerateRate rate)
    (taus : TausArg) (hN : x.length ≤ 2 ^ 47) (ht : SafeTaus rate taus) (hR : RangeTaus rate taus) :
    (∃ e, hdev_fl fl sum log10grid x rate taus = .error e ∧ hdev x rate "phase" taus = .error e) ∨
    ∃ o o', hdev_fl fl sum log10grid x rate taus = .ok o ∧ hdev x rate "phase" taus = .ok o' ∧
      FloatClose (Spec.hdevBound B) o o' := by
  obtain ⟨r, sum', P⟩ := exists_rangePair hfl hsum
  rw [P.hdev log10grid (arr_of_moderate hx (hN.trans (by norm_num))) (ModerateRate.mag hr) ht hR]
  exact hdev_float P.floatRound P.hsum log10grid x B hB rate (ModerateRate.pos hr) taus hN ht

/-- C97: `ohdev` of phase data in double precision with a limited range of exponents -/
theorem ohdev_range (hfl : Binary64Range fl) (hsum : ∀ l, FloatSum fl l (sum l)) (log10grid x : List ℝ)
    (hx : ∀ v ∈ x, Moderate v) (B : ℝ) (hB : ∀ v ∈ x, |v| ≤ B) (rate : ℝ) (hr : ModerateRate rate)
    (taus : TausArg) (hN : x.length ≤ 2 ^ 47) (ht : SafeTaus rate taus) (hR : RangeTaus rate taus) :
    (∃ e, ohdev_fl fl sum log10grid x rate taus = .error e ∧ ohdev x rate "phase" taus = .error e) ∨
    ∃ o o', ohdev_fl fl sum log10grid x rate taus = .ok o ∧ ohdev x rate "phase" taus = .ok o' ∧
      FloatClose (Spec.hdevBound B) o o' := by
  obtain ⟨r, sum', P⟩ := exists_rangePair hfl hsum
  rw [P.ohdev log10grid (arr_of_moderate hx (hN.trans (by norm_num))) (ModerateRate.mag hr) ht hR]
  exact ohdev_float P.floatRound P.hsum log10grid x B hB rate (ModerateRate.pos hr) taus hN ht

/-- C97: `mdev` of phase data in double precision with a limited range of exponents -/
theorem mdev_range (hfl : Binary64Range fl) (hsum : ∀ l, FloatSum fl l (sum l)) (log10grid x : List ℝ)
    (hx : ∀ v ∈ x, Moderate v) (B : ℝ) (hB : ∀ v ∈ x, |v| ≤ B) (rate : ℝ) (hr : ModerateRate rate)
    (taus : TausArg) (hN : x.length ≤ 2 ^ 47) (ht : SafeTaus rate taus) (hR : RangeTaus rate taus) :
    (∃ e, mdev_fl fl sum log10grid x rate taus = .error e ∧ mdev x rate "phase" taus = .error e) ∨
    ∃ o o', mdev_fl fl sum log10grid x rate taus = .ok o ∧ mdev x rate "phase" taus = .ok o' ∧
      FloatClose (Spec.mdevBound x.length rate B) o o' := by
  obtain ⟨r, sum', P⟩ := exists_rangePair hfl hsum
  rw [(P.mdev log10grid (arr_of_moderate hx (hN.trans (by norm_num))) (ModerateRate.mag hr) ht hR).1]
  exact mdev_float P.floatRound P.hsum log10grid x B hB rate (ModerateRate.pos hr) taus hN ht

/-- C97: `tdev` of phase data in double precision with a limited range of exponents -/
theorem tdev_range (hfl : Binary64Range fl) (hsum : ∀ l, FloatSum fl l (sum l)) (log10grid x : List ℝ)
    (hx : ∀ v ∈ x, Moderate v) (B : ℝ) (hB : ∀ v ∈ x, |v| ≤ B) (rate : ℝ) (hr : ModerateRate rate)
    (taus : TausArg) (hN : x.length ≤ 2 ^ 46) (ht : SafeTaus rate taus) (hR : RangeTaus rate taus) :
    (∃ e, tdev_fl fl sum log10grid x rate taus = .error e ∧ tdev x rate "phase" taus = .error e) ∨
    ∃ o o', tdev_fl fl sum log10grid x rate taus = .ok o ∧ tdev x rate "phase" taus = .ok o' ∧
      FloatClose (Spec.tdevBound x.length rate B) o o' := by
  obtain ⟨r, sum', P⟩ := exists_rangePair hfl hsum
  rw [P.tdev log10grid (arr_of_moderate hx (hN.trans (by norm_num))) (ModerateRate.mag hr) ht hR]
  exact tdev_float P.floatRound P.hsum log10grid x B hB rate (ModerateRate.pos hr) taus hN ht

/-- C97: `adev` of frequency data in double precision with a limited range of exponents -/
theorem adev_freq_range (hfl : Binary64Range fl) (hsum : ∀ l, FloatSum fl l (sum l)) (log10grid y : List ℝ)
    (hy : ∀ v ∈ y, Moderate v) (Y Z : ℝ) (hY : ∀ v ∈ y, |v| ≤ Y) (hZ : ∀ v ∈ y, |v - Spec.mean y| ≤ Z)
    (rate : ℝ) (hr : ModerateRate rate) (taus : TausArg) (hN : y.length ≤ 2 ^ 46) (ht : SafeTaus rate taus)
    (hR : RangeTaus rate taus) :
    (∃ e, adev_freq_fl fl sum log10grid y rate taus = .error e ∧ adev y rate "freq" taus = .error e) ∨
    ∃ o o', adev_freq_fl fl sum log10grid y rate taus = .ok o ∧ adev y rate "freq" taus = .ok o' ∧
      FloatClose (freqBound 6 30 y.length rate (Z + 2 * y.length * unitRoundoff * Y)) o o' := by
  obtain ⟨r, sum', P⟩ := exists_rangePair hfl hsum
  have e : adev_freq_fl fl sum log10grid y rate taus = adev_freq_fl r sum' log10grid y rate taus :=
    ((P.freq (fun v hv => (Moderate.grid (hy v hv))) hN (ModerateRate.mag hr)).bind (Q := fun _ => True) fun x hx =>
      ⟨(P.adev log10grid hx (ModerateRate.mag hr) ht hR), fun _ _ => trivial⟩).1
  rw [e]
  exact adev_freq_float P.floatRound P.hsum log10grid y Y Z hY hZ rate (ModerateRate.pos hr) taus hN ht

/-- C97: `oadev` of frequency data in double precision with a limited range of exponents -/
theorem oadev_freq_range (hfl : Binary64Range fl) (hsum : ∀ l, FloatSum fl l (sum l)) (log10grid y : List ℝ)
    (hy : ∀ v ∈ y, Moderate v) (Y Z : ℝ) (hY : ∀ v ∈ y, |v| ≤ Y) (hZ : ∀ v ∈ y, |v - Spec.mean y| ≤ Z)
    (rate : ℝ) (hr : ModerateRate rate) (taus : TausArg) (hN : y.length ≤ 2 ^ 46) (ht : SafeTaus rate taus)
    (hR : RangeTaus rate taus) :
    (∃ e, oadev_freq_fl fl sum log10grid y rate taus = .error e ∧ oadev y rate "freq" taus = .error e) ∨
    ∃ o o', oadev_freq_fl fl sum log10grid y rate taus = .ok o ∧ oadev y rate "freq" taus = .ok o' ∧
      FloatClose (freqBound 6 30 y.length rate (Z + 2 * y.length * unitRoundoff * Y)) o o' := by
  obtain ⟨r, sum', P⟩ := exists_rangePair hfl hsum
  have e : oadev_freq_fl fl sum log10grid y rate taus = oadev_freq_fl r sum' log10grid y rate taus :=
    ((P.freq (fun v hv => (Moderate.grid (hy v hv))) hN (ModerateRate.mag hr)).bind (Q := fun _ => True) fun x hx =>
      ⟨(P.oadev log10grid hx (ModerateRate.mag hr) ht hR), fun _ _ => trivial⟩).1
  rw [e]
  exact oadev_freq_float P.floatRound P.hsum log10grid y Y Z hY hZ rate (ModerateRate.pos hr) taus hN ht

/-- C97: `hdev` of frequency data in double precision with a limited range of exponents -/
theorem hdev_freq_range (hfl : Binary64Range fl) (hsum : ∀ l, FloatSum fl l (sum l)) (log10grid y : List ℝ)
    (hy : ∀ v ∈ y, Moderate v) (Y Z : ℝ) (hY : ∀ v ∈ y, |v| ≤ Y) (hZ : ∀ v ∈ y, |v - Spec.mean y| ≤ Z)
    (rate : ℝ) (hr : ModerateRate rate) (taus : TausArg) (hN : y.length ≤ 2 ^ 46) (ht : SafeTaus rate taus)
    (hR : RangeTaus rate taus) :
    (∃ e, hdev_freq_fl fl sum log10grid y rate taus = .error e ∧ hdev y rate "freq" taus = .error e) ∨
    ∃ o o', hdev_freq_fl fl sum log10grid y rate taus = .ok o ∧ hdev y rate "freq" taus = .ok o' ∧
      FloatClose (freqBound 8 37 y.length rate (Z + 2 * y.length * unitRoundoff * Y)) o o' := by
  obtain ⟨r, sum', P⟩ := exists_rangePair hfl hsum
  have e : hdev_freq_fl fl sum log10grid y rate taus = hdev_freq_fl r sum' log10grid y rate taus :=
    ((P.freq (fun v hv => (Moderate.grid (hy v hv))) hN (ModerateRate.mag hr)).bind (Q := fun _ => True) fun x hx =>
      ⟨(P.hdev log10grid hx (ModerateRate.mag hr) ht hR), fun _ _ => trivial⟩).1
  rw [e]
  exact hdev_freq_float P.floatRound P.hsum log10grid y Y Z hY hZ rate (ModerateRate.pos hr) taus hN ht

/-- C97: `ohdev` of frequency data in double precision with a limited range of exponents -/
theorem ohdev_freq_range (hfl : Binary64Range fl) (hsum : ∀ l, FloatSum fl l (sum l)) (log10grid y : List ℝ)
    (hy : ∀ v ∈ y, Moderate v) (Y Z : ℝ) (hY : ∀ v ∈ y, |v| ≤ Y) (hZ : ∀ v ∈ y, |v - Spec.mean y| ≤ Z)
    (rate : ℝ) (hr : ModerateRate rate) (taus : TausArg) (hN : y.length ≤ 2 ^ 46) (ht : SafeTaus rate taus)
    (hR : RangeTaus rate taus) :
    (∃ e, ohdev_freq_fl fl sum log10grid y rate taus = .error e ∧ ohdev y rate "freq" taus = .error e) ∨
    ∃ o o', ohdev_freq_fl fl sum log10grid y rate taus = .ok o ∧ ohdev y rate "freq" taus = .ok o' ∧
      FloatClose (freqBound 8 37 y.length rate (Z + 2 * y.length * unitRoundoff * Y)) o o' := by
  obtain ⟨r, sum', P⟩ := exists_rangePair hfl hsum
  have e : ohdev_freq_fl fl sum log10grid y rate taus = ohdev_freq_fl r sum' log10grid y rate taus :=
    ((P.freq (fun v hv => (Moderate.grid (hy v hv))) hN (ModerateRate.mag hr)).bind (Q := fun _ => True) fun x hx =>
      ⟨(P.ohdev log10grid hx (ModerateRate.mag hr) ht hR), fun _ _ => trivial⟩).1
  rw [e]
  exact ohdev_freq_float P.floatRound P.hsum log10grid y Y Z hY hZ rate (ModerateRate.pos hr) taus hN ht

/-- C97: `mdev` of frequency data in double precision with a limited range of exponents -/
theorem mdev_freq_range (hfl : Binary64Range fl) (hsum : ∀ l, FloatSum fl l (sum l)) (log10grid y : List ℝ)
    (hy : ∀ v ∈ y, Moderate v) (Y Z : ℝ) (hY : ∀ v ∈ y, |v| ≤ Y) (hZ : ∀ v ∈ y, |v - Spec.mean y| ≤ Z)
    (rate : ℝ) (hr : ModerateRate rate) (taus : TausArg) (hN : y.length ≤ 2 ^ 46) (ht : SafeTaus rate taus)
    (hR : RangeTaus rate taus) :
    (∃ e, mdev_freq_fl fl sum log10grid y rate taus = .error e ∧ mdev y rate "freq" taus = .error e) ∨
    ∃ o o', mdev_freq_fl fl sum log10grid y rate taus = .ok o ∧ mdev y rate "freq" taus = .ok o' ∧
      FloatClose (mdevFreqBound y.length rate (Z + 2 * y.length * unitRoundoff * Y)) o o' := by
  obtain ⟨r, sum', P⟩ := exists_rangePair hfl hsum
  have e : mdev_freq_fl fl sum log10grid y rate taus = mdev_freq_fl r sum' log10grid y rate taus :=
    ((P.freq (fun v hv => (Moderate.grid (hy v hv))) hN (ModerateRate.mag hr)).bind (Q := fun _ => True) fun x hx =>
      ⟨(P.mdev log10grid hx (ModerateRate.mag hr) ht hR).1, fun _ _ => trivial⟩).1
  rw [e]
  exact mdev_freq_float P.floatRound P.hsum log10grid y Y Z hY hZ rate (ModerateRate.pos hr) taus hN ht

/-- C97: `tdev` of frequency data in double precision with a limited range of exponents -/
theorem tdev_freq_range (hfl : Binary64Range fl) (hsum : ∀ l, FloatSum fl l (sum l)) (log10grid y : List ℝ)
    (hy : ∀ v ∈ y, Moderate v) (Y Z : ℝ) (hY : ∀ v ∈ y, |v| ≤ Y) (hZ : ∀ v ∈ y, |v - Spec.mean y| ≤ Z)
    (rate : ℝ) (hr : ModerateRate rate) (taus : TausArg) (hN : y.length ≤ 2 ^ 46) (ht : SafeTaus rate taus)
    (hR : RangeTaus rate taus) :
    (∃ e, tdev_freq_fl fl sum log10grid y rate taus = .error e ∧ tdev y rate "freq" taus = .error e) ∨
    ∃ o o', tdev_freq_fl fl sum log10grid y rate taus = .ok o ∧ tdev y rate "freq" taus = .ok o' ∧
      FloatClose (tdevFreqBound y.length rate (Z + 2 * y.length * unitRoundoff * Y)) o o' := by
  obtain ⟨r, sum', P⟩ := exists_rangePair hfl hsum
  have e : tdev_freq_fl fl sum log10grid y rate taus = tdev_freq_fl r sum' log10grid y rate taus :=
    ((P.freq (fun v hv => (Moderate.grid (hy v hv))) hN (ModerateRate.mag hr)).bind (Q := fun _ => True) fun x hx =>
      ⟨(P.tdev log10grid hx (ModerateRate.mag hr) ht hR), fun _ _ => trivial⟩).1
  rw [e]
  exact tdev_freq_float P.floatRound P.hsum log10grid y Y Z hY hZ rate (ModerateRate.pos hr) taus hN ht

/-! ## The limits are needed -/

theorem isBinary64_pow (a : ℤ) : IsBinary64 ((2 : ℝ) ^ a) ((2 : ℝ) ^ a) ∧ IsBinary64 (-(2 : ℝ) ^ a) (-(2 : ℝ) ^ a) := by
  have hp := two_zpow_pos (a - 52)
  have e : (2 : ℝ) ^ a / (2 : ℝ) ^ (a - 52) = 2 ^ 52 := by
    rw [← two_zpow_sub]
    norm_num
  have e' : (2 : ℝ) ^ 52 * (2 : ℝ) ^ (a - 52) = (2 : ℝ) ^ a := by
    rw [← e]; field_simp
  constructor
  · refine Or.inr ⟨a - 52, 2 ^ 52, ?_, ?_, ?_, ?_⟩
    · rw [abs_of_pos (two_zpow_pos a), e]
    · rw [abs_of_pos (two_zpow_pos a), e]; norm_num
    · rw [e]; exact isRound_of_lt (by norm_num)
    · push_cast; linarith [e']
  · refine Or.inr ⟨a - 52, -2 ^ 52, ?_, ?_, ?_, ?_⟩
    · rw [abs_neg, abs_of_pos (two_zpow_pos a), e]
    · rw [abs_neg, abs_of_pos (two_zpow_pos a), e]; norm_num
    · rw [neg_div, e]; exact isRound_of_lt (by norm_num)
    · push_cast; linarith [e']

theorem fl_pow (hfl : Binary64Range fl) (a : ℤ) (h1 : -1022 ≤ a) (h2 : a ≤ 1023) :
    fl ((2 : ℝ) ^ a) = (2 : ℝ) ^ a ∧ fl (-(2 : ℝ) ^ a) = -(2 : ℝ) ^ a := by
  have h : NormalRange ((2 : ℝ) ^ a) ∧ NormalRange (-(2 : ℝ) ^ a) := by
    refine ⟨Or.inr ?_, Or.inr ?_⟩
    · rw [abs_of_pos (two_zpow_pos a)]; exact ⟨two_zpow_mono h1, two_zpow_mono h2⟩
    · rw [abs_neg, abs_of_pos (two_zpow_pos a)]; exact ⟨two_zpow_mono h1, two_zpow_mono h2⟩
  exact ⟨isBinary64_unique (hfl _ h.1) (isBinary64_pow a).1, isBinary64_unique (hfl _ h.2) (isBinary64_pow a).2⟩

/-- If results below `2^-1075` are rounded to zero, as IEEE arithmetic does, then the computed Allan
deviation of the doubles `0, 2^-600, 0, 2^-600` is zero; the exact one is `2^-599/√2`. -/
theorem oadev_underflow (hfl : Binary64Range fl) (h0 : ∀ x, |x| < (2 : ℝ) ^ (-1075 : ℤ) → fl x = 0)
    (hsum : ∀ l, FloatSum fl l (sum l)) :
    oadev_fl fl sum [] [0, (2 : ℝ) ^ (-600 : ℤ), 0, (2 : ℝ) ^ (-600 : ℤ)] 1 (.list [((1 : ℕ) : ℝ) / 1]) =
      .ok ⟨[1], [0], .arr [0], [2]⟩ ∧
    oadev [0, (2 : ℝ) ^ (-600 : ℤ), 0, (2 : ℝ) ^ (-600 : ℤ)] 1 "phase" (.list [((1 : ℕ) : ℝ) / 1]) =
      .ok ⟨[((1 : ℕ) : ℝ) / 1], [√(((2 : ℝ) ^ (-599 : ℤ)) ^ 2 / 2)],
        .arr [√(((2 : ℝ) ^ (-599 : ℤ)) ^ 2 / 2) / √2], [2]⟩ := by
  have e600 : (2 : ℝ) * (2 : ℝ) ^ (-600 : ℤ) = (2 : ℝ) ^ (-599 : ℤ) := by
    rw [show (-599 : ℤ) = 1 + -600 by norm_num, two_zpow_add, zpow_one]
  have esq : (2 : ℝ) ^ (-599 : ℤ) * (2 : ℝ) ^ (-599 : ℤ) = (2 : ℝ) ^ (-1198 : ℤ) := by
    rw [← two_zpow_add]; norm_num
  have z : fl 0 = 0 := h0 0 (by rw [abs_zero]; exact two_zpow_pos _)
  have o1 : fl 1 = 1 := by
    have := (fl_pow hfl 0 (by norm_num) (by norm_num)).1
    simpa using this
  have p600 := (fl_pow hfl (-600) (by norm_num) (by norm_num)).1
  have p599 := fl_pow hfl (-599) (by norm_num) (by norm_num)
  have sq : fl ((2 : ℝ) ^ (-1198 : ℤ)) = 0 := h0 _ (by
    rw [abs_of_pos (two_zpow_pos _)]
    exact zpow_lt_zpow_right₀ (by norm_num) (by norm_num))
  have s600 : (2 : ℝ) ^ (-600 : ℤ) + (2 : ℝ) ^ (-600 : ℤ) = (2 : ℝ) ^ (-599 : ℤ) := by rw [← e600]; ring
  generalize (2 : ℝ) ^ (-1198 : ℤ) = q at *
  generalize ht : (2 : ℝ) ^ (-600 : ℤ) = t at *
  generalize hu : (2 : ℝ) ^ (-599 : ℤ) = u at *
  constructor
  · obtain ⟨r, sum', P⟩ := exists_rangePair hfl hsum
    unfold oadev_fl
    have hs : SafeTaus 1 (.list [((1 : ℕ) : ℝ) / 1]) := by
      intro t ht
      rw [List.mem_singleton] at ht
      exact ⟨1, by norm_num, by rw [ht]; norm_num⟩
    have hr1 : Mag (-40) 40 1 := Or.inr (by norm_num)
    have n1 : NormalRange 1 := hr1.range (by norm_num) (by norm_num)
    have hR : RangeTaus 1 (.list [((1 : ℕ) : ℝ) / 1]) := by
      intro t ht
      rw [List.mem_singleton] at ht
      rw [ht, show ((1 : ℕ) : ℝ) / 1 * 1 = 1 by norm_num]
      exact n1
    rw [(P.tau [] [0, t, 0, t] false (-1) (by norm_num) hr1 hs hR).1]
    rw [tau_generator_float_safe P.floatRound [] _ 1 _ false (-1) (by norm_num) hs, effMax_default]
    rw [factors_single _ 1 one_ne_zero false _ 1 one_pos (by simp) (by simp) (by simp)]
    have or1 : r 1 = 1 := by
      rw [← P.agree 1 n1, o1]
    simp only [ok_bind, List.map_cons, List.map_nil]
    have c5 : sum [0, 0] = 0 := by
      have gen : ∀ {l : List ℝ} {s : ℝ}, FloatSum fl l s → (∀ v ∈ l, v = 0) → s = 0 := by
        intro l s h
        induction h with
        | nil => exact fun _ => rfl
        | single x => exact fun h => h x (by simp)
        | add _ _ hp _ _ ia ib =>
          intro h
          rw [ia fun v hv => h v (hp.symm.subset (List.mem_append_left _ hv)),
            ib fun v hv => h v (hp.symm.subset (List.mem_append_right _ hv)), add_zero, z]
      exact gen (hsum [0, 0]) (by simp)
    have row : calc_adev_phase_fl fl sum [0, t, 0, t] 1 1 1 = .ok (0, 0, 2) := by
      simp only [calc_adev_phase_fl]
      have s2 : sliceStep [0, t, 0, t] ((2 * 1 : ℕ) : ℤ) 1 = .ok [0, t] := by
        simp only [sliceStep, if_neg one_ne_zero, sliceFrom_nat]; simp [everyNth]
      have s1 : sliceStep [0, t, 0, t] ((1 * 1 : ℕ) : ℤ) 1 = .ok [t, 0, t] := by
        simp only [sliceStep, if_neg one_ne_zero, sliceFrom_nat]; simp [everyNth]
      have s0 : sliceStep [0, t, 0, t] ((0 : ℕ) : ℤ) 1 = .ok [0, t, 0, t] := by
        simp only [sliceStep, if_neg one_ne_zero, sliceFrom_nat]; simp [everyNth]
      rw [s2, s1, s0]
      have l : ∀ a b c d : ℝ, min (min [a, b, c, d].length [b, c, d].length) [c, d].length = 2 :=
        fun _ _ _ _ => rfl
      have t4 : ∀ (a b c d : ℝ), sliceTo [a, b, c, d] ((2 : ℕ) : ℤ) = [a, b] := fun _ _ _ _ => rfl
      have t' : ∀ (a b c : ℝ), sliceTo [a, b, c] ((2 : ℕ) : ℤ) = [a, b] := fun _ _ _ => rfl
      have t'' : ∀ (a b : ℝ), sliceTo [a, b] ((2 : ℕ) : ℤ) = [a, b] := fun _ _ => rfl
      have vo : ∀ (f : ℝ → ℝ → ℝ) (a b c d : ℝ), vop f [a, b] [c, d] = .ok [f a c, f b d] :=
        fun _ _ _ _ _ => rfl
      simp only [ok_bind, l, if_neg (by norm_num : ¬ (2 = 0)), t4, t', t'', vscale_fl, vsub_fl, vadd_fl,
        vmul_fl, List.map_cons, List.map_nil, vo, e600, p599.1, p599.2, p600, mul_zero, z, zero_sub, sub_zero,
        add_zero, s600, neg_mul_neg, esq, sq, c5, zero_div, Real.sqrt_zero, zero_mul]
      rfl
    have h := runTaus_eq' [1] (fun m => calc_adev_phase_fl fl sum [0, t, 0, t] 1 m 1)
      (fun _ => 1) (fun _ => 0) (fun _ => 0) (fun _ => 2) (by
        intro m hm
        rw [List.mem_singleton] at hm
        subst hm
        exact ⟨_, row, by simp, fun _ => rfl⟩)
    simp only [List.map_cons, List.map_nil] at h
    rw [show ((1 : ℕ) : ℝ) / 1 = 1 by norm_num, or1, h]
    simp [sweep]
  · rw [oadev_phase_eq _ _ (by norm_num), table_single _ _ (by norm_num) _ _ _ _ _ 1 (by norm_num) (by simp)
      (by norm_num) (by simp) (by norm_num)]
    have h : Spec.oadev (seq [0, t, 0, t]) 4 1 (((1 : ℕ) : ℝ) / 1) = √(u ^ 2 / 2) := by
      simp only [Spec.oadev, rms, d2, seq, Finset.sum_range_succ]
      congr 1
      rw [← e600]
      norm_num [Finset.sum_range_succ]
      ring
    have l : [0, t, 0, t].length = 4 := rfl
    rw [l, h]
    norm_num

/-! ## The hypotheses can be met -/

/-- double precision that sets results below `2^-1022` to zero and results above `2^1023` to a
constant: it rounds correctly in the normal range, and has no bounded relative error outside -/
theorem exists_binary64Range : ∃ fl : ℝ → ℝ, Binary64Range fl ∧ ¬ FloatRound fl ∧
    ∀ x, |x| < (2 : ℝ) ^ (-1075 : ℤ) → fl x = 0 := by
  classical
  refine ⟨fun x => if NormalRange x then (exists_isBinary64 x).choose else if |x| < 1 then 0 else 2 ^ 1024,
    fun x hx => ?_, fun h => ?_, fun x hx => ?_⟩
  · simp only [if_pos hx]
    exact (exists_isBinary64 x).choose_spec
  · have h1 : ¬ NormalRange ((2 : ℝ) ^ (-1023 : ℤ)) := by
      rintro (h | ⟨h, _⟩)
      · exact (two_zpow_pos _).ne' h
      · rw [abs_of_pos (two_zpow_pos _)] at h
        exact absurd h (not_le.2 (zpow_lt_zpow_right₀ (by norm_num) (by norm_num)))
    have h2 := h ((2 : ℝ) ^ (-1023 : ℤ))
    have h3 : |(2 : ℝ) ^ (-1023 : ℤ)| < 1 := by
      rw [abs_of_pos (two_zpow_pos _)]
      exact zpow_lt_one_of_neg₀ (by norm_num) (by norm_num)
    simp only [if_neg h1, if_pos h3, zero_sub, abs_neg] at h2
    have h4 : 0 < |(2 : ℝ) ^ (-1023 : ℤ)| := abs_pos.2 (two_zpow_pos _).ne'
    have h5 : unitRoundoff < 1 := by unfold unitRoundoff; norm_num
    nlinarith
  · by_cases h0 : NormalRange x
    · rcases h0 with rfl | ⟨h1, _⟩
      · have h0 : NormalRange 0 := Or.inl rfl
        simp only [if_pos h0]
        rcases (exists_isBinary64 0).choose_spec with ⟨_, h⟩ | ⟨e, k, h1, _⟩
        · exact h
        · rw [abs_zero, zero_div] at h1; norm_num at h1
      · exact absurd (h1.trans_lt hx) (not_lt.2 (two_zpow_mono (by norm_num)))
    · have h3 : |x| < 1 := hx.trans (zpow_lt_one_of_neg₀ (by norm_num) (by norm_num))
      simp only [if_neg h0, if_pos h3]

/-- such arithmetic: 6 points at 2 Hz, averaging time 1 s -/
example : ∃ (fl : ℝ → ℝ) (sum : List ℝ → ℝ) (o : DevOut ℝ), Binary64Range fl ∧ ¬ FloatRound fl ∧
    oadev_fl fl sum [] [0, 1, 0, 1, 2, -8] 2 (.list [(2 : ℕ) / 2]) = .ok o ∧ o.ns = [2] := by
  obtain ⟨fl, h1, h2, _⟩ := exists_binary64Range
  obtain ⟨sum, hsum⟩ := exists_floatSum fl
  have mod : ∀ a : ℤ, -100 ≤ a → a ≤ 100 → Moderate ((2 : ℝ) ^ a) ∧ Moderate (-(2 : ℝ) ^ a) := by
    intro a ha hb
    refine ⟨Or.inr ⟨(isBinary64_pow a).1, ?_⟩, Or.inr ⟨(isBinary64_pow a).2, ?_⟩⟩
    · rw [abs_of_pos (two_zpow_pos a)]; exact ⟨two_zpow_mono ha, two_zpow_mono hb⟩
    · rw [abs_neg, abs_of_pos (two_zpow_pos a)]; exact ⟨two_zpow_mono ha, two_zpow_mono hb⟩
  have m0 := (mod 0 (by norm_num) (by norm_num)).1
  have m1 := (mod 1 (by norm_num) (by norm_num)).1
  have m3 := (mod 3 (by norm_num) (by norm_num)).2
  norm_num at m0 m1 m3
  have ex : ∃ o', oadev [0, 1, 0, 1, 2, -8] 2 "phase" (.list [(2 : ℕ) / 2]) = .ok o' ∧ o'.ns = [2] := by
    rw [oadev_phase_eq _ _ (by norm_num), table_single _ _ (by norm_num) _ _ _ _ _ 2 (by norm_num) (by simp)
      (by norm_num) (by simp) (by norm_num)]
    exact ⟨_, rfl, by norm_num⟩
  obtain ⟨o', ex, en⟩ := ex
  have h := oadev_range h1 hsum [] [0, 1, 0, 1, 2, -8]
    (by
      intro v hv
      simp only [List.mem_cons, List.not_mem_nil, or_false] at hv
      rcases hv with rfl | rfl | rfl | rfl | rfl | rfl
      · exact Or.inl rfl
      · exact m0
      · exact Or.inl rfl
      · exact m0
      · exact m1
      · exact m3)
    8 (by norm_num) 2 (by constructor <;> norm_num) (.list [(2 : ℕ) / 2]) (by norm_num) (by
      intro t ht
      rw [List.mem_singleton] at ht
      exact ⟨2, by norm_num, by rw [ht]; norm_num⟩) (by
      intro t ht
      rw [List.mem_singleton] at ht
      rw [ht, show ((2 : ℕ) : ℝ) / 2 * 2 = 2 by norm_num]
      exact (show Mag 0 1 2 from Or.inr (by norm_num)).range (by norm_num) (by norm_num))
  rw [ex] at h
  rcases h with ⟨e, _, h⟩ | ⟨o, o'', h3, h4, h5⟩
  · cases h
  · cases h4
    exact ⟨fl, sum, o, h1, h2, h3, by rw [h5.ns, en]⟩

end AT
