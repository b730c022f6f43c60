import Verif.Lemmas.FloatRangeFreq
import Verif.Props.FloatRangeMore
import Verif.Props.FloatFreqMore

/-!
# C97: no overflow and no underflow in the other deviations of frequency data

Property: for moderate frequencies the same holds of `totdev`, `pdev`, `theo1`, `tierms`, `mtie` and
`gcodev`: the error bounds of C99 need correct rounding in the normal range only. The squares of `pdev`
are divided by the fourth power of the averaging factor, so at most 2^32 frequencies are covered there.
-/

namespace AT

open Spec

variable {fl : ℝ → ℝ} {sum : List ℝ → ℝ}

/-- C97: `totdev` of frequency data in double precision with a limited range of exponents -/
theorem totdev_freq_range (hfl : Binary64Range fl) (hsum : ∀ l, FloatSum fl l (sum l)) (log10grid y : List ℝ)
    (hy : ∀ v ∈ y, Moderate v) (Y Z : ℝ) (hY : ∀ v ∈ y, |v| ≤ Y) (hZ : ∀ v ∈ y, |v - Spec.mean y| ≤ Z)
    (rate : ℝ) (hr : ModerateRate rate) (taus : TausArg) (hN : y.length < 2 ^ 45) (ht : SafeTaus rate taus)
    (hR : RangeTaus rate taus) :
    (∃ e, totdev_freq_fl fl sum log10grid y rate taus = .error e ∧ totdev y rate "freq" taus = .error e) ∨
    ∃ o o', totdev_freq_fl fl sum log10grid y rate taus = .ok o ∧ totdev y rate "freq" taus = .ok o' ∧
      FloatClose (freqBound 12 77 y.length rate (Z + 2 * y.length * unitRoundoff * Y)) o o' := by
  obtain ⟨r, sum', P⟩ := exists_rangePair hfl hsum
  have e : totdev_freq_fl fl sum log10grid y rate taus = totdev_freq_fl r sum' log10grid y rate taus :=
    ((P.freq_len (fun v hv => (Moderate.grid (hy v hv))) (by omega) (ModerateRate.mag hr)).bind (Q := fun _ => True)
      fun x hx => ⟨P.totdev log10grid hx.1 (by omega) (ModerateRate.mag hr) ht hR, fun _ _ => trivial⟩).1
  rw [e]
  exact totdev_freq_float P.floatRound P.hsum log10grid y Y Z hY hZ rate (ModerateRate.pos hr) taus (by omega) ht

/-- C97: `pdev` of frequency data in double precision with a limited range of exponents -/
theorem pdev_freq_range (hfl : Binary64Range fl) (hsum : ∀ l, FloatSum fl l (sum l)) (log10grid y : List ℝ)
    (hy : ∀ v ∈ y, Moderate v) (Y Z : ℝ) (hY : ∀ v ∈ y, |v| ≤ Y) (hZ : ∀ v ∈ y, |v - Spec.mean y| ≤ Z)
    (rate : ℝ) (hr : ModerateRate rate) (taus : TausArg) (hN : y.length < 2 ^ 33) (ht : SafeTaus rate taus)
    (hR : RangeTaus rate taus) :
    (∃ e, pdev_freq_fl fl sum log10grid y rate taus = .error e ∧ pdev y rate "freq" taus = .error e) ∨
    ∃ o o', pdev_freq_fl fl sum log10grid y rate taus = .ok o ∧ pdev y rate "freq" taus = .ok o' ∧
      FloatClose (pdevFreqBound y.length rate (Z + 2 * y.length * unitRoundoff * Y)) o o' := by
  obtain ⟨r, sum', P⟩ := exists_rangePair hfl hsum
  have e : pdev_freq_fl fl sum log10grid y rate taus = pdev_freq_fl r sum' log10grid y rate taus :=
    ((P.freq_len (fun v hv => (Moderate.grid (hy v hv))) (by omega) (ModerateRate.mag hr)).bind (Q := fun _ => True)
      fun x hx => ⟨P.pdev_wide log10grid hx.1 (by omega) (ModerateRate.mag hr) ht hR, fun _ _ => trivial⟩).1
  rw [e]
  exact pdev_freq_float P.floatRound P.hsum log10grid y Y Z hY hZ rate (ModerateRate.pos hr) taus (by omega) ht

/-- C97: `theo1` of frequency data in double precision with a limited range of exponents -/
theorem theo1_freq_range (hfl : Binary64Range fl) (hsum : ∀ l, FloatSum fl l (sum l)) (log10grid y : List ℝ)
    (hy : ∀ v ∈ y, Moderate v) (Y Z : ℝ) (hY : ∀ v ∈ y, |v| ≤ Y) (hZ : ∀ v ∈ y, |v - Spec.mean y| ≤ Z)
    (rate : ℝ) (hr : ModerateRate rate) (taus : TausArg) (hN : y.length < 2 ^ 26) (ht : SafeTaus rate taus)
    (hR : RangeTaus rate taus) :
    (∃ e, theo1_freq_fl fl sum log10grid y rate taus = .error e ∧ theo1 y rate "freq" taus = .error e) ∨
    ∃ o o', theo1_freq_fl fl sum log10grid y rate taus = .ok o ∧ theo1 y rate "freq" taus = .ok o' ∧
      FloatCloseE (theo1FreqBound y.length rate (Z + 2 * y.length * unitRoundoff * Y))
        (fun tau d _ => d / √((y.length : ℝ) + 1 - tau * rate)) o o' := by
  obtain ⟨r, sum', P⟩ := exists_rangePair hfl hsum
  have e : theo1_freq_fl fl sum log10grid y rate taus = theo1_freq_fl r sum' log10grid y rate taus :=
    ((P.freq_len (fun v hv => (Moderate.grid (hy v hv))) (by omega) (ModerateRate.mag hr)).bind (Q := fun _ => True)
      fun x hx => ⟨P.theo1_wide log10grid hx.1 (ModerateRate.mag hr) ht hR, fun _ _ => trivial⟩).1
  rw [e]
  exact theo1_freq_float P.floatRound (binary64_intExact P.binary) P.hsum log10grid y Y Z hY hZ rate (ModerateRate.pos hr) taus hN ht

/-- C97: `tierms` of frequency data in double precision with a limited range of exponents -/
theorem tierms_freq_range (hfl : Binary64Range fl) (hsum : ∀ l, FloatSum fl l (sum l)) (log10grid y : List ℝ)
    (hy : ∀ v ∈ y, Moderate v) (Y Z : ℝ) (hY : ∀ v ∈ y, |v| ≤ Y) (hZ : ∀ v ∈ y, |v - Spec.mean y| ≤ Z)
    (rate : ℝ) (hr : ModerateRate rate) (taus : TausArg) (hN : y.length ≤ 2 ^ 46) (ht : SafeTaus rate taus)
    (hR : RangeTaus rate taus) :
    (∃ e, tierms_freq_fl fl sum log10grid y rate taus = .error e ∧ tierms y rate "freq" taus = .error e) ∨
    ∃ o o', tierms_freq_fl fl sum log10grid y rate taus = .ok o ∧ tierms y rate "freq" taus = .ok o' ∧
      FloatCloseE (tiermsFreqBound y.length rate (Z + 2 * y.length * unitRoundoff * Y) Y)
        (fun _ _ _ => 0) o o' := by
  obtain ⟨r, sum', P⟩ := exists_rangePair hfl hsum
  have e : tierms_freq_fl fl sum log10grid y rate taus = tierms_freq_fl r sum' log10grid y rate taus :=
    ((P.freq_len (fun v hv => (Moderate.grid (hy v hv))) (by omega) (ModerateRate.mag hr)).bind (Q := fun _ => True)
      fun x hx => ⟨P.tierms log10grid hx.1 (ModerateRate.mag hr) ht hR, fun _ _ => trivial⟩).1
  rw [e]
  exact tierms_freq_float P.floatRound P.hsum log10grid y Y Z hY hZ rate (ModerateRate.pos hr) taus hN ht

/-- C97: `mtie` of frequency data in double precision with a limited range of exponents -/
theorem mtie_freq_range (hfl : Binary64Range fl) (hsum : ∀ l, FloatSum fl l (sum l)) (log10grid y : List ℝ)
    (hy : ∀ v ∈ y, Moderate v) (Y Z : ℝ) (hY : ∀ v ∈ y, |v| ≤ Y) (hZ : ∀ v ∈ y, |v - Spec.mean y| ≤ Z)
    (rate : ℝ) (hr : ModerateRate rate) (taus : TausArg) (hN : y.length ≤ 2 ^ 46) (ht : SafeTaus rate taus)
    (hR : RangeTaus rate taus) :
    (∃ e, mtie_freq_fl fl sum log10grid y rate taus = .error e ∧ mtie y rate "freq" taus = .error e) ∨
    ∃ o o', mtie_freq_fl fl sum log10grid y rate taus = .ok o ∧ mtie y rate "freq" taus = .ok o' ∧
      FloatClose (mtieFreqBound y.length rate (Z + 2 * y.length * unitRoundoff * Y) Y) o o' := by
  obtain ⟨r, sum', P⟩ := exists_rangePair hfl hsum
  have e : mtie_freq_fl fl sum log10grid y rate taus = mtie_freq_fl r sum' log10grid y rate taus :=
    ((P.freq_len (fun v hv => (Moderate.grid (hy v hv))) (by omega) (ModerateRate.mag hr)).bind (Q := fun _ => True)
      fun x hx => ⟨P.mtie log10grid hx.1 (ModerateRate.mag hr) ht hR, fun _ _ => trivial⟩).1
  rw [e]
  exact mtie_freq_float P.floatRound P.hsum log10grid y Y Z hY hZ rate (ModerateRate.pos hr) taus hN ht

/-- C97: `gcodev` of frequency data in double precision with a limited range of exponents -/
theorem gcodev_freq_range (hfl : Binary64Range fl) (hsum : ∀ l, FloatSum fl l (sum l)) (log10grid y z : List ℝ)
    (hy : ∀ v ∈ y, Moderate v) (hz : ∀ v ∈ z, Moderate v) (hlen : y.length = z.length)
    (Y₁ Y₂ Z₁ Z₂ : ℝ) (hY₁ : ∀ v ∈ y, |v| ≤ Y₁) (hZ₁ : ∀ v ∈ y, |v - Spec.mean y| ≤ Z₁)
    (hY₂ : ∀ v ∈ z, |v| ≤ Y₂) (hZ₂ : ∀ v ∈ z, |v - Spec.mean z| ≤ Z₂)
    (rate : ℝ) (hr : ModerateRate rate) (taus : TausArg) (hN : y.length ≤ 2 ^ 46) (ht : SafeTaus rate taus)
    (hR : RangeTaus rate taus) :
    (∃ e, gcodev_freq_fl fl sum log10grid y z rate taus = .error e ∧ gcodev y z rate "freq" taus = .error e) ∨
    ∃ o o', gcodev_freq_fl fl sum log10grid y z rate taus = .ok o ∧ gcodev y z rate "freq" taus = .ok o' ∧
      FloatClose (gcodevFreqBound y.length rate (Z₁ + 2 * y.length * unitRoundoff * Y₁)
        (Z₂ + 2 * y.length * unitRoundoff * Y₂)) o o' := by
  obtain ⟨r, sum', P⟩ := exists_rangePair hfl hsum
  have e : gcodev_freq_fl fl sum log10grid y z rate taus = gcodev_freq_fl r sum' log10grid y z rate taus :=
    ((P.freq (fun v hv => (Moderate.grid (hy v hv))) hN (ModerateRate.mag hr)).bind (Q := fun _ => True) fun x hx =>
      (P.freq (fun v hv => (Moderate.grid (hz v hv))) (hlen ▸ hN) (ModerateRate.mag hr)).bind fun x' hx' =>
        ⟨P.gcodev log10grid hx hx' (ModerateRate.mag hr) ht hR, fun _ _ => trivial⟩).1
  rw [e]
  exact gcodev_freq_float P.floatRound P.hsum log10grid y z hlen Y₁ Y₂ Z₁ Z₂ hY₁ hZ₁ hY₂ hZ₂ rate
    (ModerateRate.pos hr) taus hN ht

/-- arithmetic of limited range: 5 frequencies at 2 Hz, averaging time 1 s -/
example : ∃ (fl : ℝ → ℝ) (sum : List ℝ → ℝ) (o : DevOut ℝ), Binary64Range fl ∧ ¬ FloatRound fl ∧
    totdev_freq_fl fl sum [] [1, 2, 0, 1, 1] 2 (.list [(2 : ℕ) / 2]) = .ok o ∧ o.ns = [4] := by
  obtain ⟨fl, h1, h2, _⟩ := exists_binary64Range
  obtain ⟨sum, hsum⟩ := exists_floatSum fl
  have m0 : Moderate 1 := Or.inr ⟨by simpa using (isBinary64_pow 0).1, by norm_num⟩
  have m1 : Moderate 2 := Or.inr ⟨by simpa using (isBinary64_pow 1).1, by norm_num⟩
  have hx : frequency2phase [1, 2, 0, 1, 1] 2 = .ok [0, 0, 1 / 2, 0, 0, 0] := by
    rw [frequency2phase_eq _ (by simp) 2 two_ne_zero]
    norm_num [tab, List.range_succ, Finset.sum_range_succ, Spec.mean, seq]
  have ex : ∃ o', totdev [1, 2, 0, 1, 1] 2 "freq" (.list [(2 : ℕ) / 2]) = .ok o' ∧ o'.ns = [4] := by
    have e : totdev [1, 2, 0, 1, 1] 2 "freq" (.list [(2 : ℕ) / 2]) =
        totdev [0, 0, 1 / 2, 0, 0, 0] 2 "phase" (.list [(2 : ℕ) / 2]) := by
      simp only [totdev, input_to_phase, if_neg freq_ne_phase, if_true, hx, ok_bind]
    rw [e, totdev_phase_eq _ (by simp), table_single _ _ (by norm_num) _ _ _ _ _ 2 (by norm_num) (by simp)
      (by norm_num) (by simp) (by simp)]
    exact ⟨_, rfl, by simp⟩
  obtain ⟨o', ex, en⟩ := ex
  have h := totdev_freq_range h1 hsum [] [1, 2, 0, 1, 1]
    (by
      intro v hv
      simp only [List.mem_cons, List.not_mem_nil, or_false] at hv
      rcases hv with rfl | rfl | rfl | rfl | rfl
      · exact m0
      · exact m1
      · exact Or.inl rfl
      · exact m0
      · exact m0)
    2 1 (by norm_num) (by norm_num [Spec.mean]) 2 (by constructor <;> norm_num) (.list [(2 : ℕ) / 2]) (by norm_num) (by
      intro t ht
      rw [List.mem_singleton] at ht
      exact ⟨2, by norm_num, by rw [ht]; norm_num⟩) (by
      intro t ht
      rw [List.mem_singleton] at ht
      rw [ht, show ((2 : ℕ) : ℝ) / 2 * 2 = 2 by norm_num]
      exact (show Mag 0 1 2 from Or.inr (by norm_num)).range (by norm_num) (by norm_num))
  rw [ex] at h
  rcases h with ⟨e, _, h⟩ | ⟨o, o'', h3, h4, h5⟩
  · cases h
  · cases h4
    exact ⟨fl, sum, o, h1, h2, h3, by rw [h5.ns, en]⟩

end AT
