import Verif.Spec.FloatNarrow
import Verif.Lemmas.FloatRangeNarrow
import Verif.Props.FloatRangeTot

/-!
# C105: no overflow and no underflow in `mtotdev` and `ttotdev` of frequency data

The phase is a running sum of frequencies reduced by their mean, the slope of a piece of it is
multiplied by the sampling interval and squared, and the squares are divided by the squared averaging
time and by the number of terms: the exponents add up, and the data have to be less extreme than in the
other deviations.
-/

namespace AT

open Spec

variable {fl : ℝ → ℝ} {sum : List ℝ → ℝ}

theorem Ordinary.grid {v : ℝ} (h : Ordinary v) : Grid (-116) 64 v := by
  rcases h with rfl | ⟨h1, h2⟩
  · exact Grid.zero _ _
  · exact (Mag.round_grid (Or.inr h2) h1 : Grid (-64 - 52) 64 v)

theorem OrdinaryRate.pos {rate : ℝ} (h : OrdinaryRate rate) : 0 < rate := (two_zpow_pos _).trans_le h.1

theorem OrdinaryRate.mag {rate : ℝ} (h : OrdinaryRate rate) : Mag (-10) 10 rate := by
  right
  rw [abs_of_pos (OrdinaryRate.pos h)]
  exact h

/-- C105: `mtotdev` of frequency data in double precision with a limited range of exponents -/
theorem mtotdev_freq_range (hfl : Binary64Range fl) (hsum : ∀ l, FloatSum fl l (sum l)) (log10grid y : List ℝ)
    (hy : ∀ v ∈ y, Ordinary v) (Y Z : ℝ) (hY : ∀ v ∈ y, |v| ≤ Y) (hZ : ∀ v ∈ y, |v - Spec.mean y| ≤ Z)
    (rate : ℝ) (hr : OrdinaryRate rate) (taus : TausArg) (hN : y.length < 2 ^ 22) (ht : SafeTaus rate taus)
    (hR : RangeTaus rate taus) :
    (∃ e, mtotdev_freq_fl fl sum log10grid y rate taus = .error e ∧ mtotdev y rate "freq" taus = .error e) ∨
    ∃ o o', mtotdev_freq_fl fl sum log10grid y rate taus = .ok o ∧ mtotdev y rate "freq" taus = .ok o' ∧
      FloatClose (mtotdevFreqBound y.length rate (Z + 2 * y.length * unitRoundoff * Y)) o o' := by
  obtain ⟨r, sum', P⟩ := exists_rangePair hfl hsum
  rw [(P.mtotdev_freq log10grid (fun v hv => Ordinary.grid (hy v hv)) hN (OrdinaryRate.mag hr) ht hR).1]
  exact mtotdev_freq_float P.floatRound (binary64_intExact P.binary) P.hsum log10grid y Y Z hY hZ rate
    (OrdinaryRate.pos hr) taus (by omega) ht

/-- C105: `ttotdev` of frequency data in double precision with a limited range of exponents -/
theorem ttotdev_freq_range (hfl : Binary64Range fl) (hsum : ∀ l, FloatSum fl l (sum l)) (log10grid y : List ℝ)
    (hy : ∀ v ∈ y, Ordinary v) (Y Z : ℝ) (hY : ∀ v ∈ y, |v| ≤ Y) (hZ : ∀ v ∈ y, |v - Spec.mean y| ≤ Z)
    (rate : ℝ) (hr : OrdinaryRate rate) (taus : TausArg) (hN : y.length < 2 ^ 22) (ht : SafeTaus rate taus)
    (hR : RangeTaus rate taus) :
    (∃ e, ttotdev_freq_fl fl sum log10grid y rate taus = .error e ∧ ttotdev y rate "freq" taus = .error e) ∨
    ∃ o o', ttotdev_freq_fl fl sum log10grid y rate taus = .ok o ∧ ttotdev y rate "freq" taus = .ok o' ∧
      FloatClose (ttotdevFreqBound y.length rate (Z + 2 * y.length * unitRoundoff * Y)) o o' := by
  obtain ⟨r, sum', P⟩ := exists_rangePair hfl hsum
  rw [P.ttotdev_freq log10grid (fun v hv => Ordinary.grid (hy v hv)) hN (OrdinaryRate.mag hr) ht hR]
  exact ttotdev_freq_float P.floatRound (binary64_intExact P.binary) P.hsum log10grid y Y Z hY hZ rate
    (OrdinaryRate.pos hr) taus (by omega) ht

/-- arithmetic of limited range: 7 frequencies at 2 Hz, averaging time 1 s -/
example : ∃ (fl : ℝ → ℝ) (sum : List ℝ → ℝ), Binary64Range fl ∧ ¬ FloatRound fl ∧
    (∃ o, mtotdev_freq_fl fl sum [] [1, 2, 0, 1, 1, 0, 2] 2 (.list [(2 : ℕ) / 2]) = .ok o ∧ o.ns = [3]) ∧
    ∃ o, ttotdev_freq_fl fl sum [] [1, 2, 0, 1, 1, 0, 2] 2 (.list [(2 : ℕ) / 2]) = .ok o ∧ o.ns = [3] := by
  obtain ⟨fl, h1, h2, _⟩ := exists_binary64Range
  obtain ⟨sum, hsum⟩ := exists_floatSum fl
  have m0 : Ordinary 0 := Or.inl rfl
  have m1 : Ordinary 1 := Or.inr ⟨by simpa using (isBinary64_pow 0).1, by norm_num⟩
  have m2 : Ordinary 2 := Or.inr ⟨by simpa using (isBinary64_pow 1).1, by norm_num⟩
  have hr : OrdinaryRate 2 := by constructor <;> norm_num
  have ht : SafeTaus 2 (.list [(2 : ℕ) / 2]) := by
    intro t ht
    rw [List.mem_singleton] at ht
    exact ⟨2, by norm_num, by rw [ht]; norm_num⟩
  have hR : RangeTaus 2 (.list [(2 : ℕ) / 2]) := by
    intro t ht
    rw [List.mem_singleton] at ht
    rw [ht, show ((2 : ℕ) : ℝ) / 2 * 2 = 2 by norm_num]
    exact (show Mag 0 1 2 from Or.inr (by norm_num)).range (by norm_num) (by norm_num)
  have hy : ∀ v ∈ [(1 : ℝ), 2, 0, 1, 1, 0, 2], Ordinary v := by
    intro v hv
    simp only [List.mem_cons, List.not_mem_nil, or_false] at hv
    rcases hv with rfl | rfl | rfl | rfl | rfl | rfl | rfl <;> assumption
  have hY : ∀ v ∈ [(1 : ℝ), 2, 0, 1, 1, 0, 2], |v| ≤ 2 := by norm_num
  have hZ : ∀ v ∈ [(1 : ℝ), 2, 0, 1, 1, 0, 2], |v - Spec.mean [1, 2, 0, 1, 1, 0, 2]| ≤ 1 := by
    norm_num [Spec.mean]
  have hx : frequency2phase [1, 2, 0, 1, 1, 0, 2] 2 = .ok [0, 0, 1 / 2, 0, 0, 0, -1 / 2, 0] := by
    simp [frequency2phase, npMean, npSum, npCumsum]; norm_num
  have em : ∃ o, mtotdev [1, 2, 0, 1, 1, 0, 2] 2 "freq" (.list [(2 : ℕ) / 2]) = .ok o ∧ o.ns = [3] ∧
      ∃ o', scaleToTdev o = .ok o' ∧ o'.ns = [3] := by
    have e : mtotdev [1, 2, 0, 1, 1, 0, 2] 2 "freq" (.list [(2 : ℕ) / 2]) =
        mtotdev [0, 0, 1 / 2, 0, 0, 0, -1 / 2, 0] 2 "phase" (.list [(2 : ℕ) / 2]) := by
      simp only [mtotdev, input_to_phase, if_neg freq_ne_phase, if_true, hx, ok_bind]
    rw [e, mtotdev_phase_eq, table_single _ _ (by norm_num) _ _ _ _ _ 2 (by norm_num) (by simp)
      (by norm_num) (by simp) (by simp)]
    exact ⟨_, rfl, rfl, _, rfl, rfl⟩
  obtain ⟨om, em, nm, ot, et, nt⟩ := em
  have et : ttotdev [1, 2, 0, 1, 1, 0, 2] 2 "freq" (.list [(2 : ℕ) / 2]) = .ok ot := by
    simp only [ttotdev, em, ok_bind, et]
  have key : ∀ (f g : Py (DevOut ℝ)) (n : ℤ) (bound : ℝ → ℝ → ℤ → ℝ), (∃ o, g = .ok o ∧ o.ns = [n]) →
      ((∃ e, f = .error e ∧ g = .error e) ∨ ∃ o o', f = .ok o ∧ g = .ok o' ∧ FloatClose bound o o') →
      ∃ o, f = .ok o ∧ o.ns = [n] := by
    rintro f g n bound ⟨o, rfl, ho⟩ (⟨e, _, h⟩ | ⟨o₁, o', h1, h2, h3⟩)
    · cases h
    · cases h2
      exact ⟨o₁, h1, by rw [h3.ns, ho]⟩
  exact ⟨fl, sum, h1, h2,
    key _ _ _ _ ⟨_, em, nm⟩ (mtotdev_freq_range h1 hsum [] _ hy _ _ hY hZ 2 hr _ (by simp) ht hR),
    key _ _ _ _ ⟨_, et, nt⟩ (ttotdev_freq_range h1 hsum [] _ hy _ _ hY hZ 2 hr _ (by simp) ht hR)⟩

end AT
