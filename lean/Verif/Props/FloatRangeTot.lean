import Verif.Lemmas.FloatRangeTot
import Verif.Props.FloatRange
import Verif.Props.FloatTot

/-!
# C105: no overflow and no underflow in `mtotdev`, `ttotdev` and `htotdev`

Property: for phases from `2^-100` to `2^100` in magnitude and rates from `2^-40` to `2^40` the error
bounds of C100 for `mtotdev`, `ttotdev` and `htotdev` need correct rounding in the normal range only.
The squares are divided by the squared averaging time and by the number of terms, so at most `2^26`
points are covered in `mtotdev` and `ttotdev`; `htotdev`, of phase or frequency data, is covered up to
`2^39` points.
-/

namespace AT

open Spec

variable {fl : ℝ → ℝ} {sum : List ℝ → ℝ}

/-- C105: `mtotdev` in double precision with a limited range of exponents -/
theorem mtotdev_range (hfl : Binary64Range fl) (hsum : ∀ l, FloatSum fl l (sum l)) (log10grid x : List ℝ)
    (hx : ∀ v ∈ x, Moderate v) (B : ℝ) (hB : ∀ v ∈ x, |v| ≤ B) (rate : ℝ) (hr : ModerateRate rate)
    (taus : TausArg) (hN : x.length ≤ 2 ^ 26) (ht : SafeTaus rate taus) (hR : RangeTaus rate taus) :
    (∃ e, mtotdev_fl fl sum log10grid x rate taus = .error e ∧ mtotdev x rate "phase" taus = .error e) ∨
    ∃ o o', mtotdev_fl fl sum log10grid x rate taus = .ok o ∧ mtotdev x rate "phase" taus = .ok o' ∧
      FloatClose (mtotdevBound x.length rate B) o o' := by
  obtain ⟨r, sum', P⟩ := exists_rangePair hfl hsum
  rw [(P.mtotdev log10grid ⟨hN.trans (by norm_num), fun v hv => Moderate.grid (hx v hv)⟩ hN
    (ModerateRate.mag hr) ht hR).1]
  exact mtotdev_float P.floatRound (binary64_intExact P.binary) P.hsum log10grid x B hB rate
    (ModerateRate.pos hr) taus (hN.trans (by norm_num)) ht

/-- C105: `ttotdev` in double precision with a limited range of exponents -/
theorem ttotdev_range (hfl : Binary64Range fl) (hsum : ∀ l, FloatSum fl l (sum l)) (log10grid x : List ℝ)
    (hne : x ≠ []) (hx : ∀ v ∈ x, Moderate v) (B : ℝ) (hB : ∀ v ∈ x, |v| ≤ B) (rate : ℝ) (hr : ModerateRate rate)
    (taus : TausArg) (hN : x.length ≤ 2 ^ 26) (ht : SafeTaus rate taus) (hR : RangeTaus rate taus) :
    (∃ e, ttotdev_fl fl sum log10grid x rate taus = .error e ∧ ttotdev x rate "phase" taus = .error e) ∨
    ∃ o o', ttotdev_fl fl sum log10grid x rate taus = .ok o ∧ ttotdev x rate "phase" taus = .ok o' ∧
      FloatClose (ttotdevBound x.length rate B) o o' := by
  obtain ⟨r, sum', P⟩ := exists_rangePair hfl hsum
  rw [P.ttotdev log10grid ⟨hN.trans (by norm_num), fun v hv => Moderate.grid (hx v hv)⟩ hN
    (ModerateRate.mag hr) ht hR]
  exact ttotdev_float P.floatRound (binary64_intExact P.binary) P.hsum log10grid x hne B hB rate
    (ModerateRate.pos hr) taus (hN.trans (by norm_num)) ht

/-- C105: `htotdev` of phase data in double precision with a limited range of exponents -/
theorem htotdev_range (hfl : Binary64Range fl) (hsum : ∀ l, FloatSum fl l (sum l)) (log10grid x : List ℝ)
    (hx : ∀ v ∈ x, Moderate v) (B : ℝ) (hB : ∀ v ∈ x, |v| ≤ B) (rate : ℝ) (hr : ModerateRate rate)
    (taus : TausArg) (hN : x.length ≤ 2 ^ 39) (ht : SafeTaus rate taus) (hR : RangeTaus rate taus) :
    (∃ e, htotdev_fl fl sum log10grid x rate taus = .error e ∧ htotdev x rate "phase" taus = .error e) ∨
    ∃ o o', htotdev_fl fl sum log10grid x rate taus = .ok o ∧ htotdev x rate "phase" taus = .ok o' ∧
      FloatClose (htotdevBound x.length rate B) o o' := by
  obtain ⟨r, sum', P⟩ := exists_rangePair hfl hsum
  rw [P.htotdev log10grid ⟨hN.trans (by norm_num), fun v hv => Moderate.grid (hx v hv)⟩ hN
    (ModerateRate.mag hr) ht hR]
  exact htotdev_float P.floatRound (binary64_intExact P.binary) P.hsum log10grid x B hB rate
    (ModerateRate.pos hr) taus (hN.trans (by norm_num)) ht

/-- C105: `htotdev` of frequency data in double precision with a limited range of exponents -/
theorem htotdev_freq_range (hfl : Binary64Range fl) (hsum : ∀ l, FloatSum fl l (sum l)) (log10grid y : List ℝ)
    (hy : ∀ v ∈ y, Moderate v) (Y Z : ℝ) (hY : ∀ v ∈ y, |v| ≤ Y) (hZ : ∀ v ∈ y, |v - Spec.mean y| ≤ Z)
    (rate : ℝ) (hr : ModerateRate rate) (taus : TausArg) (hN : y.length ≤ 2 ^ 39) (ht : SafeTaus rate taus)
    (hR : RangeTaus rate taus) :
    (∃ e, htotdev_freq_fl fl sum log10grid y rate taus = .error e ∧ htotdev y rate "freq" taus = .error e) ∨
    ∃ o o', htotdev_freq_fl fl sum log10grid y rate taus = .ok o ∧ htotdev y rate "freq" taus = .ok o' ∧
      FloatClose (htotdevFreqBound y.length rate (Z + 2 * y.length * unitRoundoff * Y) Y) o o' := by
  obtain ⟨r, sum', P⟩ := exists_rangePair hfl hsum
  rw [P.htotdev_freq log10grid ⟨hN.trans (by norm_num), fun v hv => Moderate.grid (hy v hv)⟩ hN
    (ModerateRate.mag hr) ht hR]
  exact htotdev_freq_float P.floatRound (binary64_intExact P.binary) P.hsum log10grid y Y Z hY hZ rate
    (ModerateRate.pos hr) taus (hN.trans (by norm_num)) ht

/-- arithmetic of limited range: 8 phases or 7 frequencies at 2 Hz, averaging time 1 s -/
example : ∃ (fl : ℝ → ℝ) (sum : List ℝ → ℝ), Binary64Range fl ∧ ¬ FloatRound fl ∧
    (∃ o, mtotdev_fl fl sum [] [0, 0, 2, 0, 0, 0, 1, 0] 2 (.list [(2 : ℕ) / 2]) = .ok o ∧ o.ns = [3]) ∧
    (∃ o, ttotdev_fl fl sum [] [0, 0, 2, 0, 0, 0, 1, 0] 2 (.list [(2 : ℕ) / 2]) = .ok o ∧ o.ns = [3]) ∧
    (∃ o, htotdev_fl fl sum [] [0, 0, 2, 0, 0, 0, 1, 0] 2 (.list [(2 : ℕ) / 2]) = .ok o ∧ o.ns = [2]) ∧
    ∃ o, htotdev_freq_fl fl sum [] [1, 2, 0, 1, 1, 0, 2] 2 (.list [(2 : ℕ) / 2]) = .ok o ∧ o.ns = [2] := by
  obtain ⟨fl, h1, h2, _⟩ := exists_binary64Range
  obtain ⟨sum, hsum⟩ := exists_floatSum fl
  have m0 : Moderate 0 := Or.inl rfl
  have m1 : Moderate 1 := Or.inr ⟨by simpa using (isBinary64_pow 0).1, by norm_num⟩
  have m2 : Moderate 2 := Or.inr ⟨by simpa using (isBinary64_pow 1).1, by norm_num⟩
  have hr : ModerateRate 2 := by constructor <;> norm_num
  have ht : SafeTaus 2 (.list [(2 : ℕ) / 2]) := by
    intro t ht
    rw [List.mem_singleton] at ht
    exact ⟨2, by norm_num, by rw [ht]; norm_num⟩
  have hR : RangeTaus 2 (.list [(2 : ℕ) / 2]) := by
    intro t ht
    rw [List.mem_singleton] at ht
    rw [ht, show ((2 : ℕ) : ℝ) / 2 * 2 = 2 by norm_num]
    exact (show Mag 0 1 2 from Or.inr (by norm_num)).range (by norm_num) (by norm_num)
  have hx : ∀ v ∈ [(0 : ℝ), 0, 2, 0, 0, 0, 1, 0], Moderate v := by
    intro v hv
    simp only [List.mem_cons, List.not_mem_nil, or_false] at hv
    rcases hv with rfl | rfl | rfl | rfl | rfl | rfl | rfl | rfl <;> assumption
  have hy : ∀ v ∈ [(1 : ℝ), 2, 0, 1, 1, 0, 2], Moderate v := by
    intro v hv
    simp only [List.mem_cons, List.not_mem_nil, or_false] at hv
    rcases hv with rfl | rfl | rfl | rfl | rfl | rfl | rfl <;> assumption
  have hB : ∀ v ∈ [(0 : ℝ), 0, 2, 0, 0, 0, 1, 0], |v| ≤ 2 := by norm_num
  have hY : ∀ v ∈ [(1 : ℝ), 2, 0, 1, 1, 0, 2], |v| ≤ 2 := by norm_num
  have hZ : ∀ v ∈ [(1 : ℝ), 2, 0, 1, 1, 0, 2], |v - Spec.mean [1, 2, 0, 1, 1, 0, 2]| ≤ 1 := by
    norm_num [Spec.mean]
  have em : ∃ o, mtotdev [0, 0, 2, 0, 0, 0, 1, 0] 2 "phase" (.list [(2 : ℕ) / 2]) = .ok o ∧ o.ns = [3] ∧
      ∃ o', scaleToTdev o = .ok o' ∧ o'.ns = [3] := by
    rw [mtotdev_phase_eq, table_single _ _ (by norm_num) _ _ _ _ _ 2 (by norm_num) (by simp)
      (by norm_num) (by simp) (by simp)]
    exact ⟨_, rfl, rfl, _, rfl, rfl⟩
  obtain ⟨om, em, nm, ot, et, nt⟩ := em
  have et : ttotdev [0, 0, 2, 0, 0, 0, 1, 0] 2 "phase" (.list [(2 : ℕ) / 2]) = .ok ot := by
    simp only [ttotdev, em, ok_bind, et]
  have eh : ∃ o, htotdev [0, 0, 2, 0, 0, 0, 1, 0] 2 "phase" (.list [(2 : ℕ) / 2]) = .ok o ∧ o.ns = [2] := by
    rw [htotdev_phase_eq _ _ two_pos.le, table_single _ _ (by norm_num) _ _ _ _ _ 2 (by norm_num) (by simp)
      (by norm_num) (by simp) (by simp [Spec.htotCount])]
    exact ⟨_, rfl, by simp [Spec.htotCount]⟩
  have ehf : ∃ o, htotdev [1, 2, 0, 1, 1, 0, 2] 2 "freq" (.list [(2 : ℕ) / 2]) = .ok o ∧ o.ns = [2] := by
    obtain ⟨x, _, _, h⟩ := htotdev_freq_eq [1, 2, 0, 1, 1, 0, 2] (by simp) 2 two_pos (.list [(2 : ℕ) / 2])
    rw [h, table_single _ _ (by norm_num) _ _ _ _ _ 2 (by norm_num) (by simp)
      (by norm_num) (by simp) (by simp [Spec.htotCount])]
    exact ⟨_, rfl, by simp [Spec.htotCount]⟩
  have key : ∀ (f g : Py (DevOut ℝ)) (n : ℤ) (bound : ℝ → ℝ → ℤ → ℝ), (∃ o, g = .ok o ∧ o.ns = [n]) →
      ((∃ e, f = .error e ∧ g = .error e) ∨ ∃ o o', f = .ok o ∧ g = .ok o' ∧ FloatClose bound o o') →
      ∃ o, f = .ok o ∧ o.ns = [n] := by
    rintro f g n bound ⟨o, rfl, ho⟩ (⟨e, _, h⟩ | ⟨o₁, o', h1, h2, h3⟩)
    · cases h
    · cases h2
      exact ⟨o₁, h1, by rw [h3.ns, ho]⟩
  exact ⟨fl, sum, h1, h2,
    key _ _ _ _ ⟨_, em, nm⟩ (mtotdev_range h1 hsum [] _ hx _ hB 2 hr _ (by simp) ht hR),
    key _ _ _ _ ⟨_, et, nt⟩ (ttotdev_range h1 hsum [] _ (by simp) hx _ hB 2 hr _ (by simp) ht hR),
    key _ _ _ _ eh (htotdev_range h1 hsum [] _ hx _ hB 2 hr _ (by simp) ht hR),
    key _ _ _ _ ehf (htotdev_freq_range h1 hsum [] _ hy _ _ hY hZ 2 hr _ (by simp) ht hR)⟩

end AT
