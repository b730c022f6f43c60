import Verif.Lemmas.FloatRangeMore
import Verif.Props.FloatRange
import Verif.Props.FloatMore

/-!
# C97: no overflow and no underflow in the other deviations

Property: for such phase data the same holds of `totdev`, `pdev`, `theo1`, `tierms`, `mtie` and
`gcodev`: the error bounds of C87 need correct rounding in the normal range only.
-/

namespace AT

open Spec

variable {fl : ℝ → ℝ} {sum : List ℝ → ℝ}

theorem arr_of_moderate' {x : List ℝ} (hx : ∀ v ∈ x, Moderate v) (hN : x.length ≤ 2 ^ 47) :
    Arr (-152) 100 x :=
  ⟨hN, fun v hv => Moderate.grid (hx v hv)⟩

/-- C97: `totdev` in double precision with a limited range of exponents -/
theorem totdev_range (hfl : Binary64Range fl) (hsum : ∀ l, FloatSum fl l (sum l)) (log10grid x : List ℝ)
    (hx : ∀ v ∈ x, Moderate v) (B : ℝ) (hB : ∀ v ∈ x, |v| ≤ B) (rate : ℝ) (hr : ModerateRate rate)
    (taus : TausArg) (hN : x.length ≤ 2 ^ 45) (ht : SafeTaus rate taus) (hR : RangeTaus rate taus) :
    (∃ e, totdev_fl fl sum log10grid x rate taus = .error e ∧ totdev x rate "phase" taus = .error e) ∨
    ∃ o o', totdev_fl fl sum log10grid x rate taus = .ok o ∧ totdev x rate "phase" taus = .ok o' ∧
      FloatClose (Spec.totdevBound B) o o' := by
  obtain ⟨r, sum', P⟩ := exists_rangePair hfl hsum
  rw [P.totdev log10grid (arr_of_moderate hx (hN.trans (by norm_num))) hN (ModerateRate.mag hr) ht hR]
  exact totdev_float P.floatRound P.hsum log10grid x B hB rate (ModerateRate.pos hr) taus (hN.trans (by norm_num)) ht

/-- C97: `pdev` in double precision with a limited range of exponents -/
theorem pdev_range (hfl : Binary64Range fl) (hsum : ∀ l, FloatSum fl l (sum l)) (log10grid x : List ℝ)
    (hx : ∀ v ∈ x, Moderate v) (B : ℝ) (hB : ∀ v ∈ x, |v| ≤ B) (rate : ℝ) (hr : ModerateRate rate)
    (taus : TausArg) (hN : x.length ≤ 2 ^ 47) (ht : SafeTaus rate taus) (hR : RangeTaus rate taus) :
    (∃ e, pdev_fl fl sum log10grid x rate taus = .error e ∧ pdev x rate "phase" taus = .error e) ∨
    ∃ o o', pdev_fl fl sum log10grid x rate taus = .ok o ∧ pdev x rate "phase" taus = .ok o' ∧
      FloatClose (Spec.pdevBound rate B) o o' := by
  obtain ⟨r, sum', P⟩ := exists_rangePair hfl hsum
  rw [P.pdev log10grid (arr_of_moderate' hx (hN.trans (by norm_num))) (ModerateRate.mag hr) ht hR]
  exact pdev_float P.floatRound P.hsum log10grid x B hB rate (ModerateRate.pos hr) taus hN ht

/-- C97: `theo1` in double precision with a limited range of exponents -/
theorem theo1_range (hfl : Binary64Range fl) (log10grid x : List ℝ)
    (hx : ∀ v ∈ x, Moderate v) (B : ℝ) (hB : ∀ v ∈ x, |v| ≤ B) (rate : ℝ) (hr : ModerateRate rate)
    (taus : TausArg) (hN : x.length ≤ 2 ^ 26) (ht : SafeTaus rate taus) (hR : RangeTaus rate taus) :
    (∃ e, theo1_fl fl log10grid x rate taus = .error e ∧ theo1 x rate "phase" taus = .error e) ∨
    ∃ o o', theo1_fl fl log10grid x rate taus = .ok o ∧ theo1 x rate "phase" taus = .ok o' ∧
      FloatCloseE (Spec.theo1Bound x.length B) (fun tau d _ => d / √((x.length : ℝ) - tau * rate)) o o' := by
  obtain ⟨sum, hsum⟩ := exists_floatSum fl
  obtain ⟨r, sum', P⟩ := exists_rangePair hfl hsum
  rw [P.theo1 log10grid (arr_of_moderate' hx (hN.trans (by norm_num))) (ModerateRate.mag hr) ht hR]
  exact theo1_float P.floatRound (binary64_intExact P.binary) log10grid x B hB rate (ModerateRate.pos hr) taus hN ht

/-- C97: `tierms` in double precision with a limited range of exponents -/
theorem tierms_range (hfl : Binary64Range fl) (hsum : ∀ l, FloatSum fl l (sum l)) (log10grid x : List ℝ)
    (hx : ∀ v ∈ x, Moderate v) (rate : ℝ) (hr : ModerateRate rate)
    (taus : TausArg) (hN : x.length ≤ 2 ^ 47) (ht : SafeTaus rate taus) (hR : RangeTaus rate taus) :
    (∃ e, tierms_fl fl sum log10grid x rate taus = .error e ∧ tierms x rate "phase" taus = .error e) ∨
    ∃ o o', tierms_fl fl sum log10grid x rate taus = .ok o ∧ tierms x rate "phase" taus = .ok o' ∧
      FloatCloseE Spec.tiermsBound (fun _ _ _ => 0) o o' := by
  obtain ⟨r, sum', P⟩ := exists_rangePair hfl hsum
  rw [P.tierms log10grid (arr_of_moderate hx (hN.trans (by norm_num))) (ModerateRate.mag hr) ht hR]
  exact tierms_float P.floatRound P.hsum log10grid x rate taus hN ht

/-- C97: `mtie` in double precision with a limited range of exponents -/
theorem mtie_range (hfl : Binary64Range fl) (log10grid x : List ℝ)
    (hx : ∀ v ∈ x, Moderate v) (rate : ℝ) (hr : ModerateRate rate)
    (taus : TausArg) (hN : x.length ≤ 2 ^ 47) (ht : SafeTaus rate taus) (hR : RangeTaus rate taus) :
    (∃ e, mtie_fl fl log10grid x rate taus = .error e ∧ mtie x rate "phase" taus = .error e) ∨
    ∃ o o', mtie_fl fl log10grid x rate taus = .ok o ∧ mtie x rate "phase" taus = .ok o' ∧
      FloatClose Spec.mtieBound o o' := by
  obtain ⟨sum, hsum⟩ := exists_floatSum fl
  obtain ⟨r, sum', P⟩ := exists_rangePair hfl hsum
  rw [P.mtie log10grid (arr_of_moderate hx (hN.trans (by norm_num))) (ModerateRate.mag hr) ht hR]
  exact mtie_float P.floatRound log10grid x rate taus hN ht

/-- C97: `gcodev` in double precision with a limited range of exponents -/
theorem gcodev_range (hfl : Binary64Range fl) (hsum : ∀ l, FloatSum fl l (sum l)) (log10grid x y : List ℝ)
    (hx : ∀ v ∈ x, Moderate v) (hy : ∀ v ∈ y, Moderate v) (hlen : x.length = y.length)
    (B₁ B₂ : ℝ) (hB₁ : ∀ v ∈ x, |v| ≤ B₁) (hB₂ : ∀ v ∈ y, |v| ≤ B₂) (rate : ℝ) (hr : ModerateRate rate)
    (taus : TausArg) (hN : x.length ≤ 2 ^ 47) (ht : SafeTaus rate taus) (hR : RangeTaus rate taus) :
    (∃ e, gcodev_fl fl sum log10grid x y rate taus = .error e ∧ gcodev x y rate "phase" taus = .error e) ∨
    ∃ o o', gcodev_fl fl sum log10grid x y rate taus = .ok o ∧ gcodev x y rate "phase" taus = .ok o' ∧
      FloatClose (Spec.gcodevBound B₁ B₂) o o' := by
  obtain ⟨r, sum', P⟩ := exists_rangePair hfl hsum
  rw [P.gcodev log10grid (arr_of_moderate hx hN) (arr_of_moderate hy (hlen ▸ hN)) (ModerateRate.mag hr) ht hR]
  exact gcodev_float P.floatRound P.hsum log10grid x y hlen B₁ B₂ hB₁ hB₂ rate (ModerateRate.pos hr) taus hN ht

/-- arithmetic of limited range: 4 points at 2 Hz, averaging time 1 s -/
example : ∃ (fl : ℝ → ℝ) (o : DevOut ℝ), Binary64Range fl ∧ ¬ FloatRound fl ∧
    mtie_fl fl [] [0, 1, 0, 2] 2 (.list [(2 : ℕ) / 2]) = .ok o ∧ o.ns = [2] := by
  obtain ⟨fl, h1, h2, _⟩ := exists_binary64Range
  have m0 : Moderate 1 := Or.inr ⟨by simpa using (isBinary64_pow 0).1, by norm_num⟩
  have m1 : Moderate 2 := Or.inr ⟨by simpa using (isBinary64_pow 1).1, by norm_num⟩
  have ex : ∃ o', mtie [0, 1, 0, 2] 2 "phase" (.list [(2 : ℕ) / 2]) = .ok o' ∧ o'.ns = [2] := by
    rw [mtie_phase_eq, table_single _ _ (by norm_num) _ _ _ _ _ 2 (by norm_num) (by simp)
      (by norm_num) (by simp) (by norm_num)]
    exact ⟨_, rfl, by norm_num⟩
  obtain ⟨o', ex, en⟩ := ex
  have h := mtie_range h1 [] [0, 1, 0, 2]
    (by
      intro v hv
      simp only [List.mem_cons, List.not_mem_nil, or_false] at hv
      rcases hv with rfl | rfl | rfl | rfl
      · exact Or.inl rfl
      · exact m0
      · exact Or.inl rfl
      · exact m1)
    2 (by constructor <;> norm_num) (.list [(2 : ℕ) / 2]) (by norm_num) (by
      intro t ht
      rw [List.mem_singleton] at ht
      exact ⟨2, by norm_num, by rw [ht]; norm_num⟩) (by
      intro t ht
      rw [List.mem_singleton] at ht
      rw [ht, show ((2 : ℕ) : ℝ) / 2 * 2 = 2 by norm_num]
      exact (show Mag 0 1 2 from Or.inr (by norm_num)).range (by norm_num) (by norm_num))
  rw [ex] at h
  rcases h with ⟨e, _, h⟩ | ⟨o, o'', h3, h4, h5⟩
  · cases h
  · cases h4
    exact ⟨fl, o, h1, h2, h3, by rw [h5.ns, en]⟩

end AT
