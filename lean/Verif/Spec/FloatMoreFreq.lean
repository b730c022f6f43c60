import Verif.Spec.Float

/-!
# Error bounds of the other deviations for frequency data

`N` values with sampling rate `rate`; `F` is the largest distance of a value from the mean, plus the
possible error of the computed mean; `Y` is the largest magnitude of a value.
-/

namespace AT.Spec

/-- the error of `pdev`; `m = tau * rate` -/
noncomputable def pdevFreqBound (N : ℕ) (rate F tau dev : ℝ) (n : ℤ) : ℝ :=
  freqBound 18 55 N rate F tau dev n + 59 * (tau * rate + 6) * N * unitRoundoff * (F / rate) / tau

/-- the error of `theo1` -/
noncomputable def theo1FreqBound (N : ℕ) (rate F tau dev : ℝ) (_n : ℤ) : ℝ :=
  2 * ((N : ℝ) + 20) * unitRoundoff * dev + 195 * N ^ 2 * unitRoundoff * (F / rate) / tau

/-- the error of `tierms`: besides the errors of the phase, the error of the mean frequency, up to
`2 N` roundings of `Y`, adds a phase proportional to tau -/
noncomputable def tiermsFreqBound (N : ℕ) (rate F Y tau dev : ℝ) (n : ℤ) : ℝ :=
  2 * ((n : ℝ) + 4) * unitRoundoff * dev + 13 * N ^ 2 * unitRoundoff * (F / rate) +
    17 / 8 * N * unitRoundoff * Y * tau

/-- the error of `mtie` -/
noncomputable def mtieFreqBound (N : ℕ) (rate F Y tau dev : ℝ) (_n : ℤ) : ℝ :=
  unitRoundoff * dev + 13 * N ^ 2 * unitRoundoff * (F / rate) + 17 / 8 * N * unitRoundoff * Y * tau

/-- the error of `gcodev` for two lists of `N` values -/
noncomputable def gcodevFreqBound (N : ℕ) (rate F₁ F₂ tau dev : ℝ) (_n : ℤ) : ℝ :=
  12 * unitRoundoff * dev + 26 * √(N ^ 3 * unitRoundoff * F₁ * F₂) / rate / tau

end AT.Spec
