import Verif.Spec.Float

/-!
# Error bounds of `mtotdev`, `ttotdev` and `htotdev`

`N` values with sampling rate `rate`, `m = tau * rate`.  The sums over windows are updated `6m` times,
each update costs two roundings of a sum of `m` values.
-/

namespace AT.Spec

/-- the error of `mtotdev` for phase values up to `B` -/
noncomputable def mtotdevBound (N : ℕ) (rate B tau dev : ℝ) (n : ℤ) : ℝ :=
  2 * ((n : ℝ) + (2 * N + 22)) * unitRoundoff * dev + 240 * (tau * rate + 1) * unitRoundoff * B / tau

/-- the error of `ttotdev` for phase values up to `B` -/
noncomputable def ttotdevBound (N : ℕ) (rate B tau dev : ℝ) (n : ℤ) : ℝ :=
  2 * ((n : ℝ) + (2 * N + 26)) * unitRoundoff * dev + 144 * (tau * rate + 1) * unitRoundoff * B

/-- the error of `htotdev` for phase values up to `B` -/
noncomputable def htotdevBound (N : ℕ) (rate B tau dev : ℝ) (n : ℤ) : ℝ :=
  2 * ((n : ℝ) + (2 * N + 8)) * unitRoundoff * dev + 170 * (tau * rate + 1) * unitRoundoff * (B * rate)

/-- the error of `mtotdev` for frequency data; `F` is the largest distance of a value from the mean, plus
the possible error of the computed mean -/
noncomputable def mtotdevFreqBound (N : ℕ) (rate F tau dev : ℝ) (n : ℤ) : ℝ :=
  2 * ((n : ℝ) + (2 * N + 24)) * unitRoundoff * dev +
    (56 * N ^ 2 + 255 * (tau * rate + 1) * N) * unitRoundoff * (F / rate) / tau

/-- the error of `ttotdev` for frequency data -/
noncomputable def ttotdevFreqBound (N : ℕ) (rate F tau dev : ℝ) (n : ℤ) : ℝ :=
  2 * ((n : ℝ) + (2 * N + 28)) * unitRoundoff * dev +
    (34 * N ^ 2 + 153 * (tau * rate + 1) * N) * unitRoundoff * (F / rate)

/-- the error of `htotdev` for frequency values up to `Y`.  For `m = 1` the code takes `ohdev` of the phase;
for `m > 1` it does not remove the mean, so that the error is relative to the largest value -/
noncomputable def htotdevFreqBound (N : ℕ) (rate F Y tau dev : ℝ) (n : ℤ) : ℝ :=
  2 * ((n : ℝ) + (2 * N + 8)) * unitRoundoff * dev +
    (if tau * rate = 1 then 37 * N ^ 2 * unitRoundoff * F else 81 * (tau * rate + 1) * unitRoundoff * Y)

end AT.Spec
