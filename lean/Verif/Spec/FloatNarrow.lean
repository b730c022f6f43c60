import Verif.Spec.FloatRange

/-!
# Frequencies and rates for which `mtotdev` of frequency data stays in range: specification
-/

namespace AT.Spec

/-- zero, or a double of at least `2^-64` and at most `2^64` in magnitude (about `5·10^-20` to
`2·10^19`) -/
def Ordinary (v : ℝ) : Prop :=
  v = 0 ∨ IsBinary64 v v ∧ (2 : ℝ) ^ (-64 : ℤ) ≤ |v| ∧ |v| ≤ (2 : ℝ) ^ (64 : ℤ)

/-- a sampling rate from `2^-10` to `2^10` (about one per quarter of an hour to 1 kHz) -/
def OrdinaryRate (rate : ℝ) : Prop := (2 : ℝ) ^ (-10 : ℤ) ≤ rate ∧ rate ≤ (2 : ℝ) ^ (10 : ℤ)

end AT.Spec
