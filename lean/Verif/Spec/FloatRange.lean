import Verif.Spec.Float

/-!
# Specification: double precision with a limited range of exponents

`FloatRound` and `IsBinary64` ignore overflow and underflow.  Here the rounding is known for
results in the range of the normal doubles only.  Nothing is assumed about larger or smaller
results.
-/

namespace AT.Spec

/-- zero, or a number of at least `2^-1022` and at most `2^1023` in magnitude -/
def NormalRange (x : ℝ) : Prop := x = 0 ∨ (2 : ℝ) ^ (-1022 : ℤ) ≤ |x| ∧ |x| ≤ (2 : ℝ) ^ (1023 : ℤ)

/-- results in the normal range are rounded to nearest, ties to even -/
def Binary64Range (fl : ℝ → ℝ) : Prop := ∀ x, NormalRange x → IsBinary64 x (fl x)

/-- zero, or a double of at least `2^-100` and at most `2^100` in magnitude (about `10^-30` to
`10^30`) -/
def Moderate (v : ℝ) : Prop :=
  v = 0 ∨ IsBinary64 v v ∧ (2 : ℝ) ^ (-100 : ℤ) ≤ |v| ∧ |v| ≤ (2 : ℝ) ^ (100 : ℤ)

/-- a sampling rate from `2^-40` to `2^40` (about `10^-12` to `10^12`) -/
def ModerateRate (rate : ℝ) : Prop := (2 : ℝ) ^ (-40 : ℤ) ≤ rate ∧ rate ≤ (2 : ℝ) ^ (40 : ℤ)

/-- the products `tau*rate` of taus given as numbers are in the normal range -/
def RangeTaus (rate : ℝ) : TausArg → Prop
  | .none => True
  | .str _ => True
  | .list l => ∀ t ∈ l, NormalRange (t * rate)
  | .array l => ∀ t ∈ l, NormalRange (t * rate)

end AT.Spec
