import Verif.Model.RealtimeAutoFloat

/-!
# Automatic averaging factors in floating point: specification
-/

namespace AT.Spec

/-- `ts` is `numpy.logspace(0, 1, p+1)[:-1]` up to a few roundings: `10^(i/p)` with a relative error of at
most `2^-50` (eight roundings) -/
def LogTable (p : ℕ) (ts : List ℝ) : Prop :=
  ts.length = p ∧ ∀ i, ∀ h : i < ts.length,
    |ts[i] - (10 : ℝ) ^ ((i : ℝ) / p)| ≤ (2 : ℝ) ^ (-50 : ℤ) * (10 : ℝ) ^ ((i : ℝ) / p)

end AT.Spec
