import Verif.Model.RealtimeNan

/-!
# What the streaming classes make of NaN: specification
-/

namespace AT.Spec

/-- when sample `t` (counted from 0) arrives, the sums of factor `a` are updated with sample `i`,
among others: with a second difference from sample `2a` on (`oadev`, `tdev`), with a third difference
from sample `3a` on (`ohdev`, `tdev`) -/
def StreamReads : RtName → ℕ → ℕ → ℕ → Prop
  | .oadev, a, t, i => 2 * a ≤ t ∧ (i = t ∨ i = t - a ∨ i = t - 2 * a)
  | .ohdev, a, t, i => 3 * a ≤ t ∧ (i = t ∨ i = t - a ∨ i = t - 2 * a ∨ i = t - 3 * a)
  | .tdev, a, t, i => 2 * a ≤ t ∧ (i = t ∨ i = t - a ∨ i = t - 2 * a ∨ (3 * a ≤ t ∧ i = t - 3 * a))

/-- no sample that went into the sums of factor `a` is NaN (`g i`: sample `i` is a number), if the
factor was created when `s` samples had been seen, and `N` were seen altogether -/
def StreamClean (k : RtName) (g : ℕ → Prop) (a s N : ℕ) : Prop :=
  ∀ t, s ≤ t → t < N → ∀ i, StreamReads k a t i → g i

end AT.Spec
