import Verif.Model.NanMore
import Verif.Spec.Nan

/-!
# What pdev, totdev, theo1, mtotdev, ttotdev and htotdev make of NaN: specification
-/

namespace AT.Spec

/-- the remaining deviations of one data set -/
inductive NanFnMore
  | pdev | totdev | theo1 | mtotdev | ttotdev | htotdev
  deriving DecidableEq

/-- the call of the function on data without NaN -/
noncomputable def NanFnMore.run : NanFnMore → List ℝ → ℝ → String → TausArg → Py (DevOut ℝ)
  | .pdev => AT.pdev
  | .totdev => AT.totdev
  | .theo1 => AT.theo1
  | .mtotdev => AT.mtotdev
  | .ttotdev => AT.ttotdev
  | .htotdev => AT.htotdev

/-- the call of the function on data that may contain NaN -/
noncomputable def NanFnMore.runNv : NanFnMore → List NV → ℝ → String → TausArg → Py NanOut
  | .pdev => AT.pdev_nv
  | .totdev => AT.totdev_nv
  | .theo1 => AT.theo1_nv
  | .mtotdev => AT.mtotdev_nv
  | .ttotdev => AT.ttotdev_nv
  | .htotdev => AT.htotdev_nv

/-- the samples of `N` phase samples that a row with factor `m` is computed from: all of them,
except that `pdev` with `m ≥ 2` does not look at the last -/
def ReadsMore : NanFnMore → ℕ → ℕ → ℕ → Prop
  | .pdev, N, m, i => if m = 1 then i < N else i + 1 < N
  | _, N, _, i => i < N

/-- no sample used for factor `m` is NaN -/
def CleanMore (fn : NanFnMore) (d : List NV) (m : ℕ) : Prop :=
  ∀ i, ReadsMore fn d.length m i → d[i]? ≠ some none

end AT.Spec
