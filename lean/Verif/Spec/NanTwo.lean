import Verif.Model.NanTwo
import Verif.Spec.NanMore

/-!
# What `gcodev` and the three-cornered hat make of NaN: specification
-/

namespace AT.Spec

/-- the deviations that the hat can be given -/
inductive NanFnAll
  | first (fn : NanFn)
  | more (fn : NanFnMore)

/-- the name of the function -/
def NanFnAll.name : NanFnAll → DevName
  | .first .adev => .adev
  | .first .oadev => .oadev
  | .first .mdev => .mdev
  | .first .tdev => .tdev
  | .first .hdev => .hdev
  | .first .ohdev => .ohdev
  | .first .tierms => .tierms
  | .first .mtie => .mtie
  | .more .pdev => .pdev
  | .more .totdev => .totdev
  | .more .theo1 => .theo1
  | .more .mtotdev => .mtotdev
  | .more .ttotdev => .ttotdev
  | .more .htotdev => .htotdev

/-- the function on data that may contain NaN -/
noncomputable def NanFnAll.runNv : NanFnAll → List NV → ℝ → String → TausArg → Py NanOut
  | .first fn => fn.runNv
  | .more fn => fn.runNv

/-- no sample used for factor `m` is NaN -/
def CleanAll : NanFnAll → List NV → ℕ → Prop
  | .first fn => Clean fn
  | .more fn => CleanMore fn

end AT.Spec
