import Verif.Model.Dev
import Verif.Model.Mtie

/-!
# The deviation functions of one data set, by name

`adev, oadev, mdev, tdev, hdev, ohdev, pdev, totdev, mtotdev, ttotdev, htotdev, theo1,
tierms, mtie` all have the signature `f(data, rate, data_type, taus)`.  The enumeration
lets a property be stated once for all of them.  `gcodev` (two data sets) and `gradev`
(gaps, confidence intervals) have other signatures and are treated separately.
-/

namespace AT

/-- the deviation functions with the signature `f(data, rate, data_type, taus)`
(allantools.py 130–1481, exported in `__init__.py` 45–76) -/
inductive DevName
  | adev | oadev | mdev | tdev | hdev | ohdev | pdev | totdev | mtotdev | ttotdev | htotdev
  | theo1 | tierms | mtie
  deriving DecidableEq, Repr

/-- the call `allantools.<name>(data, rate, data_type, taus)` -/
noncomputable def DevName.run : DevName → List ℝ → ℝ → String → TausArg → Py (DevOut ℝ)
  | .adev => AT.adev
  | .oadev => AT.oadev
  | .mdev => AT.mdev
  | .tdev => AT.tdev
  | .hdev => AT.hdev
  | .ohdev => AT.ohdev
  | .pdev => AT.pdev
  | .totdev => AT.totdev
  | .mtotdev => AT.mtotdev
  | .ttotdev => AT.ttotdev
  | .htotdev => AT.htotdev
  | .theo1 => AT.theo1
  | .tierms => AT.tierms
  | .mtie => AT.mtie

end AT
