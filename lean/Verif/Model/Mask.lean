import Mathlib.Data.Real.Basic

/-!
# mask.py

The eight mask functions, for one real observation interval `tau` (the Python functions are
called with a number; an array argument raises in the `if` and is not modelled). Decimal
literals are the real numbers they denote.
-/

namespace AT

/-- mask.py 19–30 `prc_tdev` -/
noncomputable def prc_tdev (tau : ℝ) : ℝ :=
  if tau < 100 then 3e-9
  else if tau < 1000 then 0.03 * 1.0e-9 * tau
  else 30e-9

/-- mask.py 33–42 `prc_mtie` -/
noncomputable def prc_mtie (tau : ℝ) : ℝ :=
  if tau < 1000 then 1e-6 * (tau * 0.275e-3 + 0.025)
  else 1e-6 * (tau * 1.0e-5 + 0.29)

/-- mask.py 45–58 `eprtc_tdev` -/
noncomputable def eprtc_tdev (tau : ℝ) : ℝ :=
  if tau < 30e3 then 1e-9
  else if tau < 300e3 then 3.33333e-5 * 1.0e-9 * tau
  else 10e-9

/-- mask.py 61–77 `eprtc_mtie` -/
noncomputable def eprtc_mtie (tau : ℝ) : ℝ :=
  if tau ≤ 1 then 4e-9
  else if tau ≤ 100 then 1e-9 * (0.11114 * tau + 3.89)
  else if tau ≤ 400000 then 1e-9 * (0.0375e-3 * tau + 15)
  else 1e-9 * 30

/-- mask.py 80–94 `prtcA_tdev` -/
noncomputable def prtcA_tdev (tau : ℝ) : ℝ :=
  if tau < 100 then 3e-9
  else if tau < 1000 then 0.03e-9 * tau
  else 30e-9

/-- mask.py 97–111 `prtcB_tdev` -/
noncomputable def prtcB_tdev (tau : ℝ) : ℝ :=
  if tau < 100 then 1e-9
  else if tau < 500 then 0.01e-9 * tau
  else 5e-9

/-- mask.py 114–124 `prtcA_mtie` -/
noncomputable def prtcA_mtie (tau : ℝ) : ℝ :=
  if tau < 273 then 1e-6 * (0.275e-3 * tau + 0.025)
  else 1e-6 * 0.1

/-- mask.py 127–137 `prtcB_mtie` -/
noncomputable def prtcB_mtie (tau : ℝ) : ℝ :=
  if tau < 54.5 then 1e-6 * (0.275e-3 * tau + 0.025)
  else 1e-6 * 0.04

end AT
