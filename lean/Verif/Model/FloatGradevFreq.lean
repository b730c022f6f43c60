import Verif.Model.FloatHat

/-!
# Model of gradev of frequency data in floating point
-/

namespace AT

/-- allantools.py 1546–1614 `gradev` of frequency data without NaN, rounded: `input_to_phase`
(1985–1993) calls `frequency2phase`, whose result has no NaN either -/
noncomputable def gradev_freq_fl (fl : ℝ → ℝ) (sum : List ℝ → ℝ) (ppf : ℝ → ℝ → NV) (log10grid : List ℝ)
    (data : List ℝ) (rate : ℝ) (taus : TausArg) (ci : ℝ) (noisetype : String) : Py (DevOut NV) := do
  let phase ← frequency2phase_fl fl sum data rate
  gradev_fl fl sum ppf log10grid (phase.map some) rate taus ci noisetype

end AT
