import Verif.Model.FloatMore

/-!
# Model: the further deviation functions with rounded arithmetic, for frequency data

`input_to_phase` (allantools.py 1985–1993) calls `frequency2phase` for `data_type="freq"`; what follows
is the function for phase data.
-/

namespace AT

/-- allantools.py 839–924 `totdev`, rounded, for frequency data -/
noncomputable def totdev_freq_fl (fl : ℝ → ℝ) (sum : List ℝ → ℝ) (log10grid : List ℝ)
    (data : List ℝ) (rate : ℝ) (taus : TausArg) : Py (DevOut ℝ) := do
  let phase ← frequency2phase_fl fl sum data rate
  totdev_fl fl sum log10grid phase rate taus

/-- allantools.py 390–445 `pdev`, rounded, for frequency data -/
noncomputable def pdev_freq_fl (fl : ℝ → ℝ) (sum : List ℝ → ℝ) (log10grid : List ℝ)
    (data : List ℝ) (rate : ℝ) (taus : TausArg) : Py (DevOut ℝ) := do
  let phase ← frequency2phase_fl fl sum data rate
  pdev_fl fl sum log10grid phase rate taus

/-- allantools.py 1261–1331 `theo1`, rounded, for frequency data -/
noncomputable def theo1_freq_fl (fl : ℝ → ℝ) (sum : List ℝ → ℝ) (log10grid : List ℝ)
    (data : List ℝ) (rate : ℝ) (taus : TausArg) : Py (DevOut ℝ) := do
  let phase ← frequency2phase_fl fl sum data rate
  theo1_fl fl log10grid phase rate taus

/-- allantools.py 1334–1377 `tierms`, rounded, for frequency data -/
noncomputable def tierms_freq_fl (fl : ℝ → ℝ) (sum : List ℝ → ℝ) (log10grid : List ℝ)
    (data : List ℝ) (rate : ℝ) (taus : TausArg) : Py (DevOut ℝ) := do
  let phase ← frequency2phase_fl fl sum data rate
  tierms_fl fl sum log10grid phase rate taus

/-- allantools.py 1413–1481 `mtie`, rounded, for frequency data -/
noncomputable def mtie_freq_fl (fl : ℝ → ℝ) (sum : List ℝ → ℝ) (log10grid : List ℝ)
    (data : List ℝ) (rate : ℝ) (taus : TausArg) : Py (DevOut ℝ) := do
  let phase ← frequency2phase_fl fl sum data rate
  mtie_fl fl log10grid phase rate taus

/-- allantools.py 569–624 `gcodev`, rounded, for frequency data (608–609) -/
noncomputable def gcodev_freq_fl (fl : ℝ → ℝ) (sum : List ℝ → ℝ) (log10grid : List ℝ)
    (data_1 data_2 : List ℝ) (rate : ℝ) (taus : TausArg) : Py (DevOut ℝ) := do
  let phase_1 ← frequency2phase_fl fl sum data_1 rate
  let phase_2 ← frequency2phase_fl fl sum data_2 rate
  gcodev_fl fl sum log10grid phase_1 phase_2 rate taus

end AT
