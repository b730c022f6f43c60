import Verif.Py
import Mathlib.Analysis.SpecialFunctions.Trigonometric.Basic

/-!
# Model of the conversions (allantools.py 1985–1993, 2216–2229, 2313–2403)
-/

namespace AT

/-- A float that may be NaN (`none`). -/
abbrev NV := Option ℝ

/-- allantools.py 2223–2225: `while np.isnan(x[first]): first += 1`, as the number of
leading NaNs; the loop runs off the end (IndexError) when there is no number. -/
def trimFirst : List NV → Py ℕ
  | [] => .error .indexError
  | some _ :: _ => .ok 0
  | none :: xs => do
    let k ← trimFirst xs
    .ok (k + 1)

/-- allantools.py 2226–2228: `while np.isnan(x[last - 1]): last -= 1`.  `n` is `last`.
Called only after the first loop has found a number, so `last` stays positive; the
model returns IndexError at 0. -/
def trimLast (x : List NV) : ℕ → Py ℕ
  | 0 => .error .indexError
  | n + 1 =>
    match x[n]? with
    | none => .error .indexError
    | some none => trimLast x n
    | some (some _) => .ok (n + 1)

/-- allantools.py 2216–2229 `trim_data` -/
def trim_data (x : List NV) : Py (List NV) := do
  let first ← trimFirst x
  let last ← trimLast x x.length
  .ok (slice x first last)

/-- numbers of a NaN-marked array -/
def numbers (x : List NV) : List ℝ := x.filterMap id

/-- `np.nanmean`, for arrays with at least one number -/
noncomputable def npNanmean (x : List NV) : ℝ := npMean (numbers x)

/-- `np.cumsum` with NaN propagation -/
noncomputable def nvCumsum (acc : NV) : List NV → List NV
  | [] => []
  | v :: vs =>
    let a : NV := match acc, v with
      | some s, some t => some (s + t)
      | _, _ => none
    a :: nvCumsum a vs

/-- allantools.py 2313–2341 `frequency2phase` on data that may contain NaN -/
noncomputable def frequency2phase_nv (freqdata : List NV) (rate : ℝ) : Py (List NV) :=
  if rate = 0 then .error .zeroDivisionError
  else do
    let dt := 1 / rate
    let f ← trim_data freqdata
    let mean := npNanmean f
    let f := f.map (Option.map (fun v => v - mean))
    let p := (nvCumsum (some 0) f).map (Option.map (fun v => v * dt))
    .ok (some 0 :: p)

/-- allantools.py 2313–2341 `frequency2phase` on data without NaN (trim_data is then
the identity, except that `x[0]` raises IndexError on empty data).
`frequency2phase_nv_some` proves that this is the restriction of
`frequency2phase_nv` to numbers. -/
noncomputable def frequency2phase (freqdata : List ℝ) (rate : ℝ) : Py (List ℝ) :=
  if rate = 0 then .error .zeroDivisionError
  else if freqdata = [] then .error .indexError
  else
    let dt := 1 / rate
    let mean := npMean freqdata
    let f := freqdata.map (fun v => v - mean)
    .ok (0 :: (npCumsum f).map (fun v => v * dt))

/-- allantools.py 2363–2379 `phase2frequency` -/
noncomputable def phase2frequency (phase : List ℝ) (rate : ℝ) : List ℝ :=
  vscale rate (npDiff phase)

/-- allantools.py 2344–2360 `phase2radians` -/
noncomputable def phase2radians (phasedata : List ℝ) (v0 : ℝ) : List ℝ :=
  phasedata.map (fun xx => 2 * Real.pi * v0 * xx)

/-- allantools.py 2382–2403 `frequency2fractional`; `mean_frequency = -1` selects the mean. -/
noncomputable def frequency2fractional (frequency : List ℝ) (mean_frequency : ℝ := -1) : List ℝ :=
  let mu := if mean_frequency = -1 then npMean frequency else mean_frequency
  frequency.map (fun x => (x - mu) / mu)

/-- allantools.py 1985–1993 `input_to_phase` (data without NaN) -/
noncomputable def input_to_phase (data : List ℝ) (rate : ℝ) (data_type : String) : Py (List ℝ) :=
  if data_type = "phase" then .ok data
  else if data_type = "freq" then frequency2phase data rate
  else .error .exception

/-- allantools.py 1985–1993 `input_to_phase` on data that may contain NaN (gradev) -/
noncomputable def input_to_phase_nv (data : List NV) (rate : ℝ) (data_type : String) :
    Py (List NV) :=
  if data_type = "phase" then .ok data
  else if data_type = "freq" then frequency2phase_nv data rate
  else .error .exception

end AT
