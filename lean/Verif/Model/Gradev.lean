import Verif.Model.Ci

/-!
# Model of gradev (allantools.py 1546–1665), on phase data with gaps
-/

namespace AT

open Real

/-- binary operation on floats that may be NaN -/
def nv2 (f : ℝ → ℝ → ℝ) (a b : NV) : NV :=
  match a, b with
  | some u, some v => some (f u v)
  | _, _ => none

/-- allantools.py 1650–1657: the exponent used for a noise type -/
def gradev_alpha (noisetype : String) : Option ℤ :=
  if noisetype = "wp" then some 2
  else if noisetype = "wf" then some 0
  else if noisetype = "fp" then some (-2)
  else none

/-- allantools.py 1659–1663: the error bars.  The arguments of `confidence_interval` are
passed in the order of the source: `(dev, confidence, edf)`. -/
noncomputable def gradev_err (ppf : ℝ → ℝ → NV) (dev confidence : ℝ) (N mj n : ℕ)
    (noisetype : String) : Py (NV × NV) :=
  if 1 < n then do
    let edf ← edf_simple N mj (gradev_alpha noisetype)
    .ok (match edf with
      | some edf => confidence_interval ppf dev confidence edf
      | none => (none, none))
  else .ok (some 0, some 0)

/-- allantools.py 1617–1665 `calc_gradev_phase` -/
noncomputable def calc_gradev_phase (ppf : ℝ → ℝ → NV) (data : List NV) (rate : ℝ) (mj stride : ℕ)
    (confidence : ℝ) (noisetype : String) : Py (ℝ × (NV × NV) × ℤ) := do
  let d2 ← sliceStep data (2 * mj : ℕ) stride
  let d1 ← sliceStep data (1 * mj : ℕ) stride
  let d0 ← sliceStep data (0 : ℕ) stride
  let n := min (min d0.length d1.length) d2.length
  let a ← vop (nv2 (· - ·)) (sliceTo d2 n) ((sliceTo d1 n).map (Option.map (fun v => 2 * v)))
  let v_arr ← vop (nv2 (· + ·)) a (sliceTo d0 n)
  let n := (v_arr.filter Option.isSome).length
  let n := if n = 0 then 1 else n
  let N := (data.filter Option.isSome).length
  let s := (numbers (v_arr.map (Option.map (fun v => v * v)))).sum
  let dev := √(s / (2 * n)) / mj * rate
  let deverr ← gradev_err ppf dev confidence N mj n noisetype
  .ok (dev, deverr, n)

/-- allantools.py 1600–1614: the loop over the averaging factors and `remove_small_ns` -/
noncomputable def gradevTaus (taus_used : List ℝ) (m : List ℕ)
    (body : ℕ → Py (ℝ × (NV × NV) × ℤ)) : Py (DevOut NV) := do
  let rows ← m.mapM body
  remove_small_ns ⟨taus_used, rows.map (fun r => r.1),
    .lst [rows.map (fun r => r.2.1.1), rows.map (fun r => r.2.1.2)], rows.map (fun r => r.2.2)⟩

/-- allantools.py 1546–1614 `gradev` -/
noncomputable def gradev (ppf : ℝ → ℝ → NV) (data : List NV) (rate : ℝ) (data_type : String)
    (taus : TausArg) (ci : ℝ) (noisetype : String) : Py (DevOut NV) := do
  let phase ← input_to_phase_nv data rate data_type
  let (data, m, taus_used) ← tau_generator phase rate taus
  gradevTaus taus_used m (fun mj => calc_gradev_phase ppf data rate mj 1 ci noisetype)

end AT
