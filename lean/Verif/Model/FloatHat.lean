import Verif.Model.Float
import Verif.Model.Hat
import Verif.Model.Gradev

/-!
# Models of the three-cornered hat and of gradev in floating point

`fl` rounds the result of one operation, `sum` is `np.sum`.
-/

namespace AT

open Real

/-- allantools.py 2232–2305 `three_cornered_hat_phase`, rounded; `function` is the rounded deviation
function, called with phase data -/
noncomputable def three_cornered_hat_phase_fl (fl : ℝ → ℝ)
    (phasedata_ab phasedata_bc phasedata_ca : List ℝ) (rate : ℝ) (taus : TausArg)
    (function : List ℝ → ℝ → TausArg → Py (DevOut ℝ)) : Py (DevOut ℝ) := do
  let ab ← function phasedata_ab rate taus
  let bc ← function phasedata_bc rate taus
  let ca ← function phasedata_ca rate taus
  let var_ab ← vmul_fl fl ab.devs ab.devs
  let var_bc ← vmul_fl fl bc.devs bc.devs
  let var_ca ← vmul_fl fl ca.devs ca.devs
  pyAssert (var_ab.length = var_bc.length ∧ var_bc.length = var_ca.length)
  let s ← vadd_fl fl var_ab var_ca
  let s ← vsub_fl fl s var_bc
  let var_a := vscale_fl fl 0.5 s
  let var_a := var_a.map (fun v => if v < 0 then 0 else v)
  let dev_a := var_a.map (fun v => fl √v)
  let err_a := List.zipWith (fun d (nn : ℤ) => fl (d / fl √(nn : ℝ))) dev_a ab.ns
  .ok ⟨ab.taus, dev_a, .arr err_a, ab.ns⟩

/-- allantools.py 1617–1665 `calc_gradev_phase`, with rounded deviations.  The error bars are
computed from the rounded deviation in exact arithmetic. -/
noncomputable def calc_gradev_phase_fl (fl : ℝ → ℝ) (sum : List ℝ → ℝ) (ppf : ℝ → ℝ → NV)
    (data : List NV) (rate : ℝ) (mj stride : ℕ) (confidence : ℝ) (noisetype : String) :
    Py (ℝ × (NV × NV) × ℤ) := do
  let d2 ← sliceStep data (2 * mj : ℕ) stride
  let d1 ← sliceStep data (1 * mj : ℕ) stride
  let d0 ← sliceStep data (0 : ℕ) stride
  let n := min (min d0.length d1.length) d2.length
  let a ← vop (nv2 (fun u v => fl (u - v))) (sliceTo d2 n)
    ((sliceTo d1 n).map (Option.map (fun v => fl (2 * v))))
  let v_arr ← vop (nv2 (fun u v => fl (u + v))) a (sliceTo d0 n)
  let n := (v_arr.filter Option.isSome).length
  let n := if n = 0 then 1 else n
  let N := (data.filter Option.isSome).length
  let s := sum (numbers (v_arr.map (Option.map (fun v => fl (v * v)))))
  let dev := fl (fl (fl √(fl (s / fl (2 * n))) / mj) * rate)
  let deverr ← gradev_err ppf dev confidence N mj n noisetype
  .ok (dev, deverr, n)

/-- allantools.py 1546–1614 `gradev` of phase data, rounded -/
noncomputable def gradev_fl (fl : ℝ → ℝ) (sum : List ℝ → ℝ) (ppf : ℝ → ℝ → NV) (log10grid : List ℝ)
    (data : List NV) (rate : ℝ) (taus : TausArg) (ci : ℝ) (noisetype : String) : Py (DevOut NV) := do
  let (data, m, taus_used) ← tau_generator_fl fl log10grid data rate taus
  gradevTaus taus_used m (fun mj => calc_gradev_phase_fl fl sum ppf data rate mj 1 ci noisetype)

end AT
