import Verif.Model.Nan
import Verif.Model.Hat

/-!
# Model of `gcodev` and of the three-cornered hat on data that contain NaN

As `Model/Nan.lean`: floats that may be NaN are `NV`, and numpy's arithmetic carries NaN along.
The comparisons `s >= 0` and `var_a < 0` are False for NaN.
-/

namespace AT

open Real

/-- allantools.py 511–566 `calc_gcodev_phase`.  A NaN sum goes to the branch with `np.abs`. -/
noncomputable def calc_gcodev_phase_nv (phase_1 phase_2 : List NV) (rate : ℝ) (mj stride : ℕ) :
    Py (NV × NV × ℤ) := do
  let d2_1 ← sliceStep phase_1 (2 * mj : ℕ) stride
  let d1_1 ← sliceStep phase_1 (1 * mj : ℕ) stride
  let d0_1 ← sliceStep phase_1 (0 : ℕ) stride
  let d2_2 ← sliceStep phase_2 (2 * mj : ℕ) stride
  let d1_2 ← sliceStep phase_2 (1 * mj : ℕ) stride
  let d0_2 ← sliceStep phase_2 (0 : ℕ) stride
  let n_1 := min (min d0_1.length d1_1.length) d2_1.length
  let n_2 := min (min d0_2.length d1_2.length) d2_2.length
  let n_2 := if n_1 = 0 then 1 else n_2
  let n_1 := if n_1 = 0 then 1 else n_1
  let a ← vop (nv2 (· - ·)) (sliceTo d2_1 n_1)
    ((sliceTo d1_1 n_1).map (Option.map (fun v => 2 * v)))
  let v_arr_1 ← vop (nv2 (· + ·)) a (sliceTo d0_1 n_1)
  let a ← vop (nv2 (· - ·)) (sliceTo d2_2 n_2)
    ((sliceTo d1_2 n_2).map (Option.map (fun v => 2 * v)))
  let v_arr_2 ← vop (nv2 (· + ·)) a (sliceTo d0_2 n_2)
  let p ← vop (nv2 (· * ·)) v_arr_1 v_arr_2
  let s := nvSum p
  let dev := if ∃ v, s = some v ∧ 0 ≤ v then s.map (fun s => √(s / (2 * n_1)) / mj * rate)
    else s.map (fun s => √(|s| / (2 * n_1)) / mj * rate)
  .ok (dev, dev.map (fun d => d / √n_1), n_1)

/-- allantools.py 569–624 `gcodev` -/
noncomputable def gcodev_nv (data_1 data_2 : List NV) (rate : ℝ) (data_type : String)
    (taus : TausArg) : Py NanOut := do
  let phase_1 ← input_to_phase_nv data_1 rate data_type
  let phase_2 ← input_to_phase_nv data_2 rate data_type
  let (phase_1, _, _) ← tau_generator phase_1 rate taus
  let (phase_2, m, taus_used) ← tau_generator phase_2 rate taus
  runTausNv taus_used m (fun _ mj => calc_gcodev_phase_nv phase_1 phase_2 rate mj 1)

/-- allantools.py 2232–2305 `three_cornered_hat_phase`; `function` is one of the deviation
functions on data that may contain NaN. -/
noncomputable def three_cornered_hat_phase_nv (phasedata_ab phasedata_bc phasedata_ca : List NV)
    (rate : ℝ) (taus : TausArg) (function : List NV → ℝ → String → TausArg → Py NanOut) :
    Py NanOut := do
  let ab ← function phasedata_ab rate "phase" taus
  let bc ← function phasedata_bc rate "phase" taus
  let ca ← function phasedata_ca rate "phase" taus
  let var_ab ← vop (nv2 (· * ·)) ab.devs ab.devs
  let var_bc ← vop (nv2 (· * ·)) bc.devs bc.devs
  let var_ca ← vop (nv2 (· * ·)) ca.devs ca.devs
  pyAssert (var_ab.length = var_bc.length ∧ var_bc.length = var_ca.length)
  let s ← vop (nv2 (· + ·)) var_ab var_ca
  let s ← vop (nv2 (· - ·)) s var_bc
  let var_a := s.map (Option.map (fun v => 0.5 * v))
  -- `var_a[var_a < 0] = 0`
  let var_a := var_a.map (Option.map (fun v => if v < 0 then 0 else v))
  let dev_a := var_a.map (Option.map (fun v => √v))
  let err_a := List.zipWith (fun d (nn : ℤ) => d.map (fun d => d / √(nn : ℝ))) dev_a ab.ns
  .ok ⟨ab.taus, dev_a, err_a, ab.ns⟩

end AT
