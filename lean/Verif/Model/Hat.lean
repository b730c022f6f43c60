import Verif.Model.Api

/-! # Model of the three-cornered hat (allantools.py 2232–2305) -/

namespace AT

open Real

/-- allantools.py 2232–2305 `three_cornered_hat_phase`; `function` is one of the deviation
functions.  The error bars are returned as a list. -/
noncomputable def three_cornered_hat_phase (phasedata_ab phasedata_bc phasedata_ca : List ℝ)
    (rate : ℝ) (taus : TausArg) (function : DevName) : Py (DevOut ℝ) := do
  let ab ← function.run phasedata_ab rate "phase" taus
  let bc ← function.run phasedata_bc rate "phase" taus
  let ca ← function.run phasedata_ca rate "phase" taus
  let var_ab ← vmul ab.devs ab.devs
  let var_bc ← vmul bc.devs bc.devs
  let var_ca ← vmul ca.devs ca.devs
  pyAssert (var_ab.length = var_bc.length ∧ var_bc.length = var_ca.length)
  let s ← vadd var_ab var_ca
  let s ← vsub s var_bc
  let var_a := vscale 0.5 s
  let var_a := var_a.map (fun v => if v < 0 then 0 else v)
  let dev_a := var_a.map (fun v => √v)
  let err_a := List.zipWith (fun d (nn : ℤ) => d / √(nn : ℝ)) dev_a ab.ns
  .ok ⟨ab.taus, dev_a, .arr err_a, ab.ns⟩

end AT
