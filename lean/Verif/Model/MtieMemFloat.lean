import Verif.Model.FloatMore
import Verif.Model.Mtie

/-!
# Model of `mtie` with its low-memory loop in floating point (allantools.py 1413–1481)

The maximum and minimum of samples are exact; the differences, the root and the quotient are rounded.
-/

namespace AT

/-- allantools.py 1443–1450: the `try` block of `mtie`, rounded -/
noncomputable def mtie_windows_fl (fl : ℝ → ℝ) (phase : List ℝ) (mj : ℕ) : Py ℝ := do
  let rw ← mtie_rolling_window phase ((mj : ℤ) + 1)
  let win_max ← rw.mapM npMax
  let win_min ← rw.mapM npMin
  let tie ← vsub_fl fl win_max win_min
  npMax tie

/-- allantools.py 1461–1474: one step of the low-memory loop, rounded; the state is
`(currMax, currMin, dev)`.  `phase[winEndIdx]` is read in both branches here; the index is
always valid. -/
noncomputable def mtie_fallback_step_fl (fl : ℝ → ℝ) (phase : List ℝ) (mj : ℕ) (st : ℝ × ℝ × ℝ)
    (winStartIdx : ℕ) : Py (ℝ × ℝ × ℝ) := do
  let old ← pyGet phase ((winStartIdx : ℤ) - 1)
  let new ← pyGet phase (mj + winStartIdx : ℕ)
  let currMax ← slide_max phase winStartIdx (mj + winStartIdx) st.1 old new
  let currMin ← slide_min phase winStartIdx (mj + winStartIdx) st.2.1 old new
  .ok (currMax, currMin,
    if st.2.2 < fl (currMax - currMin) then fl (currMax - currMin) else st.2.2)

/-- allantools.py 1451–1474: the `except ValueError` block of `mtie`, rounded;
`range(1, len(phase) - mj)` is written as `1 + range(...)`. -/
noncomputable def mtie_fallback_fl (fl : ℝ → ℝ) (phase : List ℝ) (mj : ℕ) : Py ℝ := do
  if (mj : ℤ) + 1 < 1 then .error .valueError
  else if (mj : ℤ) + 1 > phase.length then .error .valueError
  else do
    let currMax ← npMax (slice phase (0 : ℕ) mj)
    let currMin ← npMin (slice phase (0 : ℕ) mj)
    let r ← forRange ((phase.length : ℤ) - mj - 1).toNat (currMax, currMin, fl (currMax - currMin))
      (fun st k => mtie_fallback_step_fl fl phase mj st (k + 1))
    .ok r.2.2

/-- allantools.py 1442–1479: body of the `mtie` loop, rounded.  `fails m` says that numpy raises
ValueError on the rolling window for factor `m` (array too large). -/
noncomputable def mtie_body_mem_fl (fl : ℝ → ℝ) (fails : ℕ → Bool) (phase : List ℝ) (mj : ℕ) :
    Py (ℝ × ℝ × ℤ) := do
  let dev ←
    match (if fails mj then (.error .valueError : Py ℝ) else mtie_windows_fl fl phase mj) with
    | .error .valueError => mtie_fallback_fl fl phase mj
    | r => r
  let ncount : ℤ := (phase.length : ℤ) - mj
  .ok (dev, fl (dev / fl √ncount), ncount)

/-- allantools.py 1413–1481 `mtie`, rounded, for phase data; see `mtie_body_mem_fl` for `fails` -/
noncomputable def mtie_mem_fl (fl : ℝ → ℝ) (fails : ℕ → Bool) (log10grid : List ℝ) (phase : List ℝ)
    (rate : ℝ) (taus : TausArg) : Py (DevOut ℝ) := do
  let (phase, m, taus_used) ← tau_generator_fl fl log10grid phase rate taus
  runTaus taus_used m (fun _ mj => mtie_body_mem_fl fl fails phase mj)

end AT
