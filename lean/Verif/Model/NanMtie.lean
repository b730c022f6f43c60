import Verif.Model.Nan
import Verif.Model.Mtie

/-!
# Model of `mtie` with its low-memory loop on data with NaN (allantools.py 1413–1481)

Comparisons with NaN are false; `np.max` and `np.min` propagate NaN.
-/

namespace AT

/-- `a == b` for floats that may be NaN -/
def nvEq (a b : NV) : Prop := ∃ u, a = some u ∧ b = some u

/-- `a < b` for floats that may be NaN -/
def nvLt (a b : NV) : Prop := ∃ u v, a = some u ∧ b = some v ∧ u < v

/-- allantools.py 1380–1410 `mtie_rolling_window` and 1443–1450: the `try` block of `mtie` -/
noncomputable def mtie_windows_nv (phase : List NV) (mj : ℕ) : Py NV :=
  if (mj : ℤ) + 1 > phase.length then .error .valueError
  else do
    let rw := tab (phase.length - mj) (fun i => slice phase (i : ℕ) ((i + (mj + 1) : ℕ) : ℤ))
    let win_max ← rw.mapM (nvExt npMax)
    let win_min ← rw.mapM (nvExt npMin)
    let tie ← vop (nv2 (· - ·)) win_max win_min
    nvExt npMax tie

open Classical in
/-- allantools.py 1463–1466: update of the running maximum -/
noncomputable def slide_max_nv (phase : List NV) (winStartIdx winEndIdx : ℕ) (currMax old new : NV) :
    Py NV :=
  if nvEq currMax old then nvExt npMax (slice phase winStartIdx winEndIdx)
  else if nvLt currMax new then .ok new
  else .ok currMax

open Classical in
/-- allantools.py 1468–1471: update of the running minimum -/
noncomputable def slide_min_nv (phase : List NV) (winStartIdx winEndIdx : ℕ) (currMin old new : NV) :
    Py NV :=
  if nvEq currMin old then nvExt npMin (slice phase winStartIdx winEndIdx)
  else if nvLt new currMin then .ok new
  else .ok currMin

open Classical in
/-- allantools.py 1461–1474: one step of the low-memory loop; the state is
`(currMax, currMin, dev)`.  `phase[winEndIdx]` is read in both branches here; the index is
always valid. -/
noncomputable def mtie_fallback_step_nv (phase : List NV) (mj : ℕ) (st : NV × NV × NV)
    (winStartIdx : ℕ) : Py (NV × NV × NV) := do
  let old ← pyGet phase ((winStartIdx : ℤ) - 1)
  let new ← pyGet phase (mj + winStartIdx : ℕ)
  let currMax ← slide_max_nv phase winStartIdx (mj + winStartIdx) st.1 old new
  let currMin ← slide_min_nv phase winStartIdx (mj + winStartIdx) st.2.1 old new
  .ok (currMax, currMin,
    if nvLt st.2.2 (nv2 (· - ·) currMax currMin) then nv2 (· - ·) currMax currMin else st.2.2)

/-- allantools.py 1451–1474: the `except ValueError` block of `mtie`;
`range(1, len(phase) - mj)` is written as `1 + range(...)`. -/
noncomputable def mtie_fallback_nv (phase : List NV) (mj : ℕ) : Py NV := do
  if (mj : ℤ) + 1 < 1 then .error .valueError
  else if (mj : ℤ) + 1 > phase.length then .error .valueError
  else do
    let currMax ← nvExt npMax (slice phase (0 : ℕ) mj)
    let currMin ← nvExt npMin (slice phase (0 : ℕ) mj)
    let r ← forRange ((phase.length : ℤ) - mj - 1).toNat (currMax, currMin, nv2 (· - ·) currMax currMin)
      (fun st k => mtie_fallback_step_nv phase mj st (k + 1))
    .ok r.2.2

/-- allantools.py 1442–1479: body of the `mtie` loop.  `fails m` says that numpy raises
ValueError on the rolling window for factor `m` (array too large). -/
noncomputable def mtie_body_mem_nv (fails : ℕ → Bool) (phase : List NV) (mj : ℕ) : Py (NV × NV × ℤ) := do
  let dev ←
    match (if fails mj then (.error .valueError : Py NV) else mtie_windows_nv phase mj) with
    | .error .valueError => mtie_fallback_nv phase mj
    | r => r
  let ncount : ℤ := (phase.length : ℤ) - mj
  .ok (dev, dev.map (fun d => d / √(ncount : ℝ)), ncount)

/-- allantools.py 1413–1481 `mtie`; see `mtie_body_mem_nv` for `fails` -/
noncomputable def mtie_mem_nv (fails : ℕ → Bool) (data : List NV) (rate : ℝ) (data_type : String)
    (taus : TausArg) : Py NanOut := do
  let phase ← input_to_phase_nv data rate data_type
  let (phase, m, taus_used) ← tau_generator phase rate taus
  runTausNv taus_used m (fun _ mj => mtie_body_mem_nv fails phase mj)

end AT
