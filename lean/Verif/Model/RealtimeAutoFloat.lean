import Verif.Model.RealtimeFloat

/-!
# Model of the automatic averaging factors of realtime.py in floating point

As `Model/RealtimeFloat`, with `auto_afs`.  The table `af_taus` (line 43) comes from `numpy.logspace` and is a
parameter of the configuration: how accurate it is, is a hypothesis of the theorems.  `pow(10.0, d)` and
the product are rounded; `numpy.round` of a double is exact.
-/

namespace AT

/-- realtime.py 52–76 `update_af`, with `add_af`, rounded -/
noncomputable def update_af_fl (fl : ℝ → ℝ) (c : RtCfg) (st : Rt) : Py Rt :=
  let wrap := st.af_idx + 1 = c.af_taus.length
  let next_idx := if wrap then 0 else st.af_idx + 1
  let next_decade := if wrap then st.af_decade + 1 else st.af_decade
  do
    let t ← pyGet c.af_taus next_idx
    let next_af := (npRound (fl (fl ((10 : ℝ) ^ next_decade) * t))).toNat
    .ok (if 2 * next_af + 1 ≤ st.x.length then
      { st with
        afs := st.afs ++ [next_af]
        S := st.S ++ [0]
        So := st.So ++ [0]
        dev := st.dev ++ [0]
        af_idx := next_idx
        af_decade := next_decade }
      else st)

/-- realtime.py 108–115, 147–154, 183–193: `add_phase` with `auto_afs`, rounded -/
noncomputable def RtName.add_phase_auto_fl (fl : ℝ → ℝ) (k : RtName) (c : RtCfg) (st : Rt) (x : ℝ) : Py Rt := do
  let st ← k.add_phase_fl fl c st x
  if c.auto_afs then update_af_fl fl c st else .ok st

/-- a sequence of `add_phase` calls with `auto_afs`, rounded -/
noncomputable def RtName.feed_auto_fl (fl : ℝ → ℝ) (k : RtName) (c : RtCfg) (st : Rt) (xs : List ℝ) : Py Rt :=
  xs.foldlM (k.add_phase_auto_fl fl c) st

/-- realtime.py 78–82 `add_frequency` with `auto_afs`, rounded -/
noncomputable def RtName.add_frequency_auto_fl (fl : ℝ → ℝ) (k : RtName) (c : RtCfg) (st : Rt) (f : ℝ) :
    Py Rt := do
  let st ← if st.x = [] then k.add_phase_auto_fl fl c st 0 else .ok st
  let last ← pyGet st.x (-1)
  k.add_phase_auto_fl fl c st (fl (last + f))

/-- a sequence of `add_frequency` calls with `auto_afs`, rounded -/
noncomputable def RtName.feed_frequency_auto_fl (fl : ℝ → ℝ) (k : RtName) (c : RtCfg) (st : Rt) (fs : List ℝ) :
    Py Rt :=
  fs.foldlM (k.add_frequency_auto_fl fl c) st

end AT
