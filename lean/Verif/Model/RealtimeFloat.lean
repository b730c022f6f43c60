import Verif.Model.Realtime

/-!
# Model of realtime.py in floating point

Every arithmetic operation, power and square root of floats is followed by `fl`.  Python integers are exact,
and so is their conversion to floats below `2^53`; `pow(af, 2)` may be larger and is rounded when it is used
in a division.  Fixed averaging factors: `auto_afs` is false.
-/

namespace AT

open Real

/-- realtime.py 117–126 `update_S` of oadev_realtime, rounded -/
noncomputable def oadev_update_S_fl (fl : ℝ → ℝ) (c : RtCfg) (st : Rt) (idx : ℕ) : Py Rt := do
  let af ← pyGet st.afs idx
  let i : ℤ := (st.x.length : ℤ) - 1
  let x0 ← pyGet st.x i
  let x1 ← pyGet st.x (i - af)
  let x2 ← pyGet st.x (i - 2 * af)
  let S_new := fl (fl (fl (x0 - fl (2 * x1)) + x2) ^ 2)
  let s ← pyGet st.S idx
  let S ← pySet st.S idx (fl (s + S_new))
  let q ← pyDiv 1 (fl (fl (2 * fl (fl (af * c.tau0) ^ 2)) * ((i : ℝ) + 1 - 2 * af)))
  let dev ← pySet st.dev idx (fl √(fl (fl q * fl (s + S_new))))
  .ok { st with S := S, dev := dev }

/-- realtime.py 108–115 `add_phase` of oadev_realtime, rounded -/
noncomputable def oadev_add_phase_fl (fl : ℝ → ℝ) (c : RtCfg) (st : Rt) (xnew : ℝ) : Py Rt := do
  let st := { st with x := st.x ++ [xnew] }
  forRange st.afs.length st (fun st idx => do
    let af ← pyGet st.afs idx
    if 2 * af + 1 ≤ st.x.length then oadev_update_S_fl fl c st idx else .ok st)

/-- realtime.py 156–167 `update_S` of ohdev_realtime, rounded -/
noncomputable def ohdev_update_S_fl (fl : ℝ → ℝ) (c : RtCfg) (st : Rt) (idx : ℕ) : Py Rt := do
  let af ← pyGet st.afs idx
  let i : ℤ := (st.x.length : ℤ) - 1
  let x0 ← pyGet st.x i
  let x1 ← pyGet st.x (i - af)
  let x2 ← pyGet st.x (i - 2 * af)
  let x3 ← pyGet st.x (i - 3 * af)
  let S_new := fl (fl (fl (fl (x0 - fl (3 * x1)) + fl (3 * x2)) - x3) ^ 2)
  let s ← pyGet st.S idx
  let S ← pySet st.S idx (fl (s + S_new))
  let q ← pyDiv 1 (fl (fl (6 * fl (fl (af * c.tau0) ^ 2)) * ((i : ℝ) + 1 - 3 * af)))
  let dev ← pySet st.dev idx (fl √(fl (fl q * fl (s + S_new))))
  .ok { st with S := S, dev := dev }

/-- realtime.py 147–154 `add_phase` of ohdev_realtime, rounded -/
noncomputable def ohdev_add_phase_fl (fl : ℝ → ℝ) (c : RtCfg) (st : Rt) (xnew : ℝ) : Py Rt := do
  let st := { st with x := st.x ++ [xnew] }
  forRange st.afs.length st (fun st idx => do
    let af ← pyGet st.afs idx
    if 3 * af < st.x.length then ohdev_update_S_fl fl c st idx else .ok st)

/-- realtime.py 209–214 `update_dev`, rounded -/
noncomputable def tdev_update_dev_fl (fl : ℝ → ℝ) (st : Rt) (idx : ℕ) : Py Rt := do
  let num_pts := st.x.length
  let af ← pyGet st.afs idx
  let so ← pyGet st.So idx
  let q1 ← pyDiv 1 ((num_pts : ℝ) - 3 * af + 1)
  let q2 ← pyDiv 1 (fl ((af : ℝ) ^ 2))
  let dev ← pySet st.dev idx (fl √(fl (fl (fl (fl (1 / 6) * fl q1) * fl q2) * so)))
  .ok { st with dev := dev }

/-- realtime.py 204–207: the last call of `update_S3n`, rounded -/
noncomputable def tdev_S3n_last_fl (fl : ℝ → ℝ) (st : Rt) (idx : ℕ) : Py Rt := do
  let s ← pyGet st.S idx
  let So ← pySet st.So idx (fl (s ^ 2))
  tdev_update_dev_fl fl { st with So := So } idx

/-- realtime.py 199–207 `update_S3n`, rounded -/
noncomputable def tdev_update_S3n_fl (fl : ℝ → ℝ) (st : Rt) (idx : ℕ) : Py Rt := do
  let af ← pyGet st.afs idx
  let j : ℤ := (st.x.length : ℤ) - 1
  let x0 ← pyGet st.x j
  let x1 ← pyGet st.x (j - af)
  let x2 ← pyGet st.x (j - 2 * af)
  let s ← pyGet st.S idx
  let S ← pySet st.S idx (fl (fl (fl (s + x0) - fl (2 * x1)) + x2))
  let st := { st with S := S }
  if st.x.length = 3 * af then tdev_S3n_last_fl fl st idx else .ok st

/-- realtime.py 216–231 `update_S` of tdev_realtime, rounded -/
noncomputable def tdev_update_S_fl (fl : ℝ → ℝ) (st : Rt) (idx : ℕ) : Py Rt := do
  let af ← pyGet st.afs idx
  pyAssert (3 * af + 1 ≤ st.x.length)
  let i : ℤ := (st.x.length : ℤ) - 1
  let x3 ← pyGet st.x (i - 3 * af)
  let x2 ← pyGet st.x (i - 2 * af)
  let x1 ← pyGet st.x (i - af)
  let x0 ← pyGet st.x i
  let S_new := fl (fl (fl (fl (-1 * x3) + fl (3 * x2)) - fl (3 * x1)) + x0)
  let s ← pyGet st.S idx
  let S ← pySet st.S idx (fl (s + S_new))
  let so ← pyGet st.So idx
  let So ← pySet st.So idx (fl (so + fl (fl (s + S_new) ^ 2)))
  tdev_update_dev_fl fl { st with S := S, So := So } idx

/-- realtime.py 183–193 `add_phase` of tdev_realtime, rounded -/
noncomputable def tdev_add_phase_fl (fl : ℝ → ℝ) (st : Rt) (xnew : ℝ) : Py Rt := do
  let st := { st with x := st.x ++ [xnew] }
  forRange st.afs.length st (fun st idx => do
    let af ← pyGet st.afs idx
    if 3 * af + 1 ≤ st.x.length then tdev_update_S_fl fl st idx
    else if 2 * af + 1 ≤ st.x.length then tdev_update_S3n_fl fl st idx
    else .ok st)

/-- realtime.py 233–238 `mdev`, rounded -/
noncomputable def tdev_mdev_fl (fl : ℝ → ℝ) (c : RtCfg) (st : Rt) : Py (List ℝ) :=
  forRange st.afs.length st.dev (fun mdev idx => do
    let af ← pyGet st.afs idx
    let v ← pyGet mdev idx
    let q ← pyDiv (fl (v * fl √3)) (fl (af * c.tau0))
    pySet mdev idx (fl q))

/-- `add_phase` of a class, rounded -/
noncomputable def RtName.add_phase_fl (fl : ℝ → ℝ) (k : RtName) (c : RtCfg) (st : Rt) (x : ℝ) : Py Rt :=
  match k with
  | .oadev => oadev_add_phase_fl fl c st x
  | .ohdev => ohdev_add_phase_fl fl c st x
  | .tdev => tdev_add_phase_fl fl st x

/-- realtime.py 78–82 `add_frequency`, rounded -/
noncomputable def RtName.add_frequency_fl (fl : ℝ → ℝ) (k : RtName) (c : RtCfg) (st : Rt) (f : ℝ) :
    Py Rt := do
  let st ← if st.x = [] then k.add_phase_fl fl c st 0 else .ok st
  let last ← pyGet st.x (-1)
  k.add_phase_fl fl c st (fl (last + f))

/-- a sequence of `add_phase` calls, rounded -/
noncomputable def RtName.feed_fl (fl : ℝ → ℝ) (k : RtName) (c : RtCfg) (st : Rt) (xs : List ℝ) : Py Rt :=
  xs.foldlM (k.add_phase_fl fl c) st

/-- a sequence of `add_frequency` calls, rounded -/
noncomputable def RtName.feed_frequency_fl (fl : ℝ → ℝ) (k : RtName) (c : RtCfg) (st : Rt) (fs : List ℝ) :
    Py Rt :=
  fs.foldlM (k.add_frequency_fl fl c) st

end AT
