import Verif.Model.Realtime
import Verif.Model.NanMore

/-!
# Model of realtime.py on streams that contain NaN

The streaming classes do not look at NaN: the arithmetic carries it along.  Here the classes are
modelled on floats that may be NaN (`NV`, `none` for NaN).  For streams without NaN the model agrees
with that of `Model/Realtime.lean` (`nan_realtime_free`).
-/

namespace AT

open Real

/-- attributes that change, as `Rt`, with values that may be NaN -/
structure RtNv where
  /-- phase time-series -/
  x : List NV
  /-- averaging factors -/
  afs : List ℕ
  /-- deviations -/
  dev : List NV
  /-- running sums -/
  S : List NV
  /-- overall sums of squares (tdev only) -/
  So : List NV
  /-- logspace index -/
  af_idx : ℕ
  /-- logspace decade -/
  af_decade : ℕ

/-- realtime.py 36–50, 102–106, 138–142, 176–181: the constructors -/
noncomputable def rt_init_nv (afs : List ℕ) (auto_afs : Bool) : RtNv :=
  ⟨[], if auto_afs then [1] else afs, List.replicate afs.length (some 0),
    List.replicate afs.length (some 0), List.replicate afs.length (some 0), 0, 0⟩

/-- realtime.py 52–76 `update_af`, with `add_af` (128–129, 144–145, 195–197); looks at the number of
samples only -/
noncomputable def update_af_nv (c : RtCfg) (st : RtNv) : Py RtNv :=
  let wrap := st.af_idx + 1 = c.af_taus.length
  let next_idx := if wrap then 0 else st.af_idx + 1
  let next_decade := if wrap then st.af_decade + 1 else st.af_decade
  do
    let t ← pyGet c.af_taus next_idx
    let next_af := (npRound ((10 : ℝ) ^ next_decade * t)).toNat
    .ok (if 2 * next_af + 1 ≤ st.x.length then
      { st with
        afs := st.afs ++ [next_af]
        S := st.S ++ [some 0]
        So := st.So ++ [some 0]
        dev := st.dev ++ [some 0]
        af_idx := next_idx
        af_decade := next_decade }
      else st)

/-- the `if self.auto_afs: self.update_af()` at the end of `add_phase` -/
noncomputable def rt_auto_nv (c : RtCfg) (st : RtNv) : Py RtNv :=
  if c.auto_afs then update_af_nv c st else .ok st

/-- realtime.py 117–126 `update_S` of oadev_realtime -/
noncomputable def oadev_update_S_nv (c : RtCfg) (st : RtNv) (idx : ℕ) : Py RtNv := do
  let af ← pyGet st.afs idx
  let i : ℤ := (st.x.length : ℤ) - 1
  let x0 ← pyGet st.x i
  let x1 ← pyGet st.x (i - af)
  let x2 ← pyGet st.x (i - 2 * af)
  let S_new := (nv2 (· + ·) (nv2 (· - ·) x0 (nvScale 2 x1)) x2).map (fun v => v ^ 2)
  let s ← pyGet st.S idx
  let S ← pySet st.S idx (nv2 (· + ·) s S_new)
  let q ← pyDiv 1 (2 * (af * c.tau0) ^ 2 * ((i : ℝ) + 1 - 2 * af))
  let dev ← pySet st.dev idx ((nv2 (· + ·) s S_new).map (fun s => √(q * s)))
  .ok { st with S := S, dev := dev }

/-- realtime.py 108–115 `add_phase` of oadev_realtime -/
noncomputable def oadev_add_phase_nv (c : RtCfg) (st : RtNv) (xnew : NV) : Py RtNv := do
  let st := { st with x := st.x ++ [xnew] }
  let st ← forRange st.afs.length st (fun st idx => do
    let af ← pyGet st.afs idx
    if 2 * af + 1 ≤ st.x.length then oadev_update_S_nv c st idx else .ok st)
  rt_auto_nv c st

/-- realtime.py 156–167 `update_S` of ohdev_realtime -/
noncomputable def ohdev_update_S_nv (c : RtCfg) (st : RtNv) (idx : ℕ) : Py RtNv := do
  let af ← pyGet st.afs idx
  let i : ℤ := (st.x.length : ℤ) - 1
  let x0 ← pyGet st.x i
  let x1 ← pyGet st.x (i - af)
  let x2 ← pyGet st.x (i - 2 * af)
  let x3 ← pyGet st.x (i - 3 * af)
  let S_new := (nv2 (· - ·) (nv2 (· + ·) (nv2 (· - ·) x0 (nvScale 3 x1)) (nvScale 3 x2)) x3).map
    (fun v => v ^ 2)
  let s ← pyGet st.S idx
  let S ← pySet st.S idx (nv2 (· + ·) s S_new)
  let q ← pyDiv 1 (6 * (af * c.tau0) ^ 2 * ((i : ℝ) + 1 - 3 * af))
  let dev ← pySet st.dev idx ((nv2 (· + ·) s S_new).map (fun s => √(q * s)))
  .ok { st with S := S, dev := dev }

/-- realtime.py 147–154 `add_phase` of ohdev_realtime -/
noncomputable def ohdev_add_phase_nv (c : RtCfg) (st : RtNv) (xnew : NV) : Py RtNv := do
  let st := { st with x := st.x ++ [xnew] }
  let st ← forRange st.afs.length st (fun st idx => do
    let af ← pyGet st.afs idx
    if 3 * af < st.x.length then ohdev_update_S_nv c st idx else .ok st)
  rt_auto_nv c st

/-- realtime.py 209–214 `update_dev` of tdev_realtime -/
noncomputable def tdev_update_dev_nv (st : RtNv) (idx : ℕ) : Py RtNv := do
  let num_pts := st.x.length
  let af ← pyGet st.afs idx
  let so ← pyGet st.So idx
  let q1 ← pyDiv 1 ((num_pts : ℝ) - 3 * af + 1)
  let q2 ← pyDiv 1 ((af : ℝ) ^ 2)
  let dev ← pySet st.dev idx (so.map (fun so => √(1 / 6 * q1 * q2 * so)))
  .ok { st with dev := dev }

/-- realtime.py 204–207: the last call of `update_S3n` -/
noncomputable def tdev_S3n_last_nv (st : RtNv) (idx : ℕ) : Py RtNv := do
  let s ← pyGet st.S idx
  let So ← pySet st.So idx (s.map (fun s => s ^ 2))
  tdev_update_dev_nv { st with So := So } idx

/-- realtime.py 199–207 `update_S3n` -/
noncomputable def tdev_update_S3n_nv (st : RtNv) (idx : ℕ) : Py RtNv := do
  let af ← pyGet st.afs idx
  let j : ℤ := (st.x.length : ℤ) - 1
  let x0 ← pyGet st.x j
  let x1 ← pyGet st.x (j - af)
  let x2 ← pyGet st.x (j - 2 * af)
  let s ← pyGet st.S idx
  let S ← pySet st.S idx (nv2 (· + ·) (nv2 (· - ·) (nv2 (· + ·) s x0) (nvScale 2 x1)) x2)
  let st := { st with S := S }
  if st.x.length = 3 * af then tdev_S3n_last_nv st idx else .ok st

/-- realtime.py 216–231 `update_S` of tdev_realtime -/
noncomputable def tdev_update_S_nv (st : RtNv) (idx : ℕ) : Py RtNv := do
  let af ← pyGet st.afs idx
  pyAssert (3 * af + 1 ≤ st.x.length)
  let i : ℤ := (st.x.length : ℤ) - 1
  let x3 ← pyGet st.x (i - 3 * af)
  let x2 ← pyGet st.x (i - 2 * af)
  let x1 ← pyGet st.x (i - af)
  let x0 ← pyGet st.x i
  let S_new := nv2 (· + ·) (nv2 (· - ·) (nv2 (· + ·) (nvScale (-1) x3) (nvScale 3 x2))
    (nvScale 3 x1)) x0
  let s ← pyGet st.S idx
  let S ← pySet st.S idx (nv2 (· + ·) s S_new)
  let so ← pyGet st.So idx
  let So ← pySet st.So idx (nv2 (· + ·) so ((nv2 (· + ·) s S_new).map (fun v => v ^ 2)))
  tdev_update_dev_nv { st with S := S, So := So } idx

/-- realtime.py 183–193 `add_phase` of tdev_realtime -/
noncomputable def tdev_add_phase_nv (c : RtCfg) (st : RtNv) (xnew : NV) : Py RtNv := do
  let st := { st with x := st.x ++ [xnew] }
  let st ← forRange st.afs.length st (fun st idx => do
    let af ← pyGet st.afs idx
    if 3 * af + 1 ≤ st.x.length then tdev_update_S_nv st idx
    else if 2 * af + 1 ≤ st.x.length then tdev_update_S3n_nv st idx
    else .ok st)
  rt_auto_nv c st

/-- realtime.py 233–238 `mdev`: the deviation times `√3 / (af tau0)` -/
noncomputable def tdev_mdev_nv (c : RtCfg) (st : RtNv) : Py (List NV) :=
  forRange st.afs.length st.dev (fun mdev idx => do
    let af ← pyGet st.afs idx
    let v ← pyGet mdev idx
    let q ← pyDiv (√3) (af * c.tau0)
    pySet mdev idx (nvScale q v))

/-- `add_phase` of a class -/
noncomputable def RtName.add_phase_nv (k : RtName) (c : RtCfg) (st : RtNv) (x : NV) : Py RtNv :=
  match k with
  | .oadev => oadev_add_phase_nv c st x
  | .ohdev => ohdev_add_phase_nv c st x
  | .tdev => tdev_add_phase_nv c st x

/-- realtime.py 78–82 `add_frequency` -/
noncomputable def RtName.add_frequency_nv (k : RtName) (c : RtCfg) (st : RtNv) (f : NV) :
    Py RtNv := do
  let st ← if st.x = [] then k.add_phase_nv c st (some 0) else .ok st
  let last ← pyGet st.x (-1)
  k.add_phase_nv c st (nv2 (· + ·) last f)

/-- a sequence of `add_phase` calls -/
noncomputable def RtName.feed_nv (k : RtName) (c : RtCfg) (st : RtNv) (xs : List NV) : Py RtNv :=
  xs.foldlM (k.add_phase_nv c) st

/-- a sequence of `add_frequency` calls -/
noncomputable def RtName.feed_frequency_nv (k : RtName) (c : RtCfg) (st : RtNv) (fs : List NV) :
    Py RtNv :=
  fs.foldlM (k.add_frequency_nv c) st

/-- realtime.py 84–86 `taus` -/
noncomputable def rt_taus_nv (c : RtCfg) (st : RtNv) : List ℝ :=
  st.afs.map (fun (af : ℕ) => c.tau0 * af)

end AT
