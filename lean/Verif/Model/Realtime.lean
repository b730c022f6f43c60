import Verif.Model.Ci
import Verif.Model.Mtie

/-!
# Model of realtime.py: streaming statistics

Attributes that are updated become fields of `Rt`; `tau0`, `auto_afs` and `af_taus` are
fixed at construction and are fields of `RtCfg`.  The three classes share the structures;
`So` is only used by `tdev_realtime`.
-/

namespace AT

open Real

/-- attributes that never change after construction -/
structure RtCfg where
  /-- time between points -/
  tau0 : ℝ
  /-- automatic averaging factors -/
  auto_afs : Bool
  /-- `numpy.logspace(0, 1, pts_per_decade+1)[:-1]` -/
  af_taus : List ℝ

/-- attributes that change -/
structure Rt where
  /-- phase time-series -/
  x : List ℝ
  /-- averaging factors -/
  afs : List ℕ
  /-- deviations -/
  dev : List ℝ
  /-- running sums -/
  S : List ℝ
  /-- overall sums of squares (tdev only) -/
  So : List ℝ
  /-- logspace index -/
  af_idx : ℕ
  /-- logspace decade -/
  af_decade : ℕ

/-- realtime.py 36–50, 102–106, 138–142, 176–181: constructor arguments that never change -/
noncomputable def rt_cfg (tau0 : ℝ) (auto_afs : Bool) (pts_per_decade : ℕ) : RtCfg :=
  ⟨tau0, auto_afs, sliceTo (npLogspace 0 1 (pts_per_decade + 1) 10) (-1)⟩

/-- realtime.py 36–50, 102–106, 138–142, 176–181: the constructors.  With `auto_afs` the list
`afs` becomes `[1]`, but the arrays have the length of the argument. -/
noncomputable def rt_init (afs : List ℕ) (auto_afs : Bool) : Rt :=
  ⟨[], if auto_afs then [1] else afs, List.replicate afs.length 0, List.replicate afs.length 0,
    List.replicate afs.length 0, 0, 0⟩

/-- realtime.py 52–76 `update_af`, with `add_af` (128–129, 144–145, 195–197): appends 0 to the
sums (`So` is unused in the classes that do not have it). -/
noncomputable def update_af (c : RtCfg) (st : Rt) : Py Rt :=
  let wrap := st.af_idx + 1 = c.af_taus.length
  let next_idx := if wrap then 0 else st.af_idx + 1
  let next_decade := if wrap then st.af_decade + 1 else st.af_decade
  do
    let t ← pyGet c.af_taus next_idx
    let next_af := (npRound ((10 : ℝ) ^ next_decade * t)).toNat
    .ok (if 2 * next_af + 1 ≤ st.x.length then
      { st with
        afs := st.afs ++ [next_af]
        S := st.S ++ [0]
        So := st.So ++ [0]
        dev := st.dev ++ [0]
        af_idx := next_idx
        af_decade := next_decade }
      else st)

/-- the `if self.auto_afs: self.update_af()` at the end of `add_phase` -/
noncomputable def rt_auto (c : RtCfg) (st : Rt) : Py Rt :=
  if c.auto_afs then update_af c st else .ok st

/-! ## oadev_realtime -/

/-- realtime.py 117–126 `update_S` -/
noncomputable def oadev_update_S (c : RtCfg) (st : Rt) (idx : ℕ) : Py Rt := do
  let af ← pyGet st.afs idx
  let i : ℤ := (st.x.length : ℤ) - 1
  let x0 ← pyGet st.x i
  let x1 ← pyGet st.x (i - af)
  let x2 ← pyGet st.x (i - 2 * af)
  let S_new := (x0 - 2 * x1 + x2) ^ 2
  let s ← pyGet st.S idx
  let S ← pySet st.S idx (s + S_new)
  let q ← pyDiv 1 (2 * (af * c.tau0) ^ 2 * ((i : ℝ) + 1 - 2 * af))
  let dev ← pySet st.dev idx (√(q * (s + S_new)))
  .ok { st with S := S, dev := dev }

/-- realtime.py 108–115 `add_phase` -/
noncomputable def oadev_add_phase (c : RtCfg) (st : Rt) (xnew : ℝ) : Py Rt := do
  let st := { st with x := st.x ++ [xnew] }
  let st ← forRange st.afs.length st (fun st idx => do
    let af ← pyGet st.afs idx
    if 2 * af + 1 ≤ st.x.length then oadev_update_S c st idx else .ok st)
  rt_auto c st

/-! ## ohdev_realtime -/

/-- realtime.py 156–167 `update_S` -/
noncomputable def ohdev_update_S (c : RtCfg) (st : Rt) (idx : ℕ) : Py Rt := do
  let af ← pyGet st.afs idx
  let i : ℤ := (st.x.length : ℤ) - 1
  let x0 ← pyGet st.x i
  let x1 ← pyGet st.x (i - af)
  let x2 ← pyGet st.x (i - 2 * af)
  let x3 ← pyGet st.x (i - 3 * af)
  let S_new := (x0 - 3 * x1 + 3 * x2 - x3) ^ 2
  let s ← pyGet st.S idx
  let S ← pySet st.S idx (s + S_new)
  let q ← pyDiv 1 (6 * (af * c.tau0) ^ 2 * ((i : ℝ) + 1 - 3 * af))
  let dev ← pySet st.dev idx (√(q * (s + S_new)))
  .ok { st with S := S, dev := dev }

/-- realtime.py 147–154 `add_phase` -/
noncomputable def ohdev_add_phase (c : RtCfg) (st : Rt) (xnew : ℝ) : Py Rt := do
  let st := { st with x := st.x ++ [xnew] }
  let st ← forRange st.afs.length st (fun st idx => do
    let af ← pyGet st.afs idx
    if 3 * af < st.x.length then ohdev_update_S c st idx else .ok st)
  rt_auto c st

/-! ## tdev_realtime -/

/-- realtime.py 209–214 `update_dev` -/
noncomputable def tdev_update_dev (st : Rt) (idx : ℕ) : Py Rt := do
  let num_pts := st.x.length
  let af ← pyGet st.afs idx
  let so ← pyGet st.So idx
  let q1 ← pyDiv 1 ((num_pts : ℝ) - 3 * af + 1)
  let q2 ← pyDiv 1 ((af : ℝ) ^ 2)
  let dev ← pySet st.dev idx (√(1 / 6 * q1 * q2 * so))
  .ok { st with dev := dev }

/-- realtime.py 204–207: the last call of `update_S3n` -/
noncomputable def tdev_S3n_last (st : Rt) (idx : ℕ) : Py Rt := do
  let s ← pyGet st.S idx
  let So ← pySet st.So idx (s ^ 2)
  tdev_update_dev { st with So := So } idx

/-- realtime.py 199–207 `update_S3n` -/
noncomputable def tdev_update_S3n (st : Rt) (idx : ℕ) : Py Rt := do
  let af ← pyGet st.afs idx
  let j : ℤ := (st.x.length : ℤ) - 1
  let x0 ← pyGet st.x j
  let x1 ← pyGet st.x (j - af)
  let x2 ← pyGet st.x (j - 2 * af)
  let s ← pyGet st.S idx
  let S ← pySet st.S idx (s + x0 - 2 * x1 + x2)
  let st := { st with S := S }
  if st.x.length = 3 * af then tdev_S3n_last st idx else .ok st

/-- realtime.py 216–231 `update_S` -/
noncomputable def tdev_update_S (st : Rt) (idx : ℕ) : Py Rt := do
  let af ← pyGet st.afs idx
  pyAssert (3 * af + 1 ≤ st.x.length)
  let i : ℤ := (st.x.length : ℤ) - 1
  let x3 ← pyGet st.x (i - 3 * af)
  let x2 ← pyGet st.x (i - 2 * af)
  let x1 ← pyGet st.x (i - af)
  let x0 ← pyGet st.x i
  let S_new := -1 * x3 + 3 * x2 - 3 * x1 + x0
  let s ← pyGet st.S idx
  let S ← pySet st.S idx (s + S_new)
  let so ← pyGet st.So idx
  let So ← pySet st.So idx (so + (s + S_new) ^ 2)
  tdev_update_dev { st with S := S, So := So } idx

/-- realtime.py 183–193 `add_phase` -/
noncomputable def tdev_add_phase (c : RtCfg) (st : Rt) (xnew : ℝ) : Py Rt := do
  let st := { st with x := st.x ++ [xnew] }
  let st ← forRange st.afs.length st (fun st idx => do
    let af ← pyGet st.afs idx
    if 3 * af + 1 ≤ st.x.length then tdev_update_S st idx
    else if 2 * af + 1 ≤ st.x.length then tdev_update_S3n st idx
    else .ok st)
  rt_auto c st

/-- realtime.py 233–238 `mdev` (numpy arithmetic) -/
noncomputable def tdev_mdev (c : RtCfg) (st : Rt) : Py (List ℝ) :=
  forRange st.afs.length st.dev (fun mdev idx => do
    let af ← pyGet st.afs idx
    let v ← pyGet mdev idx
    let q ← pyDiv (v * √3) (af * c.tau0)
    pySet mdev idx q)

/-! ## feeding data -/

/-- the three classes -/
inductive RtName
  | oadev | ohdev | tdev
  deriving DecidableEq

/-- `add_phase` of a class -/
noncomputable def RtName.add_phase (k : RtName) (c : RtCfg) (st : Rt) (x : ℝ) : Py Rt :=
  match k with
  | .oadev => oadev_add_phase c st x
  | .ohdev => ohdev_add_phase c st x
  | .tdev => tdev_add_phase c st x

/-- realtime.py 78–82 `add_frequency` -/
noncomputable def RtName.add_frequency (k : RtName) (c : RtCfg) (st : Rt) (f : ℝ) : Py Rt := do
  let st ← if st.x = [] then k.add_phase c st 0 else .ok st
  let last ← pyGet st.x (-1)
  k.add_phase c st (last + f)

/-- a sequence of `add_phase` calls -/
noncomputable def RtName.feed (k : RtName) (c : RtCfg) (st : Rt) (xs : List ℝ) : Py Rt :=
  xs.foldlM (k.add_phase c) st

/-- a sequence of `add_frequency` calls -/
noncomputable def RtName.feed_frequency (k : RtName) (c : RtCfg) (st : Rt) (fs : List ℝ) : Py Rt :=
  fs.foldlM (k.add_frequency c) st

/-- realtime.py 84–86 `taus` -/
noncomputable def rt_taus (c : RtCfg) (st : Rt) : List ℝ := st.afs.map (fun (af : ℕ) => c.tau0 * af)

end AT
