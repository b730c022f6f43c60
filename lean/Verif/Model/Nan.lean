import Verif.Model.Gradev
import Verif.Model.Dev
import Verif.Model.Mtie

/-!
# Model of the deviations on data that contain NaN

The functions of allantools other than gradev do not look at NaN: numpy's arithmetic carries it
along.  Here `adev`, `oadev`, `mdev`, `tdev`, `hdev`, `ohdev`, `tierms` and `mtie` are modelled
on floats that may be NaN (`NV`, `none` for NaN).  For data without NaN the models agree with
those of `Model/Dev.lean` and `Model/Mtie.lean` (`nan_free`).
-/

namespace AT

open Real

/-- `np.sum` of floats that may be NaN -/
noncomputable def nvSum : List NV → NV
  | [] => some 0
  | v :: vs => nv2 (· + ·) v (nvSum vs)

/-- `np.max`/`np.min` propagate NaN and raise ValueError on an empty array -/
noncomputable def nvExt (ext : List ℝ → Py ℝ) (l : List NV) : Py NV :=
  if l = [] then .error .valueError
  else if l.all Option.isSome then (ext (numbers l)).map some
  else .ok none

/-- The 4-tuple returned by the deviation functions, with values that may be NaN -/
structure NanOut where
  /-- tau values, in seconds -/
  taus : List ℝ
  /-- deviations -/
  devs : List NV
  /-- error bars -/
  errs : List NV
  /-- number of terms used for each point -/
  ns : List ℤ

/-- allantools.py 2176–2213 `remove_small_ns`; only `ns` decides what is kept -/
def remove_small_ns_nv (r : NanOut) : Py NanOut := do
  let big := r.ns.map (fun n => decide (1 < n))
  let o_taus ← maskSel r.taus big
  let o_devs ← maskSel r.devs big
  let o_ns ← maskSel r.ns big
  let o_errs ← maskSel r.errs big
  if o_devs.length = 0 then .error .userWarning
  else .ok ⟨o_taus, o_devs, o_errs, o_ns⟩

/-- the common loop over the averaging factors followed by `remove_small_ns`
(e.g. allantools.py 333–336), as `runTaus` -/
def runTausNv (taus_used : List ℝ) (ms : List ℕ) (body : ℕ → ℕ → Py (NV × NV × ℤ)) :
    Py NanOut := do
  let rows ← ms.zipIdx.mapM (fun p => body p.2 p.1)
  remove_small_ns_nv ⟨taus_used, rows.map (fun r => r.1), rows.map (fun r => r.2.1),
    rows.map (fun r => r.2.2)⟩

/-- allantools.py 339–387 `calc_adev_phase` -/
noncomputable def calc_adev_phase_nv (phase : List NV) (rate : ℝ) (mj stride : ℕ) :
    Py (NV × NV × ℤ) := do
  let d2 ← sliceStep phase (2 * mj : ℕ) stride
  let d1 ← sliceStep phase (1 * mj : ℕ) stride
  let d0 ← sliceStep phase (0 : ℕ) stride
  let n := min (min d0.length d1.length) d2.length
  let n := if n = 0 then 1 else n
  let a ← vop (nv2 (· - ·)) (sliceTo d2 n) ((sliceTo d1 n).map (Option.map (fun v => 2 * v)))
  let v_arr ← vop (nv2 (· + ·)) a (sliceTo d0 n)
  let sq ← vop (nv2 (· * ·)) v_arr v_arr
  let s := nvSum sq
  let dev := s.map (fun s => √(s / (2 * n)) / mj * rate)
  let deverr := dev.map (fun d => d / √n)
  .ok (dev, deverr, n)

/-- allantools.py 269–336 `adev` -/
noncomputable def adev_nv (data : List NV) (rate : ℝ) (data_type : String) (taus : TausArg) :
    Py NanOut := do
  let phase ← input_to_phase_nv data rate data_type
  let (phase, m, taus_used) ← tau_generator phase rate taus
  runTausNv taus_used m (fun _ mj => calc_adev_phase_nv phase rate mj mj)

/-- allantools.py 627–681 `oadev` -/
noncomputable def oadev_nv (data : List NV) (rate : ℝ) (data_type : String) (taus : TausArg) :
    Py NanOut := do
  let phase ← input_to_phase_nv data rate data_type
  let (phase, m, taus_used) ← tau_generator phase rate taus
  runTausNv taus_used m (fun _ mj => calc_adev_phase_nv phase rate mj 1)

/-- allantools.py 234–264: body of the `mdev` loop -/
noncomputable def mdev_body_nv (phase : List NV) (taus_used : List ℝ) (idx m : ℕ) :
    Py (NV × NV × ℤ) := do
  let tau ← pyGet taus_used idx
  -- First loop sum
  let d0 := slice phase (0 : ℕ) (m : ℕ)
  let d1 := slice phase (m : ℕ) (2 * m : ℕ)
  let d2 := slice phase (2 * m : ℕ) (3 * m : ℕ)
  let e := min (min d0.length d1.length) d2.length
  let a ← vop (nv2 (· - ·)) (sliceTo d2 e) ((sliceTo d1 e).map (Option.map (fun v => 2 * v)))
  let a ← vop (nv2 (· + ·)) a (sliceTo d0 e)
  let v := nvSum a
  let s := nv2 (· * ·) v v
  -- Second part of sum
  let d3 := sliceFrom phase (3 * m : ℕ)
  let d2 := sliceFrom phase (2 * m : ℕ)
  let d1 := sliceFrom phase (1 * m : ℕ)
  let d0 := sliceFrom phase (0 : ℕ)
  let e := min (min (min d0.length d1.length) d2.length) d3.length
  let n := e + 1
  let b ← vop (nv2 (· - ·)) (sliceTo d3 e) ((sliceTo d2 e).map (Option.map (fun v => 3 * v)))
  let b ← vop (nv2 (· + ·)) b ((sliceTo d1 e).map (Option.map (fun v => 3 * v)))
  let b ← vop (nv2 (· - ·)) b (sliceTo d0 e)
  let v_arr := (nvCumsum (some 0) b).map (fun c => nv2 (· + ·) v c)
  let sq ← vop (nv2 (· * ·)) v_arr v_arr
  let s := nv2 (· + ·) s (nvSum sq)
  let s := s.map (fun s => √(s / (2 * m * m * tau * tau * n)))
  .ok (s, s.map (fun s => s / √n), n)

/-- allantools.py 181–266 `mdev` -/
noncomputable def mdev_nv (data : List NV) (rate : ℝ) (data_type : String) (taus : TausArg) :
    Py NanOut := do
  let phase ← input_to_phase_nv data rate data_type
  let (phase, ms, taus_used) ← tau_generator phase rate taus
  runTausNv taus_used ms (fun idx m => mdev_body_nv phase taus_used idx m)

/-- allantools.py 130–178 `tdev` -/
noncomputable def tdev_nv (data : List NV) (rate : ℝ) (data_type : String) (taus : TausArg) :
    Py NanOut := do
  let phase ← input_to_phase_nv data rate data_type
  let r ← mdev_nv phase rate "phase" taus
  let td ← vop (fun (t : ℝ) (v : NV) => v.map (fun v => t * v)) r.taus r.devs
  let td := td.map (Option.map (fun v => v / √3))
  let tde ← vop (fun (v : NV) (n : ℤ) => v.map (fun v => v / √(n : ℝ))) td r.ns
  .ok ⟨r.taus, td, tde, r.ns⟩

/-- allantools.py 785–836 `calc_hdev_phase` -/
noncomputable def calc_hdev_phase_nv (phase : List NV) (rate : ℝ) (mj stride : ℕ) :
    Py (NV × NV × ℤ) :=
  if rate = 0 then .error .zeroDivisionError
  else do
    let tau0 := 1 / rate
    let d3 ← sliceStep phase (3 * mj : ℕ) stride
    let d2 ← sliceStep phase (2 * mj : ℕ) stride
    let d1 ← sliceStep phase (1 * mj : ℕ) stride
    let d0 ← sliceStep phase (0 : ℕ) stride
    let n := min (min (min d0.length d1.length) d2.length) d3.length
    let v ← vop (nv2 (· - ·)) (sliceTo d3 n) ((sliceTo d2 n).map (Option.map (fun v => 3 * v)))
    let v ← vop (nv2 (· + ·)) v ((sliceTo d1 n).map (Option.map (fun v => 3 * v)))
    let v_arr ← vop (nv2 (· - ·)) v (sliceTo d0 n)
    let sq ← vop (nv2 (· * ·)) v_arr v_arr
    let s := nvSum sq
    let n := if n = 0 then 1 else n
    let h := s.map (fun s => √(s / 6 / n) / (tau0 * mj))
    let e := h.map (fun h => h / √n)
    .ok (h, e, n)

/-- allantools.py 684–738 `ohdev` -/
noncomputable def ohdev_nv (data : List NV) (rate : ℝ) (data_type : String) (taus : TausArg) :
    Py NanOut := do
  let phase ← input_to_phase_nv data rate data_type
  let (phase, m, taus_used) ← tau_generator phase rate taus
  runTausNv taus_used m (fun _ mj => calc_hdev_phase_nv phase rate mj 1)

/-- allantools.py 741–782 `hdev` -/
noncomputable def hdev_nv (data : List NV) (rate : ℝ) (data_type : String) (taus : TausArg) :
    Py NanOut := do
  let phase ← input_to_phase_nv data rate data_type
  let (phase, m, taus_used) ← tau_generator phase rate taus
  runTausNv taus_used m (fun _ mj => calc_hdev_phase_nv phase rate mj mj)

/-- allantools.py 1361–1375: body of the `tierms` loop; `np.max` and `np.min` of a pair with NaN
are NaN, and the error bar is `0 / np.sqrt(ncount)` whatever the data -/
noncomputable def tierms_body_nv (phase : List NV) (mj : ℕ) : Py (NV × NV × ℤ) := do
  let count : ℤ := phase.length
  let a := sliceTo phase (-(mj : ℤ))
  let b := sliceFrom phase (mj : ℕ)
  if a.length = b.length then do
    let p_max ← vop (nv2 max) a b
    let p_min ← vop (nv2 min) a b
    let phases ← vop (nv2 (· - ·)) p_max p_min
    let sq ← vop (nv2 (· * ·)) phases phases
    let tie := (nvSum sq).map (fun s => √(s / sq.length))
    let ncount := count - mj
    .ok (tie, some (0 / √(ncount : ℝ)), ncount)
  else .error .valueError

/-- allantools.py 1334–1377 `tierms` -/
noncomputable def tierms_nv (data : List NV) (rate : ℝ) (data_type : String) (taus : TausArg) :
    Py NanOut := do
  let phase ← input_to_phase_nv data rate data_type
  let (_, m, taus_used) ← tau_generator phase rate taus
  runTausNv taus_used m (fun _ mj => tierms_body_nv phase mj)

/-- allantools.py 1380–1410 `mtie_rolling_window` and 1442–1450, 1476–1479: body of the `mtie`
loop on a machine on which the rolling windows can be built -/
noncomputable def mtie_body_nv (phase : List NV) (mj : ℕ) : Py (NV × NV × ℤ) :=
  if (mj : ℤ) + 1 > phase.length then .error .valueError
  else do
    let rw := tab (phase.length - mj) (fun i => slice phase (i : ℕ) ((i + (mj + 1) : ℕ) : ℤ))
    let win_max ← rw.mapM (nvExt npMax)
    let win_min ← rw.mapM (nvExt npMin)
    let tie ← vop (nv2 (· - ·)) win_max win_min
    let dev ← nvExt npMax tie
    let ncount : ℤ := (phase.length : ℤ) - mj
    .ok (dev, dev.map (fun d => d / √(ncount : ℝ)), ncount)

/-- allantools.py 1413–1481 `mtie` -/
noncomputable def mtie_nv (data : List NV) (rate : ℝ) (data_type : String) (taus : TausArg) :
    Py NanOut := do
  let phase ← input_to_phase_nv data rate data_type
  let (phase, m, taus_used) ← tau_generator phase rate taus
  runTausNv taus_used m (fun _ mj => mtie_body_nv phase mj)

end AT
