import Verif.Model.Dev

/-!
# Model of the tau computations in floating point

The rest of the model computes with exact real numbers.  Here the results of the
floating-point operations of `tau_generator` are rounded by `fl`.  Integers below `2^53`,
comparisons and `np.round` are exact in floating point.
-/

namespace AT

/-- allantools.py 2046–2074 with rounded results.  The powers `base**k` of `np.logspace` and
`pow(10.0, k)` are the rounded exact powers.  `log10grid` stands for the values of `np.logspace(0,
maxn, int(10*maxn), base=10.0)` in line 2064.  `np.floor(np.log2(n))` and `np.floor(np.log10(n))`
are the exact integers. -/
noncomputable def expand_taus_fl (fl : ℝ → ℝ) (log10grid : List ℝ) (len : ℕ) (rate : ℝ) :
    TausArg → Py (List ℝ)
  | .array l => .ok l
  | .list (t :: ts) => .ok (t :: ts)
  | .list [] => octave
  | .none => octave
  | .str s =>
    if s = "all" then .ok ((npLinspace 1 len len).map (fun k => fl (fl (1 / rate) * k)))
    else if s = "octave" then octave
    else if s = "log10" then
      if len = 0 then .error .overflowError
      else .ok (log10grid.map (fun k => fl (fl (1 / rate) * k)))
    else if s = "decade" then
      if len = 0 then .error .overflowError
      else
        let maxn := ⌊Real.logb 10 len⌋
        .ok ((List.range (maxn + 1).toNat).flatMap (fun k =>
          [fl (fl (1 * fl (1 / rate)) * fl (10 ^ k)), fl (fl (2 * fl (1 / rate)) * fl (10 ^ k)),
            fl (fl (4 * fl (1 / rate)) * fl (10 ^ k))]))
    else .error .typeError
where
  /-- allantools.py 2059–2061 -/
  octave : Py (List ℝ) :=
    if len = 0 then .error .overflowError
    else
      let maxn := ⌊Real.logb 2 len⌋
      .ok ((npLogspace 0 maxn (maxn + 1).toNat 2).map (fun k => fl (fl (1 / rate) * fl k)))

/-- allantools.py 1996–2125 `tau_generator` with rounded results in lines 2103 (`taus * rate`)
and 2118 (`m / rate`) -/
noncomputable def tau_generator_fl {α : Type} (fl : ℝ → ℝ) (log10grid : List ℝ) (data : List α)
    (rate : ℝ) (taus : TausArg) (even : Bool := false) (maximum_m : ℝ := -1) :
    Py (List α × List ℕ × List ℝ) :=
  if rate = 0 then .error .runtimeError
  else do
    let taus ← expand_taus_fl fl log10grid data.length rate taus
    let maximum_m : ℝ := if maximum_m = -1 then data.length else maximum_m
    let m := taus.map (fun t => npRound (fl (t * rate)))
    let m ← maskSel m (m.map (fun (k : ℤ) =>
      decide (k < (data.length : ℤ)) && decide (0 < k) && decide ((k : ℝ) ≤ maximum_m)))
    let m := m.filter (fun k => decide (k ≠ 0))
    let m := npUnique m
    let taus2 := m.map (fun (k : ℤ) => fl ((k : ℝ) / rate))
    if even then do
      let mask := m.map (fun k => decide (k % 2 = 0))
      let m' ← maskSel m mask
      let taus2' ← maskSel taus2 mask
      .ok (data, m'.map Int.toNat, taus2')
    else .ok (data, m.map Int.toNat, taus2)

/-- dataset.py 199: the averaging factor column, `int(taus[i] / taus[0])`, for positive taus -/
noncomputable def af_column_fl (fl : ℝ → ℝ) (tau_i tau_0 : ℝ) : ℤ := ⌊fl (tau_i / tau_0)⌋

/-- noise.py 285: `n = int(duration / timestep)`, for positive arguments -/
noncomputable def tk_samples_fl (fl : ℝ → ℝ) (duration timestep : ℝ) : ℤ :=
  ⌊fl (duration / timestep)⌋

/-! ## Deviations in floating point

Phase data.  Every arithmetic operation and square root is followed by `fl`; `sum` stands for
`np.sum`, whose order of additions is left open. -/

/-- element-wise subtraction, rounded -/
def vsub_fl (fl : ℝ → ℝ) (a b : List ℝ) : Py (List ℝ) := vop (fun u v => fl (u - v)) a b

/-- element-wise addition, rounded -/
def vadd_fl (fl : ℝ → ℝ) (a b : List ℝ) : Py (List ℝ) := vop (fun u v => fl (u + v)) a b

/-- element-wise multiplication, rounded -/
def vmul_fl (fl : ℝ → ℝ) (a b : List ℝ) : Py (List ℝ) := vop (fun u v => fl (u * v)) a b

/-- multiplication of an array by a number, rounded -/
def vscale_fl (fl : ℝ → ℝ) (c : ℝ) (a : List ℝ) : List ℝ := a.map (fun v => fl (c * v))

/-- allantools.py 339–387 `calc_adev_phase`, rounded -/
noncomputable def calc_adev_phase_fl (fl : ℝ → ℝ) (sum : List ℝ → ℝ) (phase : List ℝ) (rate : ℝ)
    (mj stride : ℕ) : Py (ℝ × ℝ × ℤ) := do
  let d2 ← sliceStep phase (2 * mj : ℕ) stride
  let d1 ← sliceStep phase (1 * mj : ℕ) stride
  let d0 ← sliceStep phase (0 : ℕ) stride
  let n := min (min d0.length d1.length) d2.length
  let n := if n = 0 then 1 else n
  let a ← vsub_fl fl (sliceTo d2 n) (vscale_fl fl 2 (sliceTo d1 n))
  let v_arr ← vadd_fl fl a (sliceTo d0 n)
  let sq ← vmul_fl fl v_arr v_arr
  let s := sum sq
  let dev := fl (fl (fl √(fl (s / fl (2 * n))) / mj) * rate)
  let deverr := fl (dev / fl √n)
  .ok (dev, deverr, n)

/-- allantools.py 269–336 `adev`, rounded, for phase data -/
noncomputable def adev_fl (fl : ℝ → ℝ) (sum : List ℝ → ℝ) (log10grid : List ℝ) (phase : List ℝ)
    (rate : ℝ) (taus : TausArg) : Py (DevOut ℝ) := do
  let (phase, m, taus_used) ← tau_generator_fl fl log10grid phase rate taus
  runTaus taus_used m (fun _ mj => calc_adev_phase_fl fl sum phase rate mj mj)

/-- allantools.py 627–681 `oadev`, rounded, for phase data -/
noncomputable def oadev_fl (fl : ℝ → ℝ) (sum : List ℝ → ℝ) (log10grid : List ℝ) (phase : List ℝ)
    (rate : ℝ) (taus : TausArg) : Py (DevOut ℝ) := do
  let (phase, m, taus_used) ← tau_generator_fl fl log10grid phase rate taus
  runTaus taus_used m (fun _ mj => calc_adev_phase_fl fl sum phase rate mj 1)

/-- allantools.py 785–836 `calc_hdev_phase`, rounded -/
noncomputable def calc_hdev_phase_fl (fl : ℝ → ℝ) (sum : List ℝ → ℝ) (phase : List ℝ) (rate : ℝ)
    (mj stride : ℕ) : Py (ℝ × ℝ × ℤ) :=
  if rate = 0 then .error .zeroDivisionError
  else do
    let tau0 := fl (1 / rate)
    let d3 ← sliceStep phase (3 * mj : ℕ) stride
    let d2 ← sliceStep phase (2 * mj : ℕ) stride
    let d1 ← sliceStep phase (1 * mj : ℕ) stride
    let d0 ← sliceStep phase (0 : ℕ) stride
    let n := min (min (min d0.length d1.length) d2.length) d3.length
    let v ← vsub_fl fl (sliceTo d3 n) (vscale_fl fl 3 (sliceTo d2 n))
    let v ← vadd_fl fl v (vscale_fl fl 3 (sliceTo d1 n))
    let v_arr ← vsub_fl fl v (sliceTo d0 n)
    let sq ← vmul_fl fl v_arr v_arr
    let s := sum sq
    let n := if n = 0 then 1 else n
    let h := fl (fl √(fl (fl (s / 6) / n)) / fl (tau0 * mj))
    let e := fl (h / fl √n)
    .ok (h, e, n)

/-- allantools.py 684–738 `ohdev`, rounded, for phase data -/
noncomputable def ohdev_fl (fl : ℝ → ℝ) (sum : List ℝ → ℝ) (log10grid : List ℝ) (phase : List ℝ)
    (rate : ℝ) (taus : TausArg) : Py (DevOut ℝ) := do
  let (phase, m, taus_used) ← tau_generator_fl fl log10grid phase rate taus
  runTaus taus_used m (fun _ mj => calc_hdev_phase_fl fl sum phase rate mj 1)

/-- allantools.py 741–782 `hdev`, rounded, for phase data -/
noncomputable def hdev_fl (fl : ℝ → ℝ) (sum : List ℝ → ℝ) (log10grid : List ℝ) (phase : List ℝ)
    (rate : ℝ) (taus : TausArg) : Py (DevOut ℝ) := do
  let (phase, m, taus_used) ← tau_generator_fl fl log10grid phase rate taus
  runTaus taus_used m (fun _ mj => calc_hdev_phase_fl fl sum phase rate mj mj)

/-- `np.cumsum` with rounded additions, from the accumulated value `c` on -/
def cumsum_fl (fl : ℝ → ℝ) : ℝ → List ℝ → List ℝ
  | _, [] => []
  | c, v :: vs => fl (c + v) :: cumsum_fl fl (fl (c + v)) vs

/-- `np.cumsum`: the first value is copied, the others are added one by one -/
def npCumsum_fl (fl : ℝ → ℝ) : List ℝ → List ℝ
  | [] => []
  | v :: vs => v :: cumsum_fl fl v vs

/-- allantools.py 234–264: body of the `mdev` loop, rounded -/
noncomputable def mdev_body_fl (fl : ℝ → ℝ) (sum : List ℝ → ℝ) (phase taus_used : List ℝ)
    (idx m : ℕ) : Py (ℝ × ℝ × ℤ) := do
  let tau ← pyGet taus_used idx
  -- First loop sum
  let d0 := slice phase (0 : ℕ) (m : ℕ)
  let d1 := slice phase (m : ℕ) (2 * m : ℕ)
  let d2 := slice phase (2 * m : ℕ) (3 * m : ℕ)
  let e := min (min d0.length d1.length) d2.length
  let a ← vsub_fl fl (sliceTo d2 e) (vscale_fl fl 2 (sliceTo d1 e))
  let a ← vadd_fl fl a (sliceTo d0 e)
  let v := sum a
  let s := fl (v * v)
  -- Second part of sum
  let d3 := sliceFrom phase (3 * m : ℕ)
  let d2 := sliceFrom phase (2 * m : ℕ)
  let d1 := sliceFrom phase (1 * m : ℕ)
  let d0 := sliceFrom phase (0 : ℕ)
  let e := min (min (min d0.length d1.length) d2.length) d3.length
  let n := e + 1
  let b ← vsub_fl fl (sliceTo d3 e) (vscale_fl fl 3 (sliceTo d2 e))
  let b ← vadd_fl fl b (vscale_fl fl 3 (sliceTo d1 e))
  let b ← vsub_fl fl b (sliceTo d0 e)
  let v_arr := (npCumsum_fl fl b).map (fun c => fl (v + c))
  let sq ← vmul_fl fl v_arr v_arr
  let s := fl (s + sum sq)
  let s := fl (s / fl (fl (fl (fl (fl (2 * m) * m) * tau) * tau) * n))
  let s := fl √s
  .ok (s, fl (s / fl √n), n)

/-- allantools.py 181–266 `mdev`, rounded, for phase data -/
noncomputable def mdev_fl (fl : ℝ → ℝ) (sum : List ℝ → ℝ) (log10grid : List ℝ) (phase : List ℝ)
    (rate : ℝ) (taus : TausArg) : Py (DevOut ℝ) := do
  let (phase, ms, taus_used) ← tau_generator_fl fl log10grid phase rate taus
  runTaus taus_used ms (fun idx m => mdev_body_fl fl sum phase taus_used idx m)

/-- allantools.py 176–178: the tail of `tdev`, rounded -/
noncomputable def scaleToTdev_fl (fl : ℝ → ℝ) (r : DevOut ℝ) : Py (DevOut ℝ) := do
  let td ← vmul_fl fl r.taus r.devs
  let td := td.map (fun v => fl (v / fl √3))
  let tde ← vop (fun (v : ℝ) (n : ℤ) => fl (v / fl √(n : ℝ))) td r.ns
  .ok ⟨r.taus, td, .arr tde, r.ns⟩

/-- allantools.py 130–178 `tdev`, rounded, for phase data -/
noncomputable def tdev_fl (fl : ℝ → ℝ) (sum : List ℝ → ℝ) (log10grid : List ℝ) (phase : List ℝ)
    (rate : ℝ) (taus : TausArg) : Py (DevOut ℝ) := do
  let r ← mdev_fl fl sum log10grid phase rate taus
  scaleToTdev_fl fl r

/-! ## Frequency data in floating point -/

/-- allantools.py 2313–2341 `frequency2phase` on data without NaN, rounded: line 2330 `1.0/rate`,
line 2337 the sum and the division of `np.nanmean` and the subtraction, line 2338 the
additions of `np.cumsum` and the multiplication by `dt` -/
noncomputable def frequency2phase_fl (fl : ℝ → ℝ) (sum : List ℝ → ℝ) (freqdata : List ℝ)
    (rate : ℝ) : Py (List ℝ) :=
  if rate = 0 then .error .zeroDivisionError
  else if freqdata = [] then .error .indexError
  else
    let dt := fl (1 / rate)
    let mean := fl (sum freqdata / freqdata.length)
    let f := freqdata.map (fun v => fl (v - mean))
    .ok (0 :: (npCumsum_fl fl f).map (fun v => fl (v * dt)))

/-- allantools.py 269–336 `adev`, rounded, for frequency data -/
noncomputable def adev_freq_fl (fl : ℝ → ℝ) (sum : List ℝ → ℝ) (log10grid : List ℝ)
    (data : List ℝ) (rate : ℝ) (taus : TausArg) : Py (DevOut ℝ) := do
  let phase ← frequency2phase_fl fl sum data rate
  adev_fl fl sum log10grid phase rate taus

/-- allantools.py 627–681 `oadev`, rounded, for frequency data -/
noncomputable def oadev_freq_fl (fl : ℝ → ℝ) (sum : List ℝ → ℝ) (log10grid : List ℝ)
    (data : List ℝ) (rate : ℝ) (taus : TausArg) : Py (DevOut ℝ) := do
  let phase ← frequency2phase_fl fl sum data rate
  oadev_fl fl sum log10grid phase rate taus

/-- allantools.py 684–738 `ohdev`, rounded, for frequency data -/
noncomputable def ohdev_freq_fl (fl : ℝ → ℝ) (sum : List ℝ → ℝ) (log10grid : List ℝ)
    (data : List ℝ) (rate : ℝ) (taus : TausArg) : Py (DevOut ℝ) := do
  let phase ← frequency2phase_fl fl sum data rate
  ohdev_fl fl sum log10grid phase rate taus

/-- allantools.py 741–782 `hdev`, rounded, for frequency data -/
noncomputable def hdev_freq_fl (fl : ℝ → ℝ) (sum : List ℝ → ℝ) (log10grid : List ℝ)
    (data : List ℝ) (rate : ℝ) (taus : TausArg) : Py (DevOut ℝ) := do
  let phase ← frequency2phase_fl fl sum data rate
  hdev_fl fl sum log10grid phase rate taus

/-- allantools.py 181–266 `mdev`, rounded, for frequency data -/
noncomputable def mdev_freq_fl (fl : ℝ → ℝ) (sum : List ℝ → ℝ) (log10grid : List ℝ)
    (data : List ℝ) (rate : ℝ) (taus : TausArg) : Py (DevOut ℝ) := do
  let phase ← frequency2phase_fl fl sum data rate
  mdev_fl fl sum log10grid phase rate taus

/-- allantools.py 130–178 `tdev`, rounded, for frequency data -/
noncomputable def tdev_freq_fl (fl : ℝ → ℝ) (sum : List ℝ → ℝ) (log10grid : List ℝ)
    (data : List ℝ) (rate : ℝ) (taus : TausArg) : Py (DevOut ℝ) := do
  let phase ← frequency2phase_fl fl sum data rate
  tdev_fl fl sum log10grid phase rate taus

end AT
