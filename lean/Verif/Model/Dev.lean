import Verif.Model.Tau
import Verif.Model.Convert
import Mathlib.Analysis.Real.Sqrt

/-!
# Model of the deviation functions (allantools.py 130–1377)

Every function takes the finite data as `List ℝ` and mirrors the Python statement
by statement; slices, broadcasting, index errors and assertions are kept.
-/

namespace AT

open Real (sqrt)

/-- The loop shared by all deviation functions:
`for idx, mj in enumerate(m): (devs[idx], errs[idx], ns[idx]) = body(idx, mj)`
followed by `return remove_small_ns(taus_used, devs, errs, ns)`
(e.g. allantools.py 333–336). -/
def runTaus (taus_used : List ℝ) (ms : List ℕ) (body : ℕ → ℕ → Py (ℝ × ℝ × ℤ)) :
    Py (DevOut ℝ) := do
  let rows ← ms.zipIdx.mapM (fun p => body p.2 p.1)
  remove_small_ns ⟨taus_used, rows.map (fun r => r.1), .arr (rows.map (fun r => r.2.1)),
    rows.map (fun r => r.2.2)⟩

/-- allantools.py 339–387 `calc_adev_phase` -/
noncomputable def calc_adev_phase (phase : List ℝ) (rate : ℝ) (mj stride : ℕ) :
    Py (ℝ × ℝ × ℤ) := do
  let d2 ← sliceStep phase (2 * mj : ℕ) stride
  let d1 ← sliceStep phase (1 * mj : ℕ) stride
  let d0 ← sliceStep phase (0 : ℕ) stride
  let n := min (min d0.length d1.length) d2.length
  let n := if n = 0 then 1 else n
  let a ← vsub (sliceTo d2 n) (vscale 2 (sliceTo d1 n))
  let v_arr ← vadd a (sliceTo d0 n)
  let sq ← vmul v_arr v_arr
  let s := npSum sq
  let dev := sqrt (s / (2 * n)) / mj * rate
  let deverr := dev / sqrt n
  .ok (dev, deverr, n)

/-- allantools.py 269–336 `adev` -/
noncomputable def adev (data : List ℝ) (rate : ℝ) (data_type : String) (taus : TausArg) :
    Py (DevOut ℝ) := do
  let phase ← input_to_phase data rate data_type
  let (phase, m, taus_used) ← tau_generator phase rate taus
  runTaus taus_used m (fun _ mj => calc_adev_phase phase rate mj mj)

/-- allantools.py 627–681 `oadev` -/
noncomputable def oadev (data : List ℝ) (rate : ℝ) (data_type : String) (taus : TausArg) :
    Py (DevOut ℝ) := do
  let phase ← input_to_phase data rate data_type
  let (phase, m, taus_used) ← tau_generator phase rate taus
  runTaus taus_used m (fun _ mj => calc_adev_phase phase rate mj 1)

/-- allantools.py 234–264: body of the `mdev` loop -/
noncomputable def mdev_body (phase taus_used : List ℝ) (idx m : ℕ) : Py (ℝ × ℝ × ℤ) := do
  let tau ← pyGet taus_used idx
  -- First loop sum
  let d0 := slice phase (0 : ℕ) (m : ℕ)
  let d1 := slice phase (m : ℕ) (2 * m : ℕ)
  let d2 := slice phase (2 * m : ℕ) (3 * m : ℕ)
  let e := min (min d0.length d1.length) d2.length
  let a ← vsub (sliceTo d2 e) (vscale 2 (sliceTo d1 e))
  let a ← vadd a (sliceTo d0 e)
  let v := npSum a
  let s := v * v
  -- Second part of sum
  let d3 := sliceFrom phase (3 * m : ℕ)
  let d2 := sliceFrom phase (2 * m : ℕ)
  let d1 := sliceFrom phase (1 * m : ℕ)
  let d0 := sliceFrom phase (0 : ℕ)
  let e := min (min (min d0.length d1.length) d2.length) d3.length
  let n := e + 1
  let b ← vsub (sliceTo d3 e) (vscale 3 (sliceTo d2 e))
  let b ← vadd b (vscale 3 (sliceTo d1 e))
  let b ← vsub b (sliceTo d0 e)
  let v_arr := (npCumsum b).map (fun c => v + c)
  let sq ← vmul v_arr v_arr
  let s := s + npSum sq
  let s := s / (2 * m * m * tau * tau * n)
  let s := sqrt s
  .ok (s, s / sqrt n, n)

/-- allantools.py 181–266 `mdev` -/
noncomputable def mdev (data : List ℝ) (rate : ℝ) (data_type : String) (taus : TausArg) :
    Py (DevOut ℝ) := do
  let phase ← input_to_phase data rate data_type
  let (phase, ms, taus_used) ← tau_generator phase rate taus
  runTaus taus_used ms (fun idx m => mdev_body phase taus_used idx m)

/-- the common tail of `tdev` (176–178) and `ttotdev` (946–948):
`td = taus * md / sqrt(3); tde = td / sqrt(ns)` -/
noncomputable def scaleToTdev (r : DevOut ℝ) : Py (DevOut ℝ) := do
  let td ← vmul r.taus r.devs
  let td := td.map (fun v => v / sqrt 3)
  let tde ← vop (fun (v : ℝ) (n : ℤ) => v / sqrt (n : ℝ)) td r.ns
  .ok ⟨r.taus, td, .arr tde, r.ns⟩

/-- allantools.py 130–178 `tdev` -/
noncomputable def tdev (data : List ℝ) (rate : ℝ) (data_type : String) (taus : TausArg) :
    Py (DevOut ℝ) := do
  let phase ← input_to_phase data rate data_type
  let r ← mdev phase rate "phase" taus
  scaleToTdev r

/-- allantools.py 785–836 `calc_hdev_phase`; `float(rate)` of 0 raises ZeroDivisionError -/
noncomputable def calc_hdev_phase (phase : List ℝ) (rate : ℝ) (mj stride : ℕ) :
    Py (ℝ × ℝ × ℤ) :=
  if rate = 0 then .error .zeroDivisionError
  else do
    let tau0 := 1 / rate
    let d3 ← sliceStep phase (3 * mj : ℕ) stride
    let d2 ← sliceStep phase (2 * mj : ℕ) stride
    let d1 ← sliceStep phase (1 * mj : ℕ) stride
    let d0 ← sliceStep phase (0 : ℕ) stride
    let n := min (min (min d0.length d1.length) d2.length) d3.length
    let v ← vsub (sliceTo d3 n) (vscale 3 (sliceTo d2 n))
    let v ← vadd v (vscale 3 (sliceTo d1 n))
    let v_arr ← vsub v (sliceTo d0 n)
    let sq ← vmul v_arr v_arr
    let s := npSum sq
    let n := if n = 0 then 1 else n
    let h := sqrt (s / 6 / n) / (tau0 * mj)
    let e := h / sqrt n
    .ok (h, e, n)

/-- allantools.py 684–738 `ohdev` -/
noncomputable def ohdev (data : List ℝ) (rate : ℝ) (data_type : String) (taus : TausArg) :
    Py (DevOut ℝ) := do
  let phase ← input_to_phase data rate data_type
  let (phase, m, taus_used) ← tau_generator phase rate taus
  runTaus taus_used m (fun _ mj => calc_hdev_phase phase rate mj 1)

/-- allantools.py 741–782 `hdev` -/
noncomputable def hdev (data : List ℝ) (rate : ℝ) (data_type : String) (taus : TausArg) :
    Py (DevOut ℝ) := do
  let phase ← input_to_phase data rate data_type
  let (phase, m, taus_used) ← tau_generator phase rate taus
  runTaus taus_used m (fun _ mj => calc_hdev_phase phase rate mj mj)

/-- allantools.py 448–508 `calc_pdev_phase` -/
noncomputable def calc_pdev_phase (phase : List ℝ) (rate : ℝ) (mj : ℕ) : Py (ℝ × ℝ × ℤ) := do
  let stride := 1
  let tau0 := 1 / rate
  if mj = 1 then do
    let d2 ← sliceStep phase (2 * mj : ℕ) stride
    let d1 ← sliceStep phase (1 * mj : ℕ) stride
    let d0 ← sliceStep phase (0 : ℕ) stride
    let n := min (min d0.length d1.length) d2.length
    let n := if n = 0 then 1 else n
    let a ← vsub (sliceTo d2 n) (vscale 2 (sliceTo d1 n))
    let v_arr ← vadd a (sliceTo d0 n)
    let sq ← vmul v_arr v_arr
    let s := npSum sq
    let dev := sqrt (s / (2 * n)) / mj * rate
    .ok (dev, dev / sqrt n, n)
  else
    let N := phase.length
    let M : ℤ := (N : ℤ) - 2 * mj
    if M < 1 then .ok (0, 0, 0)
    else do
      let Msum ← forRange M.toNat (0 : ℝ) (fun Msum i => do
        let krange := npLinspace 0 ((mj : ℝ) - 1) mj
        let w := krange.map (fun k => ((mj : ℝ) - 1) / 2 - k)
        let dx ← vsub (slice phase (i : ℕ) (i + mj : ℕ)) (slice phase (i + mj : ℕ) (i + 2 * mj : ℕ))
        let p ← vmul w dx
        let asum := npSum p
        .ok (Msum + asum ^ 2))
      let dev := sqrt (72 * Msum / ((M : ℝ) * (mj : ℝ) ^ 4 * (mj * tau0) ^ 2))
      .ok (dev, dev / sqrt M, M)

/-- allantools.py 390–445 `pdev` -/
noncomputable def pdev (data : List ℝ) (rate : ℝ) (data_type : String) (taus : TausArg) :
    Py (DevOut ℝ) := do
  let phase ← input_to_phase data rate data_type
  let (phase, m, taus_used) ← tau_generator phase rate taus
  runTaus taus_used m (fun _ mj => calc_pdev_phase phase rate mj)

/-- allantools.py 511–566 `calc_gcodev_phase` -/
noncomputable def calc_gcodev_phase (phase_1 phase_2 : List ℝ) (rate : ℝ) (mj stride : ℕ) :
    Py (ℝ × ℝ × ℤ) := do
  let d2_1 ← sliceStep phase_1 (2 * mj : ℕ) stride
  let d1_1 ← sliceStep phase_1 (1 * mj : ℕ) stride
  let d0_1 ← sliceStep phase_1 (0 : ℕ) stride
  let d2_2 ← sliceStep phase_2 (2 * mj : ℕ) stride
  let d1_2 ← sliceStep phase_2 (1 * mj : ℕ) stride
  let d0_2 ← sliceStep phase_2 (0 : ℕ) stride
  let n_1 := min (min d0_1.length d1_1.length) d2_1.length
  let n_2 := min (min d0_2.length d1_2.length) d2_2.length
  let n_2 := if n_1 = 0 then 1 else n_2
  let n_1 := if n_1 = 0 then 1 else n_1
  let a ← vsub (sliceTo d2_1 n_1) (vscale 2 (sliceTo d1_1 n_1))
  let v_arr_1 ← vadd a (sliceTo d0_1 n_1)
  let a ← vsub (sliceTo d2_2 n_2) (vscale 2 (sliceTo d1_2 n_2))
  let v_arr_2 ← vadd a (sliceTo d0_2 n_2)
  let p ← vmul v_arr_1 v_arr_2
  let s := npSum p
  let dev := if 0 ≤ s then sqrt (s / (2 * n_1)) / mj * rate
    else sqrt (|s| / (2 * n_1)) / mj * rate
  .ok (dev, dev / sqrt n_1, n_1)

/-- allantools.py 569–624 `gcodev` -/
noncomputable def gcodev (data_1 data_2 : List ℝ) (rate : ℝ) (data_type : String)
    (taus : TausArg) : Py (DevOut ℝ) := do
  let phase_1 ← input_to_phase data_1 rate data_type
  let phase_2 ← input_to_phase data_2 rate data_type
  let (phase_1, _, _) ← tau_generator phase_1 rate taus
  let (phase_2, m, taus_used) ← tau_generator phase_2 rate taus
  runTaus taus_used m (fun _ mj => calc_gcodev_phase phase_1 phase_2 rate mj 1)

/-- `xs[a:b] = ys` for numpy arrays -/
def setSlice (xs : List ℝ) (a b : ℤ) (ys : List ℝ) : Py (List ℝ) :=
  let lo := normIdx xs.length a
  let hi := max lo (normIdx xs.length b)
  if ys.length = hi - lo then .ok (xs.take lo ++ ys ++ xs.drop hi)
  else match ys with
    | [y] => .ok (xs.take lo ++ List.replicate (hi - lo) y ++ xs.drop hi)
    | _ => .error .valueError

/-- `c * np.ones((n,))`; a negative size raises ValueError -/
noncomputable def scaledOnes (c : ℝ) (n : ℤ) : Py (List ℝ) :=
  if n < 0 then .error .valueError else .ok (List.replicate n.toNat c)

/-- allantools.py 882–906: the extended (reflected) data set of `totdev`; returns the
extended data and `mid = len(x1)`. -/
noncomputable def totdev_extend (phase : List ℝ) : Py (List ℝ × ℕ) := do
  let N : ℤ := phase.length
  let first ← pyGet phase 0
  let x1 ← scaledOnes (2 * first) (N - 2)
  let x1 ← vsub x1 (slice phase 1 (-1))
  let x1 := x1.reverse
  let last ← pyGet phase (-1)
  let x2 ← scaledOnes (2 * last) (N - 2)
  let x2 ← vsub x2 (slice phase 1 (-1)).reverse
  pyAssert ((x1.length : ℤ) + phase.length + x2.length = 3 * N - 4)
  let x ← scaledOnes 0 (3 * N - 4)
  let x ← setSlice x 0 (N - 2) x1
  let x ← setSlice x (N - 2) (2 * (N - 2) + 2) phase
  let x ← setSlice x (2 * (N - 2) + 2) x.length x2
  .ok (x, x1.length)

/-- allantools.py 908–922: body of the `totdev` loop -/
noncomputable def totdev_body (x : List ℝ) (mid : ℕ) (N : ℕ) (rate : ℝ) (mj : ℕ) :
    Py (ℝ × ℝ × ℤ) := do
  let d0 := sliceFrom x ((mid : ℤ) + 1)
  let d1 := sliceFrom x ((mid : ℤ) + mj + 1)
  let d1n := sliceFrom x ((mid : ℤ) - mj + 1)
  let e := min (min d0.length d1.length) d1n.length
  let v ← vsub (sliceTo d1n e) (vscale 2 (sliceTo d0 e))
  let v_arr ← vadd v (sliceTo d1 e)
  let sq ← vmul (sliceTo v_arr mid) (sliceTo v_arr mid)
  let dev := npSum sq
  let dev := dev / (2 * (mj / rate) ^ 2 * ((N : ℝ) - 2))
  let dev := sqrt dev
  .ok (dev, dev / sqrt mid, mid)

/-- allantools.py 839–924 `totdev` -/
noncomputable def totdev (data : List ℝ) (rate : ℝ) (data_type : String) (taus : TausArg) :
    Py (DevOut ℝ) := do
  let phase ← input_to_phase data rate data_type
  let (phase, m, taus_used) ← tau_generator phase rate taus
  let (x, mid) ← totdev_extend phase
  runTaus taus_used m (fun _ mj => totdev_body x mid phase.length rate mj)

/-- the detrending and extension shared by `calc_mtotdev_phase` (1037–1050) and
`calc_htotdev_freq` (1199–1212): the slope of the subsequence `xs` of length `3*m`,
from the means of its two halves, in units of `dt`. -/
noncomputable def tot_slope (xs : List ℝ) (m : ℕ) (dt : ℝ) : ℝ :=
  let half1_idx : ℕ := (⌊(3 * m / 2 : ℝ)⌋).toNat
  let half2_idx : ℕ := (⌈(3 * m / 2 : ℝ)⌉).toNat
  let mean1 := npMean (sliceTo xs half1_idx)
  let mean2 := npMean (sliceFrom xs half2_idx)
  if (3 * m) % 2 = 1 then (mean2 - mean1) / ((0.5 * (3 * m - 1) + 1) * dt)
  else (mean2 - mean1) / (0.5 * 3 * m * dt)

/-- the inner loop shared by `calc_mtotdev_phase` (1075–1088) and
`calc_htotdev_freq` (1227–1248): running sums of `m` points, updated incrementally;
state `(xmean1, xmean2, xmean3, squaresum)`. -/
noncomputable def tot_inner (xstar : List ℝ) (m : ℕ) : Py ℝ := do
  let r ← forRange (6 * m) ((0, 0, 0, 0) : ℝ × ℝ × ℝ × ℝ) (fun st j => do
    let (xmean1, xmean2, xmean3) ←
      if j = 0 then
        (.ok (npSum (slice xstar (0 : ℕ) (m : ℕ)), npSum (slice xstar (m : ℕ) (2 * m : ℕ)),
          npSum (slice xstar (2 * m : ℕ) (3 * m : ℕ))) : Py (ℝ × ℝ × ℝ))
      else do
        let a1 ← pyGet xstar ((j : ℤ) - 1)
        let b1 ← pyGet xstar ((j : ℤ) + m - 1)
        let a2 ← pyGet xstar ((m : ℤ) + j - 1)
        let b2 ← pyGet xstar ((j : ℤ) + 2 * m - 1)
        let a3 ← pyGet xstar (2 * (m : ℤ) + j - 1)
        let b3 ← pyGet xstar ((j : ℤ) + 3 * m - 1)
        .ok (st.1 - a1 + b1, st.2.1 - a2 + b2, st.2.2.1 - a3 + b3)
    .ok (xmean1, xmean2, xmean3, st.2.2.2 + ((xmean1 - 2 * xmean2 + xmean3) / m) ^ 2))
  .ok r.2.2.2

/-- allantools.py 1006–1099 `calc_mtotdev_phase`; `range` of a negative count is empty. -/
noncomputable def calc_mtotdev_phase (phase : List ℝ) (rate : ℝ) (m : ℕ) : Py (ℝ × ℝ × ℤ) := do
  let tau0 := 1 / rate
  let N := phase.length
  let K : ℤ := (N : ℤ) - 3 * m + 1
  let (dev, n) ← forRange K.toNat ((0, 0) : ℝ × ℕ) (fun st i => do
    let xs := slice phase (i : ℕ) (i + 3 * m : ℕ)
    pyAssert (xs.length = 3 * m)
    let slope := tot_slope xs m tau0
    let x0 := xs.zipIdx.map (fun p => p.1 - slope * p.2 * tau0)
    let x0_flip := x0.reverse
    let xstar := x0_flip ++ x0 ++ x0_flip
    pyAssert (xstar.length = 9 * m)
    let squaresum ← tot_inner xstar m
    let squaresum := (1 / (6 * (m : ℝ))) * squaresum
    .ok (st.1 + squaresum, st.2 + 1))
  pyAssert ((n : ℤ) = K)
  let dev := dev * 1 / (2 * (m * tau0) ^ 2 * (K : ℝ))
  let dev := sqrt dev
  .ok (dev, dev / sqrt n, n)

/-- allantools.py 951–1003 `mtotdev` -/
noncomputable def mtotdev (data : List ℝ) (rate : ℝ) (data_type : String) (taus : TausArg) :
    Py (DevOut ℝ) := do
  let phase ← input_to_phase data rate data_type
  let (phase, ms, taus_used) ← tau_generator phase rate taus false ((phase.length : ℝ) / 3)
  runTaus taus_used ms (fun _ mj => calc_mtotdev_phase phase rate mj)

/-- allantools.py 927–948 `ttotdev` -/
noncomputable def ttotdev (data : List ℝ) (rate : ℝ) (data_type : String) (taus : TausArg) :
    Py (DevOut ℝ) := do
  let r ← mtotdev data rate data_type taus
  scaleToTdev r

/-- allantools.py 1175–1258 `calc_htotdev_freq` -/
noncomputable def calc_htotdev_freq (freq : List ℝ) (m : ℕ) : Py (ℝ × ℝ × ℤ) := do
  let N := freq.length
  let K : ℤ := (N : ℤ) - 3 * m + 1
  let (dev, n) ← forRange K.toNat ((0, 0) : ℝ × ℕ) (fun st i => do
    let xs := slice freq (i : ℕ) (i + 3 * m : ℕ)
    pyAssert (xs.length = 3 * m)
    let slope := tot_slope xs m 1
    let x0 := xs.zipIdx.map (fun p => p.1 - slope * ((p.2 : ℝ) - ⌊(3 * m / 2 : ℝ)⌋))
    let x0_flip := x0.reverse
    let xstar := x0_flip ++ x0 ++ x0_flip
    pyAssert (xstar.length = 9 * m)
    let squaresum ← tot_inner xstar m
    let k := 6 * m
    let squaresum := (1 / (6 * (k : ℝ))) * squaresum
    .ok (st.1 + squaresum, st.2 + 1))
  pyAssert ((n : ℤ) = K)
  let dev := dev * 1 / (K : ℝ)
  let dev := sqrt dev
  .ok (dev, dev / sqrt n, n)

/-- allantools.py 1102–1172 `htotdev` -/
noncomputable def htotdev (data : List ℝ) (rate : ℝ) (data_type : String) (taus : TausArg) :
    Py (DevOut ℝ) := do
  let (phase, freq) ←
    if data_type = "phase" then (.ok (data, phase2frequency data rate) : Py (List ℝ × List ℝ))
    else if data_type = "freq" then do
      let phase ← frequency2phase data rate
      .ok (phase, data)
    else .error .exception
  let (freq, ms, taus_used) ← tau_generator freq rate taus false ((freq.length : ℝ) / 3)
  runTaus taus_used ms (fun _ mj =>
    if mj = 1 then calc_hdev_phase phase rate mj 1 else calc_htotdev_freq freq mj)

/-- allantools.py 1308–1329: body of the `theo1` loop; state of the loops is `(dev or s, n)`.
The assertion compares with the float `(N-m)*m/2`. -/
noncomputable def theo1_body (phase : List ℝ) (tau0 : ℝ) (m : ℕ) : Py (ℝ × ℝ × ℤ) := do
  let N := phase.length
  pyAssert (m % 2 = 0)
  let (dev, n) ← forRange ((N : ℤ) - m).toNat ((0, 0) : ℝ × ℕ) (fun st i => do
    let (s, n) ← forRange (m / 2) ((0, st.2) : ℝ × ℕ) (fun st d => do
      let pre : ℝ := 1 / ((m : ℝ) / 2 - d)
      let a ← pyGet phase (i : ℕ)
      let b ← pyGet phase ((i : ℤ) - d + (m / 2 : ℕ))
      let c ← pyGet phase ((i : ℤ) + m)
      let e ← pyGet phase ((i : ℤ) + d + (m / 2 : ℕ))
      .ok (st.1 + pre * (a - b + c - e) ^ 2, st.2 + 1))
    .ok (st.1 + s, n))
  pyAssert ((n : ℝ) = ((N : ℝ) - m) * m / 2)
  let dev := dev / (0.75 * ((N : ℝ) - m) * (m * tau0) ^ 2)
  .ok (sqrt dev, sqrt dev / sqrt ((N : ℝ) - m), n)

/-- allantools.py 1261–1331 `theo1`; `1.0/rate` raises ZeroDivisionError before the
`rate == 0` test of tau_generator. -/
noncomputable def theo1 (data : List ℝ) (rate : ℝ) (data_type : String) (taus : TausArg) :
    Py (DevOut ℝ) := do
  let phase ← input_to_phase data rate data_type
  if rate = 0 then .error .zeroDivisionError
  else do
    let tau0 := 1 / rate
    let (phase, ms, taus_used) ← tau_generator phase rate taus true
    runTaus taus_used ms (fun _ m => theo1_body phase tau0 m)

/-- `np.column_stack` of two 1-d arrays: lengths must agree -/
def column_stack (a b : List ℝ) : Py (List (ℝ × ℝ)) :=
  if a.length = b.length then .ok (a.zip b) else .error .valueError

/-- allantools.py 1361–1375: body of the `tierms` loop -/
noncomputable def tierms_body (phase : List ℝ) (mj : ℕ) : Py (ℝ × ℝ × ℤ) := do
  let count : ℤ := phase.length
  let phases ← column_stack (sliceTo phase (-(mj : ℤ))) (sliceFrom phase (mj : ℕ))
  let p_max := phases.map (fun p => max p.1 p.2)
  let p_min := phases.map (fun p => min p.1 p.2)
  let phases ← vsub p_max p_min
  let sq ← vmul phases phases
  let tie := sqrt (npMean sq)
  let ncount := count - mj
  .ok (tie, 0 / sqrt ncount, ncount)

/-- allantools.py 1334–1377 `tierms` -/
noncomputable def tierms (data : List ℝ) (rate : ℝ) (data_type : String) (taus : TausArg) :
    Py (DevOut ℝ) := do
  let phase ← input_to_phase data rate data_type
  let (_, m, taus_used) ← tau_generator phase rate taus
  runTaus taus_used m (fun _ mj => tierms_body phase mj)

end AT
