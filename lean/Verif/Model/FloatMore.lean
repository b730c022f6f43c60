import Verif.Model.Float
import Verif.Model.Mtie

/-!
# Model: further deviation functions with rounded arithmetic

Phase data.  As in `Verif.Model.Float`, every arithmetic operation and square root on floats is
followed by `fl`, `sum` stands for `np.sum`.  Python integers are exact, and so is their conversion to
floats below `2^53`; the product `M*pow(mj, 4)` of `pdev` may be larger and is rounded.  `pow(v, 2)` is taken to be the rounded product `v*v`.
Maxima, minima and comparisons are exact.
-/

namespace AT

open Real

/-- Python's `sum` of an array: the values are added from the left, starting with 0 -/
def pySum_fl (fl : ℝ → ℝ) (l : List ℝ) : ℝ := l.foldl (fun s v => fl (s + v)) 0

/-- allantools.py 886, 891: `c * np.ones((n,))`, rounded -/
noncomputable def scaledOnes_fl (fl : ℝ → ℝ) (c : ℝ) (n : ℤ) : Py (List ℝ) :=
  if n < 0 then .error .valueError else .ok (List.replicate n.toNat (fl (c * 1)))

/-- allantools.py 882–906: the extended data set of `totdev`, rounded -/
noncomputable def totdev_extend_fl (fl : ℝ → ℝ) (phase : List ℝ) : Py (List ℝ × ℕ) := do
  let N : ℤ := phase.length
  let first ← pyGet phase 0
  let x1 ← scaledOnes_fl fl (fl (2 * first)) (N - 2)
  let x1 ← vsub_fl fl x1 (slice phase 1 (-1))
  let x1 := x1.reverse
  let last ← pyGet phase (-1)
  let x2 ← scaledOnes_fl fl (fl (2 * last)) (N - 2)
  let x2 ← vsub_fl fl x2 (slice phase 1 (-1)).reverse
  pyAssert ((x1.length : ℤ) + phase.length + x2.length = 3 * N - 4)
  let x ← scaledOnes 0 (3 * N - 4)
  let x ← setSlice x 0 (N - 2) x1
  let x ← setSlice x (N - 2) (2 * (N - 2) + 2) phase
  let x ← setSlice x (2 * (N - 2) + 2) x.length x2
  .ok (x, x1.length)

/-- allantools.py 908–922: body of the `totdev` loop, rounded -/
noncomputable def totdev_body_fl (fl : ℝ → ℝ) (sum : List ℝ → ℝ) (x : List ℝ) (mid : ℕ) (N : ℕ)
    (rate : ℝ) (mj : ℕ) : Py (ℝ × ℝ × ℤ) := do
  let d0 := sliceFrom x ((mid : ℤ) + 1)
  let d1 := sliceFrom x ((mid : ℤ) + mj + 1)
  let d1n := sliceFrom x ((mid : ℤ) - mj + 1)
  let e := min (min d0.length d1.length) d1n.length
  let v ← vsub_fl fl (sliceTo d1n e) (vscale_fl fl 2 (sliceTo d0 e))
  let v_arr ← vadd_fl fl v (sliceTo d1 e)
  let sq ← vmul_fl fl (sliceTo v_arr mid) (sliceTo v_arr mid)
  let dev := sum sq
  let t := fl (mj / rate)
  let dev := fl (dev / fl (fl (2 * fl (t * t)) * ((N : ℝ) - 2)))
  let dev := fl √dev
  .ok (dev, fl (dev / fl √mid), mid)

/-- allantools.py 839–924 `totdev`, rounded, for phase data -/
noncomputable def totdev_fl (fl : ℝ → ℝ) (sum : List ℝ → ℝ) (log10grid : List ℝ) (phase : List ℝ)
    (rate : ℝ) (taus : TausArg) : Py (DevOut ℝ) := do
  let (phase, m, taus_used) ← tau_generator_fl fl log10grid phase rate taus
  let (x, mid) ← totdev_extend_fl fl phase
  runTaus taus_used m (fun _ mj => totdev_body_fl fl sum x mid phase.length rate mj)

/-- `np.linspace(0, stop, num)` for `num ≥ 2`, rounded: `arange(num) * (stop/(num-1)) + 0`, with the
last value set to `stop` -/
noncomputable def npLinspace_fl (fl : ℝ → ℝ) (stop : ℝ) (num : ℕ) : List ℝ :=
  tab num (fun k => if k + 1 = num then stop
    else fl (fl (k * fl (stop / ((num : ℝ) - 1))) + 0))

/-- allantools.py 448–508 `calc_pdev_phase`, rounded; line 504: `M*pow(mj, 4)` is an integer -/
noncomputable def calc_pdev_phase_fl (fl : ℝ → ℝ) (sum : List ℝ → ℝ) (phase : List ℝ) (rate : ℝ)
    (mj : ℕ) : Py (ℝ × ℝ × ℤ) := do
  let tau0 := fl (1 / rate)
  if mj = 1 then do
    let d2 ← sliceStep phase (2 * mj : ℕ) 1
    let d1 ← sliceStep phase (1 * mj : ℕ) 1
    let d0 ← sliceStep phase (0 : ℕ) 1
    let n := min (min d0.length d1.length) d2.length
    let n := if n = 0 then 1 else n
    let a ← vsub_fl fl (sliceTo d2 n) (vscale_fl fl 2 (sliceTo d1 n))
    let v_arr ← vadd_fl fl a (sliceTo d0 n)
    let sq ← vmul_fl fl v_arr v_arr
    let s := sum sq
    let dev := fl (fl (fl √(fl (s / fl (2 * n))) / mj) * rate)
    .ok (dev, fl (dev / fl √n), n)
  else
    let N := phase.length
    let M : ℤ := (N : ℤ) - 2 * mj
    if M < 1 then .ok (0, 0, 0)
    else do
      let Msum ← forRange M.toNat (0 : ℝ) (fun Msum i => do
        let krange := npLinspace_fl fl ((mj : ℝ) - 1) mj
        let h := fl (fl ((mj : ℝ) - 1) / 2)
        let w := krange.map (fun k => fl (h - k))
        let dx ← vsub_fl fl (slice phase (i : ℕ) (i + mj : ℕ)) (slice phase (i + mj : ℕ) (i + 2 * mj : ℕ))
        let p ← vmul_fl fl w dx
        let asum := pySum_fl fl p
        .ok (fl (Msum + fl (asum * asum))))
      let t := fl (mj * tau0)
      let dev := fl √(fl (fl (72 * Msum) / fl (fl ((M : ℝ) * (mj : ℝ) ^ 4) * fl (t * t))))
      .ok (dev, fl (dev / fl √M), M)

/-- allantools.py 390–445 `pdev`, rounded, for phase data -/
noncomputable def pdev_fl (fl : ℝ → ℝ) (sum : List ℝ → ℝ) (log10grid : List ℝ) (phase : List ℝ)
    (rate : ℝ) (taus : TausArg) : Py (DevOut ℝ) := do
  let (phase, m, taus_used) ← tau_generator_fl fl log10grid phase rate taus
  runTaus taus_used m (fun _ mj => calc_pdev_phase_fl fl sum phase rate mj)

/-- allantools.py 1308–1329: body of the `theo1` loop, rounded.  Line 1322 compares the integer `n`
with the float quotient `(N-m)*m/2` of two integers. -/
noncomputable def theo1_body_fl (fl : ℝ → ℝ) (phase : List ℝ) (tau0 : ℝ) (m : ℕ) :
    Py (ℝ × ℝ × ℤ) := do
  let N := phase.length
  pyAssert (m % 2 = 0)
  let (dev, n) ← forRange ((N : ℤ) - m).toNat ((0, 0) : ℝ × ℕ) (fun st i => do
    let (s, n) ← forRange (m / 2) ((0, st.2) : ℝ × ℕ) (fun st d => do
      let pre : ℝ := fl (1 / fl (fl ((m : ℝ) / 2) - d))
      let a ← pyGet phase (i : ℕ)
      let b ← pyGet phase ((i : ℤ) - d + (m / 2 : ℕ))
      let c ← pyGet phase ((i : ℤ) + m)
      let e ← pyGet phase ((i : ℤ) + d + (m / 2 : ℕ))
      let v := fl (fl (fl (a - b) + c) - e)
      .ok (fl (st.1 + fl (pre * fl (v * v))), st.2 + 1))
    .ok (fl (st.1 + s), n))
  pyAssert ((n : ℝ) = fl (((N : ℝ) - m) * m / 2))
  let t := fl (m * tau0)
  let dev := fl (dev / fl (fl (0.75 * ((N : ℝ) - m)) * fl (t * t)))
  .ok (fl √dev, fl (fl √dev / fl √((N : ℝ) - m)), n)

/-- allantools.py 1261–1331 `theo1`, rounded, for phase data -/
noncomputable def theo1_fl (fl : ℝ → ℝ) (log10grid : List ℝ) (phase : List ℝ)
    (rate : ℝ) (taus : TausArg) : Py (DevOut ℝ) :=
  if rate = 0 then .error .zeroDivisionError
  else do
    let tau0 := fl (1 / rate)
    let (phase, ms, taus_used) ← tau_generator_fl fl log10grid phase rate taus true
    runTaus taus_used ms (fun _ m => theo1_body_fl fl phase tau0 m)

/-- allantools.py 1361–1375: body of the `tierms` loop, rounded -/
noncomputable def tierms_body_fl (fl : ℝ → ℝ) (sum : List ℝ → ℝ) (phase : List ℝ) (mj : ℕ) :
    Py (ℝ × ℝ × ℤ) := do
  let count : ℤ := phase.length
  let phases ← column_stack (sliceTo phase (-(mj : ℤ))) (sliceFrom phase (mj : ℕ))
  let p_max := phases.map (fun p => max p.1 p.2)
  let p_min := phases.map (fun p => min p.1 p.2)
  let phases ← vsub_fl fl p_max p_min
  let sq ← vmul_fl fl phases phases
  let tie := fl √(fl (sum sq / sq.length))
  let ncount := count - mj
  .ok (tie, fl (0 / fl √ncount), ncount)

/-- allantools.py 1334–1377 `tierms`, rounded, for phase data -/
noncomputable def tierms_fl (fl : ℝ → ℝ) (sum : List ℝ → ℝ) (log10grid : List ℝ) (phase : List ℝ)
    (rate : ℝ) (taus : TausArg) : Py (DevOut ℝ) := do
  let (_, m, taus_used) ← tau_generator_fl fl log10grid phase rate taus
  runTaus taus_used m (fun _ mj => tierms_body_fl fl sum phase mj)

/-- allantools.py 1442–1450, 1476–1479: body of the `mtie` loop, rounded, when the array of windows
fits in memory -/
noncomputable def mtie_body_fl (fl : ℝ → ℝ) (phase : List ℝ) (mj : ℕ) : Py (ℝ × ℝ × ℤ) := do
  let rw ← mtie_rolling_window phase ((mj : ℤ) + 1)
  let win_max ← rw.mapM npMax
  let win_min ← rw.mapM npMin
  let tie ← vsub_fl fl win_max win_min
  let dev ← npMax tie
  let ncount : ℤ := (phase.length : ℤ) - mj
  .ok (dev, fl (dev / fl √ncount), ncount)

/-- allantools.py 1413–1481 `mtie`, rounded, for phase data -/
noncomputable def mtie_fl (fl : ℝ → ℝ) (log10grid : List ℝ) (phase : List ℝ)
    (rate : ℝ) (taus : TausArg) : Py (DevOut ℝ) := do
  let (phase, m, taus_used) ← tau_generator_fl fl log10grid phase rate taus
  runTaus taus_used m (fun _ mj => mtie_body_fl fl phase mj)

/-- allantools.py 511–566 `calc_gcodev_phase`, rounded -/
noncomputable def calc_gcodev_phase_fl (fl : ℝ → ℝ) (sum : List ℝ → ℝ) (phase_1 phase_2 : List ℝ)
    (rate : ℝ) (mj stride : ℕ) : Py (ℝ × ℝ × ℤ) := do
  let d2_1 ← sliceStep phase_1 (2 * mj : ℕ) stride
  let d1_1 ← sliceStep phase_1 (1 * mj : ℕ) stride
  let d0_1 ← sliceStep phase_1 (0 : ℕ) stride
  let d2_2 ← sliceStep phase_2 (2 * mj : ℕ) stride
  let d1_2 ← sliceStep phase_2 (1 * mj : ℕ) stride
  let d0_2 ← sliceStep phase_2 (0 : ℕ) stride
  let n_1 := min (min d0_1.length d1_1.length) d2_1.length
  let n_2 := min (min d0_2.length d1_2.length) d2_2.length
  let n_2 := if n_1 = 0 then 1 else n_2
  let n_1 := if n_1 = 0 then 1 else n_1
  let a ← vsub_fl fl (sliceTo d2_1 n_1) (vscale_fl fl 2 (sliceTo d1_1 n_1))
  let v_arr_1 ← vadd_fl fl a (sliceTo d0_1 n_1)
  let a ← vsub_fl fl (sliceTo d2_2 n_2) (vscale_fl fl 2 (sliceTo d1_2 n_2))
  let v_arr_2 ← vadd_fl fl a (sliceTo d0_2 n_2)
  let p ← vmul_fl fl v_arr_1 v_arr_2
  let s := sum p
  let dev := if 0 ≤ s then fl (fl (fl √(fl (s / fl (2 * n_1))) / mj) * rate)
    else fl (fl (fl √(fl (|s| / fl (2 * n_1))) / mj) * rate)
  .ok (dev, fl (dev / fl √n_1), n_1)

/-- allantools.py 569–624 `gcodev`, rounded, for phase data -/
noncomputable def gcodev_fl (fl : ℝ → ℝ) (sum : List ℝ → ℝ) (log10grid : List ℝ)
    (phase_1 phase_2 : List ℝ) (rate : ℝ) (taus : TausArg) : Py (DevOut ℝ) := do
  let (phase_1, _, _) ← tau_generator_fl fl log10grid phase_1 rate taus
  let (phase_2, m, taus_used) ← tau_generator_fl fl log10grid phase_2 rate taus
  runTaus taus_used m (fun _ mj => calc_gcodev_phase_fl fl sum phase_1 phase_2 rate mj 1)

end AT
