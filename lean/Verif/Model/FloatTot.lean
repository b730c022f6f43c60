import Verif.Model.Float

/-!
# Model: `mtotdev`, `ttotdev` and `htotdev` with rounded arithmetic

As in `Verif.Model.FloatMore`.  The halves `3*m/2.0` are floored or ceiled, they are exact below `2^53`.
-/

namespace AT

open Real

/-- allantools.py 1037–1051 (`calc_mtotdev_phase`) and 1199–1213 (`calc_htotdev_freq`): the slope of a
subsequence, rounded; `scale` is the multiplication by `tau0`, which `calc_htotdev_freq` leaves out -/
noncomputable def tot_slope_fl (fl : ℝ → ℝ) (sum : List ℝ → ℝ) (scale : ℝ → ℝ) (xs : List ℝ) (m : ℕ) : ℝ :=
  let half1_idx : ℕ := (⌊(3 * m / 2 : ℝ)⌋).toNat
  let half2_idx : ℕ := (⌈(3 * m / 2 : ℝ)⌉).toNat
  let mean1 := fl (sum (sliceTo xs half1_idx) / (sliceTo xs half1_idx).length)
  let mean2 := fl (sum (sliceFrom xs half2_idx) / (sliceFrom xs half2_idx).length)
  if (3 * m) % 2 = 1 then fl (fl (mean2 - mean1) / scale (fl (fl (0.5 * (3 * m - 1)) + 1)))
  else fl (fl (mean2 - mean1) / scale (fl (fl (0.5 * 3) * m)))

/-- allantools.py 1067–1088 and 1219–1249: the inner loop, rounded; state
`(xmean1, xmean2, xmean3, squaresum)` -/
noncomputable def tot_inner_fl (fl : ℝ → ℝ) (sum : List ℝ → ℝ) (xstar : List ℝ) (m : ℕ) : Py ℝ := do
  let r ← forRange (6 * m) ((0, 0, 0, 0) : ℝ × ℝ × ℝ × ℝ) (fun st j => do
    let (xmean1, xmean2, xmean3) ←
      if j = 0 then
        (.ok (sum (slice xstar (0 : ℕ) (m : ℕ)), sum (slice xstar (m : ℕ) (2 * m : ℕ)),
          sum (slice xstar (2 * m : ℕ) (3 * m : ℕ))) : Py (ℝ × ℝ × ℝ))
      else do
        let a1 ← pyGet xstar ((j : ℤ) - 1)
        let b1 ← pyGet xstar ((j : ℤ) + m - 1)
        let a2 ← pyGet xstar ((m : ℤ) + j - 1)
        let b2 ← pyGet xstar ((j : ℤ) + 2 * m - 1)
        let a3 ← pyGet xstar (2 * (m : ℤ) + j - 1)
        let b3 ← pyGet xstar ((j : ℤ) + 3 * m - 1)
        .ok (fl (fl (st.1 - a1) + b1), fl (fl (st.2.1 - a2) + b2), fl (fl (st.2.2.1 - a3) + b3))
    let q := fl (fl (fl (xmean1 - fl (2 * xmean2)) + xmean3) / m)
    .ok (xmean1, xmean2, xmean3, fl (st.2.2.2 + fl (q * q))))
  .ok r.2.2.2

/-- allantools.py 1006–1099 `calc_mtotdev_phase`, rounded -/
noncomputable def calc_mtotdev_phase_fl (fl : ℝ → ℝ) (sum : List ℝ → ℝ) (phase : List ℝ) (rate : ℝ) (m : ℕ) :
    Py (ℝ × ℝ × ℤ) := do
  let tau0 := fl (1 / rate)
  let N := phase.length
  let K : ℤ := (N : ℤ) - 3 * m + 1
  let (dev, n) ← forRange K.toNat ((0, 0) : ℝ × ℕ) (fun st i => do
    let xs := slice phase (i : ℕ) (i + 3 * m : ℕ)
    pyAssert (xs.length = 3 * m)
    let slope := tot_slope_fl fl sum (fun d => fl (d * tau0)) xs m
    let x0 := xs.zipIdx.map (fun p => fl (p.1 - fl (fl (slope * p.2) * tau0)))
    let x0_flip := x0.reverse
    let xstar := x0_flip ++ x0 ++ x0_flip
    pyAssert (xstar.length = 9 * m)
    let squaresum ← tot_inner_fl fl sum xstar m
    let squaresum := fl (fl (1 / fl (6 * (m : ℝ))) * squaresum)
    .ok (fl (st.1 + squaresum), st.2 + 1))
  pyAssert ((n : ℤ) = K)
  let t := fl (m * tau0)
  let dev := fl (fl (dev * 1) / fl (fl (2 * fl (t * t)) * (K : ℝ)))
  let dev := fl (sqrt dev)
  .ok (dev, fl (dev / fl (sqrt n)), n)

/-- allantools.py 951–1003 `mtotdev`, rounded, for phase data -/
noncomputable def mtotdev_fl (fl : ℝ → ℝ) (sum : List ℝ → ℝ) (log10grid : List ℝ) (phase : List ℝ)
    (rate : ℝ) (taus : TausArg) : Py (DevOut ℝ) := do
  let (phase, ms, taus_used) ← tau_generator_fl fl log10grid phase rate taus false (fl ((phase.length : ℝ) / 3))
  runTaus taus_used ms (fun _ mj => calc_mtotdev_phase_fl fl sum phase rate mj)

/-- allantools.py 951–1003 `mtotdev`, rounded, for frequency data -/
noncomputable def mtotdev_freq_fl (fl : ℝ → ℝ) (sum : List ℝ → ℝ) (log10grid : List ℝ)
    (data : List ℝ) (rate : ℝ) (taus : TausArg) : Py (DevOut ℝ) := do
  let phase ← frequency2phase_fl fl sum data rate
  mtotdev_fl fl sum log10grid phase rate taus

/-- allantools.py 927–948 `ttotdev`, rounded, for phase data -/
noncomputable def ttotdev_fl (fl : ℝ → ℝ) (sum : List ℝ → ℝ) (log10grid : List ℝ) (phase : List ℝ)
    (rate : ℝ) (taus : TausArg) : Py (DevOut ℝ) := do
  let r ← mtotdev_fl fl sum log10grid phase rate taus
  scaleToTdev_fl fl r

/-- allantools.py 927–948 `ttotdev`, rounded, for frequency data -/
noncomputable def ttotdev_freq_fl (fl : ℝ → ℝ) (sum : List ℝ → ℝ) (log10grid : List ℝ)
    (data : List ℝ) (rate : ℝ) (taus : TausArg) : Py (DevOut ℝ) := do
  let r ← mtotdev_freq_fl fl sum log10grid data rate taus
  scaleToTdev_fl fl r

/-- allantools.py 1175–1258 `calc_htotdev_freq`, rounded -/
noncomputable def calc_htotdev_freq_fl (fl : ℝ → ℝ) (sum : List ℝ → ℝ) (freq : List ℝ) (m : ℕ) :
    Py (ℝ × ℝ × ℤ) := do
  let N := freq.length
  let K : ℤ := (N : ℤ) - 3 * m + 1
  let (dev, n) ← forRange K.toNat ((0, 0) : ℝ × ℕ) (fun st i => do
    let xs := slice freq (i : ℕ) (i + 3 * m : ℕ)
    pyAssert (xs.length = 3 * m)
    let slope := tot_slope_fl fl sum (fun d => d) xs m
    let x0 := xs.zipIdx.map (fun p => fl (p.1 - fl (slope * fl ((p.2 : ℝ) - ⌊(3 * m / 2 : ℝ)⌋))))
    let x0_flip := x0.reverse
    let xstar := x0_flip ++ x0 ++ x0_flip
    pyAssert (xstar.length = 9 * m)
    let squaresum ← tot_inner_fl fl sum xstar m
    let k := 6 * m
    let squaresum := fl (fl (1 / fl (6 * (k : ℝ))) * squaresum)
    .ok (fl (st.1 + squaresum), st.2 + 1))
  pyAssert ((n : ℤ) = K)
  let dev := fl (fl (dev * 1) / (K : ℝ))
  let dev := fl (sqrt dev)
  .ok (dev, fl (dev / fl (sqrt n)), n)

/-- allantools.py 2363–2379 `phase2frequency`, rounded -/
noncomputable def phase2frequency_fl (fl : ℝ → ℝ) (phase : List ℝ) (rate : ℝ) : List ℝ :=
  vscale_fl fl rate (tab (phase.length - 1) (fun i => fl (phase.getD (i + 1) 0 - phase.getD i 0)))

/-- allantools.py 1102–1172 `htotdev`, rounded, for phase data -/
noncomputable def htotdev_fl (fl : ℝ → ℝ) (sum : List ℝ → ℝ) (log10grid : List ℝ) (phase : List ℝ)
    (rate : ℝ) (taus : TausArg) : Py (DevOut ℝ) := do
  let freq := phase2frequency_fl fl phase rate
  let (freq, ms, taus_used) ← tau_generator_fl fl log10grid freq rate taus false (fl ((freq.length : ℝ) / 3))
  runTaus taus_used ms (fun _ mj =>
    if mj = 1 then calc_hdev_phase_fl fl sum phase rate mj 1 else calc_htotdev_freq_fl fl sum freq mj)

/-- allantools.py 1102–1172 `htotdev`, rounded, for frequency data -/
noncomputable def htotdev_freq_fl (fl : ℝ → ℝ) (sum : List ℝ → ℝ) (log10grid : List ℝ) (data : List ℝ)
    (rate : ℝ) (taus : TausArg) : Py (DevOut ℝ) := do
  let phase ← frequency2phase_fl fl sum data rate
  let (freq, ms, taus_used) ← tau_generator_fl fl log10grid data rate taus false (fl ((data.length : ℝ) / 3))
  runTaus taus_used ms (fun _ mj =>
    if mj = 1 then calc_hdev_phase_fl fl sum phase rate mj 1 else calc_htotdev_freq_fl fl sum freq mj)

end AT
