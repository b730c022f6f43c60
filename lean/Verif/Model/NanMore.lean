import Verif.Model.Nan

/-!
# Model of pdev, totdev, theo1, mtotdev, ttotdev and htotdev on data that contain NaN

As `Model/Nan.lean`, for the remaining deviations of one data set.  For data without NaN the
models agree with those of `Model/Dev.lean` (`nan_more_free`).
-/

namespace AT

open Real

/-- a number times a float that may be NaN; `0 * nan` is NaN -/
noncomputable def nvScale (c : ℝ) (v : NV) : NV := v.map (fun v => c * v)

/-- `np.mean` of floats that may be NaN -/
noncomputable def nvMean (l : List NV) : NV := (nvSum l).map (fun s => s / l.length)

/-- allantools.py 448–508 `calc_pdev_phase`; for `mj == 1` the code (479–492) is that of
`calc_adev_phase` with stride 1 -/
noncomputable def calc_pdev_phase_nv (phase : List NV) (rate : ℝ) (mj : ℕ) : Py (NV × NV × ℤ) := do
  let stride := 1
  let tau0 := 1 / rate
  if mj = 1 then calc_adev_phase_nv phase rate mj stride
  else
    let N := phase.length
    let M : ℤ := (N : ℤ) - 2 * mj
    if M < 1 then .ok (some 0, some 0, 0)
    else do
      let Msum ← forRange M.toNat (some 0 : NV) (fun Msum i => do
        let krange := npLinspace 0 ((mj : ℝ) - 1) mj
        let w := krange.map (fun k => ((mj : ℝ) - 1) / 2 - k)
        let dx ← vop (nv2 (· - ·)) (slice phase (i : ℕ) (i + mj : ℕ))
          (slice phase (i + mj : ℕ) (i + 2 * mj : ℕ))
        let p ← vop nvScale w dx
        let asum := nvSum p
        .ok (nv2 (· + ·) Msum (asum.map (fun a => a ^ 2))))
      let dev := Msum.map (fun s => √(72 * s / ((M : ℝ) * (mj : ℝ) ^ 4 * (mj * tau0) ^ 2)))
      .ok (dev, dev.map (fun d => d / √M), M)

/-- allantools.py 390–445 `pdev` -/
noncomputable def pdev_nv (data : List NV) (rate : ℝ) (data_type : String) (taus : TausArg) :
    Py NanOut := do
  let phase ← input_to_phase_nv data rate data_type
  let (phase, m, taus_used) ← tau_generator phase rate taus
  runTausNv taus_used m (fun _ mj => calc_pdev_phase_nv phase rate mj)

/-- `xs[a:b] = ys` for numpy arrays -/
def setSlice_nv (xs : List NV) (a b : ℤ) (ys : List NV) : Py (List NV) :=
  let lo := normIdx xs.length a
  let hi := max lo (normIdx xs.length b)
  if ys.length = hi - lo then .ok (xs.take lo ++ ys ++ xs.drop hi)
  else match ys with
    | [y] => .ok (xs.take lo ++ List.replicate (hi - lo) y ++ xs.drop hi)
    | _ => .error .valueError

/-- `c * np.ones((n,))`; a negative size raises ValueError -/
def scaledOnes_nv (c : NV) (n : ℤ) : Py (List NV) :=
  if n < 0 then .error .valueError else .ok (List.replicate n.toNat c)

/-- allantools.py 882–906: the extended (reflected) data set of `totdev` -/
noncomputable def totdev_extend_nv (phase : List NV) : Py (List NV × ℕ) := do
  let N : ℤ := phase.length
  let first ← pyGet phase 0
  let x1 ← scaledOnes_nv (nvScale 2 first) (N - 2)
  let x1 ← vop (nv2 (· - ·)) x1 (slice phase 1 (-1))
  let x1 := x1.reverse
  let last ← pyGet phase (-1)
  let x2 ← scaledOnes_nv (nvScale 2 last) (N - 2)
  let x2 ← vop (nv2 (· - ·)) x2 (slice phase 1 (-1)).reverse
  pyAssert ((x1.length : ℤ) + phase.length + x2.length = 3 * N - 4)
  let x ← scaledOnes_nv (some 0) (3 * N - 4)
  let x ← setSlice_nv x 0 (N - 2) x1
  let x ← setSlice_nv x (N - 2) (2 * (N - 2) + 2) phase
  let x ← setSlice_nv x (2 * (N - 2) + 2) x.length x2
  .ok (x, x1.length)

/-- allantools.py 908–922: body of the `totdev` loop -/
noncomputable def totdev_body_nv (x : List NV) (mid : ℕ) (N : ℕ) (rate : ℝ) (mj : ℕ) :
    Py (NV × NV × ℤ) := do
  let d0 := sliceFrom x ((mid : ℤ) + 1)
  let d1 := sliceFrom x ((mid : ℤ) + mj + 1)
  let d1n := sliceFrom x ((mid : ℤ) - mj + 1)
  let e := min (min d0.length d1.length) d1n.length
  let v ← vop (nv2 (· - ·)) (sliceTo d1n e) ((sliceTo d0 e).map (nvScale 2))
  let v_arr ← vop (nv2 (· + ·)) v (sliceTo d1 e)
  let sq ← vop (nv2 (· * ·)) (sliceTo v_arr mid) (sliceTo v_arr mid)
  let dev := (nvSum sq).map (fun s => √(s / (2 * (mj / rate) ^ 2 * ((N : ℝ) - 2))))
  .ok (dev, dev.map (fun d => d / √mid), mid)

/-- allantools.py 839–924 `totdev` -/
noncomputable def totdev_nv (data : List NV) (rate : ℝ) (data_type : String) (taus : TausArg) :
    Py NanOut := do
  let phase ← input_to_phase_nv data rate data_type
  let (phase, m, taus_used) ← tau_generator phase rate taus
  let (x, mid) ← totdev_extend_nv phase
  runTausNv taus_used m (fun _ mj => totdev_body_nv x mid phase.length rate mj)

/-- allantools.py 1037–1050 and 1199–1212: the slope of a subsequence, as `tot_slope` -/
noncomputable def tot_slope_nv (xs : List NV) (m : ℕ) (dt : ℝ) : NV :=
  let half1_idx : ℕ := (⌊(3 * m / 2 : ℝ)⌋).toNat
  let half2_idx : ℕ := (⌈(3 * m / 2 : ℝ)⌉).toNat
  let mean1 := nvMean (sliceTo xs half1_idx)
  let mean2 := nvMean (sliceFrom xs half2_idx)
  if (3 * m) % 2 = 1 then (nv2 (· - ·) mean2 mean1).map (fun v => v / ((0.5 * (3 * m - 1) + 1) * dt))
  else (nv2 (· - ·) mean2 mean1).map (fun v => v / (0.5 * 3 * m * dt))

/-- allantools.py 1075–1088 and 1227–1248: the inner loop, as `tot_inner`; a running sum that has
met a NaN stays NaN, also when the sample is subtracted again -/
noncomputable def tot_inner_nv (xstar : List NV) (m : ℕ) : Py NV := do
  let r ← forRange (6 * m) ((some 0, some 0, some 0, some 0) : NV × NV × NV × NV) (fun st j => do
    let (xmean1, xmean2, xmean3) ←
      if j = 0 then
        (.ok (nvSum (slice xstar (0 : ℕ) (m : ℕ)), nvSum (slice xstar (m : ℕ) (2 * m : ℕ)),
          nvSum (slice xstar (2 * m : ℕ) (3 * m : ℕ))) : Py (NV × NV × NV))
      else do
        let a1 ← pyGet xstar ((j : ℤ) - 1)
        let b1 ← pyGet xstar ((j : ℤ) + m - 1)
        let a2 ← pyGet xstar ((m : ℤ) + j - 1)
        let b2 ← pyGet xstar ((j : ℤ) + 2 * m - 1)
        let a3 ← pyGet xstar (2 * (m : ℤ) + j - 1)
        let b3 ← pyGet xstar ((j : ℤ) + 3 * m - 1)
        .ok (nv2 (· + ·) (nv2 (· - ·) st.1 a1) b1, nv2 (· + ·) (nv2 (· - ·) st.2.1 a2) b2,
          nv2 (· + ·) (nv2 (· - ·) st.2.2.1 a3) b3)
    let t := nv2 (· + ·) (nv2 (· - ·) xmean1 (nvScale 2 xmean2)) xmean3
    .ok (xmean1, xmean2, xmean3, nv2 (· + ·) st.2.2.2 (t.map (fun t => (t / m) ^ 2))))
  .ok r.2.2.2

/-- allantools.py 1006–1099 `calc_mtotdev_phase` -/
noncomputable def calc_mtotdev_phase_nv (phase : List NV) (rate : ℝ) (m : ℕ) :
    Py (NV × NV × ℤ) := do
  let tau0 := 1 / rate
  let N := phase.length
  let K : ℤ := (N : ℤ) - 3 * m + 1
  let (dev, n) ← forRange K.toNat ((some 0, 0) : NV × ℕ) (fun st i => do
    let xs := slice phase (i : ℕ) (i + 3 * m : ℕ)
    pyAssert (xs.length = 3 * m)
    let slope := tot_slope_nv xs m tau0
    let x0 := xs.zipIdx.map (fun p => nv2 (· - ·) p.1 (slope.map (fun s => s * p.2 * tau0)))
    let x0_flip := x0.reverse
    let xstar := x0_flip ++ x0 ++ x0_flip
    pyAssert (xstar.length = 9 * m)
    let squaresum ← tot_inner_nv xstar m
    let squaresum := nvScale (1 / (6 * (m : ℝ))) squaresum
    .ok (nv2 (· + ·) st.1 squaresum, st.2 + 1))
  pyAssert ((n : ℤ) = K)
  let dev := dev.map (fun d => √(d * 1 / (2 * (m * tau0) ^ 2 * (K : ℝ))))
  .ok (dev, dev.map (fun d => d / √n), n)

/-- allantools.py 951–1003 `mtotdev` -/
noncomputable def mtotdev_nv (data : List NV) (rate : ℝ) (data_type : String) (taus : TausArg) :
    Py NanOut := do
  let phase ← input_to_phase_nv data rate data_type
  let (phase, ms, taus_used) ← tau_generator phase rate taus false ((phase.length : ℝ) / 3)
  runTausNv taus_used ms (fun _ mj => calc_mtotdev_phase_nv phase rate mj)

/-- allantools.py 927–948 `ttotdev` -/
noncomputable def ttotdev_nv (data : List NV) (rate : ℝ) (data_type : String) (taus : TausArg) :
    Py NanOut := do
  let r ← mtotdev_nv data rate data_type taus
  let td ← vop (fun (t : ℝ) (v : NV) => v.map (fun v => t * v)) r.taus r.devs
  let td := td.map (Option.map (fun v => v / √3))
  let tde ← vop (fun (v : NV) (n : ℤ) => v.map (fun v => v / √(n : ℝ))) td r.ns
  .ok ⟨r.taus, td, tde, r.ns⟩

/-- allantools.py 1175–1258 `calc_htotdev_freq` -/
noncomputable def calc_htotdev_freq_nv (freq : List NV) (m : ℕ) : Py (NV × NV × ℤ) := do
  let N := freq.length
  let K : ℤ := (N : ℤ) - 3 * m + 1
  let (dev, n) ← forRange K.toNat ((some 0, 0) : NV × ℕ) (fun st i => do
    let xs := slice freq (i : ℕ) (i + 3 * m : ℕ)
    pyAssert (xs.length = 3 * m)
    let slope := tot_slope_nv xs m 1
    let x0 := xs.zipIdx.map (fun p => nv2 (· - ·) p.1
      (slope.map (fun s => s * ((p.2 : ℝ) - ⌊(3 * m / 2 : ℝ)⌋))))
    let x0_flip := x0.reverse
    let xstar := x0_flip ++ x0 ++ x0_flip
    pyAssert (xstar.length = 9 * m)
    let squaresum ← tot_inner_nv xstar m
    let k := 6 * m
    let squaresum := nvScale (1 / (6 * (k : ℝ))) squaresum
    .ok (nv2 (· + ·) st.1 squaresum, st.2 + 1))
  pyAssert ((n : ℤ) = K)
  let dev := dev.map (fun d => √(d * 1 / (K : ℝ)))
  .ok (dev, dev.map (fun d => d / √n), n)

/-- allantools.py 2363–2379 `phase2frequency`: `rate*np.diff(phase)` -/
noncomputable def phase2frequency_nv (phase : List NV) (rate : ℝ) : List NV :=
  (List.zipWith (nv2 (· - ·)) phase.tail phase).map (nvScale rate)

/-- allantools.py 1102–1172 `htotdev`; of frequency data only the phase used for `mj == 1` is
trimmed of NaN at the ends, not the frequencies used for `mj > 1` -/
noncomputable def htotdev_nv (data : List NV) (rate : ℝ) (data_type : String) (taus : TausArg) :
    Py NanOut := do
  let (phase, freq) ←
    if data_type = "phase" then
      (.ok (data, phase2frequency_nv data rate) : Py (List NV × List NV))
    else if data_type = "freq" then do
      let phase ← frequency2phase_nv data rate
      .ok (phase, data)
    else .error .exception
  let (freq, ms, taus_used) ← tau_generator freq rate taus false ((freq.length : ℝ) / 3)
  runTausNv taus_used ms (fun _ mj =>
    if mj = 1 then calc_hdev_phase_nv phase rate mj 1 else calc_htotdev_freq_nv freq mj)

/-- allantools.py 1308–1329: body of the `theo1` loop -/
noncomputable def theo1_body_nv (phase : List NV) (tau0 : ℝ) (m : ℕ) : Py (NV × NV × ℤ) := do
  let N := phase.length
  pyAssert (m % 2 = 0)
  let (dev, n) ← forRange ((N : ℤ) - m).toNat ((some 0, 0) : NV × ℕ) (fun st i => do
    let (s, n) ← forRange (m / 2) ((some 0, st.2) : NV × ℕ) (fun st d => do
      let pre : ℝ := 1 / ((m : ℝ) / 2 - d)
      let a ← pyGet phase (i : ℕ)
      let b ← pyGet phase ((i : ℤ) - d + (m / 2 : ℕ))
      let c ← pyGet phase ((i : ℤ) + m)
      let e ← pyGet phase ((i : ℤ) + d + (m / 2 : ℕ))
      let t := nv2 (· - ·) (nv2 (· + ·) (nv2 (· - ·) a b) c) e
      .ok (nv2 (· + ·) st.1 (t.map (fun t => pre * t ^ 2)), st.2 + 1))
    .ok (nv2 (· + ·) st.1 s, n))
  pyAssert ((n : ℝ) = ((N : ℝ) - m) * m / 2)
  let dev := dev.map (fun d => √(d / (0.75 * ((N : ℝ) - m) * (m * tau0) ^ 2)))
  .ok (dev, dev.map (fun d => d / √((N : ℝ) - m)), n)

/-- allantools.py 1261–1331 `theo1` -/
noncomputable def theo1_nv (data : List NV) (rate : ℝ) (data_type : String) (taus : TausArg) :
    Py NanOut := do
  let phase ← input_to_phase_nv data rate data_type
  if rate = 0 then .error .zeroDivisionError
  else do
    let tau0 := 1 / rate
    let (phase, ms, taus_used) ← tau_generator phase rate taus true
    runTausNv taus_used ms (fun _ m => theo1_body_nv phase tau0 m)

end AT
