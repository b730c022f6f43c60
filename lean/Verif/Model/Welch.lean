import Verif.Model.Noise

/-!
# noise.py: `scipy_psd`

The function is one call of `scipy.signal.welch`, which is defined here from its documentation:
segments of `nperseg` values that overlap by `nperseg // 2`, the mean of each segment removed, a
periodic Hann window, one-sided density, mean over the segments.
-/

namespace AT

open Real

/-- `scipy.signal.get_window('hann', n)`, the periodic Hann window; one point has the weight 1 -/
noncomputable def hannWindow (n : ℕ) : List ℝ :=
  if n = 1 then [1] else tab n (fun i => 1 / 2 - 1 / 2 * cos (2 * π * i / n))

/-- the spectrum of one segment in `welch`: remove the mean, multiply by the window, take the
squared modulus of the transform, and double all values but the first and, for an even number of
points, the last -/
noncomputable def welchSegment (seg win : List ℝ) (scale : ℝ) : List ℝ :=
  let d := seg.map (fun v => v - npMean seg)
  let X := npRfft (List.zipWith (· * ·) d win)
  let P := X.map (fun z => scale * ‖z‖ ^ 2)
  tab P.length (fun k =>
    if k = 0 ∨ (seg.length % 2 = 0 ∧ k + 1 = P.length) then P.getD k 0 else 2 * P.getD k 0)

/-- `scipy.signal.welch(x, fs, nperseg=…)` with all other arguments at their defaults.  Empty data
give empty arrays before `nperseg` is checked; `1/fs` raises for `fs = 0`. -/
noncomputable def welch (x : List ℝ) (fs : ℝ) (nperseg : ℤ) : Py (List ℝ × List ℝ) :=
  if x.length = 0 then .ok ([], [])
  else if nperseg < 1 then .error .valueError
  else if fs = 0 then .error .zeroDivisionError
  else
    let n := min nperseg.toNat x.length
    let step := n - n / 2
    let win := hannWindow n
    let scale := 1 / (fs * (win.map (fun w => w * w)).sum)
    let segs := tab ((x.length - n) / step + 1) (fun i =>
      welchSegment (slice x ((i * step : ℕ) : ℤ) ((i * step + n : ℕ) : ℤ)) win scale)
    .ok (tab (n / 2 + 1) (fun k => k / (n * (1 / fs))),
      tab (n / 2 + 1) (fun k => npMean (segs.map (fun P => P.getD k 0))))

/-- `int(q)` of a float: truncation towards zero -/
noncomputable def truncInt (q : ℝ) : ℤ := if 0 ≤ q then ⌊q⌋ else ⌈q⌉

/-- noise.py 53–60 `scipy_psd`; `welch` applies `int` to `nperseg` -/
noncomputable def scipy_psd (x : List ℝ) (f_sample nr_segments : ℝ) : Py (List ℝ × List ℝ) := do
  let q ← pyDiv x.length nr_segments
  welch x f_sample (truncInt q)

end AT
