import Verif.Model.Psd
import Mathlib.Analysis.SpecialFunctions.Log.Basic

/-!
# Model of `psd2allan` (allantools.py 1668–1764)

The frequency argument is the step `df` or the array whose first two elements give it; `df` is
positive. The cubic spline `scipy.interpolate.interp1d(x, y, kind='cubic')(xs)` is a parameter.
`scipy.integrate.simpson` is modelled for an odd number of points, the only case that occurs.
-/

namespace AT

open Real

/-- the interpolation routine: nodes, values, points -/
abbrev Interp := List ℝ → List ℝ → List ℝ → List ℝ

/-- the argument `f`: a number or an array -/
inductive FreqArg
  | step (df : ℝ)
  | array (l : List ℝ)

/-- allantools.py 1721–1730: the frequency step -/
noncomputable def freqStep : FreqArg → Py ℝ
  | .step df => .ok df
  | .array l => do
      let f1 ← pyGet l 1
      let f0 ← pyGet l 0
      .ok (f1 - f0)

/-- `np.arange(start, stop, step)` -/
noncomputable def npArange (start stop step : ℝ) : List ℝ :=
  tab ⌈(stop - start) / step⌉.toNat (fun i => start + i * step)

/-- `scipy.integrate.simpson(y, x=x)` for an odd number of points, with scipy's formula for
unequal steps (scipy `_basic_simpson`) -/
noncomputable def npSimpson (y x : List ℝ) : ℝ :=
  npSum (tab ((x.length - 1) / 2) (fun j =>
    let h0 := x.getD (2 * j + 1) 0 - x.getD (2 * j) 0
    let h1 := x.getD (2 * j + 2) 0 - x.getD (2 * j + 1) 0
    let hsum := h0 + h1
    let hprod := h0 * h1
    let h0divh1 := h0 / h1
    hsum / 6 * (y.getD (2 * j) 0 * (2 - 1 / h0divh1) + y.getD (2 * j + 1) 0 * (hsum * (hsum / hprod))
      + y.getD (2 * j + 2) 0 * (2 - h0divh1))))

/-- allantools.py 1740–1744: the averaging factors -/
noncomputable def psdFactors (base n : ℝ) : List ℤ :=
  if 1 < base then
    npUnique ((tab ⌊log n / log base⌋.toNat (fun i => base ^ (i : ℝ)) ++ [n]).map npRound)
  else (npArange 1 n 1).map (fun v => ⌊v⌋)

/-- allantools.py 1751–1754: the exponent; `exponent` is not assigned for other kinds -/
def psdExponent (kind : String) : Py ℕ :=
  match kind.toList with
  | [] => .error .indexError
  | c :: _ => if c.toLower = 'a' then .ok 1 else if c.toLower = 'm' then .ok 2 else .error .unboundLocalError

/-- allantools.py 1668–1764 `psd2allan`; `interp1d` raises ValueError for fewer than 4 points -/
noncomputable def psd2allan (interp : Interp) (S_y : List ℝ) (f : FreqArg) (kind : String) (base : ℝ) :
    Py (List ℝ × List NV) := do
  let df ← freqStep f
  let oversamplingfactor : ℝ := 4
  let df0 := oversamplingfactor * df
  let f0 := npArange 0 (S_y.length * df0) df0
  let f := npArange df ((S_y.length - 1) * df0 + df) df
  if S_y.length < 4 then .error .valueError
  else do
    let S_y := interp f0 S_y f
    let f := f.map (fun v => v / oversamplingfactor)
    let fmax ← npMax f
    let tau0 := 1 / fmax
    let n := 1 / df / tau0 / 2
    let m := psdFactors base n
    let taus_used := m.map (fun k : ℤ => (k : ℝ) * tau0)
    let exponent ← psdExponent kind
    let ad ← taus_used.mapM (fun tau => do
      let integrand ← vmul S_y (f.map (fun v =>
        |sin (π * v * tau) ^ (exponent + 1) / (π * v * tau) ^ exponent| ^ 2))
      .ok (nvSqrt (some (2 * npSimpson (0 :: integrand) (0 :: f)))))
    .ok (taus_used, ad)

end AT
