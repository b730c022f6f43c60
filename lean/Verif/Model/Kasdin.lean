import Verif.Model.Ci
import Mathlib.Analysis.SpecialFunctions.Complex.Log
import Mathlib.Analysis.SpecialFunctions.Pow.Real
import Mathlib.Analysis.Real.Sqrt
import Mathlib.Data.Complex.BigOperators

/-!
# noise_kasdin.py

Class `Noise`. `nr` is a natural number (numpy raises ValueError for a negative length), `qd` a
non-negative real and `b` a real number; `tau0` and `tau` are positive (Python's `pow` of zero or
of a negative number is not modelled). The random draw is a parameter: the list `z` of the `nr`
standard normal numbers, of which `np.random.normal(0, s, nr)` is `s * z`. `np.fft.rfft` and
`np.fft.irfft` are modelled by their defining sums.
-/

namespace AT

open Real

/-- attributes of a `Noise` object -/
structure Noise where
  nr : ℕ
  qd : ℝ
  b : ℝ
  time_series : List ℝ

/-- noise_kasdin.py 82–88 `__init__` -/
def Noise.init (nr : ℕ) (qd b : ℝ) : Noise := ⟨nr, qd, b, []⟩

/-- noise_kasdin.py 90–120 `set_input` -/
def Noise.set_input (self : Noise) (nr : ℕ) (qd b : ℝ) : Noise := { self with nr := nr, qd := qd, b := b }

/-- the exponential `exp(2πi z/n)` -/
noncomputable def expRoot (n : ℕ) (z : ℤ) : ℂ := Complex.exp (2 * π * Complex.I * z / n)

/-- `np.fft.rfft`: the first half of the discrete Fourier transform of real data -/
noncomputable def npRfft (a : List ℝ) : List ℂ :=
  tab (a.length / 2 + 1) (fun k =>
    ∑ j ∈ Finset.range a.length, (a.getD j 0 : ℂ) * expRoot a.length (-(j * k : ℕ)))

/-- `np.fft.irfft`: inverse transform to `2 (len - 1)` real values; the second half of the
spectrum is the conjugate of the first -/
noncomputable def npIrfft (X : List ℂ) : List ℝ :=
  let n := 2 * (X.length - 1)
  tab n (fun j =>
    ((∑ k ∈ Finset.range n,
      (if k < X.length then X.getD k 0 else (starRingEnd ℂ) (X.getD (n - k) 0)) * expRoot n ((j * k : ℕ) : ℤ)) / n).re)

/-- `np.multiply.accumulate` -/
noncomputable def npCumprod (a : List ℝ) : List ℝ := (a.scanl (· * ·) 1).tail

/-- noise_kasdin.py 122–148 `generateNoise`; `hfb[0] = 1.0` fails for `nr = 0` -/
noncomputable def Noise.generateNoise (self : Noise) (z : List ℝ) : Py Noise :=
  let nr := self.nr
  -- wfb = zeros; wfb[:nr] = random.normal(0, sqrt(qd), nr)
  let wfb := tab (nr * 2) (fun i => if i < nr then √self.qd * z.getD i 0 else 0)
  let mhb := -self.b / 2
  if nr * 2 = 0 then .error .indexError
  else
    -- hfb = zeros; hfb[0] = 1; hfb[1:nr] = (mhb + indices) / (indices + 1)
    let indices : List ℝ := tab (nr - 1) (fun i => (i : ℝ))
    let hfb := 1 :: indices.map (fun v => (mhb + v) / (v + 1))
    -- hfb[:nr] = accumulate(hfb[:nr]); the other half is zero
    let hfb := npCumprod hfb ++ tab nr (fun _ => 0)
    let wfb_fft := npRfft wfb
    let hfb_fft := npRfft hfb
    .ok { self with
      time_series := sliceTo (npIrfft (List.zipWith (· * ·) wfb_fft hfb_fft)) (nr : ℤ) }

/-- a use of a `Noise` object: `set_input(nr, qd, b)`, or `generateNoise()` with the draw `z` -/
inductive NoiseOp
  | set_input (nr : ℕ) (qd b : ℝ)
  | generate (z : List ℝ)

/-- one use; a `generateNoise` that raises leaves the attributes as they were: the failing
assignment, line 139, comes before that to `self.time_series`, line 148 -/
noncomputable def Noise.step (self : Noise) : NoiseOp → Noise
  | .set_input nr qd b => self.set_input nr qd b
  | .generate z => match self.generateNoise z with
    | .ok s => s
    | .error _ => self

/-- the object after a sequence of uses -/
noncomputable def Noise.uses (self : Noise) (ops : List NoiseOp) : Noise := ops.foldl Noise.step self

/-- noise_kasdin.py 150–161 `phase_psd_from_qd` -/
noncomputable def Noise.phase_psd_from_qd (self : Noise) (tau0 : ℝ) : ℝ :=
  self.qd * 2 * (2 * π) ^ self.b * tau0 ^ (self.b + 1)

/-- noise_kasdin.py 163–180 `frequency_psd_from_qd` -/
noncomputable def Noise.frequency_psd_from_qd (self : Noise) (tau0 : ℝ) : ℝ :=
  let a := self.b + 2
  self.qd * 2 * (2 * π) ^ a * tau0 ^ (a - 1)

/-- noise_kasdin.py 200–213 `c_avar`; falls off the end, returning None, for other `b` -/
noncomputable def Noise.c_avar (self : Noise) : Option ℝ :=
  if self.b = -4 then some 1
  else if self.b = -3 then some 0
  else if self.b = -2 then some (-1)
  else if self.b = -1 then some (-2)
  else if self.b = 0 then some (-2)
  else none

/-- noise_kasdin.py 215–228 `c_mvar` -/
noncomputable def Noise.c_mvar (self : Noise) : Option ℝ :=
  if self.b = -4 then some 1
  else if self.b = -3 then some 0
  else if self.b = -2 then some (-1)
  else if self.b = -1 then some (-2)
  else if self.b = 0 then some (-3)
  else none

/-- noise_kasdin.py 265–278: the coefficient in `adev_from_qd`; `coeff` is not assigned for other
`b`. Euler's constant is the decimal number of the source. -/
noncomputable def Noise.adevCoeff (self : Noise) (tau0 tau : ℝ) : Py ℝ :=
  let f_h := 0.5 / tau0
  if self.b = 0 then .ok (3 * f_h / (4 * π ^ 2))
  else if self.b = -1 then
    let gamma := 0.57721566490153286060651209
    .ok ((3 * gamma - log 2 + 3 * log (2 * π * f_h * tau)) / (4 * π ^ 2))
  else if self.b = -2 then .ok 0.5
  else if self.b = -3 then .ok (2 * log 2)
  else if self.b = -4 then .ok (2 * π ^ 2 / 3)
  else .error .unboundLocalError

/-- noise_kasdin.py 230–281 `adev_from_qd` -/
noncomputable def Noise.adev_from_qd (self : Noise) (tau0 tau : ℝ) : Py NV := do
  let h_b := self.frequency_psd_from_qd tau0
  let coeff ← self.adevCoeff tau0 tau
  .ok (nvSqrt (some (coeff * h_b)))

/-- noise_kasdin.py 302–317: the coefficient in `mdev_from_qd` (the first value for `b = -3` is
overwritten by the second) -/
noncomputable def Noise.mdevCoeff (self : Noise) : Py ℝ :=
  if self.b = 0 then .ok (3 / (8 * π ^ 2))
  else if self.b = -1 then .ok ((24 * log 2 - 9 * log 3) / 8 / π ^ 2)
  else if self.b = -2 then .ok 0.25
  else if self.b = -3 then .ok ((27 / 20) * log 2)
  else if self.b = -4 then .ok (11 / 20 * π ^ 2)
  else .error .unboundLocalError

/-- noise_kasdin.py 283–319 `mdev_from_qd` -/
noncomputable def Noise.mdev_from_qd (self : Noise) (tau0 : ℝ) : Py NV := do
  let h_b := self.frequency_psd_from_qd tau0
  let coeff ← self.mdevCoeff
  .ok (nvSqrt (some (coeff * h_b)))

/-- noise_kasdin.py 337–351: the coefficient in `pdev_from_qd` -/
noncomputable def Noise.pdevCoeff (self : Noise) : Py ℝ :=
  if self.b = 0 then .ok (3 / (2 * π ^ 2))
  else if self.b = -1 then .ok ((3 * log 16 - 1) / 2 / π ^ 2)
  else if self.b = -2 then .ok (3 / 5)
  else if self.b = -3 then .ok (2 * (7 - log 16) / 5)
  else if self.b = -4 then .ok (26 / 35 * π ^ 2)
  else .error .unboundLocalError

/-- noise_kasdin.py 321–353 `pdev_from_qd` -/
noncomputable def Noise.pdev_from_qd (self : Noise) (tau0 : ℝ) : Py NV := do
  let g_b := self.phase_psd_from_qd tau0
  let coeff ← self.pdevCoeff
  .ok (nvSqrt (some (coeff * g_b * (2 * π) ^ 2)))

/-- lines 188–189 and 197–198: `sqrt(prefactor² tau^c)`; `pow(tau, None)` raises TypeError -/
noncomputable def kasdinDev (prefactor : NV) (tau : ℝ) (c : Option ℝ) : Py NV :=
  match c with
  | none => .error .typeError
  | some c => .ok (nvSqrt (prefactor.map (fun p => p ^ 2 * tau ^ c)))

/-- noise_kasdin.py 182–189 `adev` -/
noncomputable def Noise.adev (self : Noise) (tau0 tau : ℝ) : Py NV := do
  let prefactor ← self.adev_from_qd tau0 tau
  kasdinDev prefactor tau self.c_avar

/-- noise_kasdin.py 191–198 `mdev` -/
noncomputable def Noise.mdev (self : Noise) (tau0 tau : ℝ) : Py NV := do
  let prefactor ← self.mdev_from_qd tau0
  kasdinDev prefactor tau self.c_mvar

end AT
