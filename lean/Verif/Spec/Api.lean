import Verif.Model.Api
import Verif.Spec.Dev

/-!
# What each deviation function has to return

`stat fn x N rate` collects, for the phase series `x 0 .. x (N-1)` sampled at `rate`: the
length that bounds the averaging factors, whether they must be even, the largest factor,
and for every factor `m` the deviation, the error bar and the number of terms.  The
deviations are the formulas of `Verif.Spec.Dev`.
-/

namespace AT.Spec

open Real

/-- a statistic as a function of the averaging factor -/
structure Stat where
  /-- factors must be below this length -/
  len : ℕ
  /-- factors must be even -/
  even : Bool
  /-- largest admissible factor -/
  maxM : ℝ
  /-- deviation at factor `m` -/
  dev : ℕ → ℝ
  /-- error bar at factor `m` -/
  err : ℕ → ℝ
  /-- number of terms at factor `m` -/
  n : ℕ → ℤ

/-- frequency data of a phase series -/
def freqOf (x : ℕ → ℝ) (rate : ℝ) : ℕ → ℝ := fun i => rate * (x (i + 1) - x i)

/-- HTOTDEV: OHDEV of the phase at `m = 1`, Hadamard total deviation of the frequency data
otherwise -/
noncomputable def htotdev' (x y : ℕ → ℝ) (Nx Ny m : ℕ) (τ : ℝ) : ℝ :=
  if m = 1 then ohdev x Nx 1 τ else htotdev y Ny m

/-- number of terms of HTOTDEV -/
def htotCount (Nx Ny m : ℕ) : ℤ := if m = 1 then (Nx : ℤ) - 3 else (Ny : ℤ) - 3 * m + 1

/-- the sign that a negative sampling rate gives to the deviations that are computed with
the rate outside the square root -/
noncomputable def rateSign (rate : ℝ) : ℝ := if rate < 0 then -1 else 1

/-- number of terms -/
def count (fn : DevName) (N m : ℕ) : ℤ :=
  match fn with
  | .adev => (decimated N m : ℤ) - 2
  | .hdev => (decimated N m : ℤ) - 3
  | .oadev | .pdev => (N : ℤ) - 2 * m
  | .ohdev => (N : ℤ) - 3 * m
  | .mdev | .tdev | .mtotdev | .ttotdev => (N : ℤ) - 3 * m + 1
  | .totdev => (N : ℤ) - 2
  | .htotdev => htotCount N (N - 1) m
  | .theo1 => ((N : ℤ) - m) * (m / 2 : ℕ)
  | .tierms | .mtie => (N : ℤ) - m

/-- the deviation for `rate > 0` -/
noncomputable def value (fn : DevName) (x : ℕ → ℝ) (N : ℕ) (rate : ℝ) (m : ℕ) : ℝ :=
  let τ := (m : ℝ) / rate
  match fn with
  | .adev => adev x N m τ
  | .oadev => oadev x N m τ
  | .mdev => mdev x N m τ
  | .tdev => tdev x N m τ
  | .hdev => hdev x N m τ
  | .ohdev => ohdev x N m τ
  | .pdev => pdev x N m τ
  | .totdev => totdev x N m τ
  | .mtotdev => mtotdev x N m τ
  | .ttotdev => τ / √3 * mtotdev x N m τ
  | .htotdev => htotdev' x (freqOf x rate) N (N - 1) m τ
  | .theo1 => theo1 x N m τ
  | .tierms => tierms x N m
  | .mtie => mtie x N m

/-- the sign of the deviation for a negative rate -/
noncomputable def sign (fn : DevName) (rate : ℝ) (m : ℕ) : ℝ :=
  match fn with
  | .adev | .oadev | .hdev | .ohdev => rateSign rate
  | .pdev | .htotdev => if m = 1 then rateSign rate else 1
  | _ => 1

/-- the number whose square root divides the deviation to give the error bar; `none` if
the error bar is 0 -/
noncomputable def errCount (fn : DevName) (N m : ℕ) : Option ℤ :=
  match fn with
  | .tierms => none
  | .theo1 => some ((N : ℤ) - m)
  | fn => some (count fn N m)

/-- the error bar that belongs to the deviation `d` -/
noncomputable def errOf (fn : DevName) (N m : ℕ) (d : ℝ) : ℝ :=
  match errCount fn N m with
  | none => 0
  | some k => d / √(k : ℝ)

/-- factors must be below this number -/
def lenOf (fn : DevName) (N : ℕ) : ℕ := if fn = .htotdev then N - 1 else N

/-- largest factor -/
noncomputable def maxOf (fn : DevName) (N : ℕ) : ℝ :=
  match fn with
  | .mtotdev | .ttotdev => (N : ℝ) / 3
  | .htotdev => ((N - 1 : ℕ) : ℝ) / 3
  | _ => N

/-- everything about one statistic -/
noncomputable def stat (fn : DevName) (x : ℕ → ℝ) (N : ℕ) (rate : ℝ) : Stat where
  len := lenOf fn N
  even := decide (fn = .theo1)
  maxM := maxOf fn N
  dev := fun m => sign fn rate m * value fn x N rate m
  err := fun m => errOf fn N m (sign fn rate m * value fn x N rate m)
  n := count fn N

/-- the table of a statistic -/
noncomputable def Stat.table (s : Stat) (rate : ℝ) (taus : TausArg) : Py (DevOut ℝ) :=
  AT.Spec.table s.len rate taus s.even s.maxM s.dev s.err s.n

/-- the result of the deviation function `fn` for phase data: the table of its statistic,
except that `theo1` divides by the rate first and `totdev` cannot extend fewer than two
points -/
noncomputable def result (fn : DevName) (x : List ℝ) (rate : ℝ) (taus : TausArg) :
    Py (DevOut ℝ) :=
  if fn = .theo1 ∧ rate = 0 then .error .zeroDivisionError
  else if fn = .totdev ∧ x.length < 2 then do
    let _ ← factors x.length rate taus false x.length
    .error (if x = [] then .indexError else .valueError)
  else (stat fn (seq x) x.length rate).table rate taus

end AT.Spec
