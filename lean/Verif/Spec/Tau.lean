import Verif.Model.Tau
import Mathlib.Algebra.Group.Even
import Mathlib.Algebra.Ring.Int.Parity

/-!
# Specification of the averaging factors and of the output table

Nothing here refers to the code's algorithm: the types `TausArg`, `DevOut`, `Py`
only fix the shape of inputs and outputs.
-/

namespace AT.Spec

/-- `k` is `x` rounded to the nearest integer, ties to the even one. -/
def IsRound (x : ℝ) (k : ℤ) : Prop :=
  |x - k| ≤ 1 / 2 ∧ (|x - k| = 1 / 2 → Even k)

/-- `m` is a power of two -/
def IsOctave (m : ℕ) : Prop := ∃ k : ℕ, m = 2 ^ k

/-- `m` is 1, 2 or 4 times a power of ten -/
def IsDecade (m : ℕ) : Prop := ∃ k : ℕ, m = 10 ^ k ∨ m = 2 * 10 ^ k ∨ m = 4 * 10 ^ k

/-- number of points of the "log10" grid for `N` data points -/
noncomputable def log10Count (N : ℕ) : ℕ := (⌊10 * Real.logb 10 N⌋).toNat

/-- The averaging factor `m` is asked for by the `taus` argument, for `N` data points
sampled at `rate`. -/
def Requested (N : ℕ) (rate : ℝ) (taus : TausArg) (m : ℕ) : Prop :=
  match taus with
  | .none => IsOctave m
  | .list [] => IsOctave m
  | .list l => ∃ t ∈ l, IsRound (t * rate) m
  | .array l => ∃ t ∈ l, IsRound (t * rate) m
  | .str s =>
    (s = "all") ∨ (s = "octave" ∧ IsOctave m) ∨ (s = "decade" ∧ IsDecade m) ∨
    (s = "log10" ∧ ∃ i : ℕ, i < log10Count N ∧
      IsRound ((N : ℝ) ^ ((i : ℝ) / ((log10Count N : ℝ) - 1))) m)

/-- The exception raised by the `taus` argument, if any. -/
def tausError (N : ℕ) : TausArg → Option PyErr
  | .none => if N = 0 then some .overflowError else none
  | .list [] => if N = 0 then some .overflowError else none
  | .list (_ :: _) => none
  | .array _ => none
  | .str s =>
    if s = "all" then none
    else if s = "octave" ∨ s = "decade" ∨ s = "log10" then
      if N = 0 then some .overflowError else none
    else some .typeError

open Classical in
/-- `m` is to be evaluated: it lies in `1 .. N-1`, does not exceed `maxM`, is even if
that is required, and is asked for. -/
noncomputable def admissible (N : ℕ) (rate : ℝ) (taus : TausArg) (even : Bool) (maxM : ℝ)
    (m : ℕ) : Bool :=
  decide (0 < m ∧ m < N ∧ (m : ℝ) ≤ maxM ∧ (even = true → Even m) ∧ Requested N rate taus m)

/-- The averaging factors to be evaluated, in increasing order. -/
noncomputable def factors (N : ℕ) (rate : ℝ) (taus : TausArg) (even : Bool) (maxM : ℝ) :
    Py (List ℕ) :=
  if rate = 0 then .error .runtimeError
  else match tausError N taus with
    | some e => .error e
    | none => .ok ((List.range N).filter (admissible N rate taus even maxM))

/-- The output table: one row `(tau m, dev m, err m, n m)` for each factor with more
than one term, `UserWarning` if there is none. -/
def sweep (ms : List ℕ) (tau dev err : ℕ → ℝ) (n : ℕ → ℤ) : Py (DevOut ℝ) :=
  let kept := ms.filter (fun m => decide (1 < n m))
  if kept = [] then .error .userWarning
  else .ok ⟨kept.map tau, kept.map dev, .arr (kept.map err), kept.map n⟩

/-- The table of a statistic `dev` with error bars `err` and counts `n` over all
admissible factors. -/
noncomputable def table (N : ℕ) (rate : ℝ) (taus : TausArg) (even : Bool) (maxM : ℝ)
    (dev err : ℕ → ℝ) (n : ℕ → ℤ) : Py (DevOut ℝ) := do
  let ms ← factors N rate taus even maxM
  sweep ms (fun m => m / rate) dev err n

end AT.Spec
