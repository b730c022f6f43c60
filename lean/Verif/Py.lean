import Mathlib.Data.Real.Basic
import Mathlib.Algebra.Order.Archimedean.Real.Basic
import Mathlib.Algebra.Order.Floor.Ring
import Mathlib.Analysis.SpecialFunctions.Pow.Real
import Mathlib.Algebra.BigOperators.Group.Finset.Basic
import Mathlib.Data.List.Dedup

/-!
# Python / numpy primitives used by the models

Exceptions are values (`Except PyErr`).  Floating point numbers are exact reals.
-/

namespace AT

/-- The Python exception classes that the modelled code can raise. -/
inductive PyErr
  | runtimeError | userWarning | exception | valueError | indexError
  | assertionError | zeroDivisionError | overflowError | typeError
  | attributeError | notImplementedError | unboundLocalError
  deriving DecidableEq, Repr

/-- A computation that may raise. -/
abbrev Py (α : Type) := Except PyErr α

/-- `assert b` -/
def pyAssert (b : Prop) [Decidable b] : Py Unit :=
  if b then .ok () else .error .assertionError

/-- The list `[g 0, g 1, ..., g (n-1)]`. -/
def tab {α : Type} (n : ℕ) (g : ℕ → α) : List α := (List.range n).map g

/-- Python index normalisation for slices: a negative bound counts from the end
and is clipped at 0, a too large bound is clipped at `len`. -/
def normIdx (len : ℕ) (i : ℤ) : ℕ :=
  if i < 0 then (i + len).toNat else min i.toNat len

/-- `xs[lo:hi]` -/
def slice {α : Type} (xs : List α) (lo hi : ℤ) : List α :=
  (xs.take (normIdx xs.length hi)).drop (normIdx xs.length lo)

/-- `xs[lo:]` -/
def sliceFrom {α : Type} (xs : List α) (lo : ℤ) : List α :=
  xs.drop (normIdx xs.length lo)

/-- `xs[:hi]` -/
def sliceTo {α : Type} (xs : List α) (hi : ℤ) : List α :=
  xs.take (normIdx xs.length hi)

/-- every `s`-th element, starting with the first (`s ≥ 1`) -/
def everyNth {α : Type} (s : ℕ) : List α → List α
  | [] => []
  | x :: xs => x :: everyNth s (xs.drop (s - 1))
  termination_by l => l.length
  decreasing_by simp only [List.length_drop, List.length_cons]; omega

/-- `xs[lo::step]`; Python raises ValueError for a zero step. -/
def sliceStep {α : Type} (xs : List α) (lo : ℤ) (step : ℕ) : Py (List α) :=
  if step = 0 then .error .valueError
  else .ok (everyNth step (sliceFrom xs lo))

/-- `xs[i]` with Python's negative index convention. -/
def pyGet {α : Type} (xs : List α) (i : ℤ) : Py α :=
  let j : ℤ := if i < 0 then i + xs.length else i
  if j < 0 then .error .indexError
  else match xs[j.toNat]? with
    | some v => .ok v
    | none => .error .indexError

/-- Element-wise binary numpy operation on 1-d arrays, with broadcasting of
length-1 arrays; any other length mismatch raises ValueError. -/
def vop {α β γ : Type} (f : α → β → γ) (a : List α) (b : List β) : Py (List γ) :=
  if a.length = b.length then .ok (List.zipWith f a b)
  else match a, b with
    | [x], b => .ok (b.map (f x))
    | a, [y] => .ok (a.map (fun x => f x y))
    | _, _ => .error .valueError

/-- `a + b` on arrays -/
noncomputable def vadd (a b : List ℝ) : Py (List ℝ) := vop (· + ·) a b
/-- `a - b` on arrays -/
noncomputable def vsub (a b : List ℝ) : Py (List ℝ) := vop (· - ·) a b
/-- `a * b` on arrays -/
noncomputable def vmul (a b : List ℝ) : Py (List ℝ) := vop (· * ·) a b
/-- `c * a`, scalar times array -/
noncomputable def vscale (c : ℝ) (a : List ℝ) : List ℝ := a.map (fun x => c * x)

/-- `np.sum` (exact) -/
noncomputable def npSum (a : List ℝ) : ℝ := a.sum

/-- `np.mean`; the empty mean is NaN in numpy, 0 here: all uses are on non-empty lists. -/
noncomputable def npMean (a : List ℝ) : ℝ := a.sum / a.length

/-- `np.cumsum` -/
noncomputable def npCumsum (a : List ℝ) : List ℝ := (a.scanl (· + ·) 0).tail

/-- `np.diff` -/
noncomputable def npDiff (a : List ℝ) : List ℝ := List.zipWith (· - ·) a.tail a

/-- `np.max` of a 1-d array; raises ValueError when empty. -/
noncomputable def npMax : List ℝ → Py ℝ
  | [] => .error .valueError
  | x :: xs => .ok (xs.foldl max x)

/-- `np.min` of a 1-d array; raises ValueError when empty. -/
noncomputable def npMin : List ℝ → Py ℝ
  | [] => .error .valueError
  | x :: xs => .ok (xs.foldl min x)

/-- `np.round` / `np.rint`: round half to even. -/
noncomputable def npRound (x : ℝ) : ℤ :=
  let f := ⌊x⌋
  if x - f < 1 / 2 then f
  else if 1 / 2 < x - f then f + 1
  else if f % 2 = 0 then f
  else f + 1

/-- `np.unique` on integral values: sorted, duplicates removed. -/
def npUnique (l : List ℤ) : List ℤ := (l.mergeSort (fun a b => decide (a ≤ b))).dedup

/-- `np.linspace(a, b, num)` -/
noncomputable def npLinspace (a b : ℝ) (num : ℕ) : List ℝ :=
  if num = 1 then [a] else tab num (fun i => a + i * ((b - a) / ((num : ℝ) - 1)))

/-- `np.logspace(a, b, num, base)` -/
noncomputable def npLogspace (a b : ℝ) (num : ℕ) (base : ℝ) : List ℝ :=
  (npLinspace a b num).map (fun e => base ^ e)

/-- Boolean mask indexing `xs[mask]`; numpy raises IndexError on a length mismatch. -/
def maskSel {α : Type} (xs : List α) (mask : List Bool) : Py (List α) :=
  if xs.length = mask.length then
    .ok ((xs.zip mask).filterMap (fun p => if p.2 then some p.1 else none))
  else .error .indexError

/-- `for i in range(n): state = f(state, i)` where the body may raise. -/
def forRange {σ : Type} (n : ℕ) (init : σ) (f : σ → ℕ → Py σ) : Py σ :=
  (List.range n).foldlM f init

end AT
