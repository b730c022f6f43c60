import Verif.Model.Dataset

/-!
# Model of plot.py

The figure is the list of the calls of methods of the matplotlib axes.  Of matplotlib itself only
the argument checks of `plot` and `errorbar` are modelled.  Extra keyword arguments, `show` and
`save` are not modelled.
-/

namespace AT

/-- a call of a method of `self.ax` -/
inductive AxCall
  /-- `set_xscale`, `set_yscale` -/
  | xscale (s : String)
  | yscale (s : String)
  /-- `plot(x, y)` -/
  | line (x y : List ℝ)
  /-- `errorbar(x, y, yerr=…)` -/
  | errorbar (x y : List ℝ) (yerr : Errs NV)
  /-- `plot(None, None)` or `errorbar(None, None, yerr=None)` -/
  | nothing
  /-- `set_xlabel`, `set_ylabel`; `None` is passed on -/
  | xlabel (s : String)
  | ylabel (s : Option String)
  /-- `grid(True, which=…, ls="-", color=…)` -/
  | grid (which color : String)
  /-- `grid(False)` -/
  | gridOff

/-- plot.py 50–64: the axes after the constructor (matplotlib is installed) -/
def plotInit : List AxCall := [.xscale "log", .yscale "log"]

/-- matplotlib's `plot(x, y)`: "x and y must have same first dimension" -/
def mplLine (x y : List ℝ) : Py Unit :=
  if x.length = y.length then .ok () else .error .valueError

/-- matplotlib's check of `yerr` for `n` points: it must have the shape `(n,)` or `(2, n)`, and no
entry that is a number may be negative -/
noncomputable def mplYerr (n : ℕ) : Errs NV → Py Unit
  | .arr l => if l.length = n then nonneg l else .error .valueError
  | .lst [l, u] => if l.length = n ∧ u.length = n then nonneg (l ++ u) else .error .valueError
  | .lst _ => .error .valueError
where
  /-- "'yerr' must not contain negative values" -/
  nonneg (l : List NV) : Py Unit :=
    open Classical in if ∀ v ∈ l, ∀ a, v = some a → 0 ≤ a then .ok () else .error .valueError

/-- plot.py 66–101 `plot`; `mplNone` is what matplotlib does with `None` instead of arrays -/
noncomputable def plot (mplNone : Py Unit) (ax : List AxCall) (s : Dataset) (errorbars grid : Bool) :
    Py (List AxCall) := do
  let drawn ← match s.out with
    | .empty => do
      mplNone
      .ok [AxCall.nothing, .xlabel "Tau", .ylabel none]
    | .filled r id =>
      if errorbars then do
        mplLine r.taus r.devs
        mplYerr r.taus.length r.errs
        .ok [AxCall.errorbar r.taus r.devs r.errs, .xlabel "Tau", .ylabel (some id)]
      else do
        mplLine r.taus r.devs
        .ok [AxCall.line r.taus r.devs, .xlabel "Tau", .ylabel (some id)]
  let g := if grid then [AxCall.grid "minor" "0.65", .grid "major" "0.25"] else [.gridOff]
  .ok (ax ++ drawn ++ g)

end AT
