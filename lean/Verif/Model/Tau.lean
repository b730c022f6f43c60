import Verif.Py
import Mathlib.Analysis.SpecialFunctions.Log.Base

/-!
# Model of the tau list helpers (allantools.py 1996–2213)
-/

namespace AT

/-- The `taus=` argument: `None`, a keyword string, a Python list, or a numpy array. -/
inductive TausArg
  | none
  | str (s : String)
  | list (l : List ℝ)
  | array (l : List ℝ)

/-- allantools.py 2046–2074: expansion of the `taus` argument into a list of tau
values.  `len` is `len(data)`.  `np.log2(0)` and `np.log10(0)` are `-inf`, whose
`int()` raises OverflowError.  An unknown string reaches `taus * rate` (2103) on a
numpy string array, which raises TypeError.
`pow(10.0, k)` is the exact power; `np.log2`/`np.log10` are exact. -/
noncomputable def expand_taus (len : ℕ) (rate : ℝ) : TausArg → Py (List ℝ)
  | .array l => .ok l
  | .list (t :: ts) => .ok (t :: ts)
  | .list [] => octave
  | .none => octave
  | .str s =>
    if s = "all" then .ok (vscale (1 / rate) (npLinspace 1 len len))
    else if s = "octave" then octave
    else if s = "log10" then
      if len = 0 then .error .overflowError
      else
        let maxn := Real.logb 10 len
        .ok (vscale (1 / rate) (npLogspace 0 maxn (⌊10 * maxn⌋).toNat 10))
    else if s = "decade" then
      if len = 0 then .error .overflowError
      else
        let maxn := ⌊Real.logb 10 len⌋
        .ok ((List.range (maxn + 1).toNat).flatMap (fun k =>
          [1 * (1 / rate) * 10 ^ k, 2 * (1 / rate) * 10 ^ k, 4 * (1 / rate) * 10 ^ k]))
    else .error .typeError
where
  /-- allantools.py 2059–2061 -/
  octave : Py (List ℝ) :=
    if len = 0 then .error .overflowError
    else
      let maxn := ⌊Real.logb 2 len⌋
      .ok (vscale (1 / rate) (npLogspace 0 maxn (maxn + 1).toNat 2))

/-- allantools.py 1996–2125 `tau_generator`.  Averaging factors are integral after
`np.round`; all callers apply `int()` to them, so they are returned as `ℕ`
(they have passed the `m > 0` filter).  `maximum_m = -1` means "no limit". -/
noncomputable def tau_generator {α : Type} (data : List α) (rate : ℝ) (taus : TausArg)
    (even : Bool := false) (maximum_m : ℝ := -1) : Py (List α × List ℕ × List ℝ) :=
  if rate = 0 then .error .runtimeError
  else do
    let taus ← expand_taus data.length rate taus
    let maximum_m : ℝ := if maximum_m = -1 then data.length else maximum_m
    let m := taus.map (fun t => npRound (t * rate))
    let m ← maskSel m (m.map (fun (k : ℤ) =>
      decide (k < (data.length : ℤ)) && decide (0 < k) && decide ((k : ℝ) ≤ maximum_m)))
    let m := m.filter (fun k => decide (k ≠ 0))
    let m := npUnique m
    let taus2 := m.map (fun (k : ℤ) => (k : ℝ) / rate)
    if even then do
      let mask := m.map (fun k => decide (k % 2 = 0))
      let m' ← maskSel m mask
      let taus2' ← maskSel taus2 mask
      .ok (data, m'.map Int.toNat, taus2')
    else .ok (data, m.map Int.toNat, taus2)

/-- the `deverrs` argument of `remove_small_ns`: one array or a list of arrays -/
inductive Errs (β : Type)
  | arr (l : List β)
  | lst (ls : List (List β))

/-- The 4-tuple returned by the deviation functions. -/
structure DevOut (β : Type) where
  /-- tau values, in seconds -/
  taus : List ℝ
  /-- deviations -/
  devs : List ℝ
  /-- error bars -/
  errs : Errs β
  /-- number of terms used for each point -/
  ns : List ℤ

/-- allantools.py 2176–2213 `remove_small_ns` -/
def remove_small_ns {β : Type} (r : DevOut β) : Py (DevOut β) := do
  let big := r.ns.map (fun n => decide (1 < n))
  let o_taus ← maskSel r.taus big
  let o_devs ← maskSel r.devs big
  let o_ns ← maskSel r.ns big
  let o_errs ← match r.errs with
    | .lst ls => do
        pyAssert (ls.length < 3)
        let e0 ← pyGet ls 0
        let e0 ← maskSel e0 big
        let e1 ← pyGet ls 1
        let e1 ← maskSel e1 big
        .ok (Errs.lst [e0, e1])
    | .arr l => do
        let e ← maskSel l big
        .ok (Errs.arr e)
  if o_devs.length = 0 then .error .userWarning
  else .ok ⟨o_taus, o_devs, o_errs, o_ns⟩

/-- allantools.py 2128–2173 `tau_reduction`.  `np.bool_` of the difference of two
rounded logarithms is "the difference is not 0". -/
noncomputable def tau_reduction (ms : List ℕ) (rate : ℝ) (n_per_decade : ℕ) :
    Py (List ℕ × List ℝ) := do
  let r := fun k : ℕ => npRound (n_per_decade * Real.logb 10 k)
  let d ← vop (fun a b : ℤ => a - b) ((sliceFrom ms 1).map r) ((sliceTo ms (-1)).map r)
  let keep := d.map (fun k => decide (k ≠ 0))
  let ms := sliceTo ms (-1)
  pyAssert (ms.length = keep.length)
  let ms ← maskSel ms keep
  .ok (ms, ms.map (fun (k : ℕ) => (k : ℝ) / rate))

end AT
