import Verif.Model.Dev

/-!
# Model of the MTIE functions (allantools.py 1380–1537)
-/

namespace AT

open Real (sqrt)

/-- allantools.py 1380–1410 `mtie_rolling_window` on a 1-d array: the rows of the strided
view are `a[i : i+window]`, `i = 0 .. len(a) - window`. -/
def mtie_rolling_window (a : List ℝ) (window : ℤ) : Py (List (List ℝ)) :=
  if window < 1 then .error .valueError
  else if window > a.length then .error .valueError
  else .ok (tab ((a.length : ℤ) - window + 1).toNat
    (fun i => slice a (i : ℕ) ((i : ℤ) + window)))

/-- allantools.py 1443–1450: the `try` block of `mtie` -/
noncomputable def mtie_windows (phase : List ℝ) (mj : ℕ) : Py ℝ := do
  let rw ← mtie_rolling_window phase ((mj : ℤ) + 1)
  let win_max ← rw.mapM npMax
  let win_min ← rw.mapM npMin
  let tie ← vsub win_max win_min
  npMax tie

/-- allantools.py 1463–1466: update of the running maximum; `old` leaves the window, `new`
is the sample at `winEndIdx` -/
noncomputable def slide_max (phase : List ℝ) (winStartIdx winEndIdx : ℕ) (currMax old new : ℝ) :
    Py ℝ :=
  if currMax = old then npMax (slice phase winStartIdx winEndIdx)
  else if currMax < new then .ok new
  else .ok currMax

/-- allantools.py 1468–1471: update of the running minimum -/
noncomputable def slide_min (phase : List ℝ) (winStartIdx winEndIdx : ℕ) (currMin old new : ℝ) :
    Py ℝ :=
  if currMin = old then npMin (slice phase winStartIdx winEndIdx)
  else if currMin > new then .ok new
  else .ok currMin

/-- allantools.py 1461–1474: one step of the fallback loop; the state is
`(currMax, currMin, dev)`.  `phase[winEndIdx]` is read in both branches here; the index is
always valid. -/
noncomputable def mtie_fallback_step (phase : List ℝ) (mj : ℕ) (st : ℝ × ℝ × ℝ) (winStartIdx : ℕ) :
    Py (ℝ × ℝ × ℝ) := do
  let old ← pyGet phase ((winStartIdx : ℤ) - 1)
  let new ← pyGet phase (mj + winStartIdx : ℕ)
  let currMax ← slide_max phase winStartIdx (mj + winStartIdx) st.1 old new
  let currMin ← slide_min phase winStartIdx (mj + winStartIdx) st.2.1 old new
  .ok (currMax, currMin, if st.2.2 < currMax - currMin then currMax - currMin else st.2.2)

/-- allantools.py 1451–1474: the `except ValueError` block of `mtie`, a sliding
maximum/minimum; `range(1, len(phase) - mj)` is written as `1 + range(...)`. -/
noncomputable def mtie_fallback (phase : List ℝ) (mj : ℕ) : Py ℝ := do
  if (mj : ℤ) + 1 < 1 then .error .valueError
  else if (mj : ℤ) + 1 > phase.length then .error .valueError
  else do
    let currMax ← npMax (slice phase (0 : ℕ) mj)
    let currMin ← npMin (slice phase (0 : ℕ) mj)
    let r ← forRange ((phase.length : ℤ) - mj - 1).toNat (currMax, currMin, currMax - currMin)
      (fun st k => mtie_fallback_step phase mj st (k + 1))
    .ok r.2.2

/-- allantools.py 1442–1479: body of the `mtie` loop.  `fails m` says that numpy raises
ValueError on the rolling window for factor `m` (array too large), which the code
answers with the fallback. -/
noncomputable def mtie_body (fails : ℕ → Bool) (phase : List ℝ) (mj : ℕ) : Py (ℝ × ℝ × ℤ) := do
  let dev ←
    match (if fails mj then (.error .valueError : Py ℝ) else mtie_windows phase mj) with
    | .error .valueError => mtie_fallback phase mj
    | r => r
  let ncount : ℤ := (phase.length : ℤ) - mj
  .ok (dev, dev / sqrt ncount, ncount)

/-- allantools.py 1413–1481 `mtie`; see `mtie_body` for `fails` -/
noncomputable def mtie_mem (fails : ℕ → Bool) (data : List ℝ) (rate : ℝ) (data_type : String)
    (taus : TausArg) : Py (DevOut ℝ) := do
  let phase ← input_to_phase data rate data_type
  let (phase, m, taus_used) ← tau_generator phase rate taus
  runTaus taus_used m (fun _ mj => mtie_body fails phase mj)

/-- `mtie` on a machine on which the rolling windows can always be built -/
noncomputable def mtie (data : List ℝ) (rate : ℝ) (data_type : String) (taus : TausArg) :
    Py (DevOut ℝ) := mtie_mem (fun _ => false) data rate data_type taus

/-- `xs[i] = v` for an index that is not negative -/
def pySet {α : Type} (xs : List α) (i : ℕ) (v : α) : Py (List α) :=
  if i < xs.length then .ok (xs.set i v) else .error .indexError

/-- allantools.py 1519–1527: the values of entry `i` of column `k-1` of the matrices
`mtie_max` and `mtie_min`; `pmax`/`pmin` are the previous columns (unused for `k = 1`) -/
noncomputable def mtie_fast_entry (phase pmax pmin : List ℝ) (k i : ℕ) : Py (ℝ × ℝ) :=
  if k = 1 then do
    let u ← pyGet phase i
    let v ← pyGet phase ((i : ℤ) + 1)
    .ok (max u v, min u v)
  else do
    let u ← pyGet pmax i
    let v ← pyGet pmax ((i : ℤ) + (2 ^ (k - 1) : ℕ))
    let u' ← pyGet pmin i
    let v' ← pyGet pmin ((i : ℤ) + (2 ^ (k - 1) : ℕ))
    .ok (max u v, min u' v')

/-- allantools.py 1513–1532: one pass of the `kidx` loop; the result is
`(column kidx of mtie_max, column kidx of mtie_min, tie)`. -/
noncomputable def mtie_fast_column (phase pmax pmin : List ℝ) (k : ℕ) :
    Py (List ℝ × List ℝ × List ℝ) :=
  let imax := ((phase.length : ℤ) - 2 ^ k + 1).toNat
  forRange imax (List.replicate (phase.length - 1) (0 : ℝ), List.replicate (phase.length - 1) (0 : ℝ),
      List.replicate imax (0 : ℝ)) (fun st i => do
    let ab ← mtie_fast_entry phase pmax pmin k i
    let cmax ← pySet st.1 i ab.1
    let cmin ← pySet st.2.1 i ab.2
    let tie ← pySet st.2.2 i (ab.1 - ab.2)
    .ok (cmax, cmin, tie))

/-- allantools.py 1484–1537 `mtie_phase_fast` (`rate`, `data_type` and `taus` are ignored by
the code).  The loop state is `(previous columns, rows)`; `np.log2(0)` is `-inf`, whose
`int()` raises OverflowError. -/
noncomputable def mtie_phase_fast (phase : List ℝ) : Py (DevOut ℝ) := do
  if phase.length = 0 then .error .overflowError
  else do
    let k_max : ℕ := ⌊Real.logb 2 phase.length⌋.toNat
    let phase := slice phase (0 : ℕ) ((2 ^ k_max : ℕ) : ℤ)
    pyAssert (phase.length = 2 ^ k_max)
    let taus := tab k_max (fun k => ((2 ^ k : ℕ) : ℝ))
    let r ← forRange k_max (([], [], []) : List ℝ × List ℝ × List (ℝ × ℤ)) (fun st kidx => do
      let (cmax, cmin, tie) ← mtie_fast_column phase st.1 st.2.1 (kidx + 1)
      let dev ← npMax tie
      .ok (cmax, cmin, st.2.2 ++ [(dev, (phase.length : ℤ) - 2 ^ (kidx + 1) + 1)]))
    remove_small_ns ⟨taus, r.2.2.map (fun p => p.1), .arr (List.replicate k_max 0),
      r.2.2.map (fun p => p.2)⟩

end AT
