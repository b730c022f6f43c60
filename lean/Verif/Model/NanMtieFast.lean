import Verif.Model.NanMtie

/-!
# Model of `mtie_phase_fast` on data with NaN (allantools.py 1484–1537)

The columns are built with Python's `max` and `min` of two numbers, whose comparisons with NaN are
false; `np.amax` propagates NaN.
-/

namespace AT

open Classical in
/-- Python's `max(a, b)` of two floats: `b` if `b > a`, otherwise `a` -/
noncomputable def pyMax2 (a b : NV) : NV := if nvLt a b then b else a

open Classical in
/-- Python's `min(a, b)` of two floats: `b` if `b < a`, otherwise `a` -/
noncomputable def pyMin2 (a b : NV) : NV := if nvLt b a then b else a

/-- allantools.py 1519–1527: the values of entry `i` of column `k-1` of the matrices
`mtie_max` and `mtie_min`; `pmax`/`pmin` are the previous columns (unused for `k = 1`) -/
noncomputable def mtie_fast_entry_nv (phase pmax pmin : List NV) (k i : ℕ) : Py (NV × NV) :=
  if k = 1 then do
    let u ← pyGet phase i
    let v ← pyGet phase ((i : ℤ) + 1)
    .ok (pyMax2 u v, pyMin2 u v)
  else do
    let u ← pyGet pmax i
    let v ← pyGet pmax ((i : ℤ) + (2 ^ (k - 1) : ℕ))
    let u' ← pyGet pmin i
    let v' ← pyGet pmin ((i : ℤ) + (2 ^ (k - 1) : ℕ))
    .ok (pyMax2 u v, pyMin2 u' v')

/-- allantools.py 1513–1532: one pass of the `kidx` loop; the result is
`(column kidx of mtie_max, column kidx of mtie_min, tie)`. -/
noncomputable def mtie_fast_column_nv (phase pmax pmin : List NV) (k : ℕ) :
    Py (List NV × List NV × List NV) :=
  let imax := ((phase.length : ℤ) - 2 ^ k + 1).toNat
  forRange imax (List.replicate (phase.length - 1) (some 0), List.replicate (phase.length - 1) (some 0),
      List.replicate imax (some 0)) (fun st i => do
    let ab ← mtie_fast_entry_nv phase pmax pmin k i
    let cmax ← pySet st.1 i ab.1
    let cmin ← pySet st.2.1 i ab.2
    let tie ← pySet st.2.2 i (nv2 (· - ·) ab.1 ab.2)
    .ok (cmax, cmin, tie))

/-- allantools.py 1484–1537 `mtie_phase_fast` (`rate`, `data_type` and `taus` are ignored by
the code).  The loop state is `(previous columns, rows)`; `np.log2(0)` is `-inf`, whose
`int()` raises OverflowError. -/
noncomputable def mtie_phase_fast_nv (phase : List NV) : Py NanOut := do
  if phase.length = 0 then .error .overflowError
  else do
    let k_max : ℕ := ⌊Real.logb 2 phase.length⌋.toNat
    let phase := slice phase (0 : ℕ) ((2 ^ k_max : ℕ) : ℤ)
    pyAssert (phase.length = 2 ^ k_max)
    let taus := tab k_max (fun k => ((2 ^ k : ℕ) : ℝ))
    let r ← forRange k_max (([], [], []) : List NV × List NV × List (NV × ℤ)) (fun st kidx => do
      let (cmax, cmin, tie) ← mtie_fast_column_nv phase st.1 st.2.1 (kidx + 1)
      let dev ← nvExt npMax tie
      .ok (cmax, cmin, st.2.2 ++ [(dev, (phase.length : ℤ) - 2 ^ (kidx + 1) + 1)]))
    remove_small_ns_nv ⟨taus, r.2.2.map (fun p => p.1), List.replicate k_max (some 0),
      r.2.2.map (fun p => p.2)⟩

end AT
