import Verif.Model.FloatMore
import Verif.Model.Mtie

/-!
# Model of `mtie_phase_fast` in floating point (allantools.py 1484–1537)

The maximum and minimum of samples are exact; the differences are rounded by `fl` and the base-2
logarithm is computed by `lg`.
-/

namespace AT

/-- allantools.py 1513–1532: one pass of the `kidx` loop, rounded; the result is
`(column kidx of mtie_max, column kidx of mtie_min, tie)`. -/
noncomputable def mtie_fast_column_fl (fl : ℝ → ℝ) (phase pmax pmin : List ℝ) (k : ℕ) :
    Py (List ℝ × List ℝ × List ℝ) :=
  let imax := ((phase.length : ℤ) - 2 ^ k + 1).toNat
  forRange imax (List.replicate (phase.length - 1) (0 : ℝ), List.replicate (phase.length - 1) (0 : ℝ),
      List.replicate imax (0 : ℝ)) (fun st i => do
    let ab ← mtie_fast_entry phase pmax pmin k i
    let cmax ← pySet st.1 i ab.1
    let cmin ← pySet st.2.1 i ab.2
    let tie ← pySet st.2.2 i (fl (ab.1 - ab.2))
    .ok (cmax, cmin, tie))

/-- allantools.py 1484–1537 `mtie_phase_fast`, rounded; `lg` is `np.log2`.  `np.log2(0)` is `-inf`,
whose `int()` raises OverflowError; the logarithm of a positive length is taken to be not
negative.  The taus are powers of two computed with integers. -/
noncomputable def mtie_phase_fast_fl (fl lg : ℝ → ℝ) (phase : List ℝ) : Py (DevOut ℝ) := do
  if phase.length = 0 then .error .overflowError
  else do
    let k_max : ℕ := ⌊lg phase.length⌋.toNat
    let phase := slice phase (0 : ℕ) ((2 ^ k_max : ℕ) : ℤ)
    pyAssert (phase.length = 2 ^ k_max)
    let taus := tab k_max (fun k => ((2 ^ k : ℕ) : ℝ))
    let r ← forRange k_max (([], [], []) : List ℝ × List ℝ × List (ℝ × ℤ)) (fun st kidx => do
      let (cmax, cmin, tie) ← mtie_fast_column_fl fl phase st.1 st.2.1 (kidx + 1)
      let dev ← npMax tie
      .ok (cmax, cmin, st.2.2 ++ [(dev, (phase.length : ℤ) - 2 ^ (kidx + 1) + 1)]))
    remove_small_ns ⟨taus, r.2.2.map (fun p => p.1), .arr (List.replicate k_max 0),
      r.2.2.map (fun p => p.2)⟩

end AT
