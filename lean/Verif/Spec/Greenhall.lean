import Verif.Model.Ci

/-!
# Greenhall's formulas for equivalent degrees of freedom, without exceptions

C. Greenhall and W. Riley, "Uncertainty of stability variances based on finite differences".
`F` is the filter factor (`FArg` is the type of numbers together with infinity), `d` the order
of the difference (1, 2 = Allan, 3 = Hadamard), `alpha` the exponent of the noise.
-/

namespace AT.Spec

open Finset Real

/-- eqn (7): the kernel of the noise type -/
noncomputable def ghSw (alpha : ℤ) (t : ℝ) : ℝ :=
  if alpha = 2 then -|t|
  else if alpha = 1 then t ^ 2 * log |t|
  else if alpha = 0 then |t| ^ 3
  else if alpha = -1 then t ^ 4 * log |t|
  else if alpha = -2 then |t| ^ 5
  else if alpha = -3 then t ^ 6 * log |t|
  else |t| ^ 7

/-- eqn (8): the second difference with step `1/F` -/
noncomputable def ghSx (F : FArg) (alpha : ℤ) (t : ℝ) : ℝ :=
  match F with
  | .inf => ghSw (alpha + 2) t
  | .fin F => F ^ 2 * (2 * ghSw alpha t - ghSw alpha (t - 1 / F) - ghSw alpha (t + 1 / F))

/-- eqn (9): the central difference of order `2 d` with step 1 -/
noncomputable def ghSz (F : FArg) (alpha : ℤ) (d : ℕ) (t : ℝ) : ℝ :=
  ∑ k ∈ range (2 * d + 1), (-1 : ℝ) ^ (d + k) * (2 * d).choose k * ghSx F alpha (t + k - d)

/-- eqn (10): the basic sum -/
noncomputable def ghSum (J : ℕ) (M S : ℝ) (F : FArg) (alpha : ℤ) (d : ℕ) : ℝ :=
  ghSz F alpha d 0 ^ 2 + (1 - J / M) * ghSz F alpha d (J / S) ^ 2 +
    ∑ j ∈ Ico 1 J, 2 * (1 - j / M) * ghSz F alpha d (j / S) ^ 2

/-- the number of phase points that one summand of the variance estimate needs -/
def ghL (d m : ℕ) (modified : Bool) : ℕ := (if modified then m else 1) + m * d

/-- the stride factor -/
def ghS (m : ℕ) (overlapping : Bool) : ℕ := if overlapping then m else 1

/-- the number of summands of the variance estimate -/
def ghM (d m N : ℕ) (overlapping modified : Bool) : ℕ :=
  1 + ghS m overlapping * (N - ghL d m modified) / m

/-- the length of the basic sum -/
def ghJ (d m N : ℕ) (overlapping modified : Bool) : ℕ :=
  min (ghM d m N overlapping modified) ((d + 1) * ghS m overlapping)

/-- the number of summands divided by the stride factor -/
noncomputable def ghR (d m N : ℕ) (overlapping modified : Bool) : ℝ :=
  (ghM d m N overlapping modified : ℝ) / ghS m overlapping

/-- table 1 (modified variances) -/
noncomputable def ghTable1 (alpha : ℤ) (d : ℕ) : ℝ × ℝ :=
  match alpha, d with
  | 2, 1 => (2 / 3, 1 / 3) | 2, 2 => (7 / 9, 1 / 2) | 2, 3 => (22 / 25, 2 / 3)
  | 1, 1 => (0.840, 0.345) | 1, 2 => (0.997, 0.616) | 1, 3 => (1.141, 0.843)
  | 0, 1 => (1.079, 0.368) | 0, 2 => (1.033, 0.607) | 0, 3 => (1.184, 0.848)
  | -1, 2 => (1.048, 0.534) | -1, 3 => (1.180, 0.816)
  | -2, 2 => (1.302, 0.535) | -2, 3 => (1.175, 0.777)
  | -3, 3 => (1.194, 0.703)
  | -4, 3 => (1.489, 0.702)
  | _, _ => (0, 0)

/-- table 2 (unmodified variances, `alpha ≤ 1`) -/
noncomputable def ghTable2 (alpha : ℤ) (d : ℕ) : ℝ × ℝ :=
  match alpha, d with
  | 1, 1 => (78.6, 25.2) | 1, 2 => (790, 410) | 1, 3 => (9950, 6520)
  | 0, 1 => (2 / 3, 1 / 6) | 0, 2 => (2 / 3, 1 / 3) | 0, 3 => (7 / 9, 1 / 2)
  | -1, 2 => (0.852, 0.375) | -1, 3 => (0.997, 0.617)
  | -2, 2 => (1.079, 0.368) | -2, 3 => (1.033, 0.607)
  | -3, 3 => (1.053, 0.553)
  | -4, 3 => (1.302, 0.535)
  | _, _ => (0, 0)

/-- table 3 (unmodified variances, `alpha = 1`) -/
noncomputable def ghTable3 (d : ℕ) : ℝ × ℝ :=
  match d with
  | 1 => (6, 4) | 2 => (15.23, 12) | _ => (47.8, 40)

/-- numerator and denominator of the reciprocal degrees of freedom -/
noncomputable def ghInv (alpha : ℤ) (d m N : ℕ) (overlapping modified : Bool) : ℝ × ℝ :=
  let M := ghM d m N overlapping modified
  let S := ghS m overlapping
  let J := ghJ d m N overlapping modified
  let r := ghR d m N overlapping modified
  if modified then
    if J ≤ 100 then (ghSum J M S (.fin 1) alpha d, ghSz (.fin 1) alpha d 0 ^ 2 * M)
    else if d + 1 < r then ((ghTable1 alpha d).1 - (ghTable1 alpha d).2 / r, r)
    else (ghSum 100 100 (100 / r) (.fin 1) alpha d, ghSz (.fin 1) alpha d 0 ^ 2 * 100)
  else if alpha ≤ 0 then
    if J ≤ 100 then
      if m * (d + 1) ≤ 100 then (ghSum J M S (.fin m) alpha d, ghSz (.fin m) alpha d 0 ^ 2 * M)
      else (ghSum J M S .inf alpha d, ghSz .inf alpha d 0 ^ 2 * M)
    else if d + 1 < r then ((ghTable2 alpha d).1 - (ghTable2 alpha d).2 / r, r)
    else (ghSum 100 100 (100 / r) .inf alpha d, ghSz .inf alpha d 0 ^ 2 * 100)
  else if alpha = 1 then
    if J ≤ 100 then (ghSum J M S (.fin m) 1 d, ghSz (.fin m) 1 d 0 ^ 2 * M)
    else if d + 1 < r then
      ((ghTable2 1 d).1 - (ghTable2 1 d).2 / r, ((ghTable3 d).1 + (ghTable3 d).2 * log m) ^ 2 * r)
    else (ghSum 100 100 (100 / r) (.fin (100 / r)) 1 d,
      ((ghTable3 d).1 + (ghTable3 d).2 * log m) ^ 2 * 100)
  else ((4 * d).choose (2 * d) / ((2 * d).choose d : ℝ) ^ 2 - d / 2 / r, M)

end AT.Spec
