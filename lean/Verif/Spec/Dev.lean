import Verif.Spec.Tau
import Mathlib.Analysis.Real.Sqrt

/-!
# Textbook formulas of the statistics (NIST SP1065 and the papers cited in the code)

`x : ℕ → ℝ` is the phase sequence, of which `x 0 .. x (N-1)` are used, `m` the
averaging factor and `τ = m τ₀` the averaging time.
-/

namespace AT.Spec

open Finset Real

/-- the data list seen as a sequence -/
def seq (l : List ℝ) : ℕ → ℝ := fun i => l.getD i 0

/-- second difference at distance `m` -/
def d2 (x : ℕ → ℝ) (m i : ℕ) : ℝ := x (i + 2 * m) - 2 * x (i + m) + x i

/-- third difference at distance `m` -/
def d3 (x : ℕ → ℝ) (m i : ℕ) : ℝ := x (i + 3 * m) - 3 * x (i + 2 * m) + 3 * x (i + m) - x i

/-- root of a variance estimate: sum of squares over normalisation -/
noncomputable def rms (n : ℕ) (f : ℕ → ℝ) (norm : ℝ) : ℝ := √((∑ i ∈ range n, f i ^ 2) / norm)

/-- overlapping Allan deviation, SP1065 eqn (11):
`σ² = 1/(2 τ² (N-2m)) Σ (x_{i+2m} - 2 x_{i+m} + x_i)²` -/
noncomputable def oadev (x : ℕ → ℝ) (N m : ℕ) (τ : ℝ) : ℝ :=
  rms (N - 2 * m) (d2 x m) (2 * τ ^ 2 * (N - 2 * m))

/-- number of points left when only every `m`-th of `N` is kept -/
def decimated (N m : ℕ) : ℕ := (N - 1) / m + 1

/-- Allan deviation, SP1065 eqn (7), on the decimated sequence `y_k = x_{k m}` of `L` points:
`σ² = 1/(2 τ² (L-2)) Σ (y_{k+2} - 2 y_{k+1} + y_k)²` -/
noncomputable def adev (x : ℕ → ℝ) (N m : ℕ) (τ : ℝ) : ℝ :=
  let L := decimated N m
  rms (L - 2) (d2 (fun k => x (k * m)) 1) (2 * τ ^ 2 * (L - 2))

/-- modified Allan deviation, SP1065 eqn (14)/(15):
`σ² = 1/(2 m² τ² (N-3m+1)) Σ_j (Σ_{i=j}^{j+m-1} (x_{i+2m} - 2 x_{i+m} + x_i))²` -/
noncomputable def mdev (x : ℕ → ℝ) (N m : ℕ) (τ : ℝ) : ℝ :=
  rms (N - 3 * m + 1) (fun j => ∑ i ∈ range m, d2 x m (j + i))
    (2 * m ^ 2 * τ ^ 2 * (N - 3 * m + 1))

/-- time deviation: `τ/√3` times the modified Allan deviation -/
noncomputable def tdev (x : ℕ → ℝ) (N m : ℕ) (τ : ℝ) : ℝ := τ / √3 * mdev x N m τ

/-- overlapping Hadamard deviation, SP1065 eqn (20) -/
noncomputable def ohdev (x : ℕ → ℝ) (N m : ℕ) (τ : ℝ) : ℝ :=
  rms (N - 3 * m) (d3 x m) (6 * τ ^ 2 * (N - 3 * m))

/-- Hadamard deviation, SP1065 eqn (18), on the decimated sequence -/
noncomputable def hdev (x : ℕ → ℝ) (N m : ℕ) (τ : ℝ) : ℝ :=
  let L := decimated N m
  rms (L - 3) (d3 (fun k => x (k * m)) 1) (6 * τ ^ 2 * (L - 3))

/-- data extended by odd reflection about both end points (total deviation):
index `j` may be negative or exceed `N-1` -/
def reflect (x : ℕ → ℝ) (N : ℕ) (j : ℤ) : ℝ :=
  if j < 0 then 2 * x 0 - x (-j).toNat
  else if j < N then x j.toNat
  else 2 * x (N - 1) - x (2 * (N - 1) - j).toNat

/-- total deviation, SP1065 eqn (25): the sum runs over the inner points `1 .. N-2` -/
noncomputable def totdev (x : ℕ → ℝ) (N m : ℕ) (τ : ℝ) : ℝ :=
  rms (N - 2) (fun k => reflect x N (k + 1 - m) - 2 * reflect x N (k + 1) + reflect x N (k + 1 + m))
    (2 * τ ^ 2 * (N - 2))

/-- slope of the `3m`-point sequence `s` (points spaced by `dt`) from the means of its
first and last `h = ⌊3m/2⌋` points, whose centres are `3m - h` points apart -/
noncomputable def halfSlope (s : ℕ → ℝ) (m : ℕ) (dt : ℝ) : ℝ :=
  let h := 3 * m / 2
  ((∑ k ∈ range h, s (3 * m - h + k)) / h - (∑ k ∈ range h, s k) / h) / ((3 * m - h : ℕ) * dt)

/-- even (uninverted) reflection of `L` points at both ends, `3 L` points in total -/
def mirror (s : ℕ → ℝ) (L j : ℕ) : ℝ :=
  if j < L then s (L - 1 - j) else if j < 2 * L then s (j - L) else s (3 * L - 1 - j)

/-- mean over the `6m` second differences of `m`-point averages of the detrended and
mirrored `3m`-point subsequence `s` -/
noncomputable def totTerm (s : ℕ → ℝ) (m : ℕ) : ℝ :=
  let e := mirror (fun k => s k - halfSlope s m 1 * k) (3 * m)
  (∑ j ∈ range (6 * m), ((∑ k ∈ range m, d2 e m (j + k)) / m) ^ 2) / (6 * m)

/-- modified total deviation, SP1065 eqn (27) -/
noncomputable def mtotdev (x : ℕ → ℝ) (N m : ℕ) (τ : ℝ) : ℝ :=
  √((∑ i ∈ range (N - 3 * m + 1), totTerm (fun k => x (i + k)) m) / (2 * τ ^ 2 * (N - 3 * m + 1)))

/-- Hadamard total deviation of `N` frequency points `y`, SP1065 eqn (29) -/
noncomputable def htotdev (y : ℕ → ℝ) (N m : ℕ) : ℝ :=
  √((∑ i ∈ range (N - 3 * m + 1), totTerm (fun k => y (i + k)) m) / (6 * (N - 3 * m + 1)))

/-- THEO1, SP1065 eqn (30) -/
noncomputable def theo1 (x : ℕ → ℝ) (N m : ℕ) (τ : ℝ) : ℝ :=
  √((∑ i ∈ range (N - m), ∑ d ∈ range (m / 2),
      ((x i - x (i + m / 2 - d)) + (x (i + m) - x (i + m / 2 + d))) ^ 2 / ((m / 2 : ℕ) - d))
    / (3 / 4 * (N - m) * τ ^ 2))

/-- rms time interval error -/
noncomputable def tierms (x : ℕ → ℝ) (N m : ℕ) : ℝ :=
  rms (N - m) (fun i => x (i + m) - x i) (N - m)

/-- maximum time interval error: the largest `|x_j - x_i|` with `|j - i| ≤ m` -/
noncomputable def mtie (x : ℕ → ℝ) (N m : ℕ) : ℝ :=
  sSup {d : ℝ | ∃ i j : ℕ, i ≤ j ∧ j ≤ i + m ∧ j < N ∧ d = |x j - x i|}

/-- parabolic deviation, Vernotte 2015/2020; equal to the overlapping Allan deviation at `m = 1` -/
noncomputable def pdev (x : ℕ → ℝ) (N m : ℕ) (τ : ℝ) : ℝ :=
  if m = 1 then oadev x N 1 τ
  else √(72 * (∑ i ∈ range (N - 2 * m),
      (∑ k ∈ range m, ((m - 1) / 2 - (k : ℝ)) * (x (i + k) - x (i + m + k))) ^ 2)
    / ((N - 2 * m) * (m : ℝ) ^ 4 * τ ^ 2))

/-- Groslambert codeviation: root of the absolute value of the mean product of the second
differences -/
noncomputable def gcodev (x y : ℕ → ℝ) (N m : ℕ) (τ : ℝ) : ℝ :=
  √(|∑ i ∈ range (N - 2 * m), d2 x m i * d2 y m i| / (2 * (N - 2 * m))) / τ

end AT.Spec
