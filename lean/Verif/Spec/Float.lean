import Mathlib.Analysis.Real.Sqrt
import Verif.Spec.Tau

/-!
# Specification of floating-point rounding

`FloatRound fl` is the standard model of floating-point arithmetic for IEEE double
precision: the result of one operation is the exact result up to a relative error of `2^-53`.
It holds for round to nearest as long as no result overflows or underflows.  `binary64` is
round to nearest, ties to even, with 53 bits and unlimited exponents.
-/

namespace AT.Spec

/-- unit roundoff of IEEE double precision -/
noncomputable def unitRoundoff : ℝ := 1 / 2 ^ 53

/-- rounding with relative error at most `2^-53` -/
def FloatRound (fl : ℝ → ℝ) : Prop := ∀ x, |fl x - x| ≤ unitRoundoff * |x|

/-- `y` is `x` rounded to 53 significant bits, ties to even: a multiple `k` of `2^e`, where
`e` is chosen such that `2^52 ≤ |x| / 2^e < 2^53`, and `k` is `x / 2^e` rounded to an integer. -/
def IsBinary64 (x y : ℝ) : Prop :=
  (x = 0 ∧ y = 0) ∨ ∃ e k : ℤ, (2 : ℝ) ^ (52 : ℕ) ≤ |x| / (2 : ℝ) ^ e ∧
    |x| / (2 : ℝ) ^ e < (2 : ℝ) ^ (53 : ℕ) ∧ IsRound (x / (2 : ℝ) ^ e) k ∧ y = k * (2 : ℝ) ^ e

/-- `s` is the sum of the numbers in the list, computed with rounded additions in any order and
any association (numpy's pairwise summation is one of them) -/
inductive FloatSum (fl : ℝ → ℝ) : List ℝ → ℝ → Prop
  | nil : FloatSum fl [] 0
  | single (x : ℝ) : FloatSum fl [x] x
  | add {l l₁ l₂ : List ℝ} {a b : ℝ} : l₁ ≠ [] → l₂ ≠ [] → l.Perm (l₁ ++ l₂) →
      FloatSum fl l₁ a → FloatSum fl l₂ b → FloatSum fl l (fl (a + b))

/-- the `taus` argument is a keyword other than "log10", or numbers within a quarter of a multiple
(up to `2^49`) of the sampling interval -/
def SafeTaus (rate : ℝ) : TausArg → Prop
  | .none => True
  | .str s => s ≠ "log10"
  | .list l => ∀ t ∈ l, ∃ k : ℤ, |(k : ℝ)| ≤ 2 ^ 49 ∧ |t * rate - k| ≤ 1 / 4
  | .array l => ∀ t ∈ l, ∃ k : ℤ, |(k : ℝ)| ≤ 2 ^ 49 ∧ |t * rate - k| ≤ 1 / 4

/-- a computed table `o` agrees with the exact table `o'`: the same numbers of terms, taus
up to one rounding, deviations up to the error `bound tau dev n`, error bars `dev/√n`
up to three roundings -/
structure FloatClose (bound : ℝ → ℝ → ℤ → ℝ) (o o' : DevOut ℝ) : Prop where
  ns : o.ns = o'.ns
  taus : List.Forall₂ (fun t t' => |t - t'| ≤ unitRoundoff * |t'|) o.taus o'.taus
  devs_len : o.devs.length = o'.taus.length ∧ o'.devs.length = o'.taus.length ∧
    o'.ns.length = o'.taus.length
  devs : ∀ i < o'.taus.length,
    |o.devs.getD i 0 - o'.devs.getD i 0| ≤ bound (o'.taus.getD i 0) (o'.devs.getD i 0) (o'.ns.getD i 0)
  errs : ∃ e, o.errs = .arr e ∧ e.length = o'.taus.length ∧ ∀ i < o'.taus.length,
    |e.getD i 0 - o.devs.getD i 0 / √(o.ns.getD i 0 : ℝ)| ≤
      4 * unitRoundoff * |o.devs.getD i 0 / √(o.ns.getD i 0 : ℝ)|

/-- the error of `adev` and `oadev` for phase values up to `B`: relative, twice the unit roundoff
times the number of terms plus 6; absolute, the unit roundoff times `10 B/tau` -/
noncomputable def adevBound (B tau dev : ℝ) (n : ℤ) : ℝ :=
  2 * ((n : ℝ) + 6) * unitRoundoff * dev + 10 * unitRoundoff * B / tau

/-- the same for `hdev` and `ohdev` -/
noncomputable def hdevBound (B tau dev : ℝ) (n : ℤ) : ℝ :=
  2 * ((n : ℝ) + 8) * unitRoundoff * dev + 15 * unitRoundoff * B / tau

/-- the same for `mdev` of `N` values.  The running sum collects the errors of up to `N` steps,
each of the size of the sum, which may be `8 N B`; `m = tau * rate`. -/
noncomputable def mdevBound (N : ℕ) (rate B tau dev : ℝ) (n : ℤ) : ℝ :=
  2 * ((n : ℝ) + 17) * unitRoundoff * dev +
    13 * N * (N + 1) * unitRoundoff * B / (tau * rate * tau)

/-- the error of a deviation of `N` frequency values at the given rate: a relative part as for
phase data, and an absolute part of `c N²` roundings of `F/(rate tau)` -/
noncomputable def freqBound (k c : ℝ) (N : ℕ) (rate F tau dev : ℝ) (n : ℤ) : ℝ :=
  2 * ((n : ℝ) + k) * unitRoundoff * dev + c * N ^ 2 * unitRoundoff * (F / rate) / tau

/-- the same for `mdev`, whose running sum collects further errors -/
noncomputable def mdevFreqBound (N : ℕ) (rate F tau dev : ℝ) (n : ℤ) : ℝ :=
  freqBound 17 19 N rate F tau dev n +
    83 * N ^ 3 * unitRoundoff * (F / rate) / (tau * rate * tau)

/-- the error of `tdev` of `N` phase values up to `B` -/
noncomputable def tdevBound (N : ℕ) (rate B tau dev : ℝ) (n : ℤ) : ℝ :=
  2 * ((n : ℝ) + 21) * unitRoundoff * dev + 8 * N * (N + 1) * unitRoundoff * B / (tau * rate)

/-- the error of `tdev` of `N` frequency values -/
noncomputable def tdevFreqBound (N : ℕ) (rate F tau dev : ℝ) (n : ℤ) : ℝ :=
  2 * ((n : ℝ) + 21) * unitRoundoff * dev + 12 * N ^ 2 * unitRoundoff * (F / rate) +
    50 * N ^ 3 * unitRoundoff * (F / rate) / (tau * rate)

/-- the same agreement, with error bars `errOf tau dev n` up to three roundings, where `tau` is the
exact averaging time and `dev` the computed deviation -/
structure FloatCloseE (bound errOf : ℝ → ℝ → ℤ → ℝ) (o o' : DevOut ℝ) : Prop where
  ns : o.ns = o'.ns
  taus : List.Forall₂ (fun t t' => |t - t'| ≤ unitRoundoff * |t'|) o.taus o'.taus
  devs_len : o.devs.length = o'.taus.length ∧ o'.devs.length = o'.taus.length ∧
    o'.ns.length = o'.taus.length
  devs : ∀ i < o'.taus.length,
    |o.devs.getD i 0 - o'.devs.getD i 0| ≤ bound (o'.taus.getD i 0) (o'.devs.getD i 0) (o'.ns.getD i 0)
  errs : ∃ e, o.errs = .arr e ∧ e.length = o'.taus.length ∧ ∀ i < o'.taus.length,
    |e.getD i 0 - errOf (o'.taus.getD i 0) (o.devs.getD i 0) (o'.ns.getD i 0)| ≤
      4 * unitRoundoff * |errOf (o'.taus.getD i 0) (o.devs.getD i 0) (o'.ns.getD i 0)|

/-- integers up to `2^53` are floating-point numbers -/
def IntExact (fl : ℝ → ℝ) : Prop := ∀ k : ℕ, k ≤ 2 ^ 53 → fl k = k

/-- the error of `totdev` for phase values up to `B` -/
noncomputable def totdevBound (B tau dev : ℝ) (n : ℤ) : ℝ :=
  2 * ((n : ℝ) + 12) * unitRoundoff * dev + 38 * unitRoundoff * B / tau

/-- the error of `pdev` for phase values up to `B`; `m = tau * rate` -/
noncomputable def pdevBound (rate B tau dev : ℝ) (n : ℤ) : ℝ :=
  2 * ((n : ℝ) + 18) * unitRoundoff * dev + 55 * (tau * rate + 6) * unitRoundoff * B / tau

/-- the error of `theo1` for `N` phase values up to `B` -/
noncomputable def theo1Bound (N : ℕ) (B tau dev : ℝ) (_n : ℤ) : ℝ :=
  2 * ((N : ℝ) + 19) * unitRoundoff * dev + 64 * unitRoundoff * B / tau

/-- the error of `tierms`: relative only -/
noncomputable def tiermsBound (_tau dev : ℝ) (n : ℤ) : ℝ :=
  2 * ((n : ℝ) + 4) * unitRoundoff * dev

/-- the error of `mtie`: one rounding -/
noncomputable def mtieBound (_tau dev : ℝ) (_n : ℤ) : ℝ := unitRoundoff * dev

/-- the error of `gcodev` for phase values up to `B₁` and `B₂`: the sum of products cancels, and the
root turns an error of the size of the unit roundoff into one of the size of its root -/
noncomputable def gcodevBound (B₁ B₂ tau dev : ℝ) (n : ℤ) : ℝ :=
  12 * unitRoundoff * dev + 5 * √(((n : ℝ) + 6) * unitRoundoff * B₁ * B₂) / tau

end AT.Spec
