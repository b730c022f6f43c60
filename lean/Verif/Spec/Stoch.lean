import Verif.Spec.Api
import Mathlib.Probability.Moments.Covariance
import Mathlib.Probability.Moments.Variance
import Mathlib.Probability.Distributions.Gaussian.Real
import Mathlib.Probability.HasLaw

/-!
# Random data: white noise and mean squares

The samples are random variables on a probability space `P`.  Nothing is assumed about their
distribution; independence is not needed, only that different samples are uncorrelated.
-/

namespace AT.Spec

open MeasureTheory ProbabilityTheory

variable {Ω : Type} [MeasurableSpace Ω]

/-- `W 0 .. W (N-1)` is white noise: square integrable, of mean `c` and variance `s2`, and
different samples are uncorrelated -/
structure White (P : Measure Ω) (W : ℕ → Ω → ℝ) (N : ℕ) (c s2 : ℝ) : Prop where
  memLp : ∀ i < N, MemLp (W i) 2 P
  mean : ∀ i < N, ∫ ω, W i ω ∂P = c
  cov : ∀ i < N, ∀ j < N, cov[W i, W j; P] = if i = j then s2 else 0

/-- the square of `d` has the expected value `v` -/
def MeanSq (P : Measure Ω) (d : Ω → ℝ) (v : ℝ) : Prop :=
  Integrable (fun ω => d ω ^ 2) P ∧ ∫ ω, d ω ^ 2 ∂P = v

/-- For every `taus` argument: if the deviation function `fn` succeeds on the random data for one
outcome `ω₀`, it succeeds for all outcomes and reports the same factors `ms`, and the deviation
`D m` that it reports at the factor `m`, a function of the outcome, satisfies `Q m`. -/
def Reports (fn : DevName) (data : Ω → List ℝ) (rate : ℝ) (data_type : String) (Q : ℕ → (Ω → ℝ) → Prop) : Prop :=
  ∀ (taus : TausArg) (ω₀ : Ω) (o₀ : DevOut ℝ), fn.run (data ω₀) rate data_type taus = .ok o₀ →
    ∃ (ms : List ℕ) (D : ℕ → Ω → ℝ), o₀.taus = ms.map (fun (m : ℕ) => (m : ℝ) / rate) ∧
      (∀ ω, ∃ errs ns, fn.run (data ω) rate data_type taus =
        .ok ⟨ms.map (fun (m : ℕ) => (m : ℝ) / rate), ms.map (fun m => D m ω), errs, ns⟩) ∧
      ∀ m ∈ ms, 0 < m ∧ Q m (D m)

/-- the square of the deviation that `fn` reports at the factor `m` has the expected value `v m` -/
def Expects (P : Measure Ω) (fn : DevName) (data : Ω → List ℝ) (rate : ℝ) (data_type : String)
    (v : ℕ → ℝ) : Prop :=
  Reports fn data rate data_type (fun m D => MeanSq P D (v m))

/-- `W 0, W 1, ..` is normal noise: independent samples, each normally distributed with mean 0 and
variance `s2` -/
structure NormalNoise (P : Measure Ω) (W : ℕ → Ω → ℝ) (s2 : NNReal) : Prop where
  indep : iIndepFun W P
  law : ∀ i, HasLaw (W i) (gaussianReal 0 s2) P

/-- `V` has `e` equivalent degrees of freedom: `V` has a positive variance and
`e = 2 E[V]² / Var[V]`, as for a multiple of a chi-square variable with `e` degrees of freedom -/
def HasEdf (P : Measure Ω) (V : Ω → ℝ) (e : ℝ) : Prop :=
  MemLp V 2 P ∧ 0 < Var[V; P] ∧ e = 2 * (∫ ω, V ω ∂P) ^ 2 / Var[V; P]

end AT.Spec
