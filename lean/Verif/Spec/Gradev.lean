import Verif.Spec.Dev
import Verif.Model.Ci

/-!
# Specification of the gap-resistant Allan deviation

`x : ℕ → Option ℝ` is the phase with gaps (`none`).
-/

namespace AT.Spec

open Finset Real

/-- the data list seen as a sequence with gaps -/
def seqNV (l : List NV) : ℕ → NV := fun i => l.getD i none

/-- number of samples that are present -/
def present (x : ℕ → NV) (N : ℕ) : ℕ := ((range N).filter (fun i => (x i).isSome)).card

/-- positions whose second difference at distance `m` has its three samples present -/
def complete (x : ℕ → NV) (N m : ℕ) : Finset ℕ :=
  (range (N - 2 * m)).filter (fun i => (x i).isSome ∧ (x (i + m)).isSome ∧ (x (i + 2 * m)).isSome)

/-- values of the samples that are present -/
noncomputable def val (x : ℕ → NV) : ℕ → ℝ := fun i => (x i).getD 0

/-- overlapping Allan deviation over the complete second differences only -/
noncomputable def gradev (x : ℕ → NV) (N m : ℕ) (τ : ℝ) : ℝ :=
  √((∑ i ∈ complete x N m, d2 (val x) m i ^ 2) / (2 * τ ^ 2 * (complete x N m).card))

/-- output table with two error arrays -/
def sweep2 (ms : List ℕ) (tau dev : ℕ → ℝ) (errL errH : ℕ → NV) (n : ℕ → ℤ) : Py (DevOut NV) :=
  let kept := ms.filter (fun m => decide (1 < n m))
  if kept = [] then .error .userWarning
  else .ok ⟨kept.map tau, kept.map dev, .lst [kept.map errL, kept.map errH], kept.map n⟩

end AT.Spec
