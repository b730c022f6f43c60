import Verif.Model.Nan
import Verif.Model.Api

/-!
# What the deviations make of NaN: specification
-/

namespace AT.Spec

/-- the functions whose behaviour on NaN is modelled -/
inductive NanFn
  | adev | oadev | mdev | tdev | hdev | ohdev | tierms | mtie
  deriving DecidableEq

/-- the call of the function on data without NaN -/
noncomputable def NanFn.run : NanFn → List ℝ → ℝ → String → TausArg → Py (DevOut ℝ)
  | .adev => AT.adev
  | .oadev => AT.oadev
  | .mdev => AT.mdev
  | .tdev => AT.tdev
  | .hdev => AT.hdev
  | .ohdev => AT.ohdev
  | .tierms => AT.tierms
  | .mtie => AT.mtie

/-- the call of the function on data that may contain NaN -/
noncomputable def NanFn.runNv : NanFn → List NV → ℝ → String → TausArg → Py NanOut
  | .adev => AT.adev_nv
  | .oadev => AT.oadev_nv
  | .mdev => AT.mdev_nv
  | .tdev => AT.tdev_nv
  | .hdev => AT.hdev_nv
  | .ohdev => AT.ohdev_nv
  | .tierms => AT.tierms_nv
  | .mtie => AT.mtie_nv

/-- the statistic of `N` phase samples with factor `m` is computed from sample `i`, among others:
the second differences `x[k] - 2 x[k+m] + x[k+2m]` for `adev` (at multiples of `m`) and `oadev`
(everywhere), the third differences for `hdev` and `ohdev`, the differences `x[k+m] - x[k]` for
`tierms`; the remaining statistics use every sample. -/
def Reads : NanFn → ℕ → ℕ → ℕ → Prop
  | .adev, N, m, i => ∃ k, k * m + 2 * m < N ∧ (i = k * m ∨ i = k * m + m ∨ i = k * m + 2 * m)
  | .oadev, N, m, i => ∃ k, k + 2 * m < N ∧ (i = k ∨ i = k + m ∨ i = k + 2 * m)
  | .hdev, N, m, i => ∃ k, k * m + 3 * m < N ∧
      (i = k * m ∨ i = k * m + m ∨ i = k * m + 2 * m ∨ i = k * m + 3 * m)
  | .ohdev, N, m, i => ∃ k, k + 3 * m < N ∧ (i = k ∨ i = k + m ∨ i = k + 2 * m ∨ i = k + 3 * m)
  | .tierms, N, m, i => ∃ k, k + m < N ∧ (i = k ∨ i = k + m)
  | .mdev, N, _, i => i < N
  | .tdev, N, _, i => i < N
  | .mtie, N, _, i => i < N

/-- no sample used for factor `m` is NaN -/
def Clean (fn : NanFn) (d : List NV) (m : ℕ) : Prop :=
  ∀ i, Reads fn d.length m i → d[i]? ≠ some none

/-- `x` is `d` with every NaN replaced by some number -/
def Completes (d : List NV) (x : List ℝ) : Prop :=
  List.Forall₂ (fun v a => v = none ∨ v = some a) d x

open Classical in
/-- The two calls raise the same exception, or return the same averaging times and counts, and in
the row of factor `m` the deviation is the same number if `G m` holds and NaN otherwise; the same
for the error bar with `Ge m`. -/
def SameUpToNan (rate : ℝ) (G Ge : ℕ → Prop) (r : Py (DevOut ℝ)) (r' : Py NanOut) : Prop :=
  (∃ e, r = .error e ∧ r' = .error e) ∨
  ∃ rows : List (ℕ × ℝ × ℝ × ℤ),
    r = .ok ⟨rows.map (fun w => w.1 / rate), rows.map (fun w => w.2.1),
      .arr (rows.map (fun w => w.2.2.1)), rows.map (fun w => w.2.2.2)⟩ ∧
    r' = .ok ⟨rows.map (fun w => w.1 / rate),
      rows.map (fun w => if G w.1 then some w.2.1 else none),
      rows.map (fun w => if Ge w.1 then some w.2.2.1 else none), rows.map (fun w => w.2.2.2)⟩

/-- a NaN anywhere in the data reaches the row of factor `m` at least when `span * m ≤ N` -/
def NanFn.span : NanFn → ℕ
  | .oadev => 3
  | .ohdev => 4
  | .tierms => 2
  | _ => 1

end AT.Spec
