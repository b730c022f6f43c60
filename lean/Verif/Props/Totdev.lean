import Verif.Lemmas.Totdev

/-!
# C10: TOTDEV computes the total deviation of the doubly reflected series
-/

namespace AT

open Spec Real

/-- C10: `totdev` on at least two phase points returns exactly the table of the total
deviation with `n = N - 2`; in particular no index is out of range and the length
assertion does not fire. -/
theorem totdev_phase_eq (x : List ℝ) (hN : 2 ≤ x.length) (rate : ℝ) (taus : TausArg) :
    totdev x rate "phase" taus =
      table x.length rate taus false x.length
        (fun m => Spec.totdev (seq x) x.length m (m / rate))
        (fun m => Spec.totdev (seq x) x.length m (m / rate) / √((x.length : ℝ) - 2))
        (fun _ => (x.length : ℤ) - 2) := by
  have h := driver_eq x rate taus false (-1)
    (fun mj => totdev_body (extTab (seq x) x.length) (x.length - 2) x.length rate mj)
    (fun m => Spec.totdev (seq x) x.length m (m / rate))
    (fun m => Spec.totdev (seq x) x.length m (m / rate) / √((x.length : ℝ) - 2))
    (fun _ => (x.length : ℤ) - 2) ?_
  · rw [effMax_default] at h
    rw [← h]
    simp only [totdev, input_to_phase, if_true, ok_bind, tau_generator_eq]
    cases factors x.length rate taus false (effMax x.length (-1)) <;>
      simp only [ok_bind, error_bind, totdev_extend_eq x hN]
  · intro _ m hm0 hmN _ _
    exact ⟨_, totdev_body_row (seq x) x.length rate m hm0 hmN, Iff.rfl, fun _ => rfl⟩

example : totdev [0, 1, 0, 3] 2 "phase" (.list [(2 : ℕ) / 2])
    = .ok ⟨[(2 : ℕ) / 2], [√9], .arr [√9 / √2], [2]⟩ := by
  rw [totdev_phase_eq _ (by simp), table_single _ _ (by norm_num) _ _ _ _ _ 2 (by norm_num) (by simp)
    (by norm_num) (by simp) (by norm_num)]
  simp [Spec.totdev, rms, reflect, seq, Finset.sum_range_succ]
  norm_num

/-- C10: `totdev` never returns on fewer than two phase points. -/
theorem totdev_short (x : List ℝ) (hN : x.length < 2) (rate : ℝ) (taus : TausArg) :
    ∃ e, totdev x rate "phase" taus = .error e := by
  simp only [totdev, input_to_phase, if_true, ok_bind, tau_generator_eq]
  cases factors x.length rate taus false (effMax x.length (-1)) with
  | error e => exact ⟨e, rfl⟩
  | ok ms =>
    simp only [ok_bind]
    match x, hN with
    | [], _ => exact ⟨.indexError, rfl⟩
    | [a], _ =>
      refine ⟨.valueError, ?_⟩
      have : totdev_extend [a] = .error .valueError := by
        simp [totdev_extend, pyGet, scaledOnes]
      rw [this]
      rfl

end AT
