import Verif.Lemmas.Theo1

/-!
# C13: THEO1 evaluates the Theo1 double sum over even averaging factors only
-/

namespace AT

open Spec Real

/-- C13: `theo1` returns exactly the table of Theo1 over the even admissible factors,
`n = (N-m)·m/2` and error `σ/√(N-m)`; no index error and no assertion occurs. -/
theorem theo1_phase_eq (x : List ℝ) (rate : ℝ) (hr : rate ≠ 0) (taus : TausArg) :
    theo1 x rate "phase" taus =
      table x.length rate taus true x.length
        (fun m => Spec.theo1 (seq x) x.length m (m / rate))
        (fun m => Spec.theo1 (seq x) x.length m (m / rate) / √((x.length : ℝ) - m))
        (fun m => ((x.length : ℤ) - m) * (m / 2 : ℕ)) := by
  have h := driver_eq x rate taus true (-1) (fun mj => theo1_body x (1 / rate) mj)
    (fun m => Spec.theo1 (seq x) x.length m (m / rate))
    (fun m => Spec.theo1 (seq x) x.length m (m / rate) / √((x.length : ℝ) - m))
    (fun m => ((x.length : ℤ) - m) * (m / 2 : ℕ)) ?_
  · rw [effMax_default] at h
    rw [← h]
    simp only [theo1, input_to_phase, if_true, ok_bind, tau_generator_eq, if_neg hr]
    cases factors x.length rate taus true (effMax x.length (-1)) <;> simp only [ok_bind, error_bind]
  · intro _ m hm0 hmN _ he
    exact ⟨_, theo1_body_row x rate m (he rfl) hm0 hmN, Iff.rfl, fun _ => rfl⟩

example : theo1 [0, 1, 0, 3, 1] 2 "phase" (.list [(2 : ℕ) / 2])
    = .ok ⟨[(2 : ℕ) / 2], [√20], .arr [√20 / √3], [3]⟩ := by
  rw [theo1_phase_eq _ _ (by norm_num), table_single _ _ (by norm_num) _ _ _ _ _ 2 (by norm_num) (by simp)
    (by norm_num) (by simp) (by norm_num)]
  simp [Spec.theo1, seq, Finset.sum_range_succ]
  norm_num

end AT
