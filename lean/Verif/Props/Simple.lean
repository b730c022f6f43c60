import Verif.Lemmas.Simple
import Verif.Props.Adev

/-!
# C14, C18, C19: TIERMS, PDEV and GCODEV compute their defining formulas
-/

namespace AT

open Spec Real

/-- C14: `tierms` returns the table of the rms time interval error; its error bars are 0. -/
theorem tierms_phase_eq (x : List ℝ) (rate : ℝ) (taus : TausArg) :
    tierms x rate "phase" taus =
      table x.length rate taus false x.length
        (fun m => Spec.tierms (seq x) x.length m) (fun _ => 0)
        (fun m => (x.length : ℤ) - m) := by
  have h := driver_eq x rate taus false (-1) (fun mj => tierms_body x mj)
    (fun m => Spec.tierms (seq x) x.length m) (fun _ => 0) (fun m => (x.length : ℤ) - m) ?_
  · rw [effMax_default] at h
    rw [← h]
    simp only [tierms, input_to_phase, if_true, ok_bind, tau_generator_eq]
  · intro _ m hm0 hmN _ _
    exact ⟨_, tierms_body_row x m hm0 hmN, Iff.rfl, fun _ => rfl⟩

example : tierms [0, 1, 0, 3, 1] 2 "phase" (.list [(2 : ℕ) / 2])
    = .ok ⟨[(2 : ℕ) / 2], [√(5 / 3)], .arr [0], [3]⟩ := by
  rw [tierms_phase_eq _ _ , table_single _ _ (by norm_num) _ _ _ _ _ 2 (by norm_num) (by simp)
    (by norm_num) (by simp) (by norm_num)]
  simp [Spec.tierms, rms, seq, Finset.sum_range_succ]
  norm_num

/-- `pdev` for any rate: a negative rate only changes the sign of the point at `m = 1` -/
theorem pdev_phase_any (x : List ℝ) (rate : ℝ) (taus : TausArg) :
    pdev x rate "phase" taus =
      table x.length rate taus false x.length
        (fun m => (if m = 1 then rateSign rate else 1) * Spec.pdev (seq x) x.length m (m / rate))
        (fun m => (if m = 1 then rateSign rate else 1) * Spec.pdev (seq x) x.length m (m / rate)
          / √((x.length : ℝ) - 2 * m))
        (fun m => (x.length : ℤ) - 2 * m) := by
  have h := driver_eq x rate taus false (-1) (fun mj => calc_pdev_phase x rate mj)
    (fun m => (if m = 1 then rateSign rate else 1) * Spec.pdev (seq x) x.length m (m / rate))
    (fun m => (if m = 1 then rateSign rate else 1) * Spec.pdev (seq x) x.length m (m / rate)
          / √((x.length : ℝ) - 2 * m))
    (fun m => (x.length : ℤ) - 2 * m) ?_
  · rw [effMax_default] at h
    rw [← h]
    simp only [pdev, input_to_phase, if_true, ok_bind, tau_generator_eq]
    cases factors x.length rate taus false (effMax x.length (-1)) <;> simp only [ok_bind, error_bind]
  · intro hr0 m hm0 hmN _ _
    by_cases hm1 : m = 1
    · subst hm1
      obtain ⟨row, h1, h2⟩ := calc_oadev_row x rate hr0 1 hm0 hmN
      refine ⟨row, by rw [calc_pdev_phase_one, h1], h2.1, fun hn => ?_⟩
      rw [h2.2 hn]
      simp [Spec.pdev]
    · obtain ⟨row, h1, h2, h3⟩ := calc_pdev_phase_row x rate m hm1 hm0
      simp only [if_neg hm1, one_mul]
      refine ⟨row, h1, ?_, fun hn => h3 (by omega)⟩
      rcases Nat.lt_or_ge (2 * m) x.length with h | h
      · rw [h3 h]
      · rw [h2 h]; omega

/-- C18: `pdev` returns the table of the parabolic deviation, `n = N - 2m`. -/
theorem pdev_phase_eq (x : List ℝ) (rate : ℝ) (hr : 0 ≤ rate) (taus : TausArg) :
    pdev x rate "phase" taus =
      table x.length rate taus false x.length
        (fun m => Spec.pdev (seq x) x.length m (m / rate))
        (fun m => Spec.pdev (seq x) x.length m (m / rate) / √((x.length : ℝ) - 2 * m))
        (fun m => (x.length : ℤ) - 2 * m) := by
  rw [pdev_phase_any, rateSign_of_nonneg hr]
  simp only [ite_self, one_mul]

example : pdev [0, 1, 0, 1, 3, -9] 2 "phase" (.list [(2 : ℕ) / 2])
    = .ok ⟨[(2 : ℕ) / 2], [√(81 / 16)], .arr [√(81 / 16) / √2], [2]⟩ := by
  rw [pdev_phase_eq _ _ (by norm_num), table_single _ _ (by norm_num) _ _ _ _ _ 2 (by norm_num) (by simp)
    (by norm_num) (by simp) (by norm_num)]
  simp [Spec.pdev, seq, Finset.sum_range_succ]
  norm_num

/-- C19: `gcodev` of two series of equal length returns the table of the Groslambert
codeviation. -/
theorem gcodev_phase_eq (x y : List ℝ) (hlen : x.length = y.length) (rate : ℝ)
    (taus : TausArg) :
    gcodev x y rate "phase" taus =
      table x.length rate taus false x.length
        (fun m => Spec.gcodev (seq x) (seq y) x.length m (m / rate))
        (fun m => Spec.gcodev (seq x) (seq y) x.length m (m / rate) / √((x.length : ℝ) - 2 * m))
        (fun m => (x.length : ℤ) - 2 * m) := by
  have h := driver_eq x rate taus false (-1) (fun mj => calc_gcodev_phase x y rate mj 1)
    (fun m => Spec.gcodev (seq x) (seq y) x.length m (m / rate))
    (fun m => Spec.gcodev (seq x) (seq y) x.length m (m / rate) / √((x.length : ℝ) - 2 * m))
    (fun m => (x.length : ℤ) - 2 * m) ?_
  · rw [effMax_default] at h
    rw [← h]
    simp only [gcodev, input_to_phase, if_true, ok_bind, tau_generator_eq, ← hlen]
    cases factors x.length rate taus false (effMax x.length (-1)) <;> simp only [ok_bind, error_bind]
  · intro hr0 m hm0 hmN _ _
    obtain ⟨row, h1, h2, h3⟩ := calc_gcodev_phase_row x y rate m hm0 hmN hlen
    refine ⟨row, h1, by rw [h2]; omega, fun hn => ?_⟩
    have hN : 2 * m < x.length := by omega
    obtain ⟨h4, h5⟩ := h3 hN
    have hc : ((x.length - 2 * m : ℕ) : ℝ) = (x.length : ℝ) - 2 * m := by
      rw [Nat.cast_sub hN.le]; push_cast; ring
    have hd : row.1 = Spec.gcodev (seq x) (seq y) x.length m (m / rate) := by
      rw [h4, hc]
      unfold Spec.gcodev
      rw [div_div_eq_mul_div, div_mul_eq_mul_div]
    rw [hc, hd] at h5
    have h6 : row.2.2 = (x.length : ℤ) - 2 * m := by rw [h2]; omega
    exact Prod.ext hd (Prod.ext h5 h6)

end AT
