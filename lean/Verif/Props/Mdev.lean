import Verif.Lemmas.Mdev

/-!
# C08, C22: MDEV and TDEV compute their defining formulas
-/

namespace AT

open Spec Real

/-- C08: `mdev` on phase data returns exactly the table of the modified Allan deviation,
with error `σ/√n` and `n = N - 3m + 1` (a factor `m` with `N ≤ 3m` is dropped). -/
theorem mdev_phase_eq (x : List ℝ) (rate : ℝ) (taus : TausArg) :
    mdev x rate "phase" taus =
      table x.length rate taus false x.length
        (fun m => Spec.mdev (seq x) x.length m (m / rate))
        (fun m => Spec.mdev (seq x) x.length m (m / rate) / √((x.length : ℝ) - 3 * m + 1))
        (fun m => (x.length : ℤ) - 3 * m + 1) := by
  simp only [mdev, input_to_phase, if_true, ok_bind, tau_generator_eq, effMax_default, table]
  cases h : factors x.length rate taus false x.length with
  | error e => simp only [error_bind]
  | ok ms =>
    simp only [ok_bind]
    apply runTaus_eq
    intro i m hm
    obtain ⟨hm0, hmN, _⟩ := factors_mem h (List.mem_of_getElem? hm)
    have hr := factors_ok_rate h
    obtain ⟨row, h1, h2, h3⟩ := mdev_body_row x (ms.map (fun (m : ℕ) => (m : ℝ) / rate)) i m
      ((m : ℝ) / rate) (by simp [hm])
    refine ⟨row, h1, by rw [h2]; omega, fun hn => ?_⟩
    have hN : 3 * m < x.length := by omega
    obtain ⟨h4, h5⟩ := h3 hN
    have hc : ((x.length - 3 * m + 1 : ℕ) : ℝ) = (x.length : ℝ) - 3 * m + 1 := by
      rw [Nat.cast_add, Nat.cast_sub hN.le]; push_cast; ring
    have hd : row.1 = Spec.mdev (seq x) x.length m (m / rate) := by
      rw [h4, hc]
      unfold Spec.mdev rms modTerm
      congr 2
      ring
    rw [hc, hd] at h5
    have h6 : row.2.2 = (x.length : ℤ) - 3 * m + 1 := by rw [h2]; omega
    exact Prod.ext hd (Prod.ext h5 h6)

example : mdev [0, 1, 0, 1, 3, -9, 1] 2 "phase" (.list [(2 : ℕ) / 2])
    = .ok ⟨[(2 : ℕ) / 2], [√(137 / 8)], .arr [√(137 / 8) / √2], [2]⟩ := by
  rw [mdev_phase_eq _ _ , table_single _ _ (by norm_num) _ _ _ _ _ 2 (by norm_num) (by simp)
    (by norm_num) (by simp) (by norm_num [decimated])]
  simp [Spec.mdev, rms, d2, seq, Finset.sum_range_succ]
  norm_num

/-- the rescaling of a table by `τ/√3` -/
theorem scaleToTdev_table (N : ℕ) (rate : ℝ) (taus : TausArg) (even : Bool) (maxM : ℝ)
    (dev err : ℕ → ℝ) (n : ℕ → ℤ) :
    (table N rate taus even maxM dev err n >>= scaleToTdev) =
      table N rate taus even maxM (fun m => (m / rate) / √3 * dev m)
        (fun m => (m / rate) / √3 * dev m / √(n m : ℝ)) n := by
  unfold table
  cases factors N rate taus even maxM with
  | error e => simp only [error_bind]
  | ok ms =>
    simp only [ok_bind]
    unfold sweep
    simp only
    split_ifs with h
    · simp only [error_bind]
    · have key : ∀ l : List ℕ, scaleToTdev ⟨l.map (fun (m : ℕ) => (m : ℝ) / rate), l.map dev,
          .arr (l.map err), l.map n⟩ = .ok ⟨l.map (fun (m : ℕ) => (m : ℝ) / rate),
            l.map (fun (m : ℕ) => (m : ℝ) / rate / √3 * dev m),
            .arr (l.map (fun (m : ℕ) => (m : ℝ) / rate / √3 * dev m / √(n m : ℝ))), l.map n⟩ := by
        intro l
        have z1 : ∀ {α β γ : Type} (F : α → β → γ) (f : ℕ → α) (g : ℕ → β),
            vop F (l.map f) (l.map g) = .ok (l.map (fun m => F (f m) (g m))) := by
          intro α β γ F f g
          unfold vop
          rw [if_pos (by simp)]
          congr 1
          rw [List.zipWith_map]
          simp
        unfold scaleToTdev
        simp only [vmul, z1, ok_bind, List.map_map, Function.comp_def]
        congr 2
        · apply List.map_congr_left; intro m _; ring
        · congr 1
          apply List.map_congr_left; intro m _; ring
      simp only [ok_bind]
      exact key _

/-- C22: `tdev` on phase data returns exactly the table of `τ/√3 · MDEV`, with error
`TDEV/√n`. -/
theorem tdev_phase_eq (x : List ℝ) (rate : ℝ) (taus : TausArg) :
    tdev x rate "phase" taus =
      table x.length rate taus false x.length
        (fun m => Spec.tdev (seq x) x.length m (m / rate))
        (fun m => Spec.tdev (seq x) x.length m (m / rate) / √((x.length : ℝ) - 3 * m + 1))
        (fun m => (x.length : ℤ) - 3 * m + 1) := by
  have h : tdev x rate "phase" taus = (mdev x rate "phase" taus >>= scaleToTdev) := by
    unfold tdev
    have : input_to_phase x rate "phase" = .ok x := by simp [input_to_phase]
    rw [this]
    rfl
  rw [h, mdev_phase_eq, scaleToTdev_table]
  unfold Spec.tdev
  congr 1
  funext m
  push_cast
  rfl

example : tdev [0, 1, 0, 1, 3, -9, 1] 2 "phase" (.list [(2 : ℕ) / 2])
    = .ok ⟨[(2 : ℕ) / 2], [1 / √3 * √(137 / 8)], .arr [1 / √3 * √(137 / 8) / √2], [2]⟩ := by
  rw [tdev_phase_eq _ _ , table_single _ _ (by norm_num) _ _ _ _ _ 2 (by norm_num) (by simp)
    (by norm_num) (by simp) (by norm_num)]
  simp [Spec.tdev, Spec.mdev, rms, d2, seq, Finset.sum_range_succ]
  norm_num

end AT
