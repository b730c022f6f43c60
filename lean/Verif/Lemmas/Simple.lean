import Verif.Lemmas.Adev

/-! # Single-factor lemmas for TIERMS, PDEV, GCODEV -/

namespace AT

open Spec Finset Real

theorem tierms_body_row (phase : List ℝ) (m : ℕ) (hm0 : 0 < m) (hmN : m < phase.length) :
    tierms_body phase m = .ok (Spec.tierms (seq phase) phase.length m, 0,
      (phase.length : ℤ) - m) := by
  set N := phase.length with hN
  set x := seq phase with hx
  have hp : phase = tab N x := eq_tab_seq phase
  unfold tierms_body
  rw [hp, sliceTo_neg _ _ hm0, sliceFrom_nat, tab_length, take_tab, drop_tab]
  have e1 : min (N - m) N = N - m := by omega
  rw [e1]
  have e2 : column_stack (tab (N - m) x) (tab (N - m) (fun i => x (m + i)))
      = .ok (tab (N - m) (fun i => (x i, x (m + i)))) := by
    unfold column_stack
    rw [if_pos (by simp)]
    congr 1
    apply tab_ext
    · simp
    · intro i hi
      rw [List.getElem?_zip_eq_some]
      exact ⟨by rw [tab_getElem?, if_pos hi], by rw [tab_getElem?, if_pos hi]⟩
  rw [e2]
  simp only [ok_bind, map_tab, vsub, vmul, vop_tab, npMean_tab, zero_div]
  congr 2
  unfold Spec.tierms rms
  congr 2
  · apply Finset.sum_congr rfl
    intro i _
    rw [max_sub_min_eq_abs, abs_mul_abs_self, Nat.add_comm m i]
    ring
  · rw [Nat.cast_sub hmN.le]

theorem linspace_index (m : ℕ) : npLinspace 0 ((m : ℝ) - 1) m = tab m (fun k => (k : ℝ)) := by
  unfold npLinspace
  split_ifs with h
  · subst h; simp [tab]
  · apply tab_congr
    intro i hi
    have : (m : ℝ) - 1 ≠ 0 := by
      intro h0; apply h
      have : (m : ℝ) = 1 := by linarith
      exact_mod_cast this
    rw [sub_zero, div_self this]; ring

theorem calc_pdev_phase_one (phase : List ℝ) (rate : ℝ) :
    calc_pdev_phase phase rate 1 = calc_adev_phase phase rate 1 1 := by
  unfold calc_pdev_phase calc_adev_phase
  simp only [if_true]

theorem calc_pdev_phase_row (phase : List ℝ) (rate : ℝ) (m : ℕ) (hm1 : m ≠ 1) (hm0 : 0 < m) :
    ∃ row, calc_pdev_phase phase rate m = .ok row ∧
      (phase.length ≤ 2 * m → row.2.2 = 0) ∧
      (2 * m < phase.length → row = (Spec.pdev (seq phase) phase.length m (m / rate),
        Spec.pdev (seq phase) phase.length m (m / rate) / √((phase.length : ℝ) - 2 * m),
        (phase.length : ℤ) - 2 * m)) := by
  set N := phase.length with hN
  set x := seq phase with hx
  have hp : phase = tab N x := eq_tab_seq phase
  unfold calc_pdev_phase
  rw [if_neg hm1]
  simp only
  rw [hp, tab_length]
  split_ifs with hM
  · exact ⟨_, rfl, fun _ => rfl, fun h => absurd h (by omega)⟩
  · have hM' : ((N : ℤ) - 2 * m).toNat = N - 2 * m := by omega
    rw [hM']
    set A : ℕ → ℝ := fun i => ∑ k ∈ range m, (((m : ℝ) - 1) / 2 - (k : ℝ)) * (x (i + k) - x (i + m + k))
      with hA
    rw [forRange_eq (fun i => ∑ j ∈ range i, A j ^ 2) (by simp)]
    · refine ⟨_, rfl, fun h => by omega, fun h => ?_⟩
      have hc : (((N : ℤ) - 2 * m : ℤ) : ℝ) = (N : ℝ) - 2 * m := by push_cast; ring
      simp only [hc]
      have hdev : √(72 * (∑ j ∈ range (N - 2 * m), A j ^ 2) / (((N : ℝ) - 2 * m) * (m : ℝ) ^ 4
          * (m * (1 / rate)) ^ 2)) = Spec.pdev x N m (m / rate) := by
        unfold Spec.pdev
        rw [if_neg hm1, mul_one_div]
      rw [hdev]
    · intro i hi
      rw [slice_tab _ _ _ _ (by omega), slice_tab _ _ _ _ (by omega)]
      have e1 : i + m - i = m := by omega
      have e2 : i + 2 * m - (i + m) = m := by omega
      rw [e1, e2, linspace_index, map_tab]
      simp only [vsub, vmul, vop_tab, ok_bind, npSum_tab]
      rw [Finset.sum_range_succ]

theorem calc_gcodev_phase_row (p q : List ℝ) (rate : ℝ) (m : ℕ) (hm0 : 0 < m)
    (hmN : m < p.length) (hlen : p.length = q.length) :
    ∃ row, calc_gcodev_phase p q rate m 1 = .ok row ∧
      row.2.2 = (max 1 (p.length - 2 * m) : ℕ) ∧
      (2 * m < p.length →
        row.1 = √(|∑ i ∈ range (p.length - 2 * m), d2 (seq p) m i * d2 (seq q) m i|
              / (2 * ((p.length - 2 * m : ℕ) : ℝ))) / m * rate ∧
        row.2.1 = row.1 / √((p.length - 2 * m : ℕ) : ℝ)) := by
  set N := p.length with hN
  set x := seq p with hx
  set y := seq q with hy
  have hp : p = tab N x := eq_tab_seq p
  have hq : q = tab N y := by rw [hlen]; exact eq_tab_seq q
  have one : (0 : ℕ) < 1 := one_pos
  have l : ∀ a : ℕ, (N - a + 1 - 1) / 1 = N - a := by intro a; simp
  unfold calc_gcodev_phase
  rw [hp, hq]
  simp only [sliceStep_tab _ _ _ _ one, l, ok_bind, tab_length, one_mul, mul_one]
  have hmin : min (min (N - 0) (N - m)) (N - 2 * m) = N - 2 * m := by omega
  simp only [hmin]
  rcases Nat.eq_zero_or_pos (N - 2 * m) with h | h
  · simp only [h, if_true, sliceTo_nat, take_tab]
    have q1 : min 1 (N - m) = 1 := by omega
    have q0 : min 1 (N - 0) = 1 := by omega
    simp only [q1, q0, Nat.min_zero, tab_zero, vscale_tab, vsub, vadd, vmul, vop_nil_one, ok_bind]
    have : vop (fun x1 x2 : ℝ => x1 * x2) [] [] = .ok [] := by simp [vop]
    rw [this]
    exact ⟨_, rfl, by simp, fun h => absurd h (by omega)⟩
  · simp only [if_neg (by omega : ¬ N - 2 * m = 0), sliceTo_nat, take_tab, min_self]
    have q1 : min (N - 2 * m) (N - m) = N - 2 * m := by omega
    have q0 : min (N - 2 * m) (N - 0) = N - 2 * m := by omega
    simp only [q1, q0, vscale_tab, vsub, vadd, vmul, vop_tab, ok_bind, npSum_tab]
    have hs : ∑ i ∈ range (N - 2 * m), (x (2 * m + i) - 2 * x (m + i) + x (0 + i)) *
        (y (2 * m + i) - 2 * y (m + i) + y (0 + i)) =
        ∑ i ∈ range (N - 2 * m), d2 x m i * d2 y m i := by
      apply Finset.sum_congr rfl
      intro i _
      unfold d2
      rw [Nat.add_comm (2 * m), Nat.add_comm m, Nat.zero_add]
    rw [hs]
    have hdev : ∀ s : ℝ, (if 0 ≤ s then √(s / (2 * ((N - 2 * m : ℕ) : ℝ))) / (m : ℝ) * rate
        else √(|s| / (2 * ((N - 2 * m : ℕ) : ℝ))) / (m : ℝ) * rate)
        = √(|s| / (2 * ((N - 2 * m : ℕ) : ℝ))) / (m : ℝ) * rate := by
      intro s
      split_ifs with h0
      · rw [abs_of_nonneg h0]
      · rfl
    rw [hdev]
    refine ⟨_, rfl, ?_, fun _ => ⟨rfl, rfl⟩⟩
    have : max 1 (N - 2 * m) = N - 2 * m := by omega
    simp [this]

end AT
