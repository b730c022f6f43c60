import Verif.Lemmas.Run
import Verif.Spec.Api

/-! # Single-factor lemmas for ADEV, OADEV, HDEV, OHDEV, PDEV, GCODEV, TIERMS -/

namespace AT

open Spec Finset Real

theorem vop_nil_one {α β γ : Type} (f : α → β → γ) (g : ℕ → β) :
    vop f [] (tab 1 g) = .ok [] := by
  simp [vop, tab]

theorem vscale_nil (c : ℝ) : vscale c [] = [] := rfl

theorem eq_tab_seq (x : List ℝ) : x = tab x.length (seq x) := eq_tab x 0

theorem len_mono (N a s : ℕ) (hs : 0 < s) : (N - a + s - 1) / s ≤ (N + s - 1) / s :=
  Nat.div_le_div_right (by omega)

theorem len_mono' (N a b s : ℕ) (hs : 0 < s) (h : a ≤ b) :
    (N - b + s - 1) / s ≤ (N - a + s - 1) / s :=
  Nat.div_le_div_right (by omega)

theorem len_pos (N a s : ℕ) (hs : 0 < s) (h : a < N) : 0 < (N - a + s - 1) / s :=
  Nat.div_pos (by omega) hs

theorem calc_adev_phase_row (phase : List ℝ) (rate : ℝ) (m s : ℕ) (hm0 : 0 < m)
    (hmN : m < phase.length) (hs : 0 < s) :
    ∃ row, calc_adev_phase phase rate m s = .ok row ∧
      row.2.2 = (max 1 ((phase.length - 2 * m + s - 1) / s) : ℕ) ∧
      (0 < (phase.length - 2 * m + s - 1) / s →
        row.1 = √((∑ i ∈ range ((phase.length - 2 * m + s - 1) / s),
            (seq phase (2 * m + i * s) - 2 * seq phase (m + i * s) + seq phase (i * s)) ^ 2)
              / (2 * (((phase.length - 2 * m + s - 1) / s : ℕ) : ℝ))) / m * rate ∧
        row.2.1 = row.1 / √(((phase.length - 2 * m + s - 1) / s : ℕ) : ℝ)) := by
  set N := phase.length with hN
  set x := seq phase with hx
  have hp : phase = tab N x := eq_tab_seq phase
  have h0 : (N - 0 + s - 1) / s = (N + s - 1) / s := by simp
  have l1 := len_mono' N m (2 * m) s hs (by omega)
  have l2 := len_mono' N 0 m s hs (by omega)
  have p1 := len_pos N m s hs hmN
  unfold calc_adev_phase
  rw [hp]
  rw [sliceStep_tab _ _ _ _ hs, sliceStep_tab _ _ _ _ hs, sliceStep_tab _ _ _ _ hs]
  simp only [ok_bind, tab_length, one_mul]
  generalize hn2 : (N - 2 * m + s - 1) / s = n2 at *
  generalize hn1 : (N - m + s - 1) / s = n1 at *
  generalize hn0 : (N - 0 + s - 1) / s = n0 at *
  have hmin : min (min n0 n1) n2 = n2 := by omega
  simp only [hmin]
  rcases Nat.eq_zero_or_pos n2 with h | h
  · subst h
    simp only [if_true, sliceTo_nat, take_tab]
    have q1 : min 1 n1 = 1 := by omega
    have q0 : min 1 n0 = 1 := by omega
    simp only [q1, q0, Nat.min_zero, tab_zero, vscale_tab, vsub, vadd, vmul, vop_nil_one, ok_bind]
    have : vop (fun x1 x2 : ℝ => x1 * x2) [] [] = .ok [] := by simp [vop]
    rw [this]
    exact ⟨_, rfl, by simp, fun h => absurd h (by omega)⟩
  · simp only [if_neg (by omega : ¬ n2 = 0), sliceTo_nat, take_tab, min_self]
    have q1 : min n2 n1 = n2 := by omega
    have q0 : min n2 n0 = n2 := by omega
    simp only [q1, q0, vscale_tab, vsub, vadd, vmul, vop_tab, ok_bind, npSum_tab]
    refine ⟨_, rfl, ?_, fun _ => ⟨?_, rfl⟩⟩
    · have : max 1 n2 = n2 := by omega
      simp [this]
    · have e : ∀ i ∈ range n2, (x (2 * m + i * s) - 2 * x (m + i * s) + x (0 + i * s)) *
          (x (2 * m + i * s) - 2 * x (m + i * s) + x (0 + i * s)) =
          (x (2 * m + i * s) - 2 * x (m + i * s) + x (i * s)) ^ 2 := by
        intro i _
        simp only [Nat.zero_add]
        ring
      rw [Finset.sum_congr rfl e]

theorem calc_hdev_phase_row (phase : List ℝ) (rate : ℝ) (hr : rate ≠ 0) (m s : ℕ) (hs : 0 < s) :
    ∃ row, calc_hdev_phase phase rate m s = .ok row ∧
      row.2.2 = (max 1 ((phase.length - 3 * m + s - 1) / s) : ℕ) ∧
      (0 < (phase.length - 3 * m + s - 1) / s →
        row.1 = √((∑ i ∈ range ((phase.length - 3 * m + s - 1) / s),
            (seq phase (3 * m + i * s) - 3 * seq phase (2 * m + i * s) + 3 * seq phase (m + i * s)
              - seq phase (i * s)) ^ 2)
              / 6 / (((phase.length - 3 * m + s - 1) / s : ℕ) : ℝ)) / (1 / rate * m) ∧
        row.2.1 = row.1 / √(((phase.length - 3 * m + s - 1) / s : ℕ) : ℝ)) := by
  set N := phase.length with hN
  set x := seq phase with hx
  have hp : phase = tab N x := eq_tab_seq phase
  have l3 := len_mono' N (2 * m) (3 * m) s hs (by omega)
  have l1 := len_mono' N m (2 * m) s hs (by omega)
  have l2 := len_mono' N 0 m s hs (by omega)
  unfold calc_hdev_phase
  rw [hp, if_neg hr]
  rw [sliceStep_tab _ _ _ _ hs, sliceStep_tab _ _ _ _ hs, sliceStep_tab _ _ _ _ hs,
    sliceStep_tab _ _ _ _ hs]
  simp only [ok_bind, tab_length, one_mul]
  generalize hn3 : (N - 3 * m + s - 1) / s = n3 at *
  generalize hn2 : (N - 2 * m + s - 1) / s = n2 at *
  generalize hn1 : (N - m + s - 1) / s = n1 at *
  generalize hn0 : (N - 0 + s - 1) / s = n0 at *
  have hmin : min (min (min n0 n1) n2) n3 = n3 := by omega
  simp only [hmin, sliceTo_nat, take_tab, min_self]
  have q2 : min n3 n2 = n3 := by omega
  have q1 : min n3 n1 = n3 := by omega
  have q0 : min n3 n0 = n3 := by omega
  simp only [q2, q1, q0, vscale_tab, vsub, vadd, vmul, vop_tab, ok_bind, npSum_tab]
  refine ⟨_, rfl, ?_, fun h => ?_⟩
  · rcases Nat.eq_zero_or_pos n3 with h | h
    · simp [h]
    · have : max 1 n3 = n3 := by omega
      simp only [this, if_neg (by omega : ¬ n3 = 0)]
  · simp only [if_neg (by omega : ¬ n3 = 0)]
    have e : ∀ i ∈ range n3, (x (3 * m + i * s) - 3 * x (2 * m + i * s) + 3 * x (m + i * s)
          - x (0 + i * s)) * (x (3 * m + i * s) - 3 * x (2 * m + i * s) + 3 * x (m + i * s)
          - x (0 + i * s)) =
          (x (3 * m + i * s) - 3 * x (2 * m + i * s) + 3 * x (m + i * s) - x (i * s)) ^ 2 := by
      intro i _
      simp only [Nat.zero_add]
      ring
    rw [Finset.sum_congr rfl e]
    exact ⟨rfl, trivial⟩

theorem Nat.sub_self_div {m : ℕ} (hm : 0 < m) (a : ℕ) : (a - m) / m = a / m - 1 := by
  rcases Nat.lt_or_ge a m with h | h
  · have e : a - m = 0 := by omega
    rw [e, Nat.div_eq_of_lt h]; simp
  · rw [Nat.div_eq_sub_div hm h]; simp

theorem rateSign_of_nonneg {rate : ℝ} (h : 0 ≤ rate) : rateSign rate = 1 := by
  unfold rateSign; rw [if_neg (not_lt.2 h)]

/-- `√(S / (2 n)) / m * rate` is, up to the sign of the rate, the normalised form
`√(S / (2 τ² n))` -/
theorem sqrt_norm (S c n : ℝ) (hc : 0 < c) (hn : 0 < n) (m : ℕ) (hm : 0 < m) (rate : ℝ)
    (hr : rate ≠ 0) :
    √(S / (c * n)) / m * rate = rateSign rate * √(S / (c * ((m : ℝ) / rate) ^ 2 * n)) := by
  have hm' : (0 : ℝ) < m := by exact_mod_cast hm
  have h1 : S / (c * ((m : ℝ) / rate) ^ 2 * n) = S / (c * n) / ((m : ℝ) / rate) ^ 2 := by
    field_simp
  rw [h1, Real.sqrt_div' (S / (c * n)) (by positivity : (0:ℝ) ≤ ((m : ℝ) / rate) ^ 2), Real.sqrt_sq_eq_abs,
    abs_div, abs_of_pos hm']
  unfold rateSign
  split_ifs with h
  · rw [abs_of_neg h]; field_simp
  · rw [abs_of_nonneg (not_lt.1 h)]; field_simp

theorem adev_len (N m : ℕ) (hm : 0 < m) (hN : m < N) :
    (N - 2 * m + m - 1) / m = decimated N m - 2 := by
  unfold decimated
  rcases Nat.lt_or_ge (2 * m) N with h | h
  · have e : N - 2 * m + m - 1 = N - 1 - m := by omega
    rw [e]
    have : (N - 1 - m) / m = (N - 1) / m - 1 := Nat.sub_self_div hm _
    rw [this]; omega
  · have e : N - 2 * m = 0 := by omega
    rw [e, Nat.div_eq_of_lt (by omega)]
    have : (N - 1) / m < 2 := by
      rw [Nat.div_lt_iff_lt_mul hm]; omega
    omega

theorem hdev_len (N m : ℕ) (hm : 0 < m) (hN : m < N) :
    (N - 3 * m + m - 1) / m = decimated N m - 3 := by
  unfold decimated
  rcases Nat.lt_or_ge (3 * m) N with h | h
  · have e : N - 3 * m + m - 1 = N - 1 - m - m := by omega
    rw [e]
    have : (N - 1 - m - m) / m = (N - 1) / m - 1 - 1 := by
      rw [Nat.sub_self_div hm _, Nat.sub_self_div hm _]
    rw [this]; omega
  · have e : N - 3 * m = 0 := by omega
    rw [e, Nat.div_eq_of_lt (by omega)]
    have : (N - 1) / m < 3 := by
      rw [Nat.div_lt_iff_lt_mul hm]; omega
    omega

end AT
