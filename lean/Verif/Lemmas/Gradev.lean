import Verif.Model.Gradev
import Verif.Spec.Gradev
import Verif.Spec.Api
import Verif.Lemmas.Run
import Verif.Lemmas.Adev

/-! # Lemmas about gradev -/

namespace AT

open Spec Finset Real

theorem numbers_sum_tab (n : ℕ) (f : ℕ → NV) :
    (numbers (tab n f)).sum = ∑ i ∈ range n, (f i).getD 0 := by
  induction n with
  | zero => simp [numbers]
  | succ n ih =>
    rw [tab_succ, Finset.sum_range_succ, ← ih]
    unfold numbers
    rw [List.filterMap_append, List.sum_append]
    congr 1
    cases f n <;> simp

theorem filter_length_tab {α : Type} (n : ℕ) (f : ℕ → α) (p : α → Bool) :
    ((tab n f).filter p).length = ((range n).filter (fun i => p (f i) = true)).card := by
  induction n with
  | zero => simp
  | succ n ih =>
    rw [tab_succ, List.filter_append, List.length_append, ih, Finset.range_add_one, Finset.filter_insert]
    by_cases h : p (f n) = true
    · rw [if_pos h, Finset.card_insert_of_notMem (by simp)]
      simp [h]
    · rw [if_neg h]
      simp [h]

theorem eq_tab_seqNV (x : List NV) : x = tab x.length (seqNV x) := eq_tab x none

theorem calc_gradev_phase_eq (ppf : ℝ → ℝ → NV) (x : List NV) (rate : ℝ) (m : ℕ) (c : ℝ) (nt : String) :
    calc_gradev_phase ppf x rate m 1 c nt =
      (let n := max 1 (complete (seqNV x) x.length m).card
       let dev := √((∑ i ∈ complete (seqNV x) x.length m, d2 (val (seqNV x)) m i ^ 2) / (2 * n)) / m * rate
       do
        let e ← gradev_err ppf dev c (present (seqNV x) x.length) m n nt
        .ok (dev, e, n)) := by
  unfold calc_gradev_phase
  set N := x.length
  set X := seqNV x
  rw [show x = tab N X from eq_tab_seqNV x]
  rw [sliceStep_tab _ _ _ _ one_pos, sliceStep_tab _ _ _ _ one_pos, sliceStep_tab _ _ _ _ one_pos]
  simp only [ok_bind, tab_length, one_mul, mul_one, Nat.div_one, Nat.add_sub_cancel, Nat.sub_zero]
  have hmin : min (min N (N - m)) (N - 2 * m) = N - 2 * m := by omega
  simp only [hmin, sliceTo_nat, take_tab]
  have q1 : min (N - 2 * m) (N - 2 * m) = N - 2 * m := min_self _
  have q2 : min (N - 2 * m) (N - m) = N - 2 * m := by omega
  have q3 : min (N - 2 * m) N = N - 2 * m := by omega
  simp only [q1, q2, q3, map_tab, vop_tab, ok_bind, filter_length_tab, numbers_sum_tab]
  have hsome : ∀ i, (nv2 (· + ·) (nv2 (· - ·) (X (2 * m + i)) (Option.map (fun v => 2 * v) (X (m + i))))
      (X (0 + i))).isSome = true ↔
      ((X i).isSome = true ∧ (X (i + m)).isSome = true ∧ (X (i + 2 * m)).isSome = true) := by
    intro i
    rw [Nat.zero_add, Nat.add_comm m i, Nat.add_comm (2 * m) i]
    cases X i <;> cases X (i + m) <;> cases X (i + 2 * m) <;> simp [nv2]
  have hcard : ((range (N - 2 * m)).filter (fun i =>
      (nv2 (· + ·) (nv2 (· - ·) (X (2 * m + i)) (Option.map (fun v => 2 * v) (X (m + i))))
      (X (0 + i))).isSome = true)) = complete X N m := by
    unfold complete
    apply Finset.filter_congr
    intro i _
    exact hsome i
  rw [hcard]
  have hsum : ∑ i ∈ range (N - 2 * m), (Option.map (fun v => v * v)
      (nv2 (· + ·) (nv2 (· - ·) (X (2 * m + i)) (Option.map (fun v => 2 * v) (X (m + i))))
      (X (0 + i)))).getD 0 = ∑ i ∈ complete X N m, d2 (val X) m i ^ 2 := by
    unfold complete
    rw [Finset.sum_filter]
    apply Finset.sum_congr rfl
    intro i _
    unfold d2 Spec.val
    rw [Nat.zero_add, Nat.add_comm m i, Nat.add_comm (2 * m) i]
    cases X i <;> cases X (i + m) <;> cases X (i + 2 * m) <;> simp [nv2]
    ring
  rw [hsum]
  have hn : (if (complete X N m).card = 0 then 1 else (complete X N m).card)
      = max 1 (complete X N m).card := by
    split_ifs <;> omega
  simp only [hn]
  rfl

/-- two complete second differences involve at least four samples -/
theorem present_ge (x : ℕ → NV) (N m : ℕ) (hm : 0 < m) (h : 1 < (complete x N m).card) :
    4 ≤ present x N := by
  obtain ⟨i, hi, j, hj, hij⟩ := Finset.one_lt_card.1 h
  wlog hlt : i < j generalizing i j
  · exact this j hj i hi (Ne.symm hij) (by omega)
  unfold complete at hi hj
  rw [Finset.mem_filter, Finset.mem_range] at hi hj
  have hsub : ({i, i + m, i + 2 * m, j + 2 * m} : Finset ℕ) ⊆
      (range N).filter (fun k => (x k).isSome = true) := by
    intro k hk
    simp only [Finset.mem_insert, Finset.mem_singleton] at hk
    rw [Finset.mem_filter, Finset.mem_range]
    rcases hk with rfl | rfl | rfl | rfl
    · exact ⟨by omega, hi.2.1⟩
    · exact ⟨by omega, hi.2.2.1⟩
    · exact ⟨by omega, hi.2.2.2⟩
    · exact ⟨by omega, hj.2.2.2⟩
  have hc : ({i, i + m, i + 2 * m, j + 2 * m} : Finset ℕ).card = 4 := by
    rw [Finset.card_insert_of_notMem, Finset.card_insert_of_notMem, Finset.card_insert_of_notMem,
      Finset.card_singleton]
    · simp only [Finset.mem_singleton]; omega
    · simp only [Finset.mem_insert, Finset.mem_singleton]; omega
    · simp only [Finset.mem_insert, Finset.mem_singleton]; omega
  rw [← hc]
  exact Finset.card_le_card hsub

theorem pyDiv_ne {a b : ℝ} (h : b ≠ 0) : pyDiv a b = .ok (a / b) := if_neg h

/-- the edf formula used by gradev is defined except for white phase noise with exactly `m`
samples present -/
theorem edf_simple_gradev (P m : ℕ) (hP : 4 ≤ P) (hm : 0 < m) (nt : String) :
    (nt = "wp" ∧ P = m → edf_simple P m (gradev_alpha nt) = .error .zeroDivisionError) ∧
    (¬ (nt = "wp" ∧ P = m) → ∃ v : ℝ, edf_simple P m (gradev_alpha nt) = .ok (some v)) := by
  have hm' : (m : ℝ) ≠ 0 := by positivity
  have hP' : (P : ℝ) ≠ 0 := by positivity
  have hP3 : (P : ℝ) - 3 ≠ 0 := by
    have : (4 : ℝ) ≤ P := by exact_mod_cast hP
    linarith
  constructor
  · rintro ⟨rfl, rfl⟩
    simp [gradev_alpha, edf_simple, pyDiv, error_bind]
  · intro h
    by_cases h1 : nt = "wp"
    · have hne : P ≠ m := fun hh => h ⟨h1, hh⟩
      have : (2 : ℝ) * (P - m) ≠ 0 := by
        have : (P : ℝ) ≠ m := by exact_mod_cast hne
        exact mul_ne_zero two_ne_zero (sub_ne_zero.2 this)
      exact ⟨(P + 1) * (P - 2 * m) / (2 * (P - m)), by
        simp only [gradev_alpha, h1, edf_simple, if_true, pyDiv_ne this, ok_bind]⟩
    by_cases h2 : nt = "wf"
    · refine ⟨(3 * (P - 1) / (2 * m) - 2 * (P - 2) / P) * (4 * m ^ 2 / (4 * m ^ 2 + 5)), ?_⟩
      have e1 : (2 : ℝ) * m ≠ 0 := mul_ne_zero two_ne_zero hm'
      have e2 : (4 : ℝ) * (m : ℝ) ^ 2 + 5 ≠ 0 := by positivity
      have ha : gradev_alpha nt = some 0 := by simp [gradev_alpha, h2]
      rw [ha]
      simp [edf_simple, pyDiv_ne e1, pyDiv_ne e2, pyDiv_ne hP', ok_bind]
    by_cases h3 : nt = "fp"
    · have ha : gradev_alpha nt = some (-2) := by simp [gradev_alpha, h3]
      have e1 : (m : ℝ) * ((P : ℝ) - 3) ^ 2 ≠ 0 := mul_ne_zero hm' (pow_ne_zero 2 hP3)
      rw [ha]
      refine ⟨(P - 2) / (m * (P - 3) ^ 2) * ((P - 1) ^ 2 - 3 * m * (P - 1) + 4 * m ^ 2), ?_⟩
      simp [edf_simple, pyDiv_ne e1, ok_bind]
    · have ha : gradev_alpha nt = none := by simp [gradev_alpha, h1, h2, h3]
      rw [ha]
      exact ⟨P - 1, by simp [edf_simple]⟩

end AT
