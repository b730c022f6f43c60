import Verif.Lemmas.Adev

/-! # Single-factor lemma for MDEV -/

namespace AT

open Spec Finset Real

/-- sum of `m` consecutive second differences, starting at `j` -/
noncomputable def modTerm (x : ℕ → ℝ) (m j : ℕ) : ℝ := ∑ i ∈ range m, d2 x m (j + i)

theorem modTerm_succ (x : ℕ → ℝ) (m j : ℕ) : modTerm x m (j + 1) = modTerm x m j + d3 x m j := by
  have h1 : modTerm x m (j + 1) = ∑ i ∈ range m, d2 x m (j + (i + 1)) := by
    apply Finset.sum_congr rfl; intro i _; congr 1; omega
  have h2 := Finset.sum_range_succ' (fun i => d2 x m (j + i)) m
  have h3 := Finset.sum_range_succ (fun i => d2 x m (j + i)) m
  have h4 : d3 x m j = d2 x m (j + m) - d2 x m (j + 0) := by
    unfold d3 d2
    have e1 : j + m + 2 * m = j + 3 * m := by ring
    have e2 : j + m + m = j + 2 * m := by ring
    rw [e1, e2]
    simp only [Nat.add_zero]
    ring
  rw [h1, h4]
  unfold modTerm
  linarith

theorem modTerm_cumsum (x : ℕ → ℝ) (m i : ℕ) :
    modTerm x m 0 + ∑ j ∈ range i, d3 x m j = modTerm x m i := by
  induction i with
  | zero => simp
  | succ i ih => rw [Finset.sum_range_succ, ← add_assoc, ih, modTerm_succ]

theorem mdev_body_row (phase taus : List ℝ) (idx m : ℕ) (tau : ℝ) (ht : taus[idx]? = some tau) :
    ∃ row, mdev_body phase taus idx m = .ok row ∧
      row.2.2 = ((phase.length - 3 * m + 1 : ℕ) : ℤ) ∧
      (3 * m < phase.length →
        row.1 = √((∑ j ∈ range (phase.length - 3 * m + 1), (modTerm (seq phase) m j) ^ 2)
              / (2 * m * m * tau * tau * ((phase.length - 3 * m + 1 : ℕ) : ℝ))) ∧
        row.2.1 = row.1 / √((phase.length - 3 * m + 1 : ℕ) : ℝ)) := by
  set N := phase.length with hN
  set x := seq phase with hx
  have hp : phase = tab N x := eq_tab_seq phase
  unfold mdev_body
  have hg : pyGet taus (idx : ℤ) = .ok tau := by
    unfold pyGet
    simp only [if_neg (by omega : ¬ ((idx : ℤ) < 0)), Int.toNat_natCast, ht]
  rw [hp, hg]
  simp only [ok_bind, slice_nat, sliceFrom_nat, take_tab, drop_tab, tab_length, sliceTo_nat]
  generalize he : min (min (min m N - 0) (min (2 * m) N - m)) (min (3 * m) N - 2 * m) = e
  have a0 : min e (min m N - 0) = e := by omega
  have a1 : min e (min (2 * m) N - m) = e := by omega
  have a2 : min e (min (3 * m) N - 2 * m) = e := by omega
  generalize he' : min (min (min (N - 0) (N - 1 * m)) (N - 2 * m)) (N - 3 * m) = e'
  have b : e' = N - 3 * m := by omega
  have b0 : min e' (N - 0) = e' := by omega
  have b1 : min e' (N - 1 * m) = e' := by omega
  have b2 : min e' (N - 2 * m) = e' := by omega
  have b3 : min e' (N - 3 * m) = e' := by omega
  simp only [a0, a1, a2, b0, b1, b2, b3, vscale_tab, vsub, vadd, vmul, vop_tab, ok_bind, npSum_tab,
    npCumsum_tab, map_tab]
  rw [← b]
  refine ⟨_, rfl, rfl, fun h3 => ?_⟩
  have hem : e = m := by omega
  have hv : ∑ i ∈ range e, (x (2 * m + i) - 2 * x (m + i) + x (0 + i)) = modTerm x m 0 := by
    rw [hem]
    apply Finset.sum_congr rfl
    intro i _
    unfold d2
    have e1 : 0 + i + 2 * m = 2 * m + i := by ring
    have e2 : 0 + i + m = m + i := by ring
    rw [e1, e2]
  have hd : ∀ i, x (3 * m + i) - 3 * x (2 * m + i) + 3 * x (1 * m + i) - x (0 + i) = d3 x m i := by
    intro i
    unfold d3
    rw [Nat.add_comm (3 * m), Nat.add_comm (2 * m), Nat.add_comm (1 * m), Nat.one_mul, Nat.zero_add]
  simp only [hv, hd, modTerm_cumsum]
  have hs : modTerm x m 0 * modTerm x m 0 + ∑ i ∈ range e', modTerm x m (i + 1) * modTerm x m (i + 1)
      = ∑ j ∈ range (e' + 1), (modTerm x m j) ^ 2 := by
    rw [Finset.sum_range_succ']
    rw [add_comm]
    congr 1
    · apply Finset.sum_congr rfl; intro i _; ring
    · ring
  rw [hs]
  exact ⟨rfl, trivial⟩

end AT
