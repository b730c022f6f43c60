import Verif.Lemmas.Adev

/-! # Lemmas for THEO1 -/

namespace AT

open Spec Finset Real

theorem theo1_body_row (phase : List ℝ) (rate : ℝ) (m : ℕ) (hm : Even m) (hm0 : 0 < m)
    (hmN : m < phase.length) :
    theo1_body phase (1 / rate) m = .ok (Spec.theo1 (seq phase) phase.length m (m / rate),
      Spec.theo1 (seq phase) phase.length m (m / rate) / √((phase.length : ℝ) - m),
      ((phase.length : ℤ) - m) * (m / 2 : ℕ)) := by
  set N := phase.length with hN
  set x := seq phase with hx
  have hp : phase = tab N x := eq_tab_seq phase
  have hmod : m % 2 = 0 := Nat.even_iff.1 hm
  unfold theo1_body
  rw [pyAssert_true hmod, hp]
  simp only [ok_bind, tab_length]
  have e1 : ((N : ℤ) - m).toNat = N - m := by omega
  rw [e1]
  set T : ℕ → ℕ → ℝ := fun i d => (1 / ((m : ℝ) / 2 - d)) *
    (x i - x (i + m / 2 - d) + x (i + m) - x (i + m / 2 + d)) ^ 2 with hT
  rw [forRange_eq (fun i => (∑ j ∈ range i, ∑ d ∈ range (m / 2), T j d, i * (m / 2))) (by simp)]
  · simp only [ok_bind]
    have hm2 : ((m / 2 : ℕ) : ℝ) = (m : ℝ) / 2 := by
      have : m = 2 * (m / 2) := by omega
      have h' : (m : ℝ) = 2 * ((m / 2 : ℕ) : ℝ) := by exact_mod_cast this
      rw [h']; ring
    rw [pyAssert_true]
    · simp only [ok_bind]
      have hd : √((∑ j ∈ range (N - m), ∑ d ∈ range (m / 2), T j d) /
          (0.75 * ((N : ℝ) - m) * ((m : ℝ) * (1 / rate)) ^ 2)) = Spec.theo1 x N m (m / rate) := by
        unfold Spec.theo1
        congr 2
        · apply Finset.sum_congr rfl; intro i _
          apply Finset.sum_congr rfl; intro d _
          simp only [hT, hm2]
          ring
        · rw [mul_one_div]; norm_num
      rw [hd]
      congr 3
      rw [Nat.cast_mul, Nat.cast_sub hmN.le]
    · rw [Nat.cast_mul, Nat.cast_sub hmN.le, hm2]; ring
  · intro i hi
    rw [forRange_eq (fun d => (∑ j ∈ range d, T i j, i * (m / 2) + d)) (by simp)]
    · simp only [ok_bind]
      congr 2
      · rw [Finset.sum_range_succ]
      · ring
    · intro d hd
      rw [pyGet_tab_nat _ _ _ (by omega), pyGet_tab _ _ _ (by omega) (by omega),
        pyGet_tab _ _ _ (by omega) (by omega), pyGet_tab _ _ _ (by omega) (by omega)]
      simp only [ok_bind]
      congr 2
      rw [Finset.sum_range_succ]
      congr 1
      simp only [hT]
      have f1 : ((i : ℤ) - d + (m / 2 : ℕ)).toNat = i + m / 2 - d := by omega
      have f2 : ((i : ℤ) + m).toNat = i + m := by omega
      have f3 : ((i : ℤ) + d + (m / 2 : ℕ)).toNat = i + m / 2 + d := by omega
      rw [f1, f2, f3]

end AT
