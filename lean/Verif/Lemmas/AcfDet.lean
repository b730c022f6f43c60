import Verif.Props.NoiseId
import Mathlib.Algebra.Order.Chebyshev

/-!
# Deterministic bounds on the lag-1 autocorrelation
-/

namespace AT

open Spec Finset

/-! ## Inequalities for differences -/

theorem sq_sum_le (f : ℕ → ℝ) (n : ℕ) : (∑ i ∈ range n, f i) ^ 2 ≤ n * ∑ i ∈ range n, f i ^ 2 := by
  have := sq_sum_le_card_mul_sum_sq (s := range n) (f := f)
  simpa using this

/-- the first value is not much larger than the average -/
theorem first_sq_le (z : ℕ → ℝ) {n L : ℕ} (hL : 0 < L) (hn : L < n) :
    z 0 ^ 2 ≤ 2 / L * ∑ i ∈ range n, z i ^ 2 + 2 * L * ∑ i ∈ range (n - 1), (z (i + 1) - z i) ^ 2 := by
  have hL' : (0 : ℝ) < L := by exact_mod_cast hL
  have h1 : ∀ i ∈ range L, z 0 ^ 2 ≤ 2 * z i ^ 2 + 2 * L * ∑ i ∈ range (n - 1), (z (i + 1) - z i) ^ 2 := by
    intro i hi
    have hi := mem_range.1 hi
    have e : z i - z 0 = ∑ j ∈ range i, (z (j + 1) - z j) := (sum_range_sub z i).symm
    have h2 : (z i - z 0) ^ 2 ≤ L * ∑ i ∈ range (n - 1), (z (i + 1) - z i) ^ 2 := by
      rw [e]
      refine (sq_sum_le _ _).trans ?_
      have h3 : ∑ j ∈ range i, (z (j + 1) - z j) ^ 2 ≤ ∑ j ∈ range (n - 1), (z (j + 1) - z j) ^ 2 :=
        sum_le_sum_of_subset_of_nonneg (range_subset_range.2 (by omega)) fun _ _ _ => sq_nonneg _
      have h4 : (i : ℝ) ≤ L := by exact_mod_cast hi.le
      exact mul_le_mul h4 h3 (sum_nonneg fun _ _ => sq_nonneg _) hL'.le
    nlinarith [sq_nonneg (2 * z i - z 0)]
  have h2 := sum_le_sum h1
  rw [sum_const, card_range, nsmul_eq_mul, sum_add_distrib, ← mul_sum, sum_const, card_range, nsmul_eq_mul] at h2
  have h3 : ∑ i ∈ range L, z i ^ 2 ≤ ∑ i ∈ range n, z i ^ 2 :=
    sum_le_sum_of_subset_of_nonneg (range_subset_range.2 hn.le) fun _ _ _ => sq_nonneg _
  have h4 : (L : ℝ) * z 0 ^ 2 ≤ L * (2 / L * ∑ i ∈ range n, z i ^ 2 + 2 * L * ∑ i ∈ range (n - 1), (z (i + 1) - z i) ^ 2) := by
    have : (L : ℝ) * (2 / L * ∑ i ∈ range n, z i ^ 2) = 2 * ∑ i ∈ range n, z i ^ 2 := by field_simp
    rw [mul_add, this]
    linarith
  exact le_of_mul_le_mul_left h4 hL'

theorem rev_sq (z : ℕ → ℝ) (n : ℕ) : ∑ i ∈ range n, z (n - 1 - i) ^ 2 = ∑ i ∈ range n, z i ^ 2 :=
  sum_range_reflect (fun i => z i ^ 2) n

theorem rev_diff (z : ℕ → ℝ) (n : ℕ) :
    ∑ i ∈ range (n - 1), (z (n - 1 - (i + 1)) - z (n - 1 - i)) ^ 2 = ∑ i ∈ range (n - 1), (z (i + 1) - z i) ^ 2 := by
  rw [← sum_range_reflect (fun i => (z (i + 1) - z i) ^ 2)]
  refine sum_congr rfl fun i hi => ?_
  have hi := mem_range.1 hi
  rw [show n - 1 - (i + 1) = n - 1 - 1 - i by omega, show n - 1 - i = n - 1 - 1 - i + 1 by omega]
  ring

theorem rev_diff2 (z : ℕ → ℝ) (n : ℕ) :
    ∑ i ∈ range (n - 2), (z (n - 1 - (i + 2)) - 2 * z (n - 1 - (i + 1)) + z (n - 1 - i)) ^ 2
      = ∑ i ∈ range (n - 2), (z (i + 2) - 2 * z (i + 1) + z i) ^ 2 := by
  rw [← sum_range_reflect (fun i => (z (i + 2) - 2 * z (i + 1) + z i) ^ 2)]
  refine sum_congr rfl fun i hi => ?_
  have hi := mem_range.1 hi
  rw [show n - 1 - (i + 2) = n - 2 - 1 - i by omega, show n - 1 - (i + 1) = n - 2 - 1 - i + 1 by omega,
    show n - 1 - i = n - 2 - 1 - i + 2 by omega]
  ring

/-- summation by parts -/
theorem acf_parts (z : ℕ → ℝ) {n : ℕ} (hn : 0 < n) :
    ∑ i ∈ range (n - 1), z i * z (i + 1) = ∑ i ∈ range n, z i ^ 2 - (z 0 ^ 2 + z (n - 1) ^ 2) / 2
      - (∑ i ∈ range (n - 1), (z (i + 1) - z i) ^ 2) / 2 := by
  obtain ⟨k, rfl⟩ : ∃ k, n = k + 1 := ⟨n - 1, by omega⟩
  simp only [Nat.add_sub_cancel]
  induction k with
  | zero => simp
  | succ k ih =>
    rw [sum_range_succ, ih (by omega), sum_range_succ (fun i => z i ^ 2) (k + 1), sum_range_succ (fun i => (z (i + 1) - z i) ^ 2) k]
    ring

/-- small differences: large autocorrelation -/
theorem acf_large (y : ℕ → ℝ) {n : ℕ} (hn : 12 < n) (h0 : 0 < acfDen y n)
    (h : 50 * ∑ i ∈ range (n - 1), (y (i + 1) - y i) ^ 2 ≤ acfDen y n) : acfDen y n / 3 < acfNum y n := by
  set μ := seqMean y n
  set z : ℕ → ℝ := fun i => y i - μ with hz
  have e1 : ∑ i ∈ range (n - 1), (z (i + 1) - z i) ^ 2 = ∑ i ∈ range (n - 1), (y (i + 1) - y i) ^ 2 :=
    sum_congr rfl fun i _ => by simp only [hz]; ring
  have e2 : acfDen y n = ∑ i ∈ range n, z i ^ 2 := rfl
  have e3 : acfNum y n = ∑ i ∈ range (n - 1), z i * z (i + 1) := rfl
  have h1 := first_sq_le z (L := 12) (by norm_num) hn
  have h2 := first_sq_le (fun i => z (n - 1 - i)) (L := 12) (by norm_num) hn
  rw [rev_sq, rev_diff, Nat.sub_zero] at h2
  rw [e3, acf_parts z (by omega)]
  rw [e1] at *
  rw [← e2] at *
  norm_num at h1 h2
  have hT : 0 ≤ ∑ i ∈ range (n - 1), (y (i + 1) - y i) ^ 2 := sum_nonneg fun _ _ => sq_nonneg _
  linarith

/-- one half of Landau's inequality -/
theorem landau_half (z : ℕ → ℝ) {n L : ℕ} (hL : 0 < L) (hn : L < n) :
    (L : ℝ) ^ 2 * ∑ i ∈ range (n - L), (z (i + 1) - z i) ^ 2
      ≤ 8 * ∑ i ∈ range n, z i ^ 2 + 2 * (L : ℝ) ^ 4 * ∑ i ∈ range (n - 2), (z (i + 2) - 2 * z (i + 1) + z i) ^ 2 := by
  have hL' : (0 : ℝ) < L := by exact_mod_cast hL
  set v : ℕ → ℝ := fun i => z (i + 1) - z i with hv
  set s : ℕ → ℝ := fun i => z (i + 2) - 2 * z (i + 1) + z i with hs
  have h1 : ∀ i ∈ range (n - L), (L : ℝ) ^ 2 * v i ^ 2 ≤ 4 * z (L + i) ^ 2 + 4 * z i ^ 2
      + 2 * L ^ 3 * ∑ l ∈ range (L - 1), s (i + l) ^ 2 := by
    intro i _
    have e : z (L + i) - z i = ∑ j ∈ range L, v (i + j) := by
      have := sum_range_sub (fun j => z (i + j)) L
      simp only [add_zero] at this
      rw [add_comm L i, ← this]
      exact sum_congr rfl fun j _ => by simp only [hv, add_assoc]
    have e2 : (L : ℝ) * v i = (z (L + i) - z i) - ∑ j ∈ range L, (v (i + j) - v i) := by
      have : ∑ j ∈ range L, (v (i + j) - v i) = ∑ j ∈ range L, v (i + j) - L * v i := by
        rw [sum_sub_distrib (fun j => v (i + j)) (fun _ => v i), sum_const, card_range, nsmul_eq_mul]
      rw [e, this]
      ring
    have e3 : ∀ j ∈ range L, (v (i + j) - v i) ^ 2 ≤ L * ∑ l ∈ range (L - 1), s (i + l) ^ 2 := by
      intro j hj
      have hj := mem_range.1 hj
      have : v (i + j) - v i = ∑ l ∈ range j, s (i + l) := by
        have := sum_range_sub (fun l => v (i + l)) j
        simp only [add_zero] at this
        rw [← this]
        refine sum_congr rfl fun l _ => ?_
        simp only [hv, hs, ← add_assoc]
        ring
      rw [this]
      refine (sq_sum_le _ _).trans ?_
      refine mul_le_mul (by exact_mod_cast hj.le) (sum_le_sum_of_subset_of_nonneg (range_subset_range.2 (by omega))
        fun _ _ _ => sq_nonneg _) (sum_nonneg fun _ _ => sq_nonneg _) hL'.le
    have e4 : (∑ j ∈ range L, (v (i + j) - v i)) ^ 2 ≤ L ^ 3 * ∑ l ∈ range (L - 1), s (i + l) ^ 2 := by
      refine (sq_sum_le _ _).trans ?_
      have := sum_le_sum e3
      rw [sum_const, card_range, nsmul_eq_mul] at this
      calc _ ≤ (L : ℝ) * (L * (L * ∑ l ∈ range (L - 1), s (i + l) ^ 2)) := mul_le_mul_of_nonneg_left this hL'.le
        _ = _ := by ring
    have e5 : (L : ℝ) ^ 2 * v i ^ 2 = ((z (L + i) - z i) - ∑ j ∈ range L, (v (i + j) - v i)) ^ 2 := by
      rw [← e2]
      ring
    rw [e5]
    nlinarith [sq_nonneg ((z (L + i) - z i) + ∑ j ∈ range L, (v (i + j) - v i)), sq_nonneg (z (L + i) + z i)]
  have h2 := sum_le_sum h1
  rw [← mul_sum, sum_add_distrib, sum_add_distrib, ← mul_sum, ← mul_sum, ← mul_sum] at h2
  have h3 : ∑ i ∈ range (n - L), z (L + i) ^ 2 ≤ ∑ i ∈ range n, z i ^ 2 := by
    have : ∑ i ∈ range n, z i ^ 2 = ∑ i ∈ range L, z i ^ 2 + ∑ i ∈ range (n - L), z (L + i) ^ 2 := by
      rw [← sum_range_add, show L + (n - L) = n by omega]
    rw [this]
    linarith [sum_nonneg fun i (_ : i ∈ range L) => sq_nonneg (z i)]
  have h4 : ∑ i ∈ range (n - L), z i ^ 2 ≤ ∑ i ∈ range n, z i ^ 2 :=
    sum_le_sum_of_subset_of_nonneg (range_subset_range.2 (by omega)) fun _ _ _ => sq_nonneg _
  have h5 : ∑ i ∈ range (n - L), ∑ l ∈ range (L - 1), s (i + l) ^ 2 ≤ L * ∑ i ∈ range (n - 2), s i ^ 2 := by
    rw [sum_comm]
    have h6 : ∀ l ∈ range (L - 1), ∑ i ∈ range (n - L), s (i + l) ^ 2 ≤ ∑ i ∈ range (n - 2), s i ^ 2 := by
      intro l hl
      have hl := mem_range.1 hl
      have : ∑ i ∈ range (l + (n - L)), s i ^ 2 = ∑ i ∈ range l, s i ^ 2 + ∑ i ∈ range (n - L), s (l + i) ^ 2 := sum_range_add _ _ _
      calc ∑ i ∈ range (n - L), s (i + l) ^ 2 ≤ ∑ i ∈ range (l + (n - L)), s i ^ 2 := by
            rw [this]
            simp only [add_comm _ l]
            linarith [sum_nonneg fun i (_ : i ∈ range l) => sq_nonneg (s i)]
        _ ≤ _ := sum_le_sum_of_subset_of_nonneg (range_subset_range.2 (by omega)) fun _ _ _ => sq_nonneg _
    have h7 := sum_le_sum h6
    rw [sum_const, card_range, nsmul_eq_mul] at h7
    refine h7.trans (mul_le_mul_of_nonneg_right ?_ (sum_nonneg fun _ _ => sq_nonneg _))
    exact_mod_cast Nat.sub_le L 1
  have h8 : 2 * (L : ℝ) ^ 3 * ∑ i ∈ range (n - L), ∑ l ∈ range (L - 1), s (i + l) ^ 2
      ≤ 2 * (L : ℝ) ^ 3 * (L * ∑ i ∈ range (n - 2), s i ^ 2) := mul_le_mul_of_nonneg_left h5 (by positivity)
  calc _ ≤ _ := h2
    _ ≤ 4 * ∑ i ∈ range n, z i ^ 2 + 4 * ∑ i ∈ range n, z i ^ 2 + 2 * (L : ℝ) ^ 3 * (L * ∑ i ∈ range (n - 2), s i ^ 2) := by
        linarith
    _ = _ := by ring

/-- Landau's inequality for sums -/
theorem landau (z : ℕ → ℝ) {n L : ℕ} (hL : 0 < L) (hn : 2 * L ≤ n) :
    (L : ℝ) ^ 2 * ∑ i ∈ range (n - 1), (z (i + 1) - z i) ^ 2
      ≤ 16 * ∑ i ∈ range n, z i ^ 2 + 4 * (L : ℝ) ^ 4 * ∑ i ∈ range (n - 2), (z (i + 2) - 2 * z (i + 1) + z i) ^ 2 := by
  have h1 := landau_half z hL (show L < n by omega)
  have h2 := landau_half (fun i => z (n - 1 - i)) hL (show L < n by omega)
  simp only [rev_sq, rev_diff2] at h2
  have h3 : ∑ i ∈ range (n - 1), (z (i + 1) - z i) ^ 2 ≤ ∑ i ∈ range (n - L), (z (i + 1) - z i) ^ 2
      + ∑ i ∈ range (n - L), (z (n - 1 - (i + 1)) - z (n - 1 - i)) ^ 2 := by
    have e1 : ∑ i ∈ range (n - 1), (z (i + 1) - z i) ^ 2 = ∑ i ∈ range (n - L), (z (i + 1) - z i) ^ 2
        + ∑ i ∈ range (L - 1), (z (n - L + i + 1) - z (n - L + i)) ^ 2 := by
      rw [← sum_range_add (fun i => (z (i + 1) - z i) ^ 2), show n - L + (L - 1) = n - 1 by omega]
    rw [e1]
    have e2 : ∑ i ∈ range (L - 1), (z (n - L + i + 1) - z (n - L + i)) ^ 2
        = ∑ i ∈ range (L - 1), (z (n - 1 - (i + 1)) - z (n - 1 - i)) ^ 2 := by
      rw [← sum_range_reflect (fun i => (z (n - L + i + 1) - z (n - L + i)) ^ 2)]
      refine sum_congr rfl fun i hi => ?_
      have hi := mem_range.1 hi
      rw [show n - 1 - (i + 1) = n - L + (L - 1 - 1 - i) by omega, show n - 1 - i = n - L + (L - 1 - 1 - i) + 1 by omega]
      ring
    have e3 : ∑ i ∈ range (L - 1), (z (n - 1 - (i + 1)) - z (n - 1 - i)) ^ 2
        ≤ ∑ i ∈ range (n - L), (z (n - 1 - (i + 1)) - z (n - 1 - i)) ^ 2 :=
      sum_le_sum_of_subset_of_nonneg (range_subset_range.2 (by omega)) fun _ _ _ => sq_nonneg _
    rw [e2]
    linarith
  have h4 := mul_le_mul_of_nonneg_left h3 (sq_nonneg (L : ℝ))
  linarith

/-! ## Quadratic polynomials on a grid -/

/-- a quadratic polynomial -/
def quad (A B C : ℝ) (i : ℕ) : ℝ := A + B * i + C * (i : ℝ) ^ 2

theorem thirds (f : ℕ → ℝ) (hf : ∀ i, 0 ≤ f i) {n L : ℕ} (h : 3 * L ≤ n) :
    ∑ i ∈ range L, (f i + f (L + i) + f (2 * L + i)) ≤ ∑ i ∈ range n, f i := by
  have e : ∑ i ∈ range (L + (L + L)), f i = ∑ i ∈ range L, (f i + f (L + i) + f (2 * L + i)) := by
    rw [sum_range_add, sum_range_add (fun i => f (L + i)), sum_add_distrib, sum_add_distrib, ← add_assoc]
    congr 1
    exact sum_congr rfl fun i _ => by rw [two_mul, add_assoc]
  rw [← e]
  exact sum_le_sum_of_subset_of_nonneg (range_subset_range.2 (by omega)) fun i _ _ => hf i

theorem quad_curv (A B C : ℝ) {n : ℕ} (hn : 3 ≤ n) :
    (2 * C) ^ 2 * (n : ℝ) ^ 5 ≤ 18750 * ∑ i ∈ range n, quad A B C i ^ 2 := by
  set L := n / 3 with hL
  have hLn : n ≤ 5 * L := by omega
  have hLn' : (n : ℝ) ≤ 5 * L := by exact_mod_cast hLn
  have h1 := thirds (fun i => quad A B C i ^ 2) (fun _ => sq_nonneg _) (show 3 * L ≤ n by omega)
  have h2 : ∀ i ∈ range L, (2 * C) ^ 2 * (L : ℝ) ^ 4 / 6 ≤ quad A B C i ^ 2 + quad A B C (L + i) ^ 2 + quad A B C (2 * L + i) ^ 2 := by
    intro i _
    have e : 2 * C * (L : ℝ) ^ 2 = quad A B C i - 2 * quad A B C (L + i) + quad A B C (2 * L + i) := by
      unfold quad
      push_cast
      ring
    have e2 : (2 * C) ^ 2 * (L : ℝ) ^ 4 = (quad A B C i - 2 * quad A B C (L + i) + quad A B C (2 * L + i)) ^ 2 := by
      rw [← e]
      ring
    rw [e2]
    nlinarith [sq_nonneg (2 * quad A B C i + quad A B C (L + i)), sq_nonneg (quad A B C i - quad A B C (2 * L + i)),
      sq_nonneg (2 * quad A B C (2 * L + i) + quad A B C (L + i))]
  have h3 := sum_le_sum h2
  rw [sum_const, card_range, nsmul_eq_mul] at h3
  have h4 : (n : ℝ) ^ 5 ≤ (5 * L : ℝ) ^ 5 := pow_le_pow_left₀ (by positivity) hLn' 5
  calc (2 * C) ^ 2 * (n : ℝ) ^ 5 ≤ (2 * C) ^ 2 * (5 * L : ℝ) ^ 5 := mul_le_mul_of_nonneg_left h4 (sq_nonneg _)
    _ = 18750 * (L * ((2 * C) ^ 2 * (L : ℝ) ^ 4 / 6)) := by ring
    _ ≤ _ := by linarith

theorem quad_slope (A B C : ℝ) {n : ℕ} (hn : 3 ≤ n) {s : ℝ} (h0 : 0 ≤ s) (hs : s ≤ 2 * n + 1) :
    (B + C * s) ^ 2 * (n : ℝ) ^ 3 ≤ 100000 * ∑ i ∈ range n, quad A B C i ^ 2 := by
  have hcur := quad_curv A B C hn
  set M := ∑ i ∈ range n, quad A B C i ^ 2
  have hM : 0 ≤ M := sum_nonneg fun _ _ => sq_nonneg _
  set L := n / 3 with hL
  have hL0 : (0 : ℝ) < L := by exact_mod_cast (show 0 < L by omega)
  have hn0 : (3 : ℝ) ≤ n := by exact_mod_cast hn
  have hLn : n ≤ 5 * L := by omega
  have hLn' : (n : ℝ) ≤ 5 * L := by exact_mod_cast hLn
  have hLn2 : 3 * (L : ℝ) ≤ n := by exact_mod_cast (show 3 * L ≤ n by omega)
  have h1 := thirds (fun i => quad A B C i ^ 2) (fun _ => sq_nonneg _) (show 3 * L ≤ n by omega)
  have h2 : ∀ l ∈ range L, (B + C * s) ^ 2 * (n : ℝ) ^ 2 ≤ 50 * (2 * (quad A B C l ^ 2 + quad A B C (L + l) ^ 2 + quad A B C (2 * L + l) ^ 2))
      + 18 * C ^ 2 * (n : ℝ) ^ 4 := by
    intro l hl
    have hl : (l : ℝ) ≤ L := by exact_mod_cast (mem_range.1 hl).le
    have e : (L : ℝ) * (B + C * (2 * l + L)) = quad A B C (L + l) - quad A B C l := by
      unfold quad
      push_cast
      ring
    have e1 : (L : ℝ) ^ 2 * (B + C * (2 * l + L)) ^ 2 ≤ 2 * (quad A B C l ^ 2 + quad A B C (L + l) ^ 2 + quad A B C (2 * L + l) ^ 2) := by
      rw [← mul_pow, e]
      nlinarith [sq_nonneg (quad A B C (L + l) + quad A B C l), sq_nonneg (quad A B C (2 * L + l))]
    have e2 : (n : ℝ) ^ 2 * (B + C * (2 * l + L)) ^ 2 ≤ 25 * ((L : ℝ) ^ 2 * (B + C * (2 * l + L)) ^ 2) := by
      have : (n : ℝ) ^ 2 ≤ (5 * L : ℝ) ^ 2 := pow_le_pow_left₀ (by positivity) hLn' 2
      nlinarith [mul_le_mul_of_nonneg_right this (sq_nonneg (B + C * (2 * l + L)))]
    have e3 : (s - (2 * l + L)) ^ 2 ≤ (3 * n : ℝ) ^ 2 := by
      have : (0 : ℝ) ≤ l := by positivity
      refine sq_le_sq' ?_ ?_ <;> linarith
    have e4 : (B + C * s) ^ 2 ≤ 2 * (B + C * (2 * l + L)) ^ 2 + 2 * (C ^ 2 * (s - (2 * l + L)) ^ 2) := by
      nlinarith [sq_nonneg ((B + C * (2 * l + L)) - C * (s - (2 * l + L)))]
    have e5 : C ^ 2 * (s - (2 * l + L)) ^ 2 ≤ C ^ 2 * (3 * n : ℝ) ^ 2 := mul_le_mul_of_nonneg_left e3 (sq_nonneg _)
    calc (B + C * s) ^ 2 * (n : ℝ) ^ 2 ≤ (2 * (B + C * (2 * l + L)) ^ 2 + 2 * (C ^ 2 * (3 * n : ℝ) ^ 2)) * (n : ℝ) ^ 2 :=
          mul_le_mul_of_nonneg_right (by linarith) (sq_nonneg _)
      _ = 2 * ((n : ℝ) ^ 2 * (B + C * (2 * l + L)) ^ 2) + 18 * C ^ 2 * (n : ℝ) ^ 4 := by ring
      _ ≤ _ := by linarith
  have h3 := sum_le_sum h2
  rw [sum_const, card_range, nsmul_eq_mul, sum_add_distrib, ← mul_sum, ← mul_sum, sum_const, card_range, nsmul_eq_mul] at h3
  have h4 : (n : ℝ) * ((B + C * s) ^ 2 * (n : ℝ) ^ 2) ≤ 5 * (L * ((B + C * s) ^ 2 * (n : ℝ) ^ 2)) := by
    nlinarith [mul_le_mul_of_nonneg_right hLn' (show 0 ≤ (B + C * s) ^ 2 * (n : ℝ) ^ 2 by positivity)]
  have h5 : (L : ℝ) * (18 * C ^ 2 * (n : ℝ) ^ 4) ≤ 6 * C ^ 2 * (n : ℝ) ^ 5 := by
    nlinarith [mul_le_mul_of_nonneg_right hLn2 (show 0 ≤ C ^ 2 * (n : ℝ) ^ 4 by positivity)]
  nlinarith

theorem quad_value (A B C : ℝ) {n : ℕ} (hn : 3 ≤ n) {i : ℕ} (hi : i ≤ n) :
    quad A B C i ^ 2 * (n : ℝ) ≤ 300000 * ∑ i ∈ range n, quad A B C i ^ 2 := by
  have hn0 : (3 : ℝ) ≤ n := by exact_mod_cast hn
  have hi' : (i : ℝ) ≤ n := by exact_mod_cast hi
  set M := ∑ i ∈ range n, quad A B C i ^ 2 with hMdef
  have hM : 0 ≤ M := sum_nonneg fun _ _ => sq_nonneg _
  have h1 : ∀ j ∈ range n, quad A B C i ^ 2 ≤ 2 * quad A B C j ^ 2 + 200000 * M / n := by
    intro j hj
    have hj' : (j : ℝ) ≤ n := by exact_mod_cast (mem_range.1 hj).le
    have hs := quad_slope A B C hn (s := (i : ℝ) + j) (by positivity) (by linarith)
    have e : quad A B C i - quad A B C j = (i - j) * (B + C * (i + j)) := by
      unfold quad
      ring
    have e1 : ((i : ℝ) - j) ^ 2 ≤ (n : ℝ) ^ 2 := by
      have : (0 : ℝ) ≤ i := by positivity
      have : (0 : ℝ) ≤ j := by positivity
      refine sq_le_sq' ?_ ?_ <;> linarith
    have e2 : (quad A B C i - quad A B C j) ^ 2 ≤ 100000 * M / n := by
      rw [e, mul_pow, le_div_iff₀ (by linarith)]
      calc ((i : ℝ) - j) ^ 2 * (B + C * (i + j)) ^ 2 * n ≤ (n : ℝ) ^ 2 * (B + C * (i + j)) ^ 2 * n := by gcongr
        _ = (B + C * (i + j)) ^ 2 * (n : ℝ) ^ 3 := by ring
        _ ≤ _ := hs
    have e3 : 200000 * M / n = 2 * (100000 * M / n) := by ring
    rw [e3]
    nlinarith [sq_nonneg (2 * quad A B C j - quad A B C i)]
  have h2 := sum_le_sum h1
  rw [sum_const, card_range, nsmul_eq_mul, sum_add_distrib, ← mul_sum, sum_const, card_range, nsmul_eq_mul, ← hMdef,
    mul_div_cancel₀ _ (by linarith : (n : ℝ) ≠ 0)] at h2
  linarith

/-! ## Least squares -/

theorem abel (Q e : ℕ → ℝ) (n : ℕ) : ∑ i ∈ range n, Q i * e i = Q n * ∑ i ∈ range n, e i
    - ∑ i ∈ range n, (Q (i + 1) - Q i) * ∑ j ∈ range (i + 1), e j := by
  induction n with
  | zero => simp
  | succ n ih =>
    rw [sum_range_succ, ih, sum_range_succ (fun i => (Q (i + 1) - Q i) * _), sum_range_succ e n]
    ring

/-- the fit to noise is as small as the mean square of its partial sums -/
theorem quad_fit_white (A B C : ℝ) (e : ℕ → ℝ) {n : ℕ} (hn : 3 ≤ n)
    (h : ∑ i ∈ range n, quad A B C i ^ 2 = ∑ i ∈ range n, quad A B C i * e i) :
    ∑ i ∈ range n, quad A B C i ^ 2 ≤ 600000 * ((∑ j ∈ range n, e j) ^ 2 / n)
      + 200000 * ((∑ i ∈ range n, (∑ j ∈ range (i + 1), e j) ^ 2) / (n : ℝ) ^ 2) := by
  have hn0 : (0 : ℝ) < n := by exact_mod_cast (show 0 < n by omega)
  set M := ∑ i ∈ range n, quad A B C i ^ 2 with hMd
  set S : ℕ → ℝ := fun i => ∑ j ∈ range i, e j with hS
  have hM : 0 ≤ M := sum_nonneg fun _ _ => sq_nonneg _
  rcases hM.eq_or_lt with h0 | h0
  · rw [← h0]
    positivity
  have e1 := abel (quad A B C) e n
  rw [← h] at e1
  have h1 := quad_value A B C hn (le_refl n)
  rw [← hMd] at h1
  have h2 : ∀ i ∈ range n, (quad A B C (i + 1) - quad A B C i) ^ 2 ≤ 100000 * M / (n : ℝ) ^ 3 := by
    intro i hi
    have hi' : (i : ℝ) ≤ n := by exact_mod_cast (mem_range.1 hi).le
    have hs := quad_slope A B C hn (s := 2 * (i : ℝ) + 1) (by positivity) (by linarith)
    rw [le_div_iff₀ (by positivity)]
    have : quad A B C (i + 1) - quad A B C i = B + C * (2 * (i : ℝ) + 1) := by
      unfold quad
      push_cast
      ring
    rw [this]
    exact hs
  have h3 : (∑ i ∈ range n, (quad A B C (i + 1) - quad A B C i) * S (i + 1)) ^ 2
      ≤ n * (100000 * M / (n : ℝ) ^ 3 * ∑ i ∈ range n, S (i + 1) ^ 2) := by
    refine (sq_sum_le _ _).trans (mul_le_mul_of_nonneg_left ?_ hn0.le)
    rw [mul_sum]
    refine sum_le_sum fun i hi => ?_
    rw [mul_pow]
    exact mul_le_mul_of_nonneg_right (h2 i hi) (sq_nonneg _)
  have h4 : quad A B C n ^ 2 * S n ^ 2 ≤ 300000 * M / n * S n ^ 2 := by
    refine mul_le_mul_of_nonneg_right ?_ (sq_nonneg _)
    rw [le_div_iff₀ hn0]
    exact h1
  have h5 : M ^ 2 ≤ M * (600000 * (S n ^ 2 / n) + 200000 * ((∑ i ∈ range n, S (i + 1) ^ 2) / (n : ℝ) ^ 2)) := by
    have e2 : M = quad A B C n * S n - ∑ i ∈ range n, (quad A B C (i + 1) - quad A B C i) * S (i + 1) := e1
    have e3 : M ^ 2 ≤ 2 * (quad A B C n ^ 2 * S n ^ 2) + 2 * (∑ i ∈ range n, (quad A B C (i + 1) - quad A B C i) * S (i + 1)) ^ 2 := by
      rw [e2]
      nlinarith [sq_nonneg (quad A B C n * S n + ∑ i ∈ range n, (quad A B C (i + 1) - quad A B C i) * S (i + 1))]
    calc M ^ 2 ≤ 2 * (300000 * M / n * S n ^ 2) + 2 * (n * (100000 * M / (n : ℝ) ^ 3 * ∑ i ∈ range n, S (i + 1) ^ 2)) := by linarith
      _ = _ := by
        field_simp
        ring
  rw [pow_two] at h5
  exact le_of_mul_le_mul_left h5 h0

theorem quad_fit_le (A B C : ℝ) (e : ℕ → ℝ) (n : ℕ)
    (h : ∑ i ∈ range n, quad A B C i ^ 2 = ∑ i ∈ range n, quad A B C i * e i) :
    ∑ i ∈ range n, quad A B C i ^ 2 ≤ ∑ i ∈ range n, e i ^ 2 := by
  have h1 : 2 * ∑ i ∈ range n, quad A B C i * e i ≤ ∑ i ∈ range n, quad A B C i ^ 2 + ∑ i ∈ range n, e i ^ 2 := by
    rw [mul_sum, ← sum_add_distrib]
    exact sum_le_sum fun i _ => by nlinarith [sq_nonneg (quad A B C i - e i)]
  linarith

/-! ## The autocorrelation of nearly white noise -/

theorem rho_tab (y : ℕ → ℝ) (n : ℕ) (h : 0 < acfDen y n) :
    rho (tab n y) = some (acfNum y n / (acfDen y n + acfNum y n)) := by
  have hg : ∀ i < n, (tab n y).getD i 0 = y i := fun i hi => by simp [tab, hi]
  have hm : seqMean (fun i => (tab n y).getD i 0) n = seqMean y n := by
    unfold seqMean
    rw [sum_congr rfl fun i hi => hg i (mem_range.1 hi)]
  have hd : acfDen (fun i => (tab n y).getD i 0) n = acfDen y n := by
    unfold acfDen
    rw [hm]
    exact sum_congr rfl fun i hi => by simp only [hg i (mem_range.1 hi)]
  have hnum : acfNum (fun i => (tab n y).getD i 0) n = acfNum y n := by
    unfold acfNum
    rw [hm]
    refine sum_congr rfl fun i hi => ?_
    have hi := mem_range.1 hi
    simp only [hg i (by omega), hg (i + 1) (by omega)]
  have hc : NonConst (tab n y) := by
    by_contra hc
    have hn : 0 < n := by
      rcases Nat.eq_zero_or_pos n with rfl | h1
      · simp [acfDen] at h
      · exact h1
    have hall : ∀ i < n, y i = y 0 := by
      intro i hi
      by_contra h1
      exact hc ⟨y i, by simp only [tab, List.mem_map, List.mem_range]; exact ⟨i, hi, rfl⟩, y 0,
        by simp only [tab, List.mem_map, List.mem_range]; exact ⟨0, hn, rfl⟩, h1⟩
    have hn' : (n : ℝ) ≠ 0 := by exact_mod_cast hn.ne'
    have hmu : seqMean y n = y 0 := by
      unfold seqMean
      rw [sum_congr rfl fun i hi => hall i (mem_range.1 hi)]
      simp [hn']
    have : acfDen y n = 0 := by
      unfold acfDen
      exact sum_eq_zero fun i hi => by rw [hmu, hall i (mem_range.1 hi), sub_self, zero_pow two_ne_zero]
    linarith
  unfold rho
  rw [if_pos hc]
  simp only [tab_length]
  rw [hd, hnum]
  congr 1
  have : 1 + acfNum y n / acfDen y n = (acfDen y n + acfNum y n) / acfDen y n := by field_simp
  rw [this, div_div_div_cancel_right₀ h.ne']

theorem sq_near (w g : ℕ → ℝ) (n : ℕ) {t : ℝ} (ht : 0 < t) :
    |∑ i ∈ range n, (w i - g i) ^ 2 - ∑ i ∈ range n, w i ^ 2| ≤ t * ∑ i ∈ range n, w i ^ 2 + (1 / t + 1) * ∑ i ∈ range n, g i ^ 2 := by
  rw [← sum_sub_distrib, mul_sum, mul_sum, ← sum_add_distrib]
  refine (abs_sum_le_sum_abs _ _).trans (sum_le_sum fun i _ => ?_)
  have e : (w i - g i) ^ 2 - w i ^ 2 = g i ^ 2 - 2 * w i * g i := by ring
  have k1 : t * w i ^ 2 + 1 / t * g i ^ 2 - 2 * w i * g i = (t * w i - g i) ^ 2 / t := by field_simp; ring
  have k2 : t * w i ^ 2 + 1 / t * g i ^ 2 + 2 * w i * g i = (t * w i + g i) ^ 2 / t := by field_simp; ring
  have k3 : 0 ≤ (t * w i - g i) ^ 2 / t := by positivity
  have k4 : 0 ≤ (t * w i + g i) ^ 2 / t := by positivity
  rw [e, abs_le]
  constructor <;> nlinarith [sq_nonneg (g i)]

theorem acf_arith {D E T γ η ε a b n : ℝ} (hε : 0 ≤ ε) (hn : 0 ≤ n) (h1 : |D - n * γ| ≤ a * n) (h2 : 0 ≤ E) (h3 : E ≤ 44 * ε * n)
    (h4 : |T - n * η| ≤ b * n) : |D - E / 2 - T / 2 - n * (γ - η / 2)| ≤ (22 * ε + a + b / 2) * n := by
  have k1 := abs_le.1 h1
  have k2 := abs_le.1 h4
  have k3 : 0 ≤ ε * n := by positivity
  rw [abs_le]
  constructor <;> linarith

/-- numerator and denominator of the autocorrelation of `w - q` when `q` is small -/
theorem acf_near {γ η ε t : ℝ} (hε : 0 < ε) (ht : 0 < t) {n : ℕ} (hn : 0 < n) (w q : ℕ → ℝ)
    (hq : ∑ i ∈ range n, q i ^ 2 ≤ ε * n) (hS : (∑ i ∈ range n, w i) ^ 2 ≤ ε * (n : ℝ) ^ 2)
    (hw : |∑ i ∈ range n, w i ^ 2 - n * γ| ≤ ε * n) (hd : |∑ i ∈ range (n - 1), (w (i + 1) - w i) ^ 2 - n * η| ≤ ε * n)
    (he : w 0 ^ 2 + w (n - 1) ^ 2 ≤ ε * n) :
    |acfDen (fun i => w i - q i) n / n - γ| ≤ ε + t * (γ + ε) + (1 / t + 1) * (10 * ε) ∧
    |acfNum (fun i => w i - q i) n / n - (γ - η / 2)| ≤ 22 * ε + (ε + t * (γ + ε) + (1 / t + 1) * (10 * ε))
      + (ε + t * (η + ε) + (1 / t + 1) * (40 * ε)) / 2 := by
  have hn0 : (0 : ℝ) < n := by exact_mod_cast hn
  set μ := seqMean (fun i => w i - q i) n with hμ
  set g : ℕ → ℝ := fun i => q i + μ with hg
  set S := ∑ i ∈ range n, w i with hSd
  have eμ : n * μ = S - ∑ i ∈ range n, q i := by
    rw [hμ]
    unfold seqMean
    rw [mul_div_cancel₀ _ hn0.ne', sum_sub_distrib]
  have hq2 : (∑ i ∈ range n, q i) ^ 2 ≤ ε * (n : ℝ) ^ 2 := by
    refine (sq_sum_le _ _).trans ?_
    nlinarith
  have hμ2 : n * μ ^ 2 ≤ 4 * ε * n := by
    have h1 : (n * μ) ^ 2 ≤ 4 * ε * (n : ℝ) ^ 2 := by
      rw [eμ]
      nlinarith [sq_nonneg (S + ∑ i ∈ range n, q i)]
    have h2 : n * (n * μ ^ 2) ≤ n * (4 * ε * n) := by nlinarith
    exact le_of_mul_le_mul_left h2 hn0
  have hG : ∑ i ∈ range n, g i ^ 2 ≤ 10 * ε * n := by
    have h1 : ∑ i ∈ range n, g i ^ 2 ≤ ∑ i ∈ range n, (2 * q i ^ 2 + 2 * μ ^ 2) :=
      sum_le_sum fun i _ => by simp only [hg]; nlinarith [sq_nonneg (q i - μ)]
    rw [sum_add_distrib, ← mul_sum, sum_const, card_range, nsmul_eq_mul] at h1
    nlinarith
  have hG0 : ∀ i < n, g i ^ 2 ≤ 10 * ε * n := fun i hi =>
    (single_le_sum (f := fun i => g i ^ 2) (fun _ _ => sq_nonneg _) (mem_range.2 hi)).trans hG
  have eD : acfDen (fun i => w i - q i) n = ∑ i ∈ range n, (w i - g i) ^ 2 := by
    unfold acfDen
    exact sum_congr rfl fun i _ => by simp only [hg]; ring
  have hw' := abs_le.1 hw
  have hd' := abs_le.1 hd
  have hDen : |acfDen (fun i => w i - q i) n - n * γ| ≤ (ε + t * (γ + ε) + (1 / t + 1) * (10 * ε)) * n := by
    rw [eD]
    have h1 := abs_le.1 (sq_near w g n ht)
    have h2 : t * ∑ i ∈ range n, w i ^ 2 ≤ t * ((γ + ε) * n) := mul_le_mul_of_nonneg_left (by linarith) ht.le
    have h3 : (1 / t + 1) * ∑ i ∈ range n, g i ^ 2 ≤ (1 / t + 1) * (10 * ε * n) := mul_le_mul_of_nonneg_left hG (by positivity)
    rw [abs_le]
    constructor <;> linarith
  have eN : acfNum (fun i => w i - q i) n = acfDen (fun i => w i - q i) n
      - ((w 0 - g 0) ^ 2 + (w (n - 1) - g (n - 1)) ^ 2) / 2
      - (∑ i ∈ range (n - 1), ((w (i + 1) - w i) - (q (i + 1) - q i)) ^ 2) / 2 := by
    have := acf_parts (fun i => w i - g i) hn
    rw [eD]
    have e1 : acfNum (fun i => w i - q i) n = ∑ i ∈ range (n - 1), (w i - g i) * (w (i + 1) - g (i + 1)) := by
      unfold acfNum
      exact sum_congr rfl fun i _ => by simp only [hg]; ring
    rw [e1, this]
    congr 2
    exact sum_congr rfl fun i _ => by simp only [hg]; ring
  have hends : (w 0 - g 0) ^ 2 + (w (n - 1) - g (n - 1)) ^ 2 ≤ 44 * ε * n := by
    have h1 := hG0 0 hn
    have h2 := hG0 (n - 1) (by omega)
    nlinarith [sq_nonneg (w 0 + g 0), sq_nonneg (w (n - 1) + g (n - 1))]
  have hdq : ∑ i ∈ range (n - 1), (q (i + 1) - q i) ^ 2 ≤ 40 * ε * n := by
    have h1 : ∑ i ∈ range (n - 1), (q (i + 1) - q i) ^ 2 ≤ ∑ i ∈ range (n - 1), (2 * q (i + 1) ^ 2 + 2 * q i ^ 2) :=
      sum_le_sum fun i _ => by nlinarith [sq_nonneg (q (i + 1) + q i)]
    rw [sum_add_distrib, ← mul_sum, ← mul_sum] at h1
    have h2 : ∑ i ∈ range (n - 1), q i ^ 2 ≤ ∑ i ∈ range n, q i ^ 2 :=
      sum_le_sum_of_subset_of_nonneg (range_subset_range.2 (by omega)) fun _ _ _ => sq_nonneg _
    have h3 : ∑ i ∈ range (n - 1), q (i + 1) ^ 2 ≤ ∑ i ∈ range n, q i ^ 2 := by
      have := sum_range_succ' (fun i => q i ^ 2) (n - 1)
      rw [show n - 1 + 1 = n by omega] at this
      rw [this]
      linarith [sq_nonneg (q 0)]
    have : 0 < ε * n := by positivity
    linarith
  have hdiff : |∑ i ∈ range (n - 1), ((w (i + 1) - w i) - (q (i + 1) - q i)) ^ 2 - n * η|
      ≤ (ε + t * (η + ε) + (1 / t + 1) * (40 * ε)) * n := by
    have h1 := abs_le.1 (sq_near (fun i => w (i + 1) - w i) (fun i => q (i + 1) - q i) (n - 1) ht)
    have h2 : t * ∑ i ∈ range (n - 1), (w (i + 1) - w i) ^ 2 ≤ t * ((η + ε) * n) := mul_le_mul_of_nonneg_left (by linarith) ht.le
    have h3 : (1 / t + 1) * ∑ i ∈ range (n - 1), (q (i + 1) - q i) ^ 2 ≤ (1 / t + 1) * (40 * ε * n) :=
      mul_le_mul_of_nonneg_left hdq (by positivity)
    rw [abs_le]
    constructor <;> linarith
  have ends0 : 0 ≤ (w 0 - g 0) ^ 2 + (w (n - 1) - g (n - 1)) ^ 2 := by positivity
  constructor
  · rw [show acfDen (fun i => w i - q i) n / n - γ = (acfDen (fun i => w i - q i) n - n * γ) / n by field_simp, abs_div,
      abs_of_pos hn0, div_le_iff₀ hn0]
    exact hDen
  · rw [show acfNum (fun i => w i - q i) n / n - (γ - η / 2) = (acfNum (fun i => w i - q i) n - n * (γ - η / 2)) / n by
      field_simp, abs_div, abs_of_pos hn0, div_le_iff₀ hn0, eN]
    exact acf_arith hε.le hn0.le hDen ends0 hends hdiff

/-- the limit of `rho` -/
theorem rho_limit {γ η : ℝ} (hγ : 0 < γ) (hη : η < 4 * γ) {κ : ℝ} (hκ : 0 < κ) :
    ∃ ε : ℝ, 0 < ε ∧ ∀ (n : ℕ) (w q : ℕ → ℝ), 0 < n → ∑ i ∈ range n, q i ^ 2 ≤ ε * n → (∑ i ∈ range n, w i) ^ 2 ≤ ε * (n : ℝ) ^ 2 →
      |∑ i ∈ range n, w i ^ 2 - n * γ| ≤ ε * n → |∑ i ∈ range (n - 1), (w (i + 1) - w i) ^ 2 - n * η| ≤ ε * n →
      w 0 ^ 2 + w (n - 1) ^ 2 ≤ ε * n →
      ∃ ρ, rho (tab n (fun i => w i - q i)) = some ρ ∧ |ρ - (γ - η / 2) / (2 * γ - η / 2)| < κ := by
  have hc : ContinuousAt (fun p : ℝ × ℝ => p.2 / (p.1 + p.2)) (γ, γ - η / 2) := by
    refine ContinuousAt.div (by fun_prop) (by fun_prop) ?_
    simp only
    linarith
  obtain ⟨r, hr, hball⟩ := Metric.continuousAt_iff.1 hc κ hκ
  set r' := min r (γ / 2) with hr'
  have hr'0 : 0 < r' := lt_min hr (by linarith)
  have hf : Filter.Tendsto (fun t : ℝ => 22 * t ^ 2 + (t ^ 2 + t * (γ + t ^ 2) + (t + t ^ 2) * 10)
      + (t ^ 2 + t * (η + t ^ 2) + (t + t ^ 2) * 40) / 2) (nhds 0) (nhds 0) := by
    have : Continuous (fun t : ℝ => 22 * t ^ 2 + (t ^ 2 + t * (γ + t ^ 2) + (t + t ^ 2) * 10)
      + (t ^ 2 + t * (η + t ^ 2) + (t + t ^ 2) * 40) / 2) := by fun_prop
    have h1 := this.tendsto 0
    simpa using h1
  have hf2 : Filter.Tendsto (fun t : ℝ => t ^ 2 + t * (γ + t ^ 2) + (t + t ^ 2) * 10) (nhds 0) (nhds 0) := by
    have : Continuous (fun t : ℝ => t ^ 2 + t * (γ + t ^ 2) + (t + t ^ 2) * 10) := by fun_prop
    have h1 := this.tendsto 0
    simpa using h1
  obtain ⟨d, hd, hdd⟩ := Metric.eventually_nhds_iff.1 ((hf.eventually (gt_mem_nhds hr'0)).and (hf2.eventually (gt_mem_nhds hr'0)))
  have ht : 0 < d / 2 := by linarith
  obtain ⟨k1, k2⟩ := hdd (y := d / 2) (by rw [Real.dist_eq, sub_zero, abs_of_pos ht]; linarith)
  set t := d / 2
  refine ⟨t ^ 2, by positivity, fun n w q hn a1 a2 a3 a4 a5 => ?_⟩
  obtain ⟨b1, b2⟩ := acf_near (γ := γ) (η := η) (ε := t ^ 2) (t := t) (by positivity) ht hn w q a1 a2 a3 a4 a5
  have hn0 : (0 : ℝ) < n := by exact_mod_cast hn
  have e1 : t ^ 2 + t * (γ + t ^ 2) + (1 / t + 1) * (10 * t ^ 2) = t ^ 2 + t * (γ + t ^ 2) + (t + t ^ 2) * 10 := by field_simp
  have e2 : (1 / t + 1) * (40 * t ^ 2) = (t + t ^ 2) * 40 := by field_simp
  rw [e1] at b1 b2
  rw [e2] at b2
  have c1 := b1.trans_lt k2
  have c2 := b2.trans_lt k1
  have hden : 0 < acfDen (fun i => w i - q i) n := by
    have := (abs_lt.1 c1).1
    have h3 : r' ≤ γ / 2 := min_le_right _ _
    have h4 : 0 < acfDen (fun i => w i - q i) n / n := by linarith
    exact (div_pos_iff_of_pos_right hn0).1 h4
  refine ⟨_, rho_tab _ _ hden, ?_⟩
  have hb := hball (x := (acfDen (fun i => w i - q i) n / n, acfNum (fun i => w i - q i) n / n)) (by
    rw [Prod.dist_eq, max_lt_iff]
    simp only [Real.dist_eq]
    exact ⟨c1.trans_le (min_le_left _ _), c2.trans_le (min_le_left _ _)⟩)
  simp only [Real.dist_eq] at hb
  have e3 : acfNum (fun i => w i - q i) n / n / (acfDen (fun i => w i - q i) n / n + acfNum (fun i => w i - q i) n / n)
      = acfNum (fun i => w i - q i) n / (acfDen (fun i => w i - q i) n + acfNum (fun i => w i - q i) n) := by
    rw [← add_div, div_div_div_cancel_right₀ hn0.ne']
  rw [e3, show γ + (γ - η / 2) = 2 * γ - η / 2 by ring] at hb
  exact hb

end AT
