import Mathlib.Algebra.BigOperators.Intervals
import Mathlib.Algebra.BigOperators.Ring.Finset
import Mathlib.Data.Real.Basic
import Mathlib.Tactic.Ring
import Mathlib.Tactic.Linarith

/-!
# Sums of periodic sequences

`per n F` is the sequence of period `n` that starts with `F 0 .. F (n-1)`.
-/

namespace AT

open Finset

/-- the periodic continuation of `F 0 .. F (n-1)` -/
def per (n : ℕ) (F : ℕ → ℝ) (x : ℤ) : ℝ := F (x % n).toNat

theorem per_add (n : ℕ) (F : ℕ → ℝ) (x : ℤ) : per n F (x + n) = per n F x := by
  unfold per; rw [Int.add_emod_right]

theorem per_nat {n : ℕ} (F : ℕ → ℝ) {x : ℕ} (hx : x < n) : per n F x = F x := by
  unfold per
  rw [Int.emod_eq_of_lt (by omega) (by exact_mod_cast hx), Int.toNat_natCast]

/-- a sequence of period `n` is determined by one period -/
theorem per_eq {n : ℕ} (hn : 0 < n) {G : ℤ → ℝ} (hG : ∀ x, G (x + n) = G x) {F : ℕ → ℝ} (h : ∀ x < n, G x = F x)
    (x : ℤ) : G x = per n F x := by
  have hmul : ∀ (k : ℕ) (y : ℤ), G (y + k * n) = G y := fun k => by
    induction k with
    | zero => intro y; simp
    | succ k ih => intro y; rw [show y + ((k + 1 : ℕ) : ℤ) * n = y + k * n + n by push_cast; ring, hG, ih]
  have hz : ∀ (k : ℤ) (y : ℤ), G (y + k * n) = G y := fun k y => by
    obtain ⟨a, rfl | rfl⟩ := k.eq_nat_or_neg
    · exact hmul a y
    · have := hmul a (y + -(a : ℤ) * n)
      rw [show y + -(a : ℤ) * n + a * n = y by ring] at this
      exact this.symm
  have h1 := Int.emod_nonneg x (by omega : (n : ℤ) ≠ 0)
  have h2 := Int.emod_lt_of_pos x (by omega : (0 : ℤ) < n)
  have h3 : x = (x % n).toNat + x / n * n := by
    rw [Int.toNat_of_nonneg h1]
    have := Int.emod_add_mul_ediv x n
    linarith
  unfold per
  rw [h3, hz, h _ (by omega)]
  congr 1
  rw [← h3]

/-- the sum over a period does not depend on where it starts -/
theorem sum_shift {n : ℕ} {G : ℤ → ℝ} (hG : ∀ x, G (x + n) = G x) (s : ℤ) :
    ∑ j ∈ range n, G (j + s) = ∑ j ∈ range n, G j := by
  have step : ∀ s : ℤ, ∑ j ∈ range n, G (j + (s + 1)) = ∑ j ∈ range n, G (j + s) := fun s => by
    have h1 := sum_range_succ (fun j : ℕ => G (j + s)) n
    have h2 := sum_range_succ' (fun j : ℕ => G (j + s)) n
    rw [h1] at h2
    have h3 : G ((n : ℤ) + s) = G ((0 : ℕ) + s) := by rw [add_comm (n : ℤ), hG]; simp
    rw [h3] at h2
    have h4 := add_right_cancel h2
    rw [h4]
    exact sum_congr rfl fun j _ => by congr 1; push_cast; ring
  induction s using Int.induction_on with
  | zero => simp
  | succ i ih => rw [step, ih]
  | pred i ih => rw [← ih, ← step, sub_add_cancel]

theorem sum_neg_index {n : ℕ} {G : ℤ → ℝ} (hG : ∀ x, G (x + n) = G x) (s : ℤ) :
    ∑ j ∈ range n, G (s - j) = ∑ j ∈ range n, G j := by
  rw [← sum_range_reflect]
  rw [← sum_shift hG (s - n + 1)]
  refine sum_congr rfl fun j hj => ?_
  have := mem_range.1 hj
  congr 1
  omega

/-- the sum of every second member, starting at `x` -/
noncomputable def evens (n : ℕ) (G : ℤ → ℝ) (x : ℤ) : ℝ := ∑ s ∈ range n, G (x - 2 * s)

theorem evens_add {n : ℕ} {G : ℤ → ℝ} (hG : ∀ x, G (x + n) = G x) (x : ℤ) : evens n G (x + 2) = evens n G x := by
  unfold evens
  have h : ∀ y, (fun t : ℤ => G (x - 2 * t)) (y + n) = (fun t : ℤ => G (x - 2 * t)) y := fun y => by
    show G (x - 2 * (y + n)) = G (x - 2 * y)
    rw [← hG (x - 2 * (y + n)), ← hG (x - 2 * (y + n) + n)]
    congr 1; ring
  rw [← sum_shift (G := fun t : ℤ => G (x - 2 * t)) h (-1)]
  exact sum_congr rfl fun s _ => by congr 1; ring

theorem evens_neg {n : ℕ} {G : ℤ → ℝ} (hG : ∀ x, G (x + n) = G x) (h0 : ∑ j ∈ range n, G j = 0) (x : ℤ) :
    evens n G (x + 1) = -evens n G x := by
  have h1 : evens n G (x + 1) + evens n G x = ∑ t ∈ range (n * 2), G (x + 1 - t) := by
    unfold evens
    rw [← sum_add_distrib]
    clear hG h0
    generalize hk : n = k
    clear hk
    induction k with
    | zero => simp
    | succ k ih =>
      rw [sum_range_succ, ih, show (k + 1) * 2 = k * 2 + 1 + 1 by ring, sum_range_succ, sum_range_succ, add_assoc]
      congr 2
      · congr 1; push_cast; ring
      · congr 1; push_cast; ring
  have h2 : ∑ t ∈ range (n * 2), G (x + 1 - t) = 0 := by
    rw [show n * 2 = n + n by ring, sum_range_add]
    rw [sum_neg_index hG, h0, zero_add]
    have : ∀ t ∈ range n, G (x + 1 - ((n + t : ℕ) : ℤ)) = G ((x + 1 - n) - t) := fun t _ => by
      congr 1; push_cast; ring
    rw [sum_congr rfl this, sum_neg_index hG, h0]
  linarith

theorem evens_int {n : ℕ} {G : ℤ → ℝ} (hG : ∀ x, G (x + n) = G x) (h0 : ∑ j ∈ range n, G j = 0) (x : ℤ) :
    evens n G x = if x % 2 = 0 then evens n G 0 else -evens n G 0 := by
  induction x using Int.induction_on with
  | zero => simp
  | succ i ih =>
    rw [evens_neg hG h0, ih]
    rcases Int.emod_two_eq_zero_or_one (i : ℤ) with h | h
    · rw [if_pos h, if_neg (by omega)]
    · rw [if_neg (by omega), if_pos (by omega), neg_neg]
  | pred i ih =>
    have h1 := evens_neg hG h0 (-(i : ℤ) - 1)
    rw [sub_add_cancel, ih] at h1
    rcases Int.emod_two_eq_zero_or_one (-(i : ℤ)) with h | h
    · rw [if_pos h] at h1; rw [if_neg (by omega)]; linarith
    · rw [if_neg (by omega)] at h1; rw [if_pos (by omega)]; linarith

/-- for an even period, the alternating sum is the sum of every second member, counted twice -/
theorem alternating {k : ℕ} {G : ℤ → ℝ} (hG : ∀ x, G (x + (2 * k : ℕ)) = G x) (h0 : ∑ j ∈ range (2 * k), G j = 0) :
    ∑ j ∈ range (2 * k), G j * (if (j : ℤ) % 2 = 0 then 1 else -1) = evens (2 * k) G 0 := by
  have ev : ∀ x, evens (2 * k) G x = 2 * ∑ s ∈ range k, G (x - 2 * s) := fun x => by
    unfold evens
    rw [two_mul k, sum_range_add, two_mul]
    congr 1
    refine sum_congr rfl fun s _ => ?_
    rw [← hG (x - 2 * ((k + s : ℕ) : ℤ))]
    congr 1; push_cast; ring
  have e0 : ∑ s ∈ range k, G (2 * s) = ∑ s ∈ range k, G (0 - 2 * s) := by
    have h : ∀ y, (fun t : ℤ => G (2 * t)) (y + k) = (fun t : ℤ => G (2 * t)) y := fun y => by
      show G (2 * (y + k)) = G (2 * y)
      rw [← hG (2 * y)]; congr 1; push_cast; ring
    have := sum_neg_index (G := fun t : ℤ => G (2 * t)) h 0
    rw [← this]
    exact sum_congr rfl fun s _ => by congr 1; ring
  have e1 : ∑ s ∈ range k, G (2 * s + 1) = ∑ s ∈ range k, G (1 - 2 * s) := by
    have h : ∀ y, (fun t : ℤ => G (2 * t + 1)) (y + k) = (fun t : ℤ => G (2 * t + 1)) y := fun y => by
      show G (2 * (y + k) + 1) = G (2 * y + 1)
      rw [← hG (2 * y + 1)]; congr 1; push_cast; ring
    have := sum_neg_index (G := fun t : ℤ => G (2 * t + 1)) h 0
    rw [← this]
    exact sum_congr rfl fun s _ => by congr 1; ring
  have h1 : ∑ j ∈ range (2 * k), G j * (if (j : ℤ) % 2 = 0 then 1 else -1) =
      ∑ s ∈ range k, G (2 * s) - ∑ s ∈ range k, G (2 * s + 1) := by
    clear hG h0 ev e0 e1
    induction k with
    | zero => simp
    | succ k ih =>
      rw [show 2 * (k + 1) = 2 * k + 1 + 1 by ring, sum_range_succ, sum_range_succ, ih, sum_range_succ, sum_range_succ,
        if_pos (by push_cast; omega), if_neg (by push_cast; omega)]
      push_cast
      ring
  have h2 := evens_neg hG h0 0
  rw [zero_add, ev 1, ev 0] at h2
  rw [h1, e0, e1, ev 0]
  linarith

theorem evens_zero {k : ℕ} {G : ℤ → ℝ} (hG : ∀ x, G (x + (2 * k : ℕ)) = G x) :
    evens (2 * k) G 0 = 2 * ∑ s ∈ range k, G (2 * s) := by
  have e0 : ∑ s ∈ range k, G (2 * s) = ∑ s ∈ range k, G (0 - 2 * s) := by
    have h : ∀ y, (fun t : ℤ => G (2 * t)) (y + k) = (fun t : ℤ => G (2 * t)) y := fun y => by
      show G (2 * (y + k)) = G (2 * y)
      rw [← hG (2 * y)]; congr 1; push_cast; ring
    have := sum_neg_index (G := fun t : ℤ => G (2 * t)) h 0
    rw [← this]
    exact sum_congr rfl fun s _ => by congr 1; ring
  rw [e0]
  unfold evens
  rw [two_mul k, sum_range_add, two_mul (∑ s ∈ range k, _)]
  congr 1
  refine sum_congr rfl fun s _ => ?_
  rw [← hG (0 - 2 * ((k + s : ℕ) : ℤ))]
  congr 1; push_cast; ring

/-- a double sum over two indices with given sum of arguments -/
theorem cross_sum {k : ℕ} {G : ℤ → ℝ} (hG : ∀ x, G (x + (2 * k : ℕ)) = G x) (h0 : ∑ j ∈ range (2 * k), G j = 0)
    (a b : ℤ) : ∑ s ∈ range (2 * k), ∑ j ∈ range (2 * k), G (a + s - j) * G (b - s - j) =
      (if (a + b) % 2 = 0 then 1 else -1) * evens (2 * k) G 0 ^ 2 := by
  rw [sum_comm]
  have h1 : ∀ j ∈ range (2 * k), ∑ s ∈ range (2 * k), G (a + s - j) * G (b - s - j) =
      ∑ p ∈ range (2 * k), G p * G (a + b - p - 2 * j) := by
    intro j _
    have h : ∀ y, (fun t : ℤ => G t * G (a + b - t - 2 * j)) (y + (2 * k : ℕ)) =
        (fun t : ℤ => G t * G (a + b - t - 2 * j)) y := fun y => by
      show G (y + (2 * k : ℕ)) * G (a + b - (y + (2 * k : ℕ)) - 2 * j) = _
      rw [hG, ← hG (a + b - (y + (2 * k : ℕ)) - 2 * j)]
      congr 2; ring
    rw [← sum_shift (G := fun t : ℤ => G t * G (a + b - t - 2 * j)) h (a - j)]
    refine sum_congr rfl fun s _ => ?_
    show _ = G (s + (a - j)) * G (a + b - (s + (a - j)) - 2 * j)
    congr 2 <;> ring
  rw [sum_congr rfl h1, sum_comm]
  have h2 : ∀ p ∈ range (2 * k), ∑ j ∈ range (2 * k), G p * G (a + b - p - 2 * j) =
      (if (a + b) % 2 = 0 then 1 else -1) * evens (2 * k) G 0 * (G p * (if (p : ℤ) % 2 = 0 then 1 else -1)) := by
    intro p _
    rw [← mul_sum]
    show G p * evens (2 * k) G (a + b - p) = _
    rw [evens_int hG h0]
    rcases Int.emod_two_eq_zero_or_one (a + b) with h | h <;>
      rcases Int.emod_two_eq_zero_or_one (p : ℤ) with h' | h'
    · rw [if_pos (by omega), if_pos h, if_pos h']; ring
    · rw [if_neg (by omega), if_pos h, if_neg (by omega)]; ring
    · rw [if_neg (by omega), if_neg (by omega), if_pos h']; ring
    · rw [if_pos (by omega), if_neg (by omega), if_neg (by omega)]; ring
  rw [sum_congr rfl h2, ← mul_sum, alternating hG h0]
  ring

end AT
