import Verif.Lemmas.Circle
import Verif.Lemmas.Invar
import Mathlib.Tactic.FieldSimp
import Mathlib.Tactic.LinearCombination

/-!
# The linear forms of the modified total and the Hadamard total deviation

For a subsequence `u` of `3m` points, `tf m u j` is `m` times the `j`-th second difference of the `m`-point
averages of the mirrored subsequence.
-/

namespace AT

open Finset Spec

/-- the sum of `m` second differences of the mirrored subsequence -/
noncomputable def tf (m : ℕ) (u : ℕ → ℝ) (j : ℕ) : ℝ := ∑ k ∈ range m, d2 (mirror u (3 * m)) m (j + k)

/-- the sum of the first `n` members -/
noncomputable def psum (u : ℕ → ℝ) (n : ℕ) : ℝ := ∑ i ∈ range n, u i

theorem tf_congr {m : ℕ} {u v : ℕ → ℝ} {j : ℕ} (hj : j < 6 * m) (h : ∀ k < 3 * m, u k = v k) : tf m u j = tf m v j := by
  have hmir : ∀ t < 9 * m, mirror u (3 * m) t = mirror v (3 * m) t := fun t ht => by
    unfold mirror
    split_ifs <;> exact h _ (by omega)
  unfold tf d2
  refine sum_congr rfl fun k hk => ?_
  have := mem_range.1 hk
  rw [hmir _ (by omega), hmir _ (by omega), hmir _ (by omega)]

theorem tf_add (m : ℕ) (u v : ℕ → ℝ) (j : ℕ) : tf m (fun k => u k + v k) j = tf m u j + tf m v j := by
  have : ∀ t, mirror (fun k => u k + v k) (3 * m) t = mirror u (3 * m) t + mirror v (3 * m) t := fun t => by
    unfold mirror; split_ifs <;> rfl
  unfold tf d2
  rw [← sum_add_distrib]
  refine sum_congr rfl fun k _ => ?_
  simp only [this]; ring

theorem tf_mul (m : ℕ) (a : ℝ) (u : ℕ → ℝ) (j : ℕ) : tf m (fun k => a * u k) j = a * tf m u j := by
  have : ∀ t, mirror (fun k => a * u k) (3 * m) t = a * mirror u (3 * m) t := fun t => by
    unfold mirror; split_ifs <;> rfl
  unfold tf d2
  rw [mul_sum]
  refine sum_congr rfl fun k _ => ?_
  simp only [this]; ring

theorem tf_const (m : ℕ) (a : ℝ) (j : ℕ) : tf m (fun _ => a) j = 0 := by
  have : ∀ t, mirror (fun _ => a) (3 * m) t = a := fun t => by
    unfold mirror; split_ifs <;> rfl
  unfold tf d2
  refine sum_eq_zero fun k _ => ?_
  simp only [this]; ring

theorem tf_sum (m : ℕ) {ι : Type*} (s : Finset ι) (a : ι → ℝ) (u : ι → ℕ → ℝ) (j : ℕ) :
    tf m (fun k => ∑ i ∈ s, a i * u i k) j = ∑ i ∈ s, a i * tf m (u i) j := by
  classical
  induction s using Finset.induction_on with
  | empty => simp only [sum_empty]; exact tf_const m 0 j
  | insert i s hi ih =>
    simp only [sum_insert hi]
    rw [tf_add m (fun k => a i * u i k), tf_mul, ih]

/-- prefix sums of the mirrored subsequence -/
theorem psum_mirror (m : ℕ) (u : ℕ → ℝ) : ∀ t ≤ 6 * m,
    psum (mirror u (3 * m)) t = psum u (3 * m) + psum u (t - 3 * m) - psum u (3 * m - t) := by
  intro t
  induction t with
  | zero => intro _; simp [psum]
  | succ t ih =>
    intro ht
    have ih := ih (by omega)
    have h1 : psum (mirror u (3 * m)) (t + 1) = psum (mirror u (3 * m)) t + mirror u (3 * m) t := sum_range_succ _ _
    rw [h1, ih]
    unfold mirror
    split_ifs with h2 h3
    · have h4 : psum u (3 * m - t) = psum u (3 * m - (t + 1)) + u (3 * m - 1 - t) := by
        rw [show 3 * m - t = (3 * m - (t + 1)) + 1 by omega, show 3 * m - 1 - t = 3 * m - (t + 1) by omega]
        exact sum_range_succ _ _
      rw [h4, show t + 1 - 3 * m = 0 by omega, show t - 3 * m = 0 by omega]
      ring
    · have h4 : psum u (t + 1 - 3 * m) = psum u (t - 3 * m) + u (t - 3 * m) := by
        rw [show t + 1 - 3 * m = (t - 3 * m) + 1 by omega]
        exact sum_range_succ _ _
      rw [h4, show 3 * m - t = 0 by omega, show 3 * m - (t + 1) = 0 by omega]
      ring
    · omega

/-- one half of the form in terms of prefix sums -/
noncomputable def tg (m : ℕ) (u : ℕ → ℝ) (j : ℕ) : ℝ := psum u j - 3 * psum u (j - m) + 3 * psum u (j - 2 * m)

theorem sum_from (u : ℕ → ℝ) (a m : ℕ) : ∑ k ∈ range m, u (a + k) = psum u (a + m) - psum u a := by
  unfold psum
  rw [sum_range_add]; ring

theorem tf_eq {m : ℕ} (u : ℕ → ℝ) {j : ℕ} (hj : j ≤ 3 * m) : tf m u j = tg m u j + tg m u (3 * m - j) := by
  have e : tf m u j = psum (mirror u (3 * m)) (j + 3 * m) - 3 * psum (mirror u (3 * m)) (j + 2 * m)
      + 3 * psum (mirror u (3 * m)) (j + m) - psum (mirror u (3 * m)) j := by
    have h0 := sum_from (mirror u (3 * m)) j m
    have h1 := sum_from (mirror u (3 * m)) (j + m) m
    have h2 := sum_from (mirror u (3 * m)) (j + 2 * m) m
    rw [show j + m + m = j + 2 * m by ring] at h1
    rw [show j + 2 * m + m = j + 3 * m by ring] at h2
    have : tf m u j = ∑ k ∈ range m, mirror u (3 * m) (j + 2 * m + k) - 2 * ∑ k ∈ range m, mirror u (3 * m) (j + m + k)
        + ∑ k ∈ range m, mirror u (3 * m) (j + k) := by
      unfold tf d2
      rw [mul_sum, ← sum_sub_distrib, ← sum_add_distrib]
      refine sum_congr rfl fun k _ => ?_
      rw [show j + k + 2 * m = j + 2 * m + k by ring, show j + k + m = j + m + k by ring]
    rw [this, h0, h1, h2]; ring
  rw [e, psum_mirror m u _ (by omega), psum_mirror m u _ (by omega), psum_mirror m u _ (by omega),
    psum_mirror m u _ (by omega)]
  unfold tg
  rw [show j + 3 * m - 3 * m = j by omega, show 3 * m - (j + 3 * m) = 0 by omega,
    show j + 2 * m - 3 * m = j - m by omega, show 3 * m - (j + 2 * m) = m - j by omega,
    show j + m - 3 * m = j - 2 * m by omega, show 3 * m - (j + m) = 2 * m - j by omega,
    show j - 3 * m = 0 by omega, show 3 * m - j - m = 2 * m - j by omega, show 3 * m - j - 2 * m = m - j by omega]
  have h0 : psum u 0 = 0 := by simp [psum]
  rw [h0]; ring

theorem tf_symm {m : ℕ} (u : ℕ → ℝ) {j : ℕ} (hj : j ≤ 3 * m) : tf m u (3 * m - j) = tf m u j := by
  rw [tf_eq u hj, tf_eq u (by omega), show 3 * m - (3 * m - j) = j by omega, add_comm]

theorem tf_rev {m : ℕ} (u : ℕ → ℝ) {j : ℕ} (hj : j < 3 * m) : tf m u (3 * m + j) = tf m (fun i => u (3 * m - 1 - i)) j := by
  have h : ∀ t < 6 * m, mirror u (3 * m) (3 * m + t) = mirror (fun i => u (3 * m - 1 - i)) (3 * m) t := fun t ht => by
    unfold mirror
    by_cases h1 : t < 3 * m
    · rw [if_neg (by omega), if_pos (by omega), if_pos h1]; congr 1; omega
    · rw [if_neg (by omega), if_neg (by omega), if_neg h1, if_pos (by omega)]; congr 1; omega
  unfold tf d2
  refine sum_congr rfl fun k hk => ?_
  have := mem_range.1 hk
  rw [← h _ (by omega), ← h _ (by omega), ← h _ (by omega)]
  rw [show 3 * m + j + k + 2 * m = 3 * m + (j + k + 2 * m) by ring, show 3 * m + j + k + m = 3 * m + (j + k + m) by ring,
    show 3 * m + j + k = 3 * m + (j + k) by ring]

/-- a subsequence that is odd about its middle -/
def Odd3 (m : ℕ) (C : ℝ) (u : ℕ → ℝ) : Prop := ∀ i < 3 * m, u (3 * m - 1 - i) = C - u i

theorem Odd3.tf {m : ℕ} {C : ℝ} {u : ℕ → ℝ} (h : Odd3 m C u) {j : ℕ} (hj : j < 3 * m) :
    tf m u (3 * m + j) = -AT.tf m u j := by
  rw [tf_rev u hj, tf_congr (by omega) h]
  have := tf_add m (fun _ => C) (fun k => -1 * u k) j
  rw [tf_const, tf_mul] at this
  have e : (fun k => C - u k) = fun k => C + -1 * u k := by funext k; ring
  rw [e, this]; ring

theorem Odd3.psum {m : ℕ} {C : ℝ} {u : ℕ → ℝ} (h : Odd3 m C u) {n : ℕ} (hn : n ≤ 3 * m) :
    AT.psum u n = AT.psum u (3 * m - n) + (2 * n - 3 * m) * C / 2 := by
  have key : ∀ n ≤ 3 * m, AT.psum u n + AT.psum u (3 * m) - AT.psum u (3 * m - n) = n * C := by
    intro n
    induction n with
    | zero => intro _; simp [AT.psum]
    | succ n ih =>
      intro hn
      have ih := ih (by omega)
      have h1 : AT.psum u (n + 1) = AT.psum u n + u n := sum_range_succ _ _
      have h2 : AT.psum u (3 * m - n) = AT.psum u (3 * m - (n + 1)) + u (3 * m - 1 - n) := by
        rw [show 3 * m - n = (3 * m - (n + 1)) + 1 by omega, show 3 * m - 1 - n = 3 * m - (n + 1) by omega]
        exact sum_range_succ _ _
      have h3 := h n (by omega)
      push_cast
      linarith
  have h1 := key n hn
  have h2 := key (3 * m) le_rfl
  have h0 : AT.psum u 0 = 0 := by simp [AT.psum]
  rw [Nat.sub_self, h0] at h2
  push_cast at h2
  linarith

/-! ## The form of the straight line -/

theorem psum_id (n : ℕ) : psum (fun k => (k : ℝ)) n = n * (n - 1) / 2 := by
  unfold psum
  induction n with
  | zero => simp
  | succ n ih => rw [sum_range_succ, ih]; push_cast; ring

/-- the form of the straight line -/
noncomputable def tr (m j : ℕ) : ℝ := tf m (fun k => (k : ℝ)) j

theorem odd_id (m : ℕ) : Odd3 m (3 * m - 1) (fun k => (k : ℝ)) := fun i hi => by
  have : ((3 * m - 1 - i : ℕ) : ℝ) = 3 * m - 1 - i := by
    rw [Nat.sub_sub, Nat.cast_sub (by omega)]; push_cast; ring
  exact this

theorem tr_one {m i : ℕ} (hi : i ≤ m) : tr m i = i ^ 2 := by
  have h1 : ((3 * m - i : ℕ) : ℝ) = 3 * m - i := by rw [Nat.cast_sub (by omega)]; push_cast; ring
  have h2 : ((2 * m - i : ℕ) : ℝ) = 2 * m - i := by rw [Nat.cast_sub (by omega)]; push_cast; ring
  have h3 : ((m - i : ℕ) : ℝ) = m - i := by rw [Nat.cast_sub (by omega)]
  unfold tr
  rw [tf_eq _ (by omega)]
  unfold tg
  rw [show i - m = 0 by omega, show i - 2 * m = 0 by omega, show 3 * m - i - m = 2 * m - i by omega,
    show 3 * m - i - 2 * m = m - i by omega]
  simp only [psum_id, h1, h2, h3, Nat.cast_zero]
  ring

theorem tr_two {m i : ℕ} (hi : i ≤ m) : tr m (m + i) = m ^ 2 + 2 * m * i - 2 * i ^ 2 := by
  have h1 : ((2 * m - i : ℕ) : ℝ) = 2 * m - i := by rw [Nat.cast_sub (by omega)]; push_cast; ring
  have h3 : ((m - i : ℕ) : ℝ) = m - i := by rw [Nat.cast_sub (by omega)]
  unfold tr
  rw [tf_eq _ (by omega)]
  unfold tg
  rw [show m + i - m = i by omega, show m + i - 2 * m = 0 by omega, show 3 * m - (m + i) - m = m - i by omega,
    show 3 * m - (m + i) - 2 * m = 0 by omega, show 3 * m - (m + i) = 2 * m - i by omega]
  simp only [psum_id, h1, h3, Nat.cast_zero, Nat.cast_add]
  ring

theorem tr_three {m i : ℕ} (hi : i ≤ m) : tr m (2 * m + i) = (m - i) ^ 2 := by
  have h3 : ((m - i : ℕ) : ℝ) = m - i := by rw [Nat.cast_sub (by omega)]
  have := tf_symm (m := m) (fun k => (k : ℝ)) (j := m - i) (by omega)
  rw [show 3 * m - (m - i) = 2 * m + i by omega] at this
  unfold tr
  rw [this]
  have := tr_one (m := m) (i := m - i) (by omega)
  rw [h3] at this
  exact this

theorem blocks3 (m : ℕ) (H : ℕ → ℝ) : ∑ j ∈ range (3 * m), H j = ∑ i ∈ range m, (H i + H (m + i) + H (2 * m + i)) := by
  rw [show 3 * m = m + m + m by ring, sum_range_add, sum_range_add, sum_add_distrib, sum_add_distrib]
  simp only [two_mul]

theorem halves (m : ℕ) (H : ℕ → ℝ) : ∑ j ∈ range (6 * m), H j = ∑ j ∈ range (3 * m), (H j + H (3 * m + j)) := by
  rw [show 6 * m = 3 * m + 3 * m by ring, sum_range_add, sum_add_distrib]

theorem tr_sq (m : ℕ) : ∑ j ∈ range (6 * m), tr m j ^ 2 =
    2 * ∑ i ∈ range m, ((i : ℝ) ^ 4 + (m ^ 2 + 2 * m * i - 2 * i ^ 2) ^ 2 + (m - i) ^ 4) := by
  rw [halves]
  have h : ∀ j ∈ range (3 * m), tr m j ^ 2 + tr m (3 * m + j) ^ 2 = 2 * tr m j ^ 2 := fun j hj => by
    have : tr m (3 * m + j) = -tr m j := (odd_id m).tf (mem_range.1 hj)
    rw [this]; ring
  rw [sum_congr rfl h, ← mul_sum, blocks3]
  congr 1
  refine sum_congr rfl fun i hi => ?_
  have := mem_range.1 hi
  rw [tr_one (by omega), tr_two (by omega), tr_three (by omega)]
  ring

/-- the product with the form of an odd subsequence -/
theorem tr_mul {m : ℕ} {C : ℝ} {u : ℕ → ℝ} (h : Odd3 m C u) : ∑ j ∈ range (6 * m), tr m j * tf m u j =
    4 * ∑ i ∈ range m, ((10 * (i : ℝ) ^ 2 - 12 * m * i) * psum u i + (-2 * m ^ 2 + 8 * m * i - 5 * i ^ 2) * psum u (m + i)
      + (m - i) ^ 2 * psum u (2 * m + i)) := by
  rw [halves]
  have h1 : ∀ j ∈ range (3 * m), tr m j * tf m u j + tr m (3 * m + j) * tf m u (3 * m + j) = 2 * (tr m j * tf m u j) := by
    intro j hj
    have : tr m (3 * m + j) = -tr m j := (odd_id m).tf (mem_range.1 hj)
    rw [this, h.tf (mem_range.1 hj)]; ring
  rw [sum_congr rfl h1, ← mul_sum]
  have h2 : ∑ j ∈ range (3 * m), tr m j * tf m u j = 2 * ∑ j ∈ range (3 * m), tr m j * tg m u j := by
    have e1 : ∀ j ∈ range (3 * m), tr m j * tf m u j = tr m j * tg m u j + tr m (3 * m - j) * tg m u (3 * m - j) := by
      intro j hj
      have hj := mem_range.1 hj
      have : tr m (3 * m - j) = tr m j := tf_symm _ (by omega)
      rw [tf_eq u (by omega), this]; ring
    rw [sum_congr rfl e1, sum_add_distrib, two_mul]
    congr 1
    have e2 : ∑ j ∈ range (3 * m), tr m (3 * m - j) * tg m u (3 * m - j) =
        ∑ j ∈ range (3 * m), tr m (j + 1) * tg m u (j + 1) := by
      rw [← sum_range_reflect (fun j => tr m (j + 1) * tg m u (j + 1))]
      refine sum_congr rfl fun j hj => ?_
      have hj := mem_range.1 hj
      rw [show 3 * m - 1 - j + 1 = 3 * m - j by omega]
    rw [e2]
    have e3 := sum_range_succ (fun j => tr m j * tg m u j) (3 * m)
    have e4 := sum_range_succ' (fun j => tr m j * tg m u j) (3 * m)
    have z0 : tr m 0 = 0 := by rw [tr_one (by omega)]; simp
    have z1 : tr m (3 * m) = 0 := by
      have := tf_symm (m := m) (fun k => (k : ℝ)) (j := 0) (by omega)
      exact this.trans z0
    rw [z1, zero_mul, add_zero] at e3
    rw [z0, zero_mul, add_zero] at e4
    rw [← e4, e3]
  rw [h2, ← mul_assoc, blocks3]
  norm_num
  refine sum_congr rfl fun i hi => ?_
  have hi := mem_range.1 hi
  rw [tr_one (by omega), tr_two (by omega), tr_three (by omega)]
  unfold tg
  rw [show i - m = 0 by omega, show i - 2 * m = 0 by omega, show m + i - m = i by omega, show m + i - 2 * m = 0 by omega,
    show 2 * m + i - m = m + i by omega, show 2 * m + i - 2 * m = i by omega]
  have h0 : psum u 0 = 0 := by simp [psum]
  rw [h0]; ring

end AT
