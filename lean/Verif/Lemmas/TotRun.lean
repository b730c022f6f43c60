import Verif.Lemmas.TotCoef

/-!
# The sums of squares of the coefficients of `totTerm` for data with white second differences
-/

namespace AT

open Finset Spec

/-! ## The circle -/

/-- the values of the second antidifference over one period -/
noncomputable def qq (m y : ℕ) : ℝ := if y < m then y * (y - 1) / 2 else
  if y < 2 * m then m * (m - 1) / 2 + 3 * m * (y - m) - (y * (y - 1) - m * (m - 1)) else
  if y < 3 * m then (3 * m - y) * (3 * m - y + 1) / 2 else 0

/-- the second antidifference of `kern`, with mean zero -/
noncomputable def prim2 (m : ℕ) (x : ℤ) : ℝ := per (6 * m) (fun y => qq m y - m ^ 2 / 6) x

theorem prim2_add (m : ℕ) (x : ℤ) : prim2 m (x + (6 * m : ℕ)) = prim2 m x := per_add _ _ _

theorem prim2_nat {m j : ℕ} (hj : j < 6 * m) : prim2 m j = qq m j - m ^ 2 / 6 := per_nat _ hj

theorem prim2_diff {m : ℕ} (hm : 0 < m) (x : ℤ) : prim2 m (x + 1) - prim2 m x = prim m x := by
  rw [per_eq (n := 6 * m) (by omega) (G := fun x => prim2 m (x + 1) - prim2 m x) (F := pp m) ?_ ?_ x]
  · rfl
  · intro x
    rw [add_right_comm, prim2_add, prim2_add]
  · intro x hx
    have h1 : prim2 m (x : ℤ) = qq m x - m ^ 2 / 6 := prim2_nat hx
    by_cases hl : x + 1 < 6 * m
    · have h2 : prim2 m ((x : ℤ) + 1) = qq m (x + 1) - m ^ 2 / 6 := by
        have := prim2_nat hl
        push_cast at this
        exact this
      rw [h1, h2]
      unfold qq pp
      rcases lt_trichotomy (x + 1) m with c | c | c
      · rw [if_pos c, if_pos (by omega), if_pos (by omega)]; push_cast; ring
      · rw [if_neg (by omega), if_pos (by omega), if_pos (by omega), if_pos (by omega), ← c]; push_cast; ring
      · have c1 : ¬ x < m := by omega
        rw [if_neg (by omega), if_neg c1, if_neg c1]
        rcases lt_trichotomy (x + 1) (2 * m) with d | d | d
        · rw [if_pos d, if_pos (by omega), if_pos (by omega)]; push_cast; ring
        · have d' : (x : ℝ) = 2 * m - 1 := by
            have : (x : ℝ) + 1 = 2 * m := by exact_mod_cast d
            linarith
          rw [if_neg (by omega), if_pos (by omega), if_pos (by omega), if_pos (by omega)]; push_cast; rw [d']; ring
        · have d1 : ¬ x < 2 * m := by omega
          rw [if_neg (by omega), if_neg d1, if_neg d1]
          rcases lt_trichotomy (x + 1) (3 * m) with e | e | e
          · rw [if_pos e, if_pos (by omega), if_pos (by omega)]; push_cast; ring
          · have e' : (x : ℝ) = 3 * m - 1 := by
              have : (x : ℝ) + 1 = 3 * m := by exact_mod_cast e
              linarith
            rw [if_neg (by omega), if_pos (by omega), if_pos (by omega), e']; ring
          · rw [if_neg (by omega), if_neg (by omega), if_neg (by omega)]; ring
    · have h2 : prim2 m ((x : ℤ) + 1) = qq m 0 - m ^ 2 / 6 := by
        rw [show (x : ℤ) + 1 = ((0 : ℕ) : ℤ) + (6 * m : ℕ) by push_cast; omega, prim2_add]
        exact prim2_nat (by omega)
      rw [h1, h2]
      unfold qq pp
      rw [if_pos hm, if_neg (by omega), if_neg (by omega), if_neg (by omega), if_neg (by omega), if_neg (by omega),
        if_neg (by omega)]
      simp

/-- a ramp of the subsequence -/
noncomputable def ramp (t k : ℕ) : ℝ := ((k - t : ℕ) : ℝ)

theorem tf_ramp {m : ℕ} (hm : 0 < m) {j : ℕ} (hj : j < 6 * m) {t : ℕ} (ht : t ≤ 3 * m) :
    tf m (ramp t) j = prim2 m (3 * m - t - j) + prim2 m (3 * m + t + 1 - j) - (prim2 m (-j) + prim2 m (1 - j)) := by
  obtain ⟨d, hd⟩ := Nat.exists_eq_add_of_le ht
  induction d generalizing t with
  | zero =>
    have h1 : tf m (ramp t) j = tf m (fun _ => 0) j := tf_congr hj fun k hk => by
      unfold ramp; rw [show k - t = 0 by omega]; simp
    rw [h1, tf_const]
    have e1 : prim2 m (3 * m - t - j) = prim2 m (-j) := by congr 1; omega
    have e2 : prim2 m (3 * m + t + 1 - j) = prim2 m (1 - j) := by
      rw [← prim2_add m (1 - j)]; congr 1; push_cast; omega
    rw [e1, e2, sub_self]
  | succ d ih =>
    have ih := ih (t := t + 1) (by omega) (by omega)
    have h1 : ramp t = fun k => step (t + 1) k + ramp (t + 1) k := by
      funext k
      unfold step ramp
      rcases lt_or_ge t k with c | c
      · rw [if_pos (by omega), show k - t = (k - (t + 1)) + 1 by omega]; push_cast; ring
      · rw [if_neg (by omega), show k - t = 0 by omega, show k - (t + 1) = 0 by omega]; simp
    rw [h1, tf_add, ih, tf_step hm hj (by omega)]
    have e1 := prim2_diff hm (3 * m - (t + 1 : ℕ) - j)
    have e2 := prim2_diff hm (3 * m + (t + 1 : ℕ) - j)
    rw [show (3 * m - (t + 1 : ℕ) - j + 1 : ℤ) = 3 * m - t - j by push_cast; ring] at e1
    rw [show (3 * m + (t + 1 : ℕ) - j + 1 : ℤ) = 3 * m + (t + 1 : ℕ) + 1 - j by ring] at e2
    rw [show (3 * m + t + 1 - j : ℤ) = 3 * m + (t + 1 : ℕ) - j by push_cast; ring]
    linarith

/-- sums of polynomials -/
theorem sum_poly7 (a b c d e f g h : ℝ) (n : ℕ) :
    ∑ i ∈ range n, (a + b * (i : ℝ) + c * (i : ℝ) ^ 2 + d * (i : ℝ) ^ 3 + e * (i : ℝ) ^ 4 + f * (i : ℝ) ^ 5 + g * (i : ℝ) ^ 6 + h * (i : ℝ) ^ 7) =
      a * n + b * (n * (n - 1) / 2) + c * (n * (n - 1) * (2 * n - 1) / 6) + d * (n ^ 2 * (n - 1) ^ 2 / 4) +
        e * (n * (n - 1) * (2 * n - 1) * (3 * n ^ 2 - 3 * n - 1) / 30) +
        f * (n ^ 2 * (n - 1) ^ 2 * (2 * n ^ 2 - 2 * n - 1) / 12) +
        g * (n * (n - 1) * (2 * n - 1) * (3 * n ^ 4 - 6 * n ^ 3 + 3 * n + 1) / 42) +
        h * (n ^ 2 * (n - 1) ^ 2 * (3 * n ^ 4 - 6 * n ^ 3 - n ^ 2 + 4 * n + 2) / 24) := by
  induction n with
  | zero => simp
  | succ n ih => rw [sum_range_succ, ih]; push_cast; ring

theorem sum_prim2 (m : ℕ) (F : ℝ → ℝ) : ∑ j ∈ range (6 * m), F (prim2 m j) =
    ∑ i ∈ range m, (F (i * (i - 1) / 2 - m ^ 2 / 6) + F (m * (m - 1) / 2 + m * i - i * (i - 1) - m ^ 2 / 6) +
      F ((m - i) * (m - i + 1) / 2 - m ^ 2 / 6) + 3 * F (-(m ^ 2 / 6))) := by
  rw [halves, blocks3]
  refine sum_congr rfl fun i hi => ?_
  have hi := mem_range.1 hi
  rw [prim2_nat (by omega), prim2_nat (by omega), prim2_nat (by omega), prim2_nat (by omega), prim2_nat (by omega),
    prim2_nat (by omega)]
  have k0 : qq m i = i * (i - 1) / 2 := if_pos (by omega)
  have k1 : qq m (m + i) = m * (m - 1) / 2 + m * i - i * (i - 1) := by
    unfold qq; rw [if_neg (by omega), if_pos (by omega)]; push_cast; ring
  have k2 : qq m (2 * m + i) = (m - i) * (m - i + 1) / 2 := by
    unfold qq; rw [if_neg (by omega), if_neg (by omega), if_pos (by omega)]; push_cast; ring
  have k3 : ∀ y, 3 * m ≤ y → qq m y = 0 := fun y hy => by
    unfold qq; rw [if_neg (by omega), if_neg (by omega), if_neg (by omega)]
  rw [k0, k1, k2, k3 _ (by omega), k3 _ (by omega), k3 _ (by omega), zero_sub]
  ring

theorem prim2_sum (m : ℕ) : ∑ j ∈ range (6 * m), prim2 m j = 0 := by
  have := sum_prim2 m (fun x => x)
  rw [this, sum_congr rfl (fun (i : ℕ) _ => show (i : ℝ) * (i - 1) / 2 - m ^ 2 / 6 + (m * (m - 1) / 2 + m * i - i * (i - 1) - m ^ 2 / 6) +
      ((m - i) * (m - i + 1) / 2 - m ^ 2 / 6) + 3 * (-((m : ℝ) ^ 2 / 6)) = 0 by ring)]
  simp

theorem prim2_sum_sq (m : ℕ) : ∑ j ∈ range (6 * m), prim2 m j ^ 2 = m * (11 * m ^ 4 + 5 * m ^ 2 + 4) / 20 - m ^ 5 / 6 := by
  have := sum_prim2 m (fun x => x ^ 2)
  rw [this, sum_congr rfl (fun (i : ℕ) _ => show ((i : ℝ) * (i - 1) / 2 - m ^ 2 / 6) ^ 2 + (m * (m - 1) / 2 + m * i - i * (i - 1) - m ^ 2 / 6) ^ 2 +
      ((m - i) * (m - i + 1) / 2 - m ^ 2 / 6) ^ 2 + 3 * (-((m : ℝ) ^ 2 / 6)) ^ 2 =
      (m ^ 4 / 3 + m ^ 2 / 2) + (-3 / 2 * m - 3 / 2 * m ^ 2) * (i : ℝ) + (3 / 2 + 9 / 2 * m + 3 / 2 * m ^ 2) * (i : ℝ) ^ 2
        + (-3 * m - 3) * (i : ℝ) ^ 3 + (3 / 2) * (i : ℝ) ^ 4 + 0 * (i : ℝ) ^ 5 + 0 * (i : ℝ) ^ 6 + 0 * (i : ℝ) ^ 7 by ring), sum_poly7]
  ring

theorem evens_prim2 {m : ℕ} (hm : 0 < m) : evens (6 * m) (prim2 m) 0 = -evens (6 * m) (prim m) 0 / 2 := by
  have h1 := evens_neg (prim2_add m) (prim2_sum m) 0
  have h2 : evens (6 * m) (prim2 m) (0 + 1) - evens (6 * m) (prim2 m) 0 = evens (6 * m) (prim m) 0 := by
    unfold evens
    rw [← sum_sub_distrib]
    refine sum_congr rfl fun s _ => ?_
    rw [← prim2_diff hm]
    congr 2; ring
  linarith

theorem prim2_corr {m : ℕ} (hm : 0 < m) : ∑ j ∈ range (6 * m), (prim2 m (-j) + prim2 m (1 - j)) ^ 2 =
    4 * ∑ j ∈ range (6 * m), prim2 m j ^ 2 - m * (m ^ 2 + 1) := by
  have h1 := sum_sq_per (prim2_add m) 0
  have h2 := sum_sq_per (prim2_add m) 1
  have h3 := sum_sq_per (prim_add m) 0
  rw [prim_sum_sq] at h3
  simp only [zero_sub] at h1 h3
  have h4 : ∀ j ∈ range (6 * m), (prim2 m (-j) + prim2 m (1 - j)) ^ 2 =
      2 * prim2 m (-j) ^ 2 + 2 * prim2 m (1 - j) ^ 2 - prim m (-j) ^ 2 := fun j _ => by
    rw [← prim2_diff hm, show (-(j : ℤ) + 1) = 1 - j by ring]; ring
  rw [sum_congr rfl h4, sum_sub_distrib, sum_add_distrib, ← mul_sum, ← mul_sum, h1, h2, h3]
  ring

theorem ramp_sum_sq {m : ℕ} (hm : 0 < m) : ∑ t ∈ range (3 * m), ∑ j ∈ range (6 * m), tf m (ramp t) j ^ 2 =
    18 * m * ∑ j ∈ range (6 * m), prim2 m j ^ 2 - evens (6 * m) (prim2 m) 0 ^ 2 - 3 * m ^ 2 * (m ^ 2 + 1) := by
  set A : ℕ → ℕ → ℝ := fun t j => prim2 m (3 * m - t - j) + prim2 m (3 * m + t + 1 - j) with hA
  set B : ℕ → ℝ := fun j => prim2 m (-j) + prim2 m (1 - j) with hB
  have e1 : ∑ t ∈ range (3 * m), ∑ j ∈ range (6 * m), tf m (ramp t) j ^ 2 =
      ∑ t ∈ range (3 * m), ∑ j ∈ range (6 * m), (A t j - B j) ^ 2 :=
    sum_congr rfl fun t ht => sum_congr rfl fun j hj => by rw [tf_ramp hm (mem_range.1 hj) (mem_range.1 ht).le]
  have e2 : ∀ j : ℕ, ∑ t ∈ range (3 * m), A t j = 0 := fun j => by
    have h1 := sum_shift (prim2_add m) (1 - j)
    rw [prim2_sum, halves, sum_add_distrib] at h1
    rw [hA]
    simp only
    rw [sum_add_distrib, ← sum_range_reflect (fun t => prim2 m (3 * m - (t : ℕ) - j)), ← h1]
    congr 1
    · refine sum_congr rfl fun t ht => ?_
      have := mem_range.1 ht
      congr 1; omega
    · refine sum_congr rfl fun t ht => ?_
      congr 1; push_cast; ring
  set h : ℕ → ℝ := fun t => ∑ j ∈ range (6 * m), A t j ^ 2 with hh
  have e3 : ∑ t ∈ range (3 * m), ∑ j ∈ range (6 * m), (A t j - B j) ^ 2 = ∑ t ∈ range (3 * m), h t + 3 * m * ∑ j ∈ range (6 * m), B j ^ 2 := by
    have : ∑ t ∈ range (3 * m), ∑ j ∈ range (6 * m), (A t j - B j) ^ 2 = ∑ t ∈ range (3 * m), h t
        - 2 * ∑ j ∈ range (6 * m), B j * ∑ t ∈ range (3 * m), A t j + ∑ t ∈ range (3 * m), ∑ j ∈ range (6 * m), B j ^ 2 := by
      have : ∑ j ∈ range (6 * m), B j * ∑ t ∈ range (3 * m), A t j = ∑ t ∈ range (3 * m), ∑ j ∈ range (6 * m), B j * A t j := by
        rw [sum_comm]; simp only [mul_sum]
      rw [this, mul_sum, ← sum_sub_distrib, ← sum_add_distrib]
      refine sum_congr rfl fun t _ => ?_
      rw [hh, mul_sum]
      simp only
      rw [← sum_sub_distrib, ← sum_add_distrib]
      exact sum_congr rfl fun j _ => by ring
    rw [this]
    simp only [e2, mul_zero, sum_const_zero, sub_zero, sum_const, card_range, nsmul_eq_mul]
    push_cast; ring
  have e4 : ∑ t ∈ range (2 * (3 * m)), h t = 2 * ∑ t ∈ range (3 * m), h t := by
    rw [two_mul (3 * m), sum_range_add, two_mul (∑ i ∈ range (3 * m), h i)]
    congr 1
    rw [← sum_range_reflect]
    refine sum_congr rfl fun i hi => ?_
    have hi := mem_range.1 hi
    rw [hh, hA]
    simp only
    refine sum_congr rfl fun j _ => ?_
    rw [← prim2_add m (3 * m - ((3 * m + (3 * m - 1 - i) : ℕ) : ℤ) - j), ← prim2_add m (3 * m - i - j)]
    rw [show (3 * m - ((3 * m + (3 * m - 1 - i) : ℕ) : ℤ) - j + (6 * m : ℕ)) = 3 * m + i + 1 - j by push_cast; omega,
      show (3 * m + ((3 * m + (3 * m - 1 - i) : ℕ) : ℤ) + 1 - j) = 3 * m - i - j + (6 * m : ℕ) by push_cast; omega]
    rw [add_comm]
  have c := cross_sum (k := 3 * m) (G := prim2 m) (by rw [show 2 * (3 * m) = 6 * m by ring]; exact prim2_add m)
    (by rw [show 2 * (3 * m) = 6 * m by ring]; exact prim2_sum m) (3 * m + 1) (3 * m)
  rw [if_neg (by omega)] at c
  rw [show 2 * (3 * m) = 6 * m by ring] at c e4
  have e5 : ∑ i ∈ range (6 * m), h i = 2 * (6 * m * ∑ j ∈ range (6 * m), prim2 m j ^ 2) +
      2 * ∑ s ∈ range (6 * m), ∑ j ∈ range (6 * m), prim2 m (3 * m + 1 + s - j) * prim2 m (3 * m - s - j) := by
    have : ∀ i ∈ range (6 * m), h i = 2 * ∑ j ∈ range (6 * m), prim2 m j ^ 2 +
        2 * ∑ j ∈ range (6 * m), prim2 m (3 * m + 1 + i - j) * prim2 m (3 * m - i - j) := fun i _ => by
      have a1 := sum_sq_per (prim2_add m) (3 * m - i)
      have a2 := sum_sq_per (prim2_add m) (3 * m + 1 + i)
      have : ∀ j ∈ range (6 * m), (prim2 m (3 * m - i - j) + prim2 m (3 * m + i + 1 - j)) ^ 2 =
        prim2 m (3 * m - i - j) ^ 2 + prim2 m (3 * m + 1 + i - j) ^ 2 +
        2 * (prim2 m (3 * m + 1 + i - j) * prim2 m (3 * m - i - j)) := fun j _ => by
          rw [show (3 * m + i + 1 - j : ℤ) = 3 * m + 1 + i - j by ring]; ring
      rw [hh, hA]
      simp only
      rw [sum_congr rfl this, sum_add_distrib, sum_add_distrib, a1, a2, ← mul_sum]
      ring
    rw [sum_congr rfl this, sum_add_distrib, sum_const, card_range, nsmul_eq_mul, ← mul_sum]
    push_cast; ring
  rw [c] at e5
  have e6 : ∑ j ∈ range (6 * m), B j ^ 2 = 4 * ∑ j ∈ range (6 * m), prim2 m j ^ 2 - m * (m ^ 2 + 1) := prim2_corr hm
  rw [e1, e3, e6]
  linarith

theorem ramp_total {m : ℕ} (hm : 0 < m) : ∑ t ∈ range (3 * m), ∑ j ∈ range (6 * m), tf m (ramp t) j ^ 2 =
    18 * m * (m * (11 * m ^ 4 + 5 * m ^ 2 + 4) / 20 - m ^ 5 / 6) - 3 * m ^ 2 * (m ^ 2 + 1) - if m % 2 = 0 then 0 else 1 := by
  rw [ramp_sum_sq hm, prim2_sum_sq, evens_prim2 hm, div_pow, neg_sq]
  obtain ⟨p, rfl | rfl⟩ := m.even_or_odd'
  · rw [evens_prim_even, if_pos (by omega)]; push_cast; ring
  · rw [evens_prim_odd, if_neg (by omega)]; push_cast; ring

/-! ## The slopes of the ramps -/

theorem halfSlope_ramp {m t : ℕ} (hm : 0 < m) (ht : t < 3 * m) : halfSlope (ramp t) m 1 = 1 - tq m t := by
  have h1 : ∀ k < 3 * m, ramp t k = ∑ s ∈ range (3 * m - (t + 1)), step (t + 1 + s) k := fun k hk => by
    unfold ramp step
    rcases le_or_gt k t with c | c
    · rw [show k - t = 0 by omega, sum_eq_zero fun s _ => if_neg (by omega)]; simp
    · have h3 := sum_range_add (fun s => if t + 1 + s ≤ k then (1 : ℝ) else 0) (k - t) (3 * m - (t + 1) - (k - t))
      rw [show k - t + (3 * m - (t + 1) - (k - t)) = 3 * m - (t + 1) by omega] at h3
      rw [h3, sum_eq_zero (s := range (3 * m - (t + 1) - (k - t))) (fun s _ => if_neg (by omega)), add_zero,
        sum_congr (g := fun _ => (1 : ℝ)) rfl (fun s hs => if_pos (by have := mem_range.1 hs; omega))]
      simp
  rw [halfSlope_tc, sum_congr rfl (fun k hk => by rw [h1 k (mem_range.1 hk), mul_sum]), sum_comm,
    sum_congr rfl (fun s hs => by
      have := mem_range.1 hs
      rw [← halfSlope_tc, halfSlope_step (by omega)])]
  have h2 := sum_range_add (tb m) (t + 1) (3 * m - (t + 1))
  rw [show t + 1 + (3 * m - (t + 1)) = 3 * m by omega] at h2
  have h3 : ∑ k ∈ range (3 * m), tb m k = 1 := tb_sum hm
  unfold tq psum
  linarith

/-- the slope, with mean zero -/
noncomputable def tp (m t : ℕ) : ℝ := tq m t - 1 / 2

theorem tp_odd {m t : ℕ} (hm : 0 < m) (ht : t < 3 * m) : tp m (3 * m - 1 - t) = -tp m t := by
  unfold tp; rw [odd_tq hm t ht]; ring

theorem tp_low {m : ℕ} : ∀ n ≤ 3 * m / 2, tp m n = kap m * (n * (n + 1) / 2) - 1 / 2 := by
  intro n hn
  unfold tp
  congr 1
  induction n with
  | zero => simp [tq, psum, tb]
  | succ n ih =>
    have h1 : tq m (n + 1) = tq m n + tb m (n + 1) := sum_range_succ _ _
    rw [h1, ih (by omega), tb_low hn]; push_cast; ring

/-- the combination of the ramps -/
noncomputable def tz (m k : ℕ) : ℝ := ∑ t ∈ range k, tp m t * ((k : ℝ) - t)

theorem tz_succ (m k : ℕ) : tz m (k + 1) = tz m k + psum (tp m) (k + 1) := by
  unfold tz psum
  rw [sum_range_succ, sum_range_succ, ← add_assoc, ← sum_add_distrib]
  congr 1
  · exact sum_congr rfl fun t _ => by push_cast; ring
  · push_cast; ring

theorem psum_tp_odd {m n : ℕ} (hm : 0 < m) (hn : n ≤ 3 * m) : psum (tp m) (3 * m - n) = psum (tp m) n := by
  have h : Odd3 m 0 (tp m) := fun i hi => by rw [tp_odd hm hi]; ring
  rw [h.psum hn]; ring

theorem odd_tz {m : ℕ} (hm : 0 < m) : Odd3 m (tz m (3 * m - 1)) (tz m) := by
  intro i
  induction i with
  | zero => intro _; simp [tz]
  | succ i ih =>
    intro hi
    have ih := ih (by omega)
    have h1 := tz_succ m (3 * m - 1 - (i + 1))
    rw [show 3 * m - 1 - (i + 1) + 1 = 3 * m - 1 - i by omega] at h1
    have h2 := tz_succ m i
    have h3 := psum_tp_odd hm (n := i + 1) (by omega)
    rw [show 3 * m - (i + 1) = 3 * m - 1 - i by omega] at h3
    linarith

theorem psum_tp_low {m : ℕ} : ∀ n ≤ 3 * m / 2 + 1, psum (tp m) n = kap m * ((n : ℝ) ^ 3 - n) / 6 - n / 2 := by
  intro n
  induction n with
  | zero => intro _; simp [psum]
  | succ n ih =>
    intro hn
    have h1 : psum (tp m) (n + 1) = psum (tp m) n + tp m n := sum_range_succ _ _
    rw [h1, ih (by omega), tp_low n (by omega)]; push_cast; ring

theorem tz_low {m : ℕ} : ∀ n ≤ 3 * m / 2 + 1, tz m n = kap m * ((n : ℝ) + 2) * (n + 1) * n * (n - 1) / 24 - n * (n + 1) / 4 := by
  intro n
  induction n with
  | zero => intro _; simp [tz]
  | succ n ih =>
    intro hn
    rw [tz_succ, ih (by omega), psum_tp_low _ hn]; push_cast; ring

theorem psum_tz {m : ℕ} : ∀ n ≤ 3 * m / 2, psum (tz m) n = kap m / 120 * (n : ℝ) ^ 5 + (-kap m / 24 - 1 / 12) * (n : ℝ) ^ 3 +
    (kap m / 30 + 1 / 12) * n := by
  intro n
  induction n with
  | zero => intro _; simp [psum]
  | succ n ih =>
    intro hn
    have h1 : psum (tz m) (n + 1) = psum (tz m) n + tz m n := sum_range_succ _ _
    rw [h1, ih (by omega), tz_low _ (by omega)]; push_cast; ring

/-- a subsequence that is even about its middle -/
theorem tr_mul_sym {m : ℕ} {u : ℕ → ℝ} (h : ∀ i < 3 * m, u (3 * m - 1 - i) = u i) : ∑ j ∈ range (6 * m), tr m j * tf m u j = 0 := by
  rw [halves]
  refine sum_eq_zero fun j hj => ?_
  have hj := mem_range.1 hj
  have h1 : tr m (3 * m + j) = -tr m j := (odd_id m).tf hj
  rw [h1, tf_rev u hj, tf_congr (by omega) h]
  ring

theorem tr_mul_ramps {m : ℕ} (u : ℕ → ℝ) (hu : ∀ k < 3 * m, u k = ∑ t ∈ range (3 * m), (1 - tq m t) * ramp t k) :
    ∑ j ∈ range (6 * m), tr m j * tf m u j = 3 * m / 4 * ∑ j ∈ range (6 * m), tr m j ^ 2 - ∑ j ∈ range (6 * m), tr m j * tf m (tz m) j := by
  have h1 : ∀ k < 3 * m, u k = (1 / 2) * ((k : ℝ) * (k + 1 - 3 * m) / 2) + ((3 * m / 4) * (k : ℝ) + -1 * tz m k) := fun k hk => by
    rw [hu k hk]
    have h3 := sum_range_add (fun t => (1 - tq m t) * ramp t k) k (3 * m - k)
    rw [show k + (3 * m - k) = 3 * m by omega] at h3
    rw [h3, sum_eq_zero (s := range (3 * m - k)) (fun s _ => by unfold ramp; rw [show k - (k + s) = 0 by omega]; simp), add_zero]
    have h4 : ∀ t ∈ range k, (1 - tq m t) * ramp t k = (1 / 2 * (k : ℝ) + (-1 / 2) * (t : ℝ)) - tp m t * ((k : ℝ) - t) := fun t ht => by
      have := mem_range.1 ht
      unfold ramp tp
      rw [Nat.cast_sub (by omega)]; ring
    rw [sum_congr rfl h4, sum_sub_distrib, sum_poly1]
    unfold tz
    ring
  have h2 : ∀ j ∈ range (6 * m), tr m j * tf m u j = (1 / 2) * (tr m j * tf m (fun k => (k : ℝ) * (k + 1 - 3 * m) / 2) j) +
      (3 * m / 4 * tr m j ^ 2 + -1 * (tr m j * tf m (tz m) j)) := fun j hj => by
    rw [tf_congr (mem_range.1 hj) h1, tf_add m (fun k => (1 / 2) * ((k : ℝ) * (k + 1 - 3 * m) / 2)), tf_mul,
      tf_add m (fun k => (3 * m / 4) * (k : ℝ)), tf_mul, tf_mul]
    unfold tr
    ring
  rw [sum_congr rfl h2, sum_add_distrib, sum_add_distrib, ← mul_sum, ← mul_sum, ← mul_sum, tr_mul_sym]
  · ring
  · intro i hi
    have : ((3 * m - 1 - i : ℕ) : ℝ) = 3 * m - 1 - i := by
      rw [Nat.sub_sub, Nat.cast_sub (by omega)]; push_cast; ring
    rw [this]; ring

theorem tz_end_even {p : ℕ} (hp : 0 < p) : tz (2 * p) (3 * (2 * p) - 1) =
    kap (2 * p) * (3 * p + 1) * (3 * p) * (3 * p - 1) * (6 * p) / 24 - 9 * p ^ 2 / 2 := by
  have h := odd_tz (m := 2 * p) (by omega) (3 * p) (by omega)
  rw [show 3 * (2 * p) - 1 - 3 * p = 3 * p - 1 by omega, tz_low _ (by omega), tz_low (3 * p) (by omega), Nat.cast_sub (by omega)] at h
  push_cast at h
  linear_combination -h

theorem tz_end_odd (p : ℕ) : tz (2 * p + 1) (3 * (2 * p + 1) - 1) =
    2 * (kap (2 * p + 1) * (3 * p + 3) * (3 * p + 2) * (3 * p + 1) * (3 * p) / 24 - (3 * p + 1) * (3 * p + 2) / 4) := by
  have h := odd_tz (m := 2 * p + 1) (by omega) (3 * p + 1) (by omega)
  rw [show 3 * (2 * p + 1) - 1 - (3 * p + 1) = 3 * p + 1 by omega, tz_low _ (by omega)] at h
  push_cast at h
  linear_combination -h

theorem tq_sq_even (p : ℕ) (hp : 0 < p) : ∑ t ∈ range (3 * (2 * p)), (1 - tq (2 * p) t) ^ 2 =
    2 * (kap (2 * p) ^ 2 * (3 * p * (9 * p ^ 2 - 1) * (27 * p ^ 2 - 2)) / 60) - kap (2 * p) * (3 * p * (9 * p ^ 2 - 1)) / 3 + 3 * p := by
  have h := sum_range_add (fun s => (1 - tq (2 * p) s) ^ 2) (3 * p) (3 * p)
  rw [show 3 * p + 3 * p = 3 * (2 * p) by ring] at h
  rw [h]
  have q : ∀ t ∈ range (3 * p), tq (2 * p) t = kap (2 * p) * (t * (t + 1) / 2) := fun t ht => by
    have := tp_low (m := 2 * p) t (by have := mem_range.1 ht; omega)
    unfold tp at this; linarith
  rw [← sum_range_reflect (fun x => (1 - tq (2 * p) (3 * p + x)) ^ 2), ← sum_add_distrib]
  have e : ∀ t ∈ range (3 * p), (1 - tq (2 * p) t) ^ 2 + (1 - tq (2 * p) (3 * p + (3 * p - 1 - t))) ^ 2 =
      1 + (-kap (2 * p)) * (t : ℝ) + (kap (2 * p) ^ 2 / 2 - kap (2 * p)) * (t : ℝ) ^ 2 + kap (2 * p) ^ 2 * (t : ℝ) ^ 3
        + (kap (2 * p) ^ 2 / 2) * (t : ℝ) ^ 4 + 0 * (t : ℝ) ^ 5 + 0 * (t : ℝ) ^ 6 + 0 * (t : ℝ) ^ 7 := fun t ht => by
    have ht' := mem_range.1 ht
    have h1 := odd_tq (m := 2 * p) (by omega) t (by omega)
    rw [show 3 * (2 * p) - 1 - t = 3 * p + (3 * p - 1 - t) by omega] at h1
    rw [h1, q t ht]; ring
  rw [sum_congr rfl e, sum_poly7]
  push_cast; ring

theorem tq_sq_odd (p : ℕ) : ∑ t ∈ range (3 * (2 * p + 1)), (1 - tq (2 * p + 1) t) ^ 2 =
    1 / 4 + (2 * (kap (2 * p + 1) ^ 2 * ((3 * p + 1) * ((3 * p + 1) ^ 2 - 1) * (3 * (3 * p + 1) ^ 2 - 2)) / 60) -
      kap (2 * p + 1) * ((3 * p + 1) * ((3 * p + 1) ^ 2 - 1)) / 3 + (3 * p + 1)) := by
  have h := sum_range_add (fun s => (1 - tq (2 * p + 1) s) ^ 2) (3 * p + 1) (1 + (3 * p + 1))
  rw [show 3 * p + 1 + (1 + (3 * p + 1)) = 3 * (2 * p + 1) by ring, sum_range_add (fun x => (1 - tq (2 * p + 1) (3 * p + 1 + x)) ^ 2),
    sum_range_one, add_zero] at h
  rw [h]
  have q : ∀ t ∈ range (3 * p + 1), tq (2 * p + 1) t = kap (2 * p + 1) * (t * (t + 1) / 2) := fun t ht => by
    have := tp_low (m := 2 * p + 1) t (by have := mem_range.1 ht; omega)
    unfold tp at this; linarith
  have hc : tq (2 * p + 1) (3 * p + 1) = 1 / 2 := by
    have h1 := odd_tq (m := 2 * p + 1) (by omega) (3 * p + 1) (by omega)
    rw [show 3 * (2 * p + 1) - 1 - (3 * p + 1) = 3 * p + 1 by omega] at h1
    linarith
  rw [← sum_range_reflect (fun x => (1 - tq (2 * p + 1) (3 * p + 1 + (1 + x))) ^ 2), hc]
  have e : ∀ t ∈ range (3 * p + 1), (1 - tq (2 * p + 1) t) ^ 2 + (1 - tq (2 * p + 1) (3 * p + 1 + (1 + (3 * p + 1 - 1 - t)))) ^ 2 =
      1 + (-kap (2 * p + 1)) * (t : ℝ) + (kap (2 * p + 1) ^ 2 / 2 - kap (2 * p + 1)) * (t : ℝ) ^ 2 + kap (2 * p + 1) ^ 2 * (t : ℝ) ^ 3
        + (kap (2 * p + 1) ^ 2 / 2) * (t : ℝ) ^ 4 + 0 * (t : ℝ) ^ 5 + 0 * (t : ℝ) ^ 6 + 0 * (t : ℝ) ^ 7 := fun t ht => by
    have ht' := mem_range.1 ht
    have h1 := odd_tq (m := 2 * p + 1) (by omega) t (by omega)
    rw [show 3 * (2 * p + 1) - 1 - t = 3 * p + 1 + (1 + (3 * p + 1 - 1 - t)) by omega] at h1
    rw [h1, q t ht]; ring
  have e2 : ∑ t ∈ range (3 * p + 1), (1 - tq (2 * p + 1) t) ^ 2 + ∑ t ∈ range (3 * p + 1), (1 - tq (2 * p + 1) (3 * p + 1 + (1 + (3 * p + 1 - 1 - t)))) ^ 2 =
      2 * (kap (2 * p + 1) ^ 2 * ((3 * p + 1) * ((3 * p + 1) ^ 2 - 1) * (3 * (3 * p + 1) ^ 2 - 2)) / 60) -
      kap (2 * p + 1) * ((3 * p + 1) * ((3 * p + 1) ^ 2 - 1)) / 3 + (3 * p + 1) := by
    rw [← sum_add_distrib, sum_congr rfl e, sum_poly7]
    push_cast; ring
  rw [← e2]
  ring

/-! ## The product of the forms of the straight line and of an odd subsequence -/

section

variable {m : ℕ} {a5 a3 a1 C : ℝ} {u : ℕ → ℝ}

theorem tr_mul_quintic (h : Odd3 m C u) (hp : ∀ n ≤ 3 * m / 2, psum u n = a5 * (n : ℝ) ^ 5 + a3 * (n : ℝ) ^ 3 + a1 * n) :
    ∑ j ∈ range (6 * m), tr m j * tf m u j = 4 * ∑ i ∈ range m, (if 2 * i ≤ m then (10 * (i : ℝ) ^ 2 - 12 * (m : ℝ) * (i : ℝ)) * (a5 * (i : ℝ) ^ 5 + a3 * (i : ℝ) ^ 3 + a1 * (i : ℝ)) + (-2 * (m : ℝ) ^ 2 + 8 * (m : ℝ) * (i : ℝ) - 5 * (i : ℝ) ^ 2) * (a5 * ((m : ℝ) + (i : ℝ)) ^ 5 + a3 * ((m : ℝ) + (i : ℝ)) ^ 3 + a1 * ((m : ℝ) + (i : ℝ))) + ((m : ℝ) - (i : ℝ)) ^ 2 * (a5 * ((m : ℝ) - (i : ℝ)) ^ 5 + a3 * ((m : ℝ) - (i : ℝ)) ^ 3 + a1 * ((m : ℝ) - (i : ℝ)) + ((m : ℝ) + 2 * (i : ℝ)) * C / 2) else (10 * (i : ℝ) ^ 2 - 12 * (m : ℝ) * (i : ℝ)) * (a5 * (i : ℝ) ^ 5 + a3 * (i : ℝ) ^ 3 + a1 * (i : ℝ)) + (-2 * (m : ℝ) ^ 2 + 8 * (m : ℝ) * (i : ℝ) - 5 * (i : ℝ) ^ 2) * (a5 * (2 * (m : ℝ) - (i : ℝ)) ^ 5 + a3 * (2 * (m : ℝ) - (i : ℝ)) ^ 3 + a1 * (2 * (m : ℝ) - (i : ℝ)) + (2 * (i : ℝ) - (m : ℝ)) * C / 2) + ((m : ℝ) - (i : ℝ)) ^ 2 * (a5 * ((m : ℝ) - (i : ℝ)) ^ 5 + a3 * ((m : ℝ) - (i : ℝ)) ^ 3 + a1 * ((m : ℝ) - (i : ℝ)) + ((m : ℝ) + 2 * (i : ℝ)) * C / 2)) := by
  rw [tr_mul h]
  congr 1
  refine sum_congr rfl fun i hi => ?_
  have hi := mem_range.1 hi
  have e1 := h.psum (n := 2 * m + i) (by omega)
  rw [show 3 * m - (2 * m + i) = m - i by omega, hp (m - i) (by omega), Nat.cast_sub hi.le] at e1
  rw [hp i (by omega), e1]
  by_cases hc : 2 * i ≤ m
  · rw [if_pos hc, hp (m + i) (by omega)]; push_cast; ring
  · have e2 := h.psum (n := m + i) (by omega)
    rw [show 3 * m - (m + i) = 2 * m - i by omega, hp (2 * m - i) (by omega), Nat.cast_sub (by omega)] at e2
    rw [if_neg hc, e2]; push_cast; ring

end

section

variable {p : ℕ} {a5 a3 a1 C : ℝ} {u : ℕ → ℝ}

theorem tr_mul_even5 (h : Odd3 (2 * p) C u) (hp : ∀ n ≤ 3 * (2 * p) / 2, psum u n = a5 * (n : ℝ) ^ 5 + a3 * (n : ℝ) ^ 3 + a1 * n) :
    ∑ j ∈ range (6 * (2 * p)), tr (2 * p) j * tf (2 * p) u j = (10373/7) * p ^ 8 * a5 + (810) * p ^ 6 * a5 + (448/5) * p ^ 6 * a3 + (61) * p ^ 4 * a5 + (54) * p ^ 4 * a3 + (-50) * p ^ 4 * a1 + (25) * p ^ 4 * C + (-6/7) * p ^ 2 * a5 + (2/5) * p ^ 2 * a3 + (2) * p ^ 2 * a1 + (-1) * p ^ 2 * C := by
  rw [tr_mul_quintic h hp]
  rw [show range (2 * p) = range (p + p) by rw [two_mul], sum_range_add]
  have e1 : ∀ i ∈ range p, (if 2 * i ≤ 2 * p then (10 * (i : ℝ) ^ 2 - 12 * ((2 * p : ℕ) : ℝ) * (i : ℝ)) * (a5 * (i : ℝ) ^ 5 + a3 * (i : ℝ) ^ 3 + a1 * (i : ℝ)) + (-2 * ((2 * p : ℕ) : ℝ) ^ 2 + 8 * ((2 * p : ℕ) : ℝ) * (i : ℝ) - 5 * (i : ℝ) ^ 2) * (a5 * (((2 * p : ℕ) : ℝ) + (i : ℝ)) ^ 5 + a3 * (((2 * p : ℕ) : ℝ) + (i : ℝ)) ^ 3 + a1 * (((2 * p : ℕ) : ℝ) + (i : ℝ))) + (((2 * p : ℕ) : ℝ) - (i : ℝ)) ^ 2 * (a5 * (((2 * p : ℕ) : ℝ) - (i : ℝ)) ^ 5 + a3 * (((2 * p : ℕ) : ℝ) - (i : ℝ)) ^ 3 + a1 * (((2 * p : ℕ) : ℝ) - (i : ℝ)) + (((2 * p : ℕ) : ℝ) + 2 * (i : ℝ)) * C / 2) else (10 * (i : ℝ) ^ 2 - 12 * ((2 * p : ℕ) : ℝ) * (i : ℝ)) * (a5 * (i : ℝ) ^ 5 + a3 * (i : ℝ) ^ 3 + a1 * (i : ℝ)) + (-2 * ((2 * p : ℕ) : ℝ) ^ 2 + 8 * ((2 * p : ℕ) : ℝ) * (i : ℝ) - 5 * (i : ℝ) ^ 2) * (a5 * (2 * ((2 * p : ℕ) : ℝ) - (i : ℝ)) ^ 5 + a3 * (2 * ((2 * p : ℕ) : ℝ) - (i : ℝ)) ^ 3 + a1 * (2 * ((2 * p : ℕ) : ℝ) - (i : ℝ)) + (2 * (i : ℝ) - ((2 * p : ℕ) : ℝ)) * C / 2) + (((2 * p : ℕ) : ℝ) - (i : ℝ)) ^ 2 * (a5 * (((2 * p : ℕ) : ℝ) - (i : ℝ)) ^ 5 + a3 * (((2 * p : ℕ) : ℝ) - (i : ℝ)) ^ 3 + a1 * (((2 * p : ℕ) : ℝ) - (i : ℝ)) + (((2 * p : ℕ) : ℝ) + 2 * (i : ℝ)) * C / 2)) = ((-128) * p ^ 7 * a5 + (-32) * p ^ 5 * a3 + (-8) * p ^ 3 * a1 + (4) * p ^ 3 * C) + ((-576) * p ^ 6 * a5 + (-48) * p ^ 4 * a3 + (12) * p ^ 2 * a1) * (i : ℝ) + ((1152) * p ^ 5 * a5 + (184) * p ^ 3 * a3 + (-12) * p * a1 + (-3) * p * C) * (i : ℝ) ^ 2 + ((-12) * p ^ 2 * a3 + (4) * a1 + (1) * C) * (i : ℝ) ^ 3 + ((440) * p ^ 3 * a5 + (-28) * p * a3) * (i : ℝ) ^ 4 + ((-132) * p ^ 2 * a5 + (4) * a3) * (i : ℝ) ^ 5 + ((-44) * p * a5) * (i : ℝ) ^ 6 + ((4) * a5) * (i : ℝ) ^ 7 := fun i hi => by
    have := mem_range.1 hi
    rw [if_pos (by omega)]; push_cast; ring
  rw [sum_congr rfl e1, sum_poly7]
  have e2 : ∀ i ∈ range p, (if 2 * (p + i) ≤ 2 * p then (10 * ((p + i : ℕ) : ℝ) ^ 2 - 12 * ((2 * p : ℕ) : ℝ) * ((p + i : ℕ) : ℝ)) * (a5 * ((p + i : ℕ) : ℝ) ^ 5 + a3 * ((p + i : ℕ) : ℝ) ^ 3 + a1 * ((p + i : ℕ) : ℝ)) + (-2 * ((2 * p : ℕ) : ℝ) ^ 2 + 8 * ((2 * p : ℕ) : ℝ) * ((p + i : ℕ) : ℝ) - 5 * ((p + i : ℕ) : ℝ) ^ 2) * (a5 * (((2 * p : ℕ) : ℝ) + ((p + i : ℕ) : ℝ)) ^ 5 + a3 * (((2 * p : ℕ) : ℝ) + ((p + i : ℕ) : ℝ)) ^ 3 + a1 * (((2 * p : ℕ) : ℝ) + ((p + i : ℕ) : ℝ))) + (((2 * p : ℕ) : ℝ) - ((p + i : ℕ) : ℝ)) ^ 2 * (a5 * (((2 * p : ℕ) : ℝ) - ((p + i : ℕ) : ℝ)) ^ 5 + a3 * (((2 * p : ℕ) : ℝ) - ((p + i : ℕ) : ℝ)) ^ 3 + a1 * (((2 * p : ℕ) : ℝ) - ((p + i : ℕ) : ℝ)) + (((2 * p : ℕ) : ℝ) + 2 * ((p + i : ℕ) : ℝ)) * C / 2) else (10 * ((p + i : ℕ) : ℝ) ^ 2 - 12 * ((2 * p : ℕ) : ℝ) * ((p + i : ℕ) : ℝ)) * (a5 * ((p + i : ℕ) : ℝ) ^ 5 + a3 * ((p + i : ℕ) : ℝ) ^ 3 + a1 * ((p + i : ℕ) : ℝ)) + (-2 * ((2 * p : ℕ) : ℝ) ^ 2 + 8 * ((2 * p : ℕ) : ℝ) * ((p + i : ℕ) : ℝ) - 5 * ((p + i : ℕ) : ℝ) ^ 2) * (a5 * (2 * ((2 * p : ℕ) : ℝ) - ((p + i : ℕ) : ℝ)) ^ 5 + a3 * (2 * ((2 * p : ℕ) : ℝ) - ((p + i : ℕ) : ℝ)) ^ 3 + a1 * (2 * ((2 * p : ℕ) : ℝ) - ((p + i : ℕ) : ℝ)) + (2 * ((p + i : ℕ) : ℝ) - ((2 * p : ℕ) : ℝ)) * C / 2) + (((2 * p : ℕ) : ℝ) - ((p + i : ℕ) : ℝ)) ^ 2 * (a5 * (((2 * p : ℕ) : ℝ) - ((p + i : ℕ) : ℝ)) ^ 5 + a3 * (((2 * p : ℕ) : ℝ) - ((p + i : ℕ) : ℝ)) ^ 3 + a1 * (((2 * p : ℕ) : ℝ) - ((p + i : ℕ) : ℝ)) + (((2 * p : ℕ) : ℝ) + 2 * ((p + i : ℕ) : ℝ)) * C / 2)) = ((716) * p ^ 7 * a5 + (68) * p ^ 5 * a3 + (-4) * p ^ 3 * a1 + (2) * p ^ 3 * C) + ((162) * p ^ 6 * a5 + (30) * p ^ 4 * a3 + (-6) * p ^ 2 * a1) * (i : ℝ) + ((-2964) * p ^ 5 * a5 + (-304) * p ^ 3 * a3 + (-12) * p * a1 + (6) * p * C) * (i : ℝ) ^ 2 + ((3210) * p ^ 4 * a5 + (180) * p ^ 2 * a3 + (14) * a1 + (-4) * C) * (i : ℝ) ^ 3 + ((-1820) * p ^ 3 * a5 + (-20) * p * a3) * (i : ℝ) ^ 4 + ((582) * p ^ 2 * a5 + (14) * a3) * (i : ℝ) ^ 5 + ((-28) * p * a5) * (i : ℝ) ^ 6 + ((14) * a5) * (i : ℝ) ^ 7 := fun i hi => by
    rcases Nat.eq_zero_or_pos i with rfl | h0
    · rw [if_pos (by omega)]; push_cast; ring
    · rw [if_neg (by omega)]; push_cast; ring
  rw [sum_congr rfl e2, sum_poly7]
  ring

theorem tr_mul_odd5 (h : Odd3 (2 * p + 1) C u) (hp : ∀ n ≤ 3 * (2 * p + 1) / 2, psum u n = a5 * (n : ℝ) ^ 5 + a3 * (n : ℝ) ^ 3 + a1 * n) :
    ∑ j ∈ range (6 * (2 * p + 1)), tr (2 * p + 1) j * tf (2 * p + 1) u j = (10373/7) * p ^ 8 * a5 + (41492/7) * p ^ 7 * a5 + (9968) * p ^ 6 * a5 + (448/5) * p ^ 6 * a3 + (9158) * p ^ 5 * a5 + (1344/5) * p ^ 5 * a3 + (4806) * p ^ 4 * a5 + (309) * p ^ 4 * a3 + (-50) * p ^ 4 * a1 + (25) * p ^ 4 * C + (1264) * p ^ 3 * a5 + (170) * p ^ 3 * a3 + (-100) * p ^ 3 * a1 + (50) * p ^ 3 * C + (407/7) * p ^ 2 * a5 + (137/5) * p ^ 2 * a3 + (-76) * p ^ 2 * a1 + (38) * p ^ 2 * C + (-248/7) * p * a5 + (-64/5) * p * a3 + (-26) * p * a1 + (13) * p * C + (-4) * a5 + (-4) * a3 + (-4) * a1 + (2) * C := by
  rw [tr_mul_quintic h hp]
  rw [show range (2 * p + 1) = range (p + 1 + p) by congr 1; ring, sum_range_add]
  have e1 : ∀ i ∈ range (p + 1), (if 2 * i ≤ 2 * p + 1 then (10 * (i : ℝ) ^ 2 - 12 * ((2 * p + 1 : ℕ) : ℝ) * (i : ℝ)) * (a5 * (i : ℝ) ^ 5 + a3 * (i : ℝ) ^ 3 + a1 * (i : ℝ)) + (-2 * ((2 * p + 1 : ℕ) : ℝ) ^ 2 + 8 * ((2 * p + 1 : ℕ) : ℝ) * (i : ℝ) - 5 * (i : ℝ) ^ 2) * (a5 * (((2 * p + 1 : ℕ) : ℝ) + (i : ℝ)) ^ 5 + a3 * (((2 * p + 1 : ℕ) : ℝ) + (i : ℝ)) ^ 3 + a1 * (((2 * p + 1 : ℕ) : ℝ) + (i : ℝ))) + (((2 * p + 1 : ℕ) : ℝ) - (i : ℝ)) ^ 2 * (a5 * (((2 * p + 1 : ℕ) : ℝ) - (i : ℝ)) ^ 5 + a3 * (((2 * p + 1 : ℕ) : ℝ) - (i : ℝ)) ^ 3 + a1 * (((2 * p + 1 : ℕ) : ℝ) - (i : ℝ)) + (((2 * p + 1 : ℕ) : ℝ) + 2 * (i : ℝ)) * C / 2) else (10 * (i : ℝ) ^ 2 - 12 * ((2 * p + 1 : ℕ) : ℝ) * (i : ℝ)) * (a5 * (i : ℝ) ^ 5 + a3 * (i : ℝ) ^ 3 + a1 * (i : ℝ)) + (-2 * ((2 * p + 1 : ℕ) : ℝ) ^ 2 + 8 * ((2 * p + 1 : ℕ) : ℝ) * (i : ℝ) - 5 * (i : ℝ) ^ 2) * (a5 * (2 * ((2 * p + 1 : ℕ) : ℝ) - (i : ℝ)) ^ 5 + a3 * (2 * ((2 * p + 1 : ℕ) : ℝ) - (i : ℝ)) ^ 3 + a1 * (2 * ((2 * p + 1 : ℕ) : ℝ) - (i : ℝ)) + (2 * (i : ℝ) - ((2 * p + 1 : ℕ) : ℝ)) * C / 2) + (((2 * p + 1 : ℕ) : ℝ) - (i : ℝ)) ^ 2 * (a5 * (((2 * p + 1 : ℕ) : ℝ) - (i : ℝ)) ^ 5 + a3 * (((2 * p + 1 : ℕ) : ℝ) - (i : ℝ)) ^ 3 + a1 * (((2 * p + 1 : ℕ) : ℝ) - (i : ℝ)) + (((2 * p + 1 : ℕ) : ℝ) + 2 * (i : ℝ)) * C / 2)) = ((-128) * p ^ 7 * a5 + (-448) * p ^ 6 * a5 + (-672) * p ^ 5 * a5 + (-32) * p ^ 5 * a3 + (-560) * p ^ 4 * a5 + (-80) * p ^ 4 * a3 + (-280) * p ^ 3 * a5 + (-80) * p ^ 3 * a3 + (-8) * p ^ 3 * a1 + (4) * p ^ 3 * C + (-84) * p ^ 2 * a5 + (-40) * p ^ 2 * a3 + (-12) * p ^ 2 * a1 + (6) * p ^ 2 * C + (-14) * p * a5 + (-10) * p * a3 + (-6) * p * a1 + (3) * p * C + (-1) * a5 + (-1) * a3 + (-1) * a1 + (1/2) * C) + ((-576) * p ^ 6 * a5 + (-1728) * p ^ 5 * a5 + (-2160) * p ^ 4 * a5 + (-48) * p ^ 4 * a3 + (-1440) * p ^ 3 * a5 + (-96) * p ^ 3 * a3 + (-540) * p ^ 2 * a5 + (-72) * p ^ 2 * a3 + (12) * p ^ 2 * a1 + (-108) * p * a5 + (-24) * p * a3 + (12) * p * a1 + (-9) * a5 + (-3) * a3 + (3) * a1) * (i : ℝ) + ((1152) * p ^ 5 * a5 + (2880) * p ^ 4 * a5 + (2880) * p ^ 3 * a5 + (184) * p ^ 3 * a3 + (1440) * p ^ 2 * a5 + (276) * p ^ 2 * a3 + (360) * p * a5 + (138) * p * a3 + (-12) * p * a1 + (-3) * p * C + (36) * a5 + (23) * a3 + (-6) * a1 + (-3/2) * C) * (i : ℝ) ^ 2 + ((-12) * p ^ 2 * a3 + (-12) * p * a3 + (-3) * a3 + (4) * a1 + (1) * C) * (i : ℝ) ^ 3 + ((440) * p ^ 3 * a5 + (660) * p ^ 2 * a5 + (330) * p * a5 + (-28) * p * a3 + (55) * a5 + (-14) * a3) * (i : ℝ) ^ 4 + ((-132) * p ^ 2 * a5 + (-132) * p * a5 + (-33) * a5 + (4) * a3) * (i : ℝ) ^ 5 + ((-44) * p * a5 + (-22) * a5) * (i : ℝ) ^ 6 + ((4) * a5) * (i : ℝ) ^ 7 := fun i hi => by
    have := mem_range.1 hi
    rw [if_pos (by omega)]; push_cast; ring
  rw [sum_congr rfl e1, sum_poly7]
  have e2 : ∀ i ∈ range p, (if 2 * (p + 1 + i) ≤ 2 * p + 1 then (10 * ((p + 1 + i : ℕ) : ℝ) ^ 2 - 12 * ((2 * p + 1 : ℕ) : ℝ) * ((p + 1 + i : ℕ) : ℝ)) * (a5 * ((p + 1 + i : ℕ) : ℝ) ^ 5 + a3 * ((p + 1 + i : ℕ) : ℝ) ^ 3 + a1 * ((p + 1 + i : ℕ) : ℝ)) + (-2 * ((2 * p + 1 : ℕ) : ℝ) ^ 2 + 8 * ((2 * p + 1 : ℕ) : ℝ) * ((p + 1 + i : ℕ) : ℝ) - 5 * ((p + 1 + i : ℕ) : ℝ) ^ 2) * (a5 * (((2 * p + 1 : ℕ) : ℝ) + ((p + 1 + i : ℕ) : ℝ)) ^ 5 + a3 * (((2 * p + 1 : ℕ) : ℝ) + ((p + 1 + i : ℕ) : ℝ)) ^ 3 + a1 * (((2 * p + 1 : ℕ) : ℝ) + ((p + 1 + i : ℕ) : ℝ))) + (((2 * p + 1 : ℕ) : ℝ) - ((p + 1 + i : ℕ) : ℝ)) ^ 2 * (a5 * (((2 * p + 1 : ℕ) : ℝ) - ((p + 1 + i : ℕ) : ℝ)) ^ 5 + a3 * (((2 * p + 1 : ℕ) : ℝ) - ((p + 1 + i : ℕ) : ℝ)) ^ 3 + a1 * (((2 * p + 1 : ℕ) : ℝ) - ((p + 1 + i : ℕ) : ℝ)) + (((2 * p + 1 : ℕ) : ℝ) + 2 * ((p + 1 + i : ℕ) : ℝ)) * C / 2) else (10 * ((p + 1 + i : ℕ) : ℝ) ^ 2 - 12 * ((2 * p + 1 : ℕ) : ℝ) * ((p + 1 + i : ℕ) : ℝ)) * (a5 * ((p + 1 + i : ℕ) : ℝ) ^ 5 + a3 * ((p + 1 + i : ℕ) : ℝ) ^ 3 + a1 * ((p + 1 + i : ℕ) : ℝ)) + (-2 * ((2 * p + 1 : ℕ) : ℝ) ^ 2 + 8 * ((2 * p + 1 : ℕ) : ℝ) * ((p + 1 + i : ℕ) : ℝ) - 5 * ((p + 1 + i : ℕ) : ℝ) ^ 2) * (a5 * (2 * ((2 * p + 1 : ℕ) : ℝ) - ((p + 1 + i : ℕ) : ℝ)) ^ 5 + a3 * (2 * ((2 * p + 1 : ℕ) : ℝ) - ((p + 1 + i : ℕ) : ℝ)) ^ 3 + a1 * (2 * ((2 * p + 1 : ℕ) : ℝ) - ((p + 1 + i : ℕ) : ℝ)) + (2 * ((p + 1 + i : ℕ) : ℝ) - ((2 * p + 1 : ℕ) : ℝ)) * C / 2) + (((2 * p + 1 : ℕ) : ℝ) - ((p + 1 + i : ℕ) : ℝ)) ^ 2 * (a5 * (((2 * p + 1 : ℕ) : ℝ) - ((p + 1 + i : ℕ) : ℝ)) ^ 5 + a3 * (((2 * p + 1 : ℕ) : ℝ) - ((p + 1 + i : ℕ) : ℝ)) ^ 3 + a1 * (((2 * p + 1 : ℕ) : ℝ) - ((p + 1 + i : ℕ) : ℝ)) + (((2 * p + 1 : ℕ) : ℝ) + 2 * ((p + 1 + i : ℕ) : ℝ)) * C / 2)) = ((716) * p ^ 7 * a5 + (2587) * p ^ 6 * a5 + (3261) * p ^ 5 * a5 + (68) * p ^ 5 * a3 + (1985) * p ^ 4 * a5 + (185) * p ^ 4 * a3 + (605) * p ^ 3 * a5 + (124) * p ^ 3 * a3 + (-4) * p ^ 3 * a1 + (2) * p ^ 3 * C + (69) * p ^ 2 * a5 + (16) * p ^ 2 * a3 + (-9) * p ^ 2 * a1 + (3) * p ^ 2 * C + (-5) * p * a5 + (-7) * p * a3 + (-9) * p * a1 + (3) * p * C + (-1) * a5 + (-1) * a3 + (-1) * a1 + (1/2) * C) + ((162) * p ^ 6 * a5 + (-2478) * p ^ 5 * a5 + (-4395) * p ^ 4 * a5 + (30) * p ^ 4 * a3 + (-3100) * p ^ 3 * a5 + (-244) * p ^ 3 * a3 + (-1125) * p ^ 2 * a5 + (-276) * p ^ 2 * a3 + (-6) * p ^ 2 * a1 + (-198) * p * a5 + (-88) * p * a3 + (-18) * p * a1 + (6) * p * C + (-9) * a5 + (-3) * a3 + (3) * a1) * (i : ℝ) + ((-2964) * p ^ 5 * a5 + (-2595) * p ^ 4 * a5 + (-510) * p ^ 3 * a5 + (-304) * p ^ 3 * a3 + (150) * p ^ 2 * a5 + (-186) * p ^ 2 * a3 + (135) * p * a5 + (12) * p * a3 + (-12) * p * a1 + (6) * p * C + (45) * a5 + (32) * a3 + (15) * a1 + (-3) * C) * (i : ℝ) ^ 2 + ((3210) * p ^ 4 * a5 + (2780) * p ^ 3 * a5 + (810) * p ^ 2 * a5 + (180) * p ^ 2 * a3 + (260) * p * a5 + (140) * p * a3 + (105) * a5 + (60) * a3 + (14) * a1 + (-4) * C) * (i : ℝ) ^ 3 + ((-1820) * p ^ 3 * a5 + (-1275) * p ^ 2 * a5 + (-15) * p * a5 + (-20) * p * a3 + (145) * a5 + (25) * a3) * (i : ℝ) ^ 4 + ((582) * p ^ 2 * a5 + (498) * p * a5 + (177) * a5 + (14) * a3) * (i : ℝ) ^ 5 + ((-28) * p * a5 + (35) * a5) * (i : ℝ) ^ 6 + ((14) * a5) * (i : ℝ) ^ 7 := fun i hi => by
    rw [if_neg (by omega)]; push_cast; ring
  rw [sum_congr rfl e2, sum_poly7]
  push_cast
  ring

end

/-- white second differences -/
theorem run_total {m : ℕ} (hm : 0 < m) :
    ∑ t ∈ range (3 * m), ∑ j ∈ range (6 * m), (tf m (ramp t) j - (1 - tq m t) * tr m j) ^ 2 =
      6 * m ^ 2 * ((11 * m ^ 4 + 5 * m ^ 2 + 4) / 20) * bias2 m := by
  rw [sum_sq_expand m (3 * m) ramp (fun t => 1 - tq m t) (fun k => ∑ t ∈ range (3 * m), (1 - tq m t) * ramp t k) (fun k _ => rfl),
    tr_mul_ramps _ (fun k _ => rfl), ramp_total hm, tr_total]
  obtain ⟨p, rfl | rfl⟩ := m.even_or_odd'
  · have hp : 0 < p := by omega
    have hp' : (0 : ℝ) < p := by exact_mod_cast hp
    rw [tr_mul_even5 (odd_tz hm) psum_tz, tz_end_even hp, tq_sq_even p hp]
    unfold bias2
    rw [if_pos (by omega), if_pos (by omega), kap_even hp]
    push_cast
    field_simp
    ring
  · have hp' : (0 : ℝ) ≤ p := Nat.cast_nonneg p
    rw [tr_mul_odd5 (odd_tz hm) psum_tz, tz_end_odd, tq_sq_odd]
    unfold bias2
    rw [if_neg (by omega), if_neg (by omega), kap_odd]
    push_cast
    have e : 9 * (2 * (p : ℝ) + 1) ^ 2 - 1 = 4 * ((3 * p + 1) * (3 * p + 2)) := by ring
    rw [e]
    field_simp
    ring

end AT
