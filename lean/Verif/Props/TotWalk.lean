import Verif.Props.TotMean
import Verif.Props.MtotRun

/-!
# C104: the bias of the total deviation for random walk frequency noise
-/

namespace AT

open Spec Finset MeasureTheory ProbabilityTheory

/-- a series from its second differences -/
theorem second_sum {x u : ℕ → ℝ} {n : ℕ} (hx : ∀ k < n, x (k + 2) - 2 * x (k + 1) + x k = u k) : ∀ k ≤ n + 1,
    x k = ∑ t ∈ range n, ramp (t + 1) k * u t + (x 0 + (x 1 - x 0) * (k : ℝ)) := by
  intro k
  induction k using Nat.twoStepInduction with
  | zero => intro _; simp [ramp]
  | one => intro _; simp [ramp]
  | more k ih0 ih1 =>
    intro hk
    have h1 := hx k (by omega)
    have h2 : ∑ t ∈ range n, ramp (t + 1) (k + 2) * u t =
        2 * ∑ t ∈ range n, ramp (t + 1) (k + 1) * u t - ∑ t ∈ range n, ramp (t + 1) k * u t + u k := by
      have : ∀ t ∈ range n, ramp (t + 1) (k + 2) * u t =
          2 * (ramp (t + 1) (k + 1) * u t) - ramp (t + 1) k * u t + if t = k then u t else 0 := fun t _ => by
        unfold ramp
        rcases lt_trichotomy t k with c | c | c
        · rw [if_neg (by omega), show k + 2 - (t + 1) = k - (t + 1) + 1 + 1 by omega, show k + 1 - (t + 1) = k - (t + 1) + 1 by omega]
          push_cast; ring
        · subst c
          rw [if_pos rfl, show t + 2 - (t + 1) = 1 by omega, show t + 1 - (t + 1) = 0 by omega, show t - (t + 1) = 0 by omega]
          push_cast; ring
        · rw [if_neg (by omega), show k + 2 - (t + 1) = 0 by omega, show k + 1 - (t + 1) = 0 by omega, show k - (t + 1) = 0 by omega]
          push_cast; ring
      rw [sum_congr rfl this, sum_add_distrib, sum_sub_distrib, ← mul_sum, sum_ite_eq', if_pos (mem_range.2 (by omega))]
    rw [h2]
    have a0 := ih0 (by omega)
    have a1 := ih1 (by omega)
    push_cast at a1 ⊢
    linarith

/-- the weights of the second differences in the term at the point `p` near the start -/
noncomputable def totRw (m p t : ℕ) : ℝ := ramp t (p + m) - 2 * ramp t p - ramp t (m - p)

theorem totRw_sum {x u : ℕ → ℝ} {N m p : ℕ} (hx : ∀ k < p + m - 1, x (k + 2) - 2 * x (k + 1) + x k = u k) (h2 : 2 * m < N) (hp : p < m) :
    totalTerm x N m p = ∑ t ∈ range (p + m - 1), totRw m p (t + 1) * u t := by
  rw [totalTerm_left x h2 hp, second_sum hx (m - p) (by omega), second_sum hx p (by omega), second_sum hx (p + m) (by omega),
    Nat.cast_sub hp.le]
  unfold totRw
  simp only [sub_mul, sum_sub_distrib, mul_assoc, ← mul_sum]
  push_cast
  ring

theorem totRw_rev (x : ℕ → ℝ) {N m p : ℕ} (hm : 0 < m) (h2 : 2 * m < N) (hp : p + 1 < N) (hN : N ≤ p + m) :
    totalTerm x N m p = totalTerm (fun k => x (N - 1 - k)) N m (N - 1 - p) := by
  rw [totalTerm_right x h2 hp hN, totalTerm_left _ h2 (by omega), Nat.sub_zero]
  rw [show N - 1 - (m - (N - 1 - p)) = 2 * (N - 1) - p - m by omega, show N - 1 - (N - 1 - p) = p by omega,
    show N - 1 - (N - 1 - p + m) = p - m by omega]
  ring

/-- the sum of the squares of the weights -/
noncomputable def totRw2 (m p : ℕ) : ℝ := ∑ t ∈ range (p + m), totRw m p t ^ 2

theorem totRw_sq {m p : ℕ} (hp : p < m) : ∑ t ∈ range (p + m - 1), totRw m p (t + 1) ^ 2 = totRw2 m p := by
  unfold totRw2
  have h := sum_range_succ' (fun t => totRw m p t ^ 2) (p + m - 1)
  rw [show p + m - 1 + 1 = p + m by omega] at h
  have e : totRw m p 0 = 0 := by
    unfold totRw ramp
    rw [Nat.sub_zero, Nat.sub_zero, Nat.sub_zero, Nat.cast_sub hp.le]; push_cast; ring
  rw [h, e]
  ring

theorem totRw2_low (p d : ℕ) : totRw2 (2 * p + d) p = 4 * p ^ 2 * (2 * p + d) - 4 * p ^ 3 + p := by
  unfold totRw2
  rw [show p + (2 * p + d) = p + (d + 2 * p) by ring, sum_range_add, sum_range_add (n := d)]
  have e1 : ∀ t ∈ range p, totRw (2 * p + d) p t ^ 2 = 0 + 0 * (t : ℝ) + 4 * (t : ℝ) ^ 2 + 0 * (t : ℝ) ^ 3 + 0 * (t : ℝ) ^ 4 +
      0 * (t : ℝ) ^ 5 + 0 * (t : ℝ) ^ 6 + 0 * (t : ℝ) ^ 7 := fun t ht => by
    have := mem_range.1 ht
    unfold totRw ramp
    rw [Nat.cast_sub (by omega), Nat.cast_sub (by omega), show 2 * p + d - p - t = p + d - t by omega, Nat.cast_sub (by omega)]
    push_cast; ring
  have e2 : ∀ s ∈ range d, totRw (2 * p + d) p (p + s) ^ 2 = 4 * (p : ℝ) ^ 2 := fun s hs => by
    have := mem_range.1 hs
    unfold totRw ramp
    rw [show p - (p + s) = 0 by omega, show p + (2 * p + d) - (p + s) = 2 * p + d - s by omega, show 2 * p + d - p - (p + s) = d - s by omega,
      Nat.cast_sub (by omega), Nat.cast_sub (by omega)]
    push_cast; ring
  have e3 : ∀ s ∈ range (2 * p), totRw (2 * p + d) p (p + (d + s)) ^ 2 = 4 * (p : ℝ) ^ 2 + (-4 * (p : ℝ)) * (s : ℝ) + 1 * (s : ℝ) ^ 2 + 0 * (s : ℝ) ^ 3 +
      0 * (s : ℝ) ^ 4 + 0 * (s : ℝ) ^ 5 + 0 * (s : ℝ) ^ 6 + 0 * (s : ℝ) ^ 7 := fun s hs => by
    have := mem_range.1 hs
    unfold totRw ramp
    rw [show p - (p + (d + s)) = 0 by omega, show p + (2 * p + d) - (p + (d + s)) = 2 * p - s by omega,
      show 2 * p + d - p - (p + (d + s)) = 0 by omega, Nat.cast_sub (by omega)]
    push_cast; ring
  rw [sum_congr rfl e1, sum_congr rfl e2, sum_congr rfl e3, sum_poly7, sum_poly7, sum_const, card_range, nsmul_eq_mul]
  push_cast; ring

theorem totRw2_high (a d : ℕ) : totRw2 (2 * a + d) (a + d) = (2 * (2 * (a : ℝ) + d) ^ 3 + (2 * a + d)) / 3 - (4 * (a : ℝ) ^ 3 - a) / 3 := by
  unfold totRw2
  rw [show a + d + (2 * a + d) = a + (d + (2 * a + d)) by ring, sum_range_add, sum_range_add (n := d)]
  have e1 : ∀ t ∈ range a, totRw (2 * a + d) (a + d) t ^ 2 = 0 + 0 * (t : ℝ) + 4 * (t : ℝ) ^ 2 + 0 * (t : ℝ) ^ 3 + 0 * (t : ℝ) ^ 4 +
      0 * (t : ℝ) ^ 5 + 0 * (t : ℝ) ^ 6 + 0 * (t : ℝ) ^ 7 := fun t ht => by
    have := mem_range.1 ht
    unfold totRw ramp
    rw [Nat.cast_sub (by omega), Nat.cast_sub (by omega), show 2 * a + d - (a + d) - t = a - t by omega, Nat.cast_sub (by omega)]
    push_cast; ring
  have e2 : ∀ s ∈ range d, totRw (2 * a + d) (a + d) (a + s) ^ 2 = 4 * (a : ℝ) ^ 2 + 4 * (a : ℝ) * (s : ℝ) + 1 * (s : ℝ) ^ 2 + 0 * (s : ℝ) ^ 3 +
      0 * (s : ℝ) ^ 4 + 0 * (s : ℝ) ^ 5 + 0 * (s : ℝ) ^ 6 + 0 * (s : ℝ) ^ 7 := fun s hs => by
    have := mem_range.1 hs
    unfold totRw ramp
    rw [show a + d - (a + s) = d - s by omega, show a + d + (2 * a + d) - (a + s) = 2 * a + 2 * d - s by omega,
      show 2 * a + d - (a + d) - (a + s) = 0 by omega, Nat.cast_sub (by omega), Nat.cast_sub (by omega)]
    push_cast; ring
  have e3 : ∀ s ∈ range (2 * a + d), totRw (2 * a + d) (a + d) (a + (d + s)) ^ 2 = (2 * (a : ℝ) + d) ^ 2 + (-2 * (2 * (a : ℝ) + d)) * (s : ℝ) +
      1 * (s : ℝ) ^ 2 + 0 * (s : ℝ) ^ 3 + 0 * (s : ℝ) ^ 4 + 0 * (s : ℝ) ^ 5 + 0 * (s : ℝ) ^ 6 + 0 * (s : ℝ) ^ 7 := fun s hs => by
    have := mem_range.1 hs
    unfold totRw ramp
    rw [show a + d - (a + (d + s)) = 0 by omega, show a + d + (2 * a + d) - (a + (d + s)) = 2 * a + d - s by omega,
      show 2 * a + d - (a + d) - (a + (d + s)) = 0 by omega, Nat.cast_sub (by omega)]
    push_cast; ring
  rw [sum_congr rfl e1, sum_congr rfl e2, sum_congr rfl e3, sum_poly7, sum_poly7, sum_poly7]
  push_cast; ring

theorem totRw2_sum {m : ℕ} (hm : 0 < m) : 2 * ∑ q ∈ range (m - 1), (totRw2 m (q + 1) - (m : ℝ) * (2 * m ^ 2 + 1) / 3) =
    (m : ℝ) * (2 * m ^ 2 + 1) / 3 - ((m : ℝ) ^ 4 + if Even m then 0 else 1) / 2 := by
  have key : ∀ k l : ℕ, k + l + 1 = m → (∀ q < k, 2 * (q + 1) ≤ m) → (∀ a < l, 2 * (a + 1) ≤ m) →
      ∑ q ∈ range (m - 1), (totRw2 m (q + 1) - (m : ℝ) * (2 * m ^ 2 + 1) / 3) =
      ∑ q ∈ range k, ((4 * (m : ℝ) - 4 + 1 - (m : ℝ) * (2 * m ^ 2 + 1) / 3) + (8 * (m : ℝ) - 12 + 1) * (q : ℝ) +
        (4 * (m : ℝ) - 12) * (q : ℝ) ^ 2 + (-4) * (q : ℝ) ^ 3 + 0 * (q : ℝ) ^ 4 + 0 * (q : ℝ) ^ 5 + 0 * (q : ℝ) ^ 6 + 0 * (q : ℝ) ^ 7) +
      ∑ a ∈ range l, (-1 + (-11 / 3) * (a : ℝ) + (-4) * (a : ℝ) ^ 2 + (-4 / 3) * (a : ℝ) ^ 3 + 0 * (a : ℝ) ^ 4 + 0 * (a : ℝ) ^ 5 +
        0 * (a : ℝ) ^ 6 + 0 * (a : ℝ) ^ 7) := by
    intro k l hkl hk hl
    rw [show m - 1 = k + l by omega, sum_range_add]
    congr 1
    · refine sum_congr rfl fun q hq => ?_
      obtain ⟨d, hd⟩ := Nat.exists_eq_add_of_le (hk q (mem_range.1 hq))
      have h := totRw2_low (q + 1) d
      rw [← hd] at h
      have hd' : (m : ℝ) = 2 * ((q : ℝ) + 1) + d := by exact_mod_cast hd
      rw [h]
      push_cast
      rw [hd']
      ring
    · rw [← sum_range_reflect]
      refine sum_congr rfl fun a ha => ?_
      have ha := mem_range.1 ha
      obtain ⟨d, hd⟩ := Nat.exists_eq_add_of_le (hl a ha)
      have h := totRw2_high (a + 1) d
      rw [← hd, show a + 1 + d = k + (l - 1 - a) + 1 by omega] at h
      have hd' : (m : ℝ) = 2 * ((a : ℝ) + 1) + d := by exact_mod_cast hd
      rw [h]
      push_cast
      rw [hd']
      ring
  obtain ⟨p, hp | hp⟩ := m.even_or_odd'
  · rw [key p (p - 1) (by omega) (by omega) (by omega), sum_poly7, sum_poly7, if_pos ⟨p, by omega⟩, Nat.cast_sub (by omega), hp]
    push_cast; ring
  · rw [key p p (by omega) (by omega) (by omega), sum_poly7, sum_poly7, if_neg (by rw [Nat.not_even_iff_odd]; exact ⟨p, by omega⟩), hp]
    push_cast; ring

/-! ## The parabolic deviation and Theo1 -/

/-- the weights of the second differences in a term of `pdev` -/
noncomputable def pdevRw (m t : ℕ) : ℝ := ∑ k ∈ range m, ((m - 1) / 2 - (k : ℝ)) * (ramp t k - ramp t (m + k))

theorem pdevRw_sum {x u : ℕ → ℝ} {m : ℕ} (hx : ∀ k < 2 * m - 2, x (k + 2) - 2 * x (k + 1) + x k = u k) (hm : 0 < m) :
    ∑ k ∈ range m, (((m : ℝ) - 1) / 2 - (k : ℝ)) * (x k - x (m + k)) = ∑ t ∈ range (2 * m - 2), pdevRw m (t + 1) * u t := by
  have h0 : ∑ k ∈ range m, (((m : ℝ) - 1) / 2 - (k : ℝ)) = 0 := by
    have h := sum_poly1 (((m : ℝ) - 1) / 2) (-1) m
    rw [← sum_congr rfl fun (k : ℕ) _ => show ((m : ℝ) - 1) / 2 + -1 * (k : ℝ) = (m - 1) / 2 - k by ring, h]
    ring
  have h1 : ∀ k ∈ range m, (((m : ℝ) - 1) / 2 - (k : ℝ)) * (x k - x (m + k)) =
      ∑ t ∈ range (2 * m - 2), (((m : ℝ) - 1) / 2 - (k : ℝ)) * (ramp (t + 1) k - ramp (t + 1) (m + k)) * u t -
        (((m : ℝ) - 1) / 2 - (k : ℝ)) * ((x 1 - x 0) * m) := fun k hk => by
    have := mem_range.1 hk
    rw [second_sum hx k (by omega), second_sum hx (m + k) (by omega), sum_congr rfl fun t _ => mul_assoc _ _ _, ← mul_sum]
    simp only [sub_mul, sum_sub_distrib]
    push_cast
    ring
  rw [sum_congr rfl h1, sum_sub_distrib, ← sum_mul, h0, zero_mul, sub_zero, sum_comm]
  refine sum_congr rfl fun t _ => ?_
  unfold pdevRw
  rw [sum_mul]

/-- the sum of `pdevRw` over one block -/
theorem pdev_block {m n : ℕ} (hn : n ≤ m) : ∑ k ∈ range m, (((m : ℝ) - 1) / 2 - (k : ℝ)) * ramp (m - n) k =
    (n : ℝ) * (n - 1) * (2 * n - 3 * m - 1) / 12 := by
  have h := sum_range_add (fun k => (((m : ℝ) - 1) / 2 - (k : ℝ)) * ramp (m - n) k) (m - n) n
  rw [Nat.sub_add_cancel hn] at h
  rw [h, sum_eq_zero (s := range (m - n)) (fun k hk => by
    have := mem_range.1 hk
    unfold ramp; rw [show k - (m - n) = 0 by omega]; simp), zero_add]
  have e : ∀ s ∈ range n, (((m : ℝ) - 1) / 2 - ((m - n + s : ℕ) : ℝ)) * ramp (m - n) (m - n + s) = 0 + ((n : ℝ) - (m + 1) / 2) * (s : ℝ) +
      (-1) * (s : ℝ) ^ 2 + 0 * (s : ℝ) ^ 3 + 0 * (s : ℝ) ^ 4 + 0 * (s : ℝ) ^ 5 + 0 * (s : ℝ) ^ 6 + 0 * (s : ℝ) ^ 7 := fun s _ => by
    unfold ramp
    rw [Nat.add_sub_cancel_left, Nat.cast_add, Nat.cast_sub hn]; ring
  rw [sum_congr rfl e, sum_poly7]
  ring

theorem pdevRw_sq (m : ℕ) (hm : 0 < m) : ∑ t ∈ range (2 * m - 2), pdevRw m (t + 1) ^ 2 = (m : ℝ) * (13 * m ^ 6 - 14 * m ^ 4 + 7 * m ^ 2 - 6) / 2520 := by
  have h0 : ∑ k ∈ range m, (((m : ℝ) - 1) / 2 - (k : ℝ)) = 0 := by
    have h := sum_poly1 (((m : ℝ) - 1) / 2) (-1) m
    rw [← sum_congr rfl fun (k : ℕ) _ => show ((m : ℝ) - 1) / 2 + -1 * (k : ℝ) = (m - 1) / 2 - k by ring, h]
    ring
  have hk : ∑ k ∈ range m, (((m : ℝ) - 1) / 2 - (k : ℝ)) * (k : ℝ) = -((m : ℝ) * (m ^ 2 - 1) / 12) := by
    have h := pdev_block (m := m) (n := m) le_rfl
    rw [Nat.sub_self] at h
    simp only [ramp, Nat.sub_zero] at h
    rw [h]; ring
  -- the weights in the two halves
  have lo : ∀ n ≤ m, pdevRw m (m - n) = (n : ℝ) * (n - 1) * (2 * n - 3 * m - 1) / 12 + (m : ℝ) * (m ^ 2 - 1) / 12 := fun n hn => by
    unfold pdevRw
    rw [sum_congr rfl (fun (k : ℕ) _ => mul_sub _ _ _), sum_sub_distrib, pdev_block hn]
    have e : ∀ k ∈ range m, (((m : ℝ) - 1) / 2 - (k : ℝ)) * ramp (m - n) (m + k) =
        (((m : ℝ) - 1) / 2 - (k : ℝ)) * n + (((m : ℝ) - 1) / 2 - (k : ℝ)) * k := fun k _ => by
      unfold ramp
      rw [show m + k - (m - n) = n + k by omega]; push_cast; ring
    rw [sum_congr rfl e, sum_add_distrib, ← sum_mul, h0, hk]
    ring
  have hi : ∀ n ≤ m, pdevRw m (2 * m - n) = -((n : ℝ) * (n - 1) * (2 * n - 3 * m - 1) / 12) := fun n hn => by
    unfold pdevRw
    rw [← pdev_block hn, ← sum_neg_distrib]
    refine sum_congr rfl fun k hk => ?_
    have := mem_range.1 hk
    unfold ramp
    rw [show k - (2 * m - n) = 0 by omega, show m + k - (2 * m - n) = k - (m - n) by omega]
    push_cast; ring
  have z0 : pdevRw m 0 = 0 := by
    have := lo m le_rfl
    rw [Nat.sub_self] at this
    rw [this]; ring
  have z1 : pdevRw m (2 * m - 1) = 0 := by
    rw [hi 1 hm]; push_cast; ring
  have h1 := sum_range_succ' (fun t => pdevRw m t ^ 2) (2 * m - 1)
  have h2 := sum_range_succ (fun t => pdevRw m (t + 1) ^ 2) (2 * m - 2)
  rw [show 2 * m - 1 + 1 = 2 * m by omega] at h1
  rw [show 2 * m - 2 + 1 = 2 * m - 1 by omega, z1] at h2
  rw [z0, h2] at h1
  have h3 : ∑ t ∈ range (2 * m - 2), pdevRw m (t + 1) ^ 2 = ∑ t ∈ range (2 * m), pdevRw m t ^ 2 := by rw [h1]; ring
  rw [h3, two_mul m, sum_range_add, ← sum_range_reflect, ← sum_range_reflect (fun x => pdevRw m (m + x) ^ 2), ← sum_add_distrib]
  have e : ∀ s ∈ range m, pdevRw m (m - 1 - s) ^ 2 + pdevRw m (m + (m - 1 - s)) ^ 2 =
      (m : ℝ) ^ 2 * (m ^ 2 - 1) ^ 2 / 144 + (m : ℝ) * (m ^ 2 - 1) * (1 - 3 * m) / 72 * (s : ℝ) +
        ((m : ℝ) * (m ^ 2 - 1) * (3 - 3 * m) / 72 + (1 - 3 * (m : ℝ)) ^ 2 / 72) * (s : ℝ) ^ 2 +
        ((m : ℝ) * (m ^ 2 - 1) * 2 / 72 + 2 * (1 - 3 * (m : ℝ)) * (3 - 3 * m) / 72) * (s : ℝ) ^ 3 +
        ((3 - 3 * (m : ℝ)) ^ 2 + 4 * (1 - 3 * m)) / 72 * (s : ℝ) ^ 4 + 4 * (3 - 3 * (m : ℝ)) / 72 * (s : ℝ) ^ 5 + 4 / 72 * (s : ℝ) ^ 6 + 0 * (s : ℝ) ^ 7 := fun s hs => by
    have := mem_range.1 hs
    rw [show m - 1 - s = m - (s + 1) by omega, show m + (m - (s + 1)) = 2 * m - (s + 1) by omega, lo _ (by omega), hi _ (by omega)]
    push_cast; ring
  rw [sum_congr rfl e, sum_poly7]
  ring

/-- the weights of the second differences in a term of `theo1` -/
noncomputable def theo1Rw (h D t : ℕ) : ℝ := ramp t (2 * h) - ramp t D - ramp t (2 * h - D)

theorem theo1Rw_sum {x u : ℕ → ℝ} {h D : ℕ} (hx : ∀ k < 2 * h - 1, x (k + 2) - 2 * x (k + 1) + x k = u k) (hD : D ≤ h) (hh : 0 < h) :
    (x 0 - x D) + (x (2 * h) - x (2 * h - D)) = ∑ t ∈ range (2 * h - 1), theo1Rw h D (t + 1) * u t := by
  rw [second_sum hx D (by omega), second_sum hx (2 * h) (by omega), second_sum hx (2 * h - D) (by omega), Nat.cast_sub (by omega)]
  unfold theo1Rw
  simp only [sub_mul, sum_sub_distrib]
  push_cast
  ring

theorem theo1Rw_sq {h D : ℕ} (hD : D ≤ h) (hh : 0 < h) :
    ∑ t ∈ range (2 * h - 1), theo1Rw h D (t + 1) ^ 2 = 2 * h * (D : ℝ) ^ 2 - 4 / 3 * (D : ℝ) ^ 3 + D / 3 := by
  have h1 := sum_range_succ' (fun t => theo1Rw h D t ^ 2) (2 * h - 1)
  have z0 : theo1Rw h D 0 = 0 := by
    unfold theo1Rw ramp
    rw [Nat.sub_zero, Nat.sub_zero, Nat.sub_zero, Nat.cast_sub (by omega)]; ring
  rw [show 2 * h - 1 + 1 = 2 * h by omega, z0] at h1
  have h2 : ∑ t ∈ range (2 * h - 1), theo1Rw h D (t + 1) ^ 2 = ∑ t ∈ range (2 * h), theo1Rw h D t ^ 2 := by rw [h1]; ring
  obtain ⟨e, rfl⟩ := Nat.exists_eq_add_of_le hD
  rw [h2, show 2 * (D + e) = D + (2 * e + D) by ring, sum_range_add, sum_range_add (n := 2 * e)]
  have e1 : ∀ t ∈ range D, theo1Rw (D + e) D t ^ 2 = 0 + 0 * (t : ℝ) + 1 * (t : ℝ) ^ 2 + 0 * (t : ℝ) ^ 3 + 0 * (t : ℝ) ^ 4 +
      0 * (t : ℝ) ^ 5 + 0 * (t : ℝ) ^ 6 + 0 * (t : ℝ) ^ 7 := fun t ht => by
    have := mem_range.1 ht
    unfold theo1Rw ramp
    rw [Nat.cast_sub (by omega), Nat.cast_sub (by omega), show 2 * (D + e) - D - t = D + 2 * e - t by omega, Nat.cast_sub (by omega)]
    push_cast; ring
  have e2 : ∀ s ∈ range (2 * e), theo1Rw (D + e) D (D + s) ^ 2 = (D : ℝ) ^ 2 := fun s hs => by
    have := mem_range.1 hs
    unfold theo1Rw ramp
    rw [show D - (D + s) = 0 by omega, show 2 * (D + e) - (D + s) = D + 2 * e - s by omega, show 2 * (D + e) - D - (D + s) = 2 * e - s by omega,
      Nat.cast_sub (by omega), Nat.cast_sub (by omega)]
    push_cast; ring
  have e3 : ∀ s ∈ range D, theo1Rw (D + e) D (D + (2 * e + s)) ^ 2 = (D : ℝ) ^ 2 + (-2 * (D : ℝ)) * (s : ℝ) + 1 * (s : ℝ) ^ 2 + 0 * (s : ℝ) ^ 3 +
      0 * (s : ℝ) ^ 4 + 0 * (s : ℝ) ^ 5 + 0 * (s : ℝ) ^ 6 + 0 * (s : ℝ) ^ 7 := fun s hs => by
    have := mem_range.1 hs
    unfold theo1Rw ramp
    rw [show D - (D + (2 * e + s)) = 0 by omega, show 2 * (D + e) - (D + (2 * e + s)) = D - s by omega,
      show 2 * (D + e) - D - (D + (2 * e + s)) = 0 by omega, Nat.cast_sub (by omega)]
    push_cast; ring
  rw [sum_congr rfl e1, sum_congr rfl e2, sum_congr rfl e3, sum_poly7, sum_poly7, sum_const, card_range, nsmul_eq_mul]
  push_cast; ring

variable {Ω : Type} [MeasurableSpace Ω] {P : Measure Ω} [IsProbabilityMeasure P]

theorem totdev_value_run {X : Ω → ℕ → ℝ} {U : ℕ → Ω → ℝ} {N : ℕ} {s2 rate : ℝ}
    (hX : ∀ ω i, X ω (i + 2) - 2 * X ω (i + 1) + X ω i = U i ω) (hU : White P U (N - 2) 0 s2) (hr : 0 < rate) (m : ℕ)
    (hm : 0 < m) (h2 : 2 * m < N) :
    MeanSq P (fun ω => value .totdev (X ω) N rate m)
      ((2 * m ^ 2 + 1) / (6 * m) * (s2 * rate ^ 2) * (1 + (1 - 3 * (m ^ 4 + if Even m then 0 else 1) / (2 * m * (2 * m ^ 2 + 1))) / (N - 2))) := by
  have hm' : (0 : ℝ) < m := by exact_mod_cast hm
  have hN : (0 : ℝ) < (N : ℝ) - 2 := by
    have : (2 : ℝ) < N := by exact_mod_cast (show 2 < N by omega)
    linarith
  set g : ℕ → ℝ := fun p => if p < m then totRw2 m p else if p + m < N then (m : ℝ) * (2 * m ^ 2 + 1) / 3 else totRw2 m (N - 1 - p) with hg
  have ht : ∀ k < N - 2, MeanSq P (fun ω => totalTerm (X ω) N m (k + 1)) (s2 * g (k + 1)) := by
    intro k hk
    rw [hg]
    simp only
    split_ifs with ha hb
    · have h1 := hU.meanSq_sum (range (k + 1 + m - 1)) (fun t => t) (fun t => totRw m (k + 1) (t + 1)) (fun _ _ _ _ e => e)
        (fun t ht => by have := mem_range.1 ht; omega)
      rw [totRw_sq ha] at h1
      simp only [totRw_sum (u := fun t => U t _) (fun k _ => hX _ k) h2 ha]
      simpa using h1
    · have h1 := d2_run hX hU m (k + 1 - m) (by omega)
      have e : ∀ ω, totalTerm (X ω) N m (k + 1) = d2 (X ω) m (k + 1 - m) := fun ω => by
        rw [totalTerm_mid _ (by omega) hb]
        unfold d2
        rw [show k + 1 - m + 2 * m = k + 1 + m by omega, show k + 1 - m + m = k + 1 by omega]
        ring
      simp only [e]
      convert h1 using 1
      ring
    · have h1 := hU.meanSq_sum (range (N - 1 - (k + 1) + m - 1)) (fun t => N - 3 - t) (fun t => totRw m (N - 1 - (k + 1)) (t + 1))
        (fun x hx y hy e => by
          have := mem_range.1 (mem_coe.1 hx)
          have := mem_range.1 (mem_coe.1 hy)
          simp only at e
          omega)
        (fun t ht => by have := mem_range.1 ht; omega)
      rw [totRw_sq (by omega)] at h1
      have e : ∀ ω, totalTerm (X ω) N m (k + 1) = ∑ t ∈ range (N - 1 - (k + 1) + m - 1), totRw m (N - 1 - (k + 1)) (t + 1) * U (N - 3 - t) ω :=
        fun ω => by
        rw [totRw_rev _ hm h2 (by omega) (by omega)]
        refine totRw_sum (u := fun t => U (N - 3 - t) ω) (fun t ht => ?_) h2 (by omega)
        have := hX ω (N - 3 - t)
        rw [show N - 3 - t + 2 = N - 1 - t by omega, show N - 3 - t + 1 = N - 1 - (t + 1) by omega] at this
        rw [← this, show N - 1 - (t + 2) = N - 3 - t by omega]
        ring
      simp only [e]
      simpa using h1
  have h3 := meanSq_rms_var (norm := 2 * ((m : ℝ) / rate) ^ 2 * (N - 2)) (by positivity) ht
  rw [← mul_sum, inner_sum hm h2 g (fun q => totRw2 m q - (m : ℝ) * (2 * m ^ 2 + 1) / 3) ((m : ℝ) * (2 * m ^ 2 + 1) / 3)
    (fun p _ h => by simp only [hg, if_pos h]; ring)
    (fun p h h' => by simp only [hg, if_neg (show ¬ p < m by omega), if_pos h'])
    (fun p h h' => by simp only [hg, if_neg (show ¬ p < m by omega), if_neg (show ¬ p + m < N by omega)]; ring),
    totRw2_sum hm, Nat.cast_sub (by omega)] at h3
  simp only [value, totdev_terms]
  convert h3 using 1
  push_cast
  split_ifs
  · field_simp
    ring
  · field_simp
    ring

omit [IsProbabilityMeasure P] in
/-- the phase of frequencies with white increments has white second differences -/
theorem walk_phase {N : ℕ} {s2 rate : ℝ} {Y W : ℕ → Ω → ℝ} (hY : ∀ i ω, Y (i + 1) ω - Y i ω = W i ω) (hW : White P W (N - 1) 0 s2) :
    (∀ ω i, phaseOf (fun i => Y i ω) N rate (i + 2) - 2 * phaseOf (fun i => Y i ω) N rate (i + 1)
      + phaseOf (fun i => Y i ω) N rate i = 1 / rate * W i ω) ∧
    White P (fun i ω => 1 / rate * W i ω) (N + 1 - 2) 0 (s2 / rate ^ 2) := by
  have hX : ∀ ω i, phaseOf (fun i => Y i ω) N rate (i + 2) - 2 * phaseOf (fun i => Y i ω) N rate (i + 1)
      + phaseOf (fun i => Y i ω) N rate i = 1 / rate * W i ω := by
    intro ω i
    have h1 := phaseOf_add (fun i => Y i ω) N rate (i + 1) 1
    have h2 := phaseOf_add (fun i => Y i ω) N rate i 1
    simp only [sum_range_one, add_zero, incr] at h1 h2
    rw [show i + 2 = i + 1 + 1 by ring, h1, h2, ← hY]
    ring
  have hU : White P (fun i ω => 1 / rate * W i ω) (N + 1 - 2) 0 (s2 / rate ^ 2) := by
    have h := hW.const_mul (1 / rate)
    rw [mul_zero, show (1 / rate) ^ 2 * s2 = s2 / rate ^ 2 by ring] at h
    rwa [show N + 1 - 2 = N - 1 by omega]
  exact ⟨hX, hU⟩

/-- **C104, random walk frequency noise**: frequencies whose increments are white with mean 0 and variance `s2`.
For `2 m ≤ N` the expected square of the total deviation is that of the Allan deviation (`walk_freq_mean`) times
`1 + (1 - 3 (m⁴ + [m odd]) / (2m (2m² + 1))) / (N - 1)`. -/
theorem totdev_walk_freq {N : ℕ} {s2 rate : ℝ} {Y W : ℕ → Ω → ℝ} (hY : ∀ i ω, Y (i + 1) ω - Y i ω = W i ω)
    (hW : White P W (N - 1) 0 s2) (hr : 0 < rate) :
    Reports .totdev (fun ω => tab N (fun i => Y i ω)) rate "freq" (fun m D => 2 * m ≤ N →
      MeanSq P D ((2 * m ^ 2 + 1) / (6 * m) * s2 *
        (1 + (1 - 3 * (m ^ 4 + if Even m then 0 else 1) / (2 * m * (2 * m ^ 2 + 1))) / (N - 1)))) := by
  obtain ⟨hX, hU⟩ := walk_phase hY hW (rate := rate)
  refine reports_freq _ Y N rate hr _ fun m hu h2 => ?_
  have h := totdev_value_run hX hU hr m hu.1 (by omega)
  rwa [show s2 / rate ^ 2 * rate ^ 2 = s2 by field_simp, show (((N + 1 : ℕ) : ℝ) - 2) = N - 1 by push_cast; ring] at h

example := totdev_walk_freq (P := gaussNoise) (N := 9) (s2 := 1) (rate := 10) (Y := fun i ω => ∑ j ∈ range i, ω j)
  (W := fun i ω => ω i) (fun i ω => by rw [sum_range_succ]; ring) (white_gauss 8) (by norm_num)

/-- **C104**: the factor is `1 - 0.75 m/(N - 1)`, the bias for random walk frequency noise in the reference that the docstring of
`totdev` names, up to `11/8/(N - 1)`. -/
theorem totdev_walk_bias {N m : ℕ} (hm : 0 < m) (h2 : 2 * m ≤ N) :
    0 < (1 + (1 - 3 * ((m : ℝ) ^ 4 + if Even m then 0 else 1) / (2 * m * (2 * m ^ 2 + 1))) / (N - 1)) - (1 - 0.75 * m / (N - 1)) ∧
    (1 + (1 - 3 * ((m : ℝ) ^ 4 + if Even m then 0 else 1) / (2 * m * (2 * m ^ 2 + 1))) / (N - 1)) - (1 - 0.75 * m / (N - 1)) ≤ 11 / 8 / ((N : ℝ) - 1) := by
  have hm' : (1 : ℝ) ≤ m := by exact_mod_cast hm
  have hN : (0 : ℝ) < (N : ℝ) - 1 := by
    have : (1 : ℝ) < N := by exact_mod_cast (show 1 < N by omega)
    linarith
  set o : ℝ := if Even m then 0 else 1 with ho
  have h0 : 0 ≤ o ∧ o ≤ 1 := by rw [ho]; split_ifs <;> norm_num
  have e : (1 + (1 - 3 * ((m : ℝ) ^ 4 + o) / (2 * m * (2 * m ^ 2 + 1))) / (N - 1)) - (1 - 0.75 * m / (N - 1)) =
      (1 + 3 / 4 * ((m : ℝ) ^ 2 - 2 * o) / (m * (2 * m ^ 2 + 1))) / (N - 1) := by
    field_simp; norm_num; ring
  rw [e]
  have hd : (0 : ℝ) < m * (2 * m ^ 2 + 1) := by positivity
  have hmm : (m : ℝ) ≤ m * m := by nlinarith
  constructor
  · refine div_pos ?_ hN
    have : -1 < 3 / 4 * ((m : ℝ) ^ 2 - 2 * o) / (m * (2 * m ^ 2 + 1)) := by
      rw [lt_div_iff₀ hd]; nlinarith
    linarith
  · refine div_le_div_of_nonneg_right ?_ hN.le
    have : 3 / 4 * ((m : ℝ) ^ 2 - 2 * o) / (m * (2 * m ^ 2 + 1)) ≤ 3 / 8 := by
      rw [div_le_iff₀ hd]; nlinarith
    linarith

example := totdev_walk_bias (N := 10) (m := 5) (by norm_num) (by norm_num)

/-! ## Parabolic deviation and Theo1 -/

section

variable {X : Ω → ℕ → ℝ} {U : ℕ → Ω → ℝ} {N : ℕ} {s2 rate : ℝ}
  (hX : ∀ ω i, X ω (i + 2) - 2 * X ω (i + 1) + X ω i = U i ω) (hU : White P U (N - 2) 0 s2) (hr : 0 < rate)

include hX hU hr

theorem pdev_value_run (m : ℕ) (hu : Usable .pdev N m) : MeanSq P (fun ω => value .pdev (X ω) N rate m)
    ((if m = 1 then 1 / 2 else (13 * (m : ℝ) ^ 6 - 14 * m ^ 4 + 7 * m ^ 2 - 6) / (35 * m ^ 5)) * (s2 * rate ^ 2)) := by
  obtain ⟨hm, hl, hx, -, hc⟩ := hu
  have hc' : 1 < (N : ℤ) - 2 * m := hc
  by_cases h1 : m = 1
  · subst h1
    rw [if_pos rfl]
    have h2 := oadev_of_d2 (rate := rate) hr ⟨hm, hl, hx, by simp, hc⟩ (d2_run hX hU 1)
    have e : (((1 : ℕ) : ℝ)) * (2 * ((1 : ℕ) : ℝ) ^ 2 + 1) / 3 * s2 / (2 * (((1 : ℕ) : ℝ) / rate) ^ 2) = 1 / 2 * (s2 * rate ^ 2) := by
      push_cast; field_simp; ring
    rw [e] at h2
    refine meanSq_congr (fun ω => ?_) h2
    simp [value, Spec.pdev]
  rw [if_neg h1]
  have hm' : (0 : ℝ) < m := by exact_mod_cast hm
  have h2 := meanSq_rms' (P := P) (n := N - 2 * m)
    (f := fun i ω => ∑ k ∈ range m, (((m : ℝ) - 1) / 2 - (k : ℝ)) * (X ω (i + k) - X ω (i + m + k)))
    (norm := (N - 2 * m) * (m : ℝ) ^ 4 * (m / rate) ^ 2 / 72)
    (v := s2 * ((m : ℝ) * (13 * m ^ 6 - 14 * m ^ 4 + 7 * m ^ 2 - 6) / 2520))
    (k := (m : ℝ) ^ 4 * (m / rate) ^ 2 / 72)
    (by omega) (by positivity) (by rw [Nat.cast_sub (by omega)]; push_cast; ring)
    (fun i hi => by
      have h3 := hU.meanSq_sum (range (2 * m - 2)) (fun t => i + t) (fun t => pdevRw m (t + 1)) (fun x _ y _ e => by simpa using e)
        (fun t ht => by have := mem_range.1 ht; omega)
      rw [pdevRw_sq m hm] at h3
      have e : ∀ ω, ∑ k ∈ range m, (((m : ℝ) - 1) / 2 - (k : ℝ)) * (X ω (i + k) - X ω (i + m + k)) =
          ∑ t ∈ range (2 * m - 2), pdevRw m (t + 1) * U (i + t) ω := fun ω => by
        rw [← pdevRw_sum (x := fun k => X ω (i + k)) (fun k _ => hX ω (i + k)) hm]
        simp only [add_assoc]
      simp only [e]
      simpa using h3)
  have e : s2 * ((m : ℝ) * (13 * m ^ 6 - 14 * m ^ 4 + 7 * m ^ 2 - 6) / 2520) / ((m : ℝ) ^ 4 * (m / rate) ^ 2 / 72)
      = (13 * m ^ 6 - 14 * m ^ 4 + 7 * m ^ 2 - 6) / (35 * m ^ 5) * (s2 * rate ^ 2) := by field_simp; ring
  rw [e] at h2
  refine meanSq_congr (fun ω => ?_) h2
  simp only [value, Spec.pdev, if_neg h1, rms]
  congr 2
  rw [mul_comm (72 : ℝ), div_div_eq_mul_div]

theorem theo1_value_run (m : ℕ) (hu : Usable .theo1 N m) : MeanSq P (fun ω => value .theo1 (X ω) N rate m)
    ((5 * m ^ 2 + 6 * m + 4) / (54 * m) * (s2 * rate ^ 2)) := by
  obtain ⟨hm, hl, -, he, hc⟩ := hu
  obtain ⟨h, rfl⟩ := he rfl
  have hl' : h + h < N := hl
  have hh : 0 < h := by omega
  have hh' : (0 : ℝ) < h := by exact_mod_cast hh
  have h1 := meanSq_theo1 (P := P) (n := N - (h + h)) (q := (h + h) / 2)
    (f := fun i d ω => (X ω i - X ω (i + (h + h) / 2 - d)) + (X ω (i + (h + h)) - X ω (i + (h + h) / 2 + d)))
    (norm := 3 / 4 * (N - (h + h : ℕ)) * ((h + h : ℕ) / rate) ^ 2)
    (v := fun d => s2 * (2 * h * ((h : ℝ) - d) ^ 2 - 4 / 3 * ((h : ℝ) - d) ^ 3 + ((h : ℝ) - d) / 3)) (k := 3 / 4 * ((h + h : ℕ) / rate) ^ 2)
    (by omega) (by positivity) (by rw [Nat.cast_sub (by omega)]; ring)
    (fun i hi d hd => by
      rw [show (h + h) / 2 = h by omega] at hd ⊢
      have h3 := hU.meanSq_sum (range (2 * h - 1)) (fun t => i + t) (fun t => theo1Rw h (h - d) (t + 1)) (fun x _ y _ e => by simpa using e)
        (fun t ht => by have := mem_range.1 ht; omega)
      rw [theo1Rw_sq (by omega) hh, Nat.cast_sub hd.le] at h3
      have e : ∀ ω, (X ω i - X ω (i + h - d)) + (X ω (i + (h + h)) - X ω (i + h + d)) =
          ∑ t ∈ range (2 * h - 1), theo1Rw h (h - d) (t + 1) * U (i + t) ω := fun ω => by
        rw [← theo1Rw_sum (x := fun k => X ω (i + k)) (fun k _ => hX ω (i + k)) (by omega) hh, add_zero,
          show i + (h - d) = i + h - d by omega, show i + (2 * h - (h - d)) = i + h + d by omega, two_mul h]
      simp only [e]
      simpa using h3)
  rw [show (h + h) / 2 = h by omega] at h1
  have e1 : ∑ d ∈ range h, s2 * (2 * h * ((h : ℝ) - d) ^ 2 - 4 / 3 * ((h : ℝ) - d) ^ 3 + ((h : ℝ) - d) / 3) / ((h : ℝ) - d) =
      s2 * (5 / 9 * (h : ℝ) ^ 3 + (h : ℝ) ^ 2 / 3 + h / 9) := by
    have e : ∀ d ∈ range h, s2 * (2 * h * ((h : ℝ) - d) ^ 2 - 4 / 3 * ((h : ℝ) - d) ^ 3 + ((h : ℝ) - d) / 3) / ((h : ℝ) - d) =
        s2 * ((2 / 3 * (h : ℝ) ^ 2 + 1 / 3) + 2 / 3 * (h : ℝ) * (d : ℝ) + (-4 / 3) * (d : ℝ) ^ 2 + 0 * (d : ℝ) ^ 3 + 0 * (d : ℝ) ^ 4 +
          0 * (d : ℝ) ^ 5 + 0 * (d : ℝ) ^ 6 + 0 * (d : ℝ) ^ 7) := fun d hd => by
      have : (d : ℝ) < h := by exact_mod_cast mem_range.1 hd
      have h2 : (h : ℝ) - d ≠ 0 := by linarith
      field_simp
      ring
    rw [sum_congr rfl e, ← mul_sum, sum_poly7]
    ring
  rw [e1] at h1
  have e2 : (5 * ((h + h : ℕ) : ℝ) ^ 2 + 6 * ((h + h : ℕ) : ℝ) + 4) / (54 * ((h + h : ℕ) : ℝ)) * (s2 * rate ^ 2) =
      s2 * (5 / 9 * (h : ℝ) ^ 3 + (h : ℝ) ^ 2 / 3 + h / 9) / (3 / 4 * (((h + h : ℕ) : ℝ) / rate) ^ 2) := by
    push_cast
    field_simp
    ring
  rw [e2]
  refine meanSq_congr (fun ω => ?_) h1
  simp only [value, Spec.theo1]
  rw [show (h + h) / 2 = h by omega]

end

/-- **C104, random walk frequency noise**: the expected squares of the parabolic deviation and of Theo1. -/
theorem walk_freq_more {N : ℕ} {s2 rate : ℝ} {Y W : ℕ → Ω → ℝ} (hY : ∀ i ω, Y (i + 1) ω - Y i ω = W i ω)
    (hW : White P W (N - 1) 0 s2) (hr : 0 < rate) :
    Expects P .pdev (fun ω => tab N (fun i => Y i ω)) rate "freq"
      (fun m => (if m = 1 then 1 / 2 else (13 * (m : ℝ) ^ 6 - 14 * m ^ 4 + 7 * m ^ 2 - 6) / (35 * m ^ 5)) * s2) ∧
    Expects P .theo1 (fun ω => tab N (fun i => Y i ω)) rate "freq" (fun m => (5 * m ^ 2 + 6 * m + 4) / (54 * m) * s2) := by
  obtain ⟨hX, hU⟩ := walk_phase hY hW (rate := rate)
  have e : s2 / rate ^ 2 * rate ^ 2 = s2 := by field_simp
  refine ⟨expects_freq _ _ _ _ hr _ fun m hu => ?_, expects_freq _ _ _ _ hr _ fun m hu => ?_⟩
  · have h := pdev_value_run hX hU hr m hu
    rwa [e] at h
  · have h := theo1_value_run hX hU hr m hu
    rwa [e] at h

example := walk_freq_more (P := gaussNoise) (N := 9) (s2 := 1) (rate := 10) (Y := fun i ω => ∑ j ∈ range i, ω j)
  (W := fun i ω => ω i) (fun i ω => by rw [sum_range_succ]; ring) (white_gauss 8) (by norm_num)

open Filter Topology in
/-- **C104**: for random walk frequency noise the Allan variance at `0.75 m` exceeds the expected square of `theo1` by a factor that approaches
2.7, the value in the reference (SP1065) that the docstring of `theo1` names; the square of `pdev` approaches 39/35 of the Allan variance. -/
theorem theo1_walk_bias :
    Tendsto (fun k : ℕ => (2 * (3 * (k : ℝ)) ^ 2 + 1) / (6 * (3 * k)) / ((5 * (4 * (k : ℝ)) ^ 2 + 6 * (4 * k) + 4) / (54 * (4 * k)))) atTop (𝓝 2.7) ∧
    Tendsto (fun m : ℕ => (13 * (m : ℝ) ^ 6 - 14 * m ^ 4 + 7 * m ^ 2 - 6) / (35 * m ^ 5) / ((2 * m ^ 2 + 1) / (6 * m))) atTop (𝓝 (39 / 35)) := by
  have hz : Tendsto (fun m : ℕ => 1 / (m : ℝ)) atTop (𝓝 0) := tendsto_one_div_atTop_nhds_zero_nat
  have key : ∀ (F : ℝ → ℝ) (f : ℕ → ℝ) (l : ℝ), ContinuousAt F 0 → F 0 = l → (∀ m : ℕ, 0 < m → f m = F (1 / m)) →
      Tendsto f atTop (𝓝 l) := by
    intro F f l hF h0 hf
    have h1 := hF.tendsto.comp hz
    rw [h0] at h1
    refine h1.congr' ?_
    filter_upwards [eventually_gt_atTop 0] with m hm
    exact (hf m hm).symm
  constructor
  · refine key (fun z => 12 * (18 + z ^ 2) / (80 + 24 * z + 4 * z ^ 2)) _ _
      (by apply ContinuousAt.div <;> [fun_prop; fun_prop; norm_num]) (by norm_num) fun m hm => ?_
    have hm' : (0 : ℝ) < m := by exact_mod_cast hm
    field_simp
    ring
  · refine key (fun z => 6 * (13 - 14 * z ^ 2 + 7 * z ^ 4 - 6 * z ^ 6) / (35 * (2 + z ^ 2))) _ _
      (by apply ContinuousAt.div <;> [fun_prop; fun_prop; norm_num]) (by norm_num) fun m hm => ?_
    have hm' : (0 : ℝ) < m := by exact_mod_cast hm
    field_simp

end AT
