import Verif.Lemmas.Flicker

/-!
# Closed forms of the mean squares of flicker noise
-/

namespace AT

open Spec Finset

/-- second antidifference of `oddSum` -/
noncomputable def Spec.oddG (n : ℕ) : ℝ := (4 * (n : ℝ) ^ 2 - 1) / 8 * oddSum n - 3 / 8 * n ^ 2

/-- fourth antidifference of `oddSum` -/
noncomputable def Spec.oddH (n : ℕ) : ℝ :=
  (4 * (n : ℝ) ^ 2 - 1) * (4 * n ^ 2 - 9) / 384 * oddSum n - 25 / 576 * n ^ 4 + 95 / 1152 * n ^ 2

theorem oddSum_zero : oddSum 0 = 0 := by simp [oddSum]

theorem oddSum_succ (n : ℕ) : oddSum (n + 1) = oddSum n + 1 / (2 * n + 1) := by
  unfold oddSum; rw [sum_range_succ]

theorem two_z_add_one_ne (z : ℤ) : 2 * (z : ℝ) + 1 ≠ 0 := by
  have : (2 * z + 1 : ℤ) ≠ 0 := by omega
  exact_mod_cast this

theorem oddSum_int (z : ℤ) : oddSum (z + 1).natAbs = oddSum z.natAbs + 1 / (2 * (z : ℝ) + 1) := by
  rcases le_or_gt 0 z with h | h
  · obtain ⟨n, rfl⟩ := Int.eq_ofNat_of_zero_le h
    rw [show ((n : ℤ) + 1).natAbs = n + 1 by omega, oddSum_succ, Int.natAbs_natCast]
    simp
  · obtain ⟨n, rfl⟩ : ∃ n : ℕ, z = -((n : ℤ) + 1) := ⟨(-z - 1).toNat, by omega⟩
    rw [show (-((n : ℤ) + 1) + 1).natAbs = n by omega, show (-((n : ℤ) + 1)).natAbs = n + 1 by omega, oddSum_succ]
    push_cast
    have h1 : 2 * (n : ℝ) + 1 ≠ 0 := by positivity
    have h2 : 2 * (-1 + -(n : ℝ)) + 1 = -(2 * n + 1) := by ring
    have h3 : 2 * -((n : ℝ) + 1) + 1 = -(2 * n + 1) := by ring
    rw [h3]
    field_simp
    ring

theorem oddSum_int' (z : ℤ) : oddSum (z - 1).natAbs = oddSum z.natAbs - 1 / (2 * (z : ℝ) - 1) := by
  have := oddSum_int (z - 1)
  rw [sub_add_cancel] at this
  rw [this]
  push_cast
  have e : 2 * ((z : ℝ) - 1) + 1 = 2 * z - 1 := by ring
  rw [e]
  ring

theorem two_z_sub_one_ne (z : ℤ) : 2 * (z : ℝ) - 1 ≠ 0 := by
  have : (2 * z - 1 : ℤ) ≠ 0 := by omega
  exact_mod_cast this

theorem natAbs_sq_real (z : ℤ) : ((z.natAbs : ℕ) : ℝ) ^ 2 = (z : ℝ) ^ 2 := by
  rw [Nat.cast_natAbs, Int.cast_abs, sq_abs]

theorem oddG_int (z : ℤ) : oddG z.natAbs = (4 * (z : ℝ) ^ 2 - 1) / 8 * oddSum z.natAbs - 3 / 8 * (z : ℝ) ^ 2 := by
  unfold oddG; rw [natAbs_sq_real]

theorem oddH_int (z : ℤ) : oddH z.natAbs =
    (4 * (z : ℝ) ^ 2 - 1) * (4 * (z : ℝ) ^ 2 - 9) / 384 * oddSum z.natAbs - 25 / 576 * (z : ℝ) ^ 4 + 95 / 1152 * (z : ℝ) ^ 2 := by
  have h4 : ((z.natAbs : ℕ) : ℝ) ^ 4 = (z : ℝ) ^ 4 := by
    have := natAbs_sq_real z
    calc ((z.natAbs : ℕ) : ℝ) ^ 4 = (((z.natAbs : ℕ) : ℝ) ^ 2) ^ 2 := by ring
      _ = _ := by rw [this]; ring
  unfold oddH; rw [natAbs_sq_real, h4]

theorem oddG_diff (z : ℤ) : oddSum z.natAbs = oddG (z + 1).natAbs - 2 * oddG z.natAbs + oddG (z - 1).natAbs := by
  rw [oddG_int, oddG_int, oddG_int, oddSum_int, oddSum_int']
  have h1 := two_z_add_one_ne z
  have h2 := two_z_sub_one_ne z
  push_cast
  have e1 : 1 / (2 * (z : ℝ) + 1) * (2 * z + 1) = 1 := by field_simp
  have e2 : 1 / (2 * (z : ℝ) - 1) * (2 * z - 1) = 1 := by field_simp
  generalize 1 / (2 * (z : ℝ) + 1) = p at *
  generalize 1 / (2 * (z : ℝ) - 1) = q at *
  linear_combination -(2 * (z : ℝ) + 3) / 8 * e1 + (2 * (z : ℝ) - 3) / 8 * e2

theorem oddH_diff (z : ℤ) : oddG z.natAbs = oddH (z + 1).natAbs - 2 * oddH z.natAbs + oddH (z - 1).natAbs := by
  rw [oddG_int, oddH_int, oddH_int, oddH_int, oddSum_int, oddSum_int']
  have h1 := two_z_add_one_ne z
  have h2 := two_z_sub_one_ne z
  push_cast
  have e1 : 1 / (2 * (z : ℝ) + 1) * (2 * z + 1) = 1 := by field_simp
  have e2 : 1 / (2 * (z : ℝ) - 1) * (2 * z - 1) = 1 := by field_simp
  generalize 1 / (2 * (z : ℝ) + 1) = p at *
  generalize 1 / (2 * (z : ℝ) - 1) = q at *
  linear_combination -((2 * (z : ℝ) + 3) * (2 * z + 5) * (2 * z - 1)) / 384 * e1
    + (2 * (z : ℝ) - 3) * (2 * z - 5) * (2 * z + 1) / 384 * e2

/-- sums of a second difference over a square -/
theorem sum_square {f G : ℤ → ℝ} (h : ∀ z, f z = G (z + 1) - 2 * G z + G (z - 1)) (m : ℕ) (z : ℤ) :
    ∑ k ∈ range m, ∑ l ∈ range m, f (z + k - l) = G (z + m) - 2 * G z + G (z - m) := by
  have inner : ∀ w : ℤ, ∑ l ∈ range m, f (w - l) = (G (w + 1) - G w) - (G (w - m + 1) - G (w - m)) := by
    intro w
    have := sum_range_sub' (fun l : ℕ => G (w - l + 1) - G (w - l)) m
    simp only [Nat.cast_zero, sub_zero] at this
    rw [← this]
    refine sum_congr rfl fun l _ => ?_
    rw [h, show w - ((l + 1 : ℕ) : ℤ) + 1 = w - l by push_cast; ring,
      show w - ((l + 1 : ℕ) : ℤ) = w - l - 1 by push_cast; ring]
    ring
  have outer : ∀ w : ℤ, ∑ k ∈ range m, (G (w + k + 1) - G (w + k)) = G (w + m) - G w := by
    intro w
    have := sum_range_sub (fun k : ℕ => G (w + k)) m
    simp only [Nat.cast_zero, add_zero] at this
    rw [← this]
    refine sum_congr rfl fun k _ => ?_
    rw [show w + ((k + 1 : ℕ) : ℤ) = w + k + 1 by push_cast; ring]
  calc ∑ k ∈ range m, ∑ l ∈ range m, f (z + k - l)
      = ∑ k ∈ range m, ((G (z + k + 1) - G (z + k)) - (G (z - m + k + 1) - G (z - m + k))) :=
        sum_congr rfl fun k _ => by rw [inner, show z + k - m = z - m + k by ring]
    _ = _ := by
        rw [sum_sub_distrib, outer, outer, sub_add_cancel]
        ring

/-- the weights 1, -2, 1 -/
noncomputable def w2 (u : ℕ) : ℝ := if u = 1 then -2 else 1

/-- the weights -1, 1 -/
noncomputable def w1 (u : ℕ) : ℝ := if u = 0 then -1 else 1

/-- the weights -1, 3, -3, 1 -/
noncomputable def w3 (u : ℕ) : ℝ := if u = 0 then -1 else if u = 1 then 3 else if u = 2 then -3 else 1

section

variable (f : ℤ → ℝ) (hf : ∀ z, f (-z) = f z) (m : ℕ)
include hf

theorem form_w1 : ∑ u ∈ range 2, ∑ v ∈ range 2, w1 u * w1 v * f ((u * m : ℕ) - (v * m : ℕ)) = 2 * f 0 - 2 * f m := by
  have := hf m
  simp only [sum_range_succ, sum_range_zero, w1, Nat.cast_mul]
  push_cast
  norm_num
  rw [this]
  ring

theorem form_w2 : ∑ u ∈ range 3, ∑ v ∈ range 3, w2 u * w2 v * f ((u * m : ℕ) - (v * m : ℕ))
    = 6 * f 0 - 8 * f m + 2 * f (2 * m) := by
  have h1 := hf m
  have h2 := hf (2 * m)
  simp only [sum_range_succ, sum_range_zero, w2, Nat.cast_mul]
  push_cast
  norm_num
  rw [show (m : ℤ) - 2 * m = -m by ring, show 2 * (m : ℤ) - m = m by ring, h1, h2]
  ring

theorem form_w3 : ∑ u ∈ range 4, ∑ v ∈ range 4, w3 u * w3 v * f ((u * m : ℕ) - (v * m : ℕ))
    = 20 * f 0 - 30 * f m + 12 * f (2 * m) - 2 * f (3 * m) := by
  have h1 := hf m
  have h2 := hf (2 * m)
  have h3 := hf (3 * m)
  simp only [sum_range_succ, sum_range_zero, w3, Nat.cast_mul]
  push_cast
  norm_num
  rw [show (m : ℤ) - 2 * m = -m by ring, show 2 * (m : ℤ) - m = m by ring, show (m : ℤ) - 3 * m = -(2 * m) by ring,
    show 2 * (m : ℤ) - 3 * m = -m by ring, show 3 * (m : ℤ) - m = 2 * m by ring, show 3 * (m : ℤ) - 2 * m = m by ring,
    h1, h2, h3]
  ring

end

end AT
