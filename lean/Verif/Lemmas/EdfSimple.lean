import Verif.Lemmas.EdfWalkClosed
import Verif.Props.EdfExact

/-!
# Degrees of freedom of the overlapping Allan variance

The sums of squared covariances for every number of second differences, and the polynomial inequalities that compare them
with the formulas of `edf_simple`.
-/

namespace AT

open Spec Finset

theorem lagN_sum (M : ℕ) (hM : 0 < M) (f : ℕ → ℝ) :
    lagN M f = 2 * ∑ l ∈ range M, ((M : ℝ) - l) * f l ^ 2 - M * f 0 ^ 2 := by
  rw [lagN_eq M hM, range_eq_Ico, sum_eq_sum_Ico_succ_bot hM]
  push_cast
  ring_nf

/-! ## White phase noise -/

theorem lag_pm2 (m M : ℕ) (hm : 0 < m) (hM : 0 < M) (f : ℕ → ℝ)
    (hf : ∀ l, f l = if l = 0 then 6 else if l = m then -4 else if l = 2 * m then 1 else 0) :
    lagN M f = 36 * M + 32 * ((M - m : ℕ) : ℝ) + 2 * ((M - 2 * m : ℕ) : ℝ) := by
  have e : ∀ l ∈ Ico 1 M, ((M : ℝ) - l) * f l ^ 2
      = (if l = m then 16 * ((M : ℝ) - l) else 0) + if l = 2 * m then ((M : ℝ) - l) else 0 := by
    intro l hl
    rw [mem_Ico] at hl
    rw [hf, if_neg (by omega)]
    by_cases h1 : l = m
    · rw [if_pos h1, if_pos h1, if_neg (by omega)]
      ring
    rw [if_neg h1, if_neg h1]
    by_cases h2 : l = 2 * m
    · rw [if_pos h2, if_pos h2]
      ring
    rw [if_neg h2, if_neg h2]
    ring
  rw [lagN_eq M hM, sum_congr rfl e, sum_add_distrib, sum_point M m hm, sum_point M (2 * m) (by omega), hf 0, if_pos rfl]
  have c : ∀ p : ℕ, (if p < M then ((M : ℝ) - p) else 0) = ((M - p : ℕ) : ℝ) := by
    intro p
    split_ifs with h
    · rw [Nat.cast_sub h.le]
    · rw [Nat.sub_eq_zero_of_le (by omega), Nat.cast_zero]
  have c1 : (if m < M then 16 * ((M : ℝ) - m) else 0) = 16 * ((M - m : ℕ) : ℝ) := by
    rw [← c]
    split_ifs <;> ring
  rw [c1, c]
  ring

theorem pm_ratio (m M : ℕ) (hm : 0 < m) (hM : 0 < M) :
    3 / 4 * (36 * M ^ 2 * (2 * ((2 * m + M : ℝ) - m))) ≤ ((2 * m + M : ℝ) + 1) * M
        * (36 * M + 32 * ((M - m : ℕ) : ℝ) + 2 * ((M - 2 * m : ℕ) : ℝ)) ∧
      ((2 * m + M : ℝ) + 1) * M * (36 * M + 32 * ((M - m : ℕ) : ℝ) + 2 * ((M - 2 * m : ℕ) : ℝ))
        ≤ 5 / 4 * (36 * M ^ 2 * (2 * ((2 * m + M : ℝ) - m))) := by
  rw [← sub_nonneg (α := ℝ), ← sub_nonneg (α := ℝ) (b := _ * _ * _)]
  rcases le_total M m with h | h
  · obtain ⟨a, rfl⟩ : ∃ a, M = 1 + a := ⟨M - 1, by omega⟩
    obtain ⟨b, rfl⟩ : ∃ b, m = 1 + a + b := ⟨m - (1 + a), by omega⟩
    rw [show 1 + a - (1 + a + b) = 0 by omega, show 1 + a - 2 * (1 + a + b) = 0 by omega]
    push_cast
    constructor <;> ring_nf <;> positivity
  obtain ⟨a, rfl⟩ : ∃ a, M = m + a := ⟨M - m, by omega⟩
  rw [show m + a - m = a by omega]
  rcases lt_or_ge a m with h' | h'
  · obtain ⟨b, rfl⟩ : ∃ b, m = 1 + a + b := ⟨m - (1 + a), by omega⟩
    rw [show 1 + a + b + a - 2 * (1 + a + b) = 0 by omega]
    push_cast
    constructor <;> ring_nf <;> positivity
  · obtain ⟨b, rfl⟩ : ∃ b, m = 1 + b := ⟨m - 1, by omega⟩
    obtain ⟨c, rfl⟩ : ∃ c, a = 1 + b + c := ⟨a - (1 + b), by omega⟩
    rw [show 1 + b + (1 + b + c) - 2 * (1 + b) = c by omega]
    push_cast
    constructor <;> ring_nf <;> positivity

/-! ## White frequency noise -/

theorem fm_small (m i : ℕ) (hi : i < m) : (m : ℝ) / 2 * ghSz .inf 0 2 ((i : ℝ) / m) = 2 * m + -3 * i + 0 * (i : ℝ) ^ 2 + 0 * (i : ℝ) ^ 3 := by
  have hm' : (0 : ℝ) < m := by exact_mod_cast (by omega : 0 < m)
  obtain ⟨h0, h1, h2⟩ := grid m i 0 hi
  rw [fm2_piece0 _ h0 h1]
  field_simp
  ring

theorem fm_large (m i : ℕ) (hi : i < m) : (m : ℝ) / 2 * ghSz .inf 0 2 (((m + i : ℕ) : ℝ) / m)
    = -m + 1 * i + 0 * (i : ℝ) ^ 2 + 0 * (i : ℝ) ^ 3 := by
  have hm' : (0 : ℝ) < m := by exact_mod_cast (by omega : 0 < m)
  obtain ⟨h0, h1, h2⟩ := grid m i 1 hi
  rw [one_mul] at h2
  rw [h2, Nat.cast_one, fm2_piece1 _ h0 h1]
  field_simp
  ring

/-- the covariances of second differences of white frequency noise -/
noncomputable def fmCov (m l : ℕ) : ℝ := m / 2 * ghSz .inf 0 2 ((l : ℝ) / m)

theorem fmCov_zero (m : ℕ) : fmCov m 0 = 2 * m := by
  rw [fmCov, Nat.cast_zero, zero_div, fm2_piece0 0 le_rfl zero_le_one]
  ring

theorem lag_fmA (m M : ℕ) (hM : 0 < M) (h : M ≤ m) :
    lagN M (fmCov m) = M * (4 * m ^ 2 * M - 4 * m * (M ^ 2 - 1) + 3 / 2 * M * (M ^ 2 - 1)) := by
  rw [lagN_sum M hM, sum_congr rfl (g := fun l : ℕ => ((M : ℝ) - l) * (2 * m + -3 * l + 0 * (l : ℝ) ^ 2 + 0 * (l : ℝ) ^ 3) ^ 2)
    (fun l hl => by rw [mem_range] at hl; rw [fmCov, fm_small m l (by omega)]), sum_sq_cubic, fmCov_zero]
  ring

theorem lag_fmB (m r : ℕ) (hm : 0 < m) (h : r ≤ m) : lagN (m + r) (fmCov m)
    = 3 / 2 * m ^ 4 + 5 / 2 * m ^ 2 + 2 * m ^ 3 * r + 11 / 3 * m * r + m ^ 2 * r ^ 2 - 2 / 3 * m * r ^ 3 + r ^ 4 / 6 - r ^ 2 / 6 := by
  rw [lagN_sum (m + r) (by omega), sum_range_add,
    sum_congr rfl (g := fun l : ℕ => (((m + r : ℕ) : ℝ) - l) * (2 * m + -3 * l + 0 * (l : ℝ) ^ 2 + 0 * (l : ℝ) ^ 3) ^ 2)
      (fun l hl => by rw [mem_range] at hl; rw [fmCov, fm_small m l hl]),
    sum_congr (s₁ := range r) rfl (g := fun l : ℕ => ((r : ℝ) - l) * (-m + 1 * l + 0 * (l : ℝ) ^ 2 + 0 * (l : ℝ) ^ 3) ^ 2)
      (fun l hl => by
        rw [mem_range] at hl
        rw [fmCov, fm_large m l (by omega)]
        push_cast
        ring), sum_sq_cubic, sum_sq_cubic, fmCov_zero]
  push_cast
  ring

theorem lag_fmC (m M : ℕ) (hm : 0 < m) (h : 2 * m ≤ M) :
    lagN M (fmCov m) = M * (8 / 3 * m ^ 3 + 10 / 3 * m) - 4 * m ^ 2 * (m ^ 2 / 3 + 1 / 6) := by
  have hm' : (0 : ℝ) < m := by exact_mod_cast hm
  have := lagN_mul M ((m : ℝ) / 2) (fun l => ghSz .inf 0 2 ((l : ℝ) / m))
  rw [lagN_fm2 m M hm h] at this
  rw [show fmCov m = fun l : ℕ => (m : ℝ) / 2 * ghSz .inf 0 2 ((l : ℝ) / m) from rfl, this]
  field_simp
  ring

theorem fm_ratio (m M : ℕ) (hm : 0 < m) (hM : 2 ≤ M) :
    9 / 10 * (4 * m ^ 2 * M ^ 2 * ((2 * m + M : ℝ) * (4 * m ^ 2 + 5)))
        ≤ lagN M (fmCov m) * (2 * m * (3 * (2 * m + M) * ((2 * m + M) - 1) - 4 * m * ((2 * m + M) - 2))) ∧
      lagN M (fmCov m) * (2 * m * (3 * (2 * m + M) * ((2 * m + M) - 1) - 4 * m * ((2 * m + M) - 2)))
        ≤ 6 / 5 * (4 * m ^ 2 * M ^ 2 * ((2 * m + M : ℝ) * (4 * m ^ 2 + 5))) := by
  rw [← sub_nonneg (α := ℝ), ← sub_nonneg (α := ℝ) (b := lagN _ _ * _)]
  rcases le_total M m with h | h
  · rw [lag_fmA m M (by omega) h]
    obtain ⟨a, rfl⟩ : ∃ a, M = 2 + a := ⟨M - 2, by omega⟩
    obtain ⟨b, rfl⟩ : ∃ b, m = 2 + a + b := ⟨m - (2 + a), by omega⟩
    push_cast
    constructor
    · ring_nf
      positivity
    · have : 0 ≤ (b : ℝ) ^ 2 * (128 / 5 * (b - 2) ^ 2) := by positivity
      rw [← add_zero (_ - _)]
      refine le_trans this ?_
      rw [add_zero, ← sub_nonneg]
      ring_nf
      positivity
  obtain ⟨a, rfl⟩ : ∃ a, M = m + a := ⟨M - m, by omega⟩
  rcases lt_or_ge a m with h' | h'
  · rw [lag_fmB m a hm h'.le]
    obtain ⟨b, rfl⟩ : ∃ b, m = 1 + a + b := ⟨m - (1 + a), by omega⟩
    push_cast
    constructor <;> ring_nf <;> positivity
  · rw [lag_fmC m (m + a) hm (by omega)]
    obtain ⟨b, rfl⟩ : ∃ b, m = 1 + b := ⟨m - 1, by omega⟩
    obtain ⟨c, rfl⟩ : ∃ c, a = 1 + b + c := ⟨a - (1 + b), by omega⟩
    push_cast
    constructor <;> ring_nf <;> positivity

/-! ## Random walk frequency noise -/

theorem lag_walk (m M : ℕ) (hm : 0 < m) (h : 2 * m ≤ M) : lagN M (walkCov 2 m)
    = M * (m / 7 + 7 * m ^ 3 / 45 + 2 * m ^ 5 / 9 + 151 * m ^ 7 / 315)
      - (103 * m ^ 8 / 630 - m ^ 6 / 15 - m ^ 4 / 10 + m ^ 2 / 315) := by
  have hm' : (0 : ℝ) < m := by exact_mod_cast hm
  generalize hf : walkCov 2 m = f
  have hf' : ∀ l : ℕ, f l = (m ^ 3 * ghSz .inf (-2) 2 (l / m) + m * ghSz .inf 0 2 (l / m)) / 12 := fun l => by rw [← hf]; rfl
  rw [lagN_blocks 2 m M (by omega) h _ (fun l hl => by
    have hl' : (2 : ℝ) ≤ (l : ℝ) / m := by
      rw [le_div_iff₀ hm']
      exact_mod_cast hl
    rw [hf', kernA2_far _ hl', ghSz_fm2, tri_far _ (by linarith), tri_far _ (by linarith), tri_far _ (by linarith)]
    ring)]
  simp only [sum_range_succ (n := 1), sum_range_succ (n := 0), sum_range_zero, zero_add]
  rw [block_poly m 0 _ _ (2 / 3 * m ^ 3 + m / 3) (-1 / 2) (-m) (1 / 2) (fun i hi => by
      obtain ⟨h0, h1, h2⟩ := grid m i 0 hi
      rw [hf', h2, Nat.cast_zero, zero_add, kernA2 _ h0 h1, fm2_piece0 _ h0 h1]
      field_simp
      ring),
    block_poly m 1 _ _ (m ^ 3 / 6 - m / 6) (-m ^ 2 / 2 + 1 / 6) (m / 2) (-1 / 6) (fun i hi => by
      obtain ⟨h0, h1, h2⟩ := grid m i 1 hi
      rw [hf', h2, Nat.cast_one, kernA2_piece1 _ h0 h1, fm2_piece1 _ h0 h1]
      field_simp
      ring), sum_sq_cubic, sum_sq_cubic]
  rw [hf' 0, Nat.cast_zero, zero_div, kernA2 0 le_rfl zero_le_one, fm2_piece0 0 le_rfl zero_le_one]
  push_cast
  ring

theorem walk_small (m i : ℕ) (hi : i < m) : walkCov 2 m i
    = (2 / 3 * m ^ 3 + m / 3) + -1 / 2 * i + -m * (i : ℝ) ^ 2 + 1 / 2 * (i : ℝ) ^ 3 := by
  have hm' : (0 : ℝ) < m := by exact_mod_cast (by omega : 0 < m)
  obtain ⟨h0, h1, -⟩ := grid m i 0 hi
  rw [walkCov, kernA2 _ h0 h1, fm2_piece0 _ h0 h1]
  field_simp
  ring

theorem walk_large (m i : ℕ) (hi : i < m) : walkCov 2 m (m + i)
    = (m ^ 3 / 6 - m / 6) + (-m ^ 2 / 2 + 1 / 6) * i + m / 2 * (i : ℝ) ^ 2 + -1 / 6 * (i : ℝ) ^ 3 := by
  have hm' : (0 : ℝ) < m := by exact_mod_cast (by omega : 0 < m)
  obtain ⟨h0, h1, h2⟩ := grid m i 1 hi
  rw [one_mul] at h2
  rw [walkCov, h2, Nat.cast_one, kernA2_piece1 _ h0 h1, fm2_piece1 _ h0 h1]
  field_simp
  ring

theorem walk_zero (m : ℕ) (hm : 0 < m) : walkCov 2 m 0 = m * (2 * m ^ 2 + 1) / 3 := by
  have := walk_small m 0 hm
  rw [this, Nat.cast_zero]
  ring

theorem lag_walkA (m M : ℕ) (hM : 0 < M) (h : M ≤ m) : lagN M (walkCov 2 m)
    = 4 / 9 * m ^ 6 * M ^ 2 + 29 / 90 * m ^ 2 * M ^ 2 - 1 / 3 * m ^ 3 * M ^ 3 - 1 / 2 * m * M ^ 3 - 2 / 9 * m ^ 4 * M ^ 4
      - 5 / 18 * m ^ 2 * M ^ 4 + 3 / 16 * M ^ 4 - 17 / 140 * M ^ 2 + 4 / 15 * m ^ 3 * M + 26 / 105 * m * M + 1 / 15 * m ^ 3 * M ^ 5
      + 3 / 10 * m * M ^ 5 + 2 / 3 * m ^ 4 * M ^ 2 - 3 / 40 * M ^ 6 + 1 / 15 * m ^ 2 * M ^ 6 - 1 / 21 * m * M ^ 7 + 1 / 112 * M ^ 8 := by
  rw [lagN_sum M hM, sum_congr rfl (g := fun l : ℕ => ((M : ℝ) - l)
      * ((2 / 3 * m ^ 3 + m / 3) + -1 / 2 * l + -m * (l : ℝ) ^ 2 + 1 / 2 * (l : ℝ) ^ 3) ^ 2)
    (fun l hl => by rw [mem_range] at hl; rw [walk_small m l (by omega)]), sum_sq_cubic, walk_zero m (by omega)]
  ring

theorem lag_walkB (m r : ℕ) (hm : 0 < m) (h : r ≤ m) : lagN (m + r) (walkCov 2 m)
    = 1597 / 5040 * m ^ 8 + 101 / 360 * m ^ 6 + 199 / 720 * m ^ 4 + 49 / 180 * m ^ 5 * r + 13 / 180 * m ^ 3 * r + 53 / 420 * m ^ 2
      + 107 / 630 * m * r + 33 / 70 * m ^ 7 * r + 1 / 36 * m ^ 6 * r ^ 2 - 1 / 8 * m ^ 4 * r ^ 2 + 1 / 8 * m ^ 2 * r ^ 2
      - 1 / 18 * m ^ 5 * r ^ 3 + 1 / 6 * m ^ 3 * r ^ 3 - 1 / 12 * m * r ^ 3 + 5 / 72 * m ^ 4 * r ^ 4 - 1 / 8 * m ^ 2 * r ^ 4
      + 1 / 48 * r ^ 4 - 17 / 1260 * r ^ 2 - 1 / 18 * m ^ 3 * r ^ 5 + 1 / 20 * m * r ^ 5 + 1 / 36 * m ^ 2 * r ^ 6 - 1 / 120 * r ^ 6
      - 1 / 126 * m * r ^ 7 + 1 / 1008 * r ^ 8 := by
  rw [lagN_sum (m + r) (by omega), sum_range_add,
    sum_congr rfl (g := fun l : ℕ => (((m + r : ℕ) : ℝ) - l)
        * ((2 / 3 * m ^ 3 + m / 3) + -1 / 2 * l + -m * (l : ℝ) ^ 2 + 1 / 2 * (l : ℝ) ^ 3) ^ 2)
      (fun l hl => by rw [mem_range] at hl; rw [walk_small m l hl]),
    sum_congr (s₁ := range r) rfl (g := fun l : ℕ => ((r : ℝ) - l)
        * ((m ^ 3 / 6 - m / 6) + (-m ^ 2 / 2 + 1 / 6) * l + m / 2 * (l : ℝ) ^ 2 + -1 / 6 * (l : ℝ) ^ 3) ^ 2)
      (fun l hl => by
        rw [mem_range] at hl
        rw [walk_large m l (by omega)]
        push_cast
        ring), sum_sq_cubic, sum_sq_cubic, walk_zero m hm]
  push_cast
  ring

theorem walk_ratio (m M : ℕ) (hm : 2 ≤ m) (hM : 2 ≤ M) :
    7 / 8 * (M ^ 2 * (m * (2 * m ^ 2 + 1) / 3) ^ 2 * (m * ((2 * m + M : ℝ) - 3) ^ 2))
        ≤ lagN M (walkCov 2 m) * (((2 * m + M : ℝ) - 2) * (((2 * m + M : ℝ) - 1) ^ 2 - 3 * m * ((2 * m + M : ℝ) - 1) + 4 * m ^ 2)) ∧
      lagN M (walkCov 2 m) * (((2 * m + M : ℝ) - 2) * (((2 * m + M : ℝ) - 1) ^ 2 - 3 * m * ((2 * m + M : ℝ) - 1) + 4 * m ^ 2))
        ≤ 9 / 5 * (M ^ 2 * (m * (2 * m ^ 2 + 1) / 3) ^ 2 * (m * ((2 * m + M : ℝ) - 3) ^ 2)) := by
  rw [← sub_nonneg (α := ℝ), ← sub_nonneg (α := ℝ) (b := lagN _ _ * _)]
  rcases le_total M m with h | h
  · rw [lag_walkA m M (by omega) h]
    obtain ⟨a, rfl⟩ : ∃ a, M = 2 + a := ⟨M - 2, by omega⟩
    obtain ⟨b, rfl⟩ : ∃ b, m = 2 + a + b := ⟨m - (2 + a), by omega⟩
    push_cast
    constructor <;> ring_nf <;> positivity
  obtain ⟨a, rfl⟩ : ∃ a, M = m + a := ⟨M - m, by omega⟩
  rcases lt_or_ge a m with h' | h'
  · rw [lag_walkB m a (by omega) h'.le]
    rcases eq_or_lt_of_le (Nat.succ_le_of_lt h') with h'' | h''
    · obtain ⟨b, rfl⟩ : ∃ b, m = 2 + b := ⟨m - 2, by omega⟩
      obtain rfl : a = 1 + b := by omega
      push_cast
      constructor <;> ring_nf <;> positivity
    · obtain ⟨b, rfl⟩ : ∃ b, m = 2 + a + b := ⟨m - (2 + a), by omega⟩
      push_cast
      constructor <;> ring_nf <;> positivity
  · rw [lag_walk m (m + a) (by omega) (by omega)]
    obtain ⟨b, rfl⟩ : ∃ b, m = 2 + b := ⟨m - 2, by omega⟩
    obtain ⟨c, rfl⟩ : ∃ c, a = 2 + b + c := ⟨a - (2 + b), by omega⟩
    push_cast
    constructor <;> ring_nf <;> positivity

end AT
