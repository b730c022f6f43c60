import Verif.Lemmas.EdfMod

/-!
# Closed forms of the norm of piecewise polynomial covariances
-/

namespace AT

open Spec Finset

/-- a sum of values of a polynomial of degree 7 -/
theorem sum_sq_cubic (u p0 p1 p2 p3 : ℝ) (n : ℕ) :
    ∑ i ∈ range n, (u - i) * (p0 + p1 * i + p2 * i ^ 2 + p3 * i ^ 3) ^ 2
      = (u * p0 ^ 2) * n
      + (u * (2 * p0 * p1) - p0 ^ 2) * (n * (n - 1) / 2)
      + (u * (2 * p0 * p2 + p1 ^ 2) - 2 * p0 * p1) * (n * (n - 1) * (2 * n - 1) / 6)
      + (u * (2 * p0 * p3 + 2 * p1 * p2) - (2 * p0 * p2 + p1 ^ 2)) * (n * (n - 1) / 2) ^ 2
      + (u * (2 * p1 * p3 + p2 ^ 2) - (2 * p0 * p3 + 2 * p1 * p2)) * (n * (n - 1) * (2 * n - 1) * (3 * n ^ 2 - 3 * n - 1) / 30)
      + (u * (2 * p2 * p3) - (2 * p1 * p3 + p2 ^ 2)) * (n ^ 2 * (n - 1) ^ 2 * (2 * n ^ 2 - 2 * n - 1) / 12)
      + (u * p3 ^ 2 - 2 * p2 * p3) * (n * (n - 1) * (2 * n - 1) * (3 * n ^ 4 - 6 * n ^ 3 + 3 * n + 1) / 42)
      - p3 ^ 2 * (n ^ 2 * (n - 1) ^ 2 * (3 * n ^ 4 - 6 * n ^ 3 - n ^ 2 + 4 * n + 2) / 24) := by
  induction n with
  | zero => simp
  | succ n ih =>
    rw [sum_range_succ, ih]
    push_cast
    ring

/-- the norm of a sequence given on `k` blocks of length `m` -/
theorem lagN_blocks (k m M : ℕ) (hm : 0 < M) (hM : k * m ≤ M) (f : ℕ → ℝ) (hf : ∀ l, k * m ≤ l → f l = 0) :
    lagN M f = 2 * ∑ b ∈ range k, ∑ i ∈ range m, ((M : ℝ) - b * m - i) * f (b * m + i) ^ 2 - M * f 0 ^ 2 := by
  have e1 : lagN M f = 2 * ∑ l ∈ range M, ((M : ℝ) - l) * f l ^ 2 - M * f 0 ^ 2 := by
    rw [lagN_eq M hm, range_eq_Ico, sum_eq_sum_Ico_succ_bot hm]
    push_cast
    ring_nf
  have e2 : ∑ l ∈ range M, ((M : ℝ) - l) * f l ^ 2 = ∑ l ∈ range (k * m), ((M : ℝ) - l) * f l ^ 2 := by
    obtain ⟨r, rfl⟩ : ∃ r, M = k * m + r := ⟨M - k * m, by omega⟩
    rw [sum_range_add, sum_eq_zero (s := range r), add_zero]
    intro x _
    rw [hf _ (by omega)]
    ring
  have e3 : ∀ k : ℕ, ∑ l ∈ range (k * m), ((M : ℝ) - l) * f l ^ 2
      = ∑ b ∈ range k, ∑ i ∈ range m, ((M : ℝ) - b * m - i) * f (b * m + i) ^ 2 := by
    intro k
    induction k with
    | zero => simp
    | succ k ih =>
      rw [add_mul, one_mul, sum_range_add, ih, sum_range_succ]
      congr 1
      refine sum_congr rfl fun i _ => ?_
      push_cast
      ring
  rw [e1, e2, e3]

theorem tri_small {u : ℝ} (h0 : -1 ≤ u) (h1 : u ≤ 1) : tri u = 1 - |u| :=
  max_eq_right (by have : |u| ≤ 1 := abs_le.2 ⟨h0, h1⟩
                   linarith)

theorem tri_out {u : ℝ} (h : u ≤ -1 ∨ 1 ≤ u) : tri u = 0 := tri_zero (by
  rcases h with h | h
  · rw [abs_of_nonpos (by linarith)]; linarith
  · rw [abs_of_nonneg (by linarith)]; exact h)

/-! ## The pieces of the kernels -/

theorem fm2_piece0 (s : ℝ) (h0 : 0 ≤ s) (h1 : s ≤ 1) : ghSz .inf 0 2 s = 4 - 6 * s := by
  rw [ghSz_fm2, tri_small (by linarith) h1, tri_small (by linarith) (by linarith), tri_out (u := s + 1) (.inr (by linarith)),
    abs_of_nonneg h0, abs_of_nonpos (by linarith)]
  ring

theorem fm2_piece1 (s : ℝ) (h0 : 0 ≤ s) (h1 : s ≤ 1) : ghSz .inf 0 2 (1 + s) = -2 + 2 * s := by
  rw [ghSz_fm2, tri_out (u := 1 + s) (.inr (by linarith)), tri_out (u := 1 + s + 1) (.inr (by linarith)),
    show 1 + s - 1 = s by ring, tri_small (by linarith) h1, abs_of_nonneg h0]
  ring

theorem fm3_eq_pm (t : ℝ) : ghSz .inf 0 3 t = ghSz (.fin 1) 2 2 t := by rw [ghSz_fm3, ghSz_pm]

theorem pm_piece0 (s : ℝ) (h0 : 0 ≤ s) (h1 : s ≤ 1) : ghSz (.fin 1) 2 2 s = 12 - 20 * s := by
  rw [ghSz_pm, tri_out (u := s - 2) (.inl (by linarith)), tri_out (u := s + 1) (.inr (by linarith)),
    tri_out (u := s + 2) (.inr (by linarith)), tri_small (by linarith) h1, tri_small (by linarith) (by linarith),
    abs_of_nonneg h0, abs_of_nonpos (by linarith)]
  ring

theorem pm_piece1 (s : ℝ) (h0 : 0 ≤ s) (h1 : s ≤ 1) : ghSz (.fin 1) 2 2 (1 + s) = -8 + 10 * s := by
  rw [ghSz_pm, tri_out (u := 1 + s) (.inr (by linarith)), tri_out (u := 1 + s + 1) (.inr (by linarith)),
    tri_out (u := 1 + s + 2) (.inr (by linarith)), show 1 + s - 1 = s by ring, tri_small (by linarith) h1,
    tri_small (u := 1 + s - 2) (by linarith) (by linarith), abs_of_nonneg h0, abs_of_nonpos (by linarith)]
  ring

theorem pm_piece2 (s : ℝ) (h0 : 0 ≤ s) (h1 : s ≤ 1) : ghSz (.fin 1) 2 2 (2 + s) = 2 - 2 * s := by
  rw [ghSz_pm, tri_out (u := 2 + s) (.inr (by linarith)), tri_out (u := 2 + s + 1) (.inr (by linarith)),
    tri_out (u := 2 + s + 2) (.inr (by linarith)), tri_out (u := 2 + s - 1) (.inr (by linarith)),
    show 2 + s - 2 = s by ring, tri_small (by linarith) h1, abs_of_nonneg h0]
  ring

theorem mod_piece1 (s : ℝ) (h0 : 0 ≤ s) (h1 : s ≤ 1) :
    ghSz (.fin 1) 0 2 (1 + s) = -4 - 12 * s + 24 * s ^ 2 - 10 * s ^ 3 := by
  have hx : ∀ u, ghSx (.fin 1) 0 u = 2 * |u| ^ 3 - |u - 1| ^ 3 - |u + 1| ^ 3 := by
    intro u
    simp [ghSx, ghSw]
  obtain ⟨t, rfl⟩ : ∃ t, s = t - 1 := ⟨s + 1, by ring⟩
  rw [show 1 + (t - 1) = t by ring]
  unfold ghSz
  simp only [sum_range_succ, sum_range_zero, hx]
  norm_num [Nat.choose]
  simp only [abs_of_nonneg (show 0 ≤ t by linarith), abs_of_nonpos (show t - 2 ≤ 0 by linarith),
    abs_of_nonpos (show t - 2 - 1 ≤ 0 by linarith),
    abs_of_nonneg (show 0 ≤ t - 2 + 1 by linarith), abs_of_nonneg (show 0 ≤ t + 1 - 2 by linarith),
    abs_of_nonpos (show t + 1 - 2 - 1 ≤ 0 by linarith), abs_of_nonneg (show 0 ≤ t + 1 - 2 + 1 by linarith),
    abs_of_nonneg (show 0 ≤ t - 1 by linarith), abs_of_nonneg (show 0 ≤ t + 1 by linarith),
    abs_of_nonneg (show 0 ≤ t + 3 - 2 by linarith), abs_of_nonneg (show 0 ≤ t + 3 - 2 - 1 by linarith),
    abs_of_nonneg (show 0 ≤ t + 3 - 2 + 1 by linarith), abs_of_nonneg (show 0 ≤ t + 4 - 2 by linarith),
    abs_of_nonneg (show 0 ≤ t + 4 - 2 - 1 by linarith), abs_of_nonneg (show 0 ≤ t + 4 - 2 + 1 by linarith)]
  ring

theorem mod_piece2 (s : ℝ) (h0 : 0 ≤ s) (h1 : s ≤ 1) :
    ghSz (.fin 1) 0 2 (2 + s) = -2 * (1 - s) ^ 3 := by
  have hx : ∀ u, ghSx (.fin 1) 0 u = 2 * |u| ^ 3 - |u - 1| ^ 3 - |u + 1| ^ 3 := by
    intro u
    simp [ghSx, ghSw]
  obtain ⟨t, rfl⟩ : ∃ t, s = t - 2 := ⟨s + 2, by ring⟩
  rw [show 2 + (t - 2) = t by ring]
  unfold ghSz
  simp only [sum_range_succ, sum_range_zero, hx]
  norm_num [Nat.choose]
  simp only [abs_of_nonneg (show 0 ≤ t by linarith), abs_of_nonneg (show 0 ≤ t - 2 by linarith),
    abs_of_nonpos (show t - 2 - 1 ≤ 0 by linarith),
    abs_of_nonneg (show 0 ≤ t - 2 + 1 by linarith), abs_of_nonneg (show 0 ≤ t + 1 - 2 by linarith),
    abs_of_nonneg (show 0 ≤ t + 1 - 2 - 1 by linarith), abs_of_nonneg (show 0 ≤ t + 1 - 2 + 1 by linarith),
    abs_of_nonneg (show 0 ≤ t - 1 by linarith), abs_of_nonneg (show 0 ≤ t + 1 by linarith),
    abs_of_nonneg (show 0 ≤ t + 3 - 2 by linarith), abs_of_nonneg (show 0 ≤ t + 3 - 2 - 1 by linarith),
    abs_of_nonneg (show 0 ≤ t + 3 - 2 + 1 by linarith), abs_of_nonneg (show 0 ≤ t + 4 - 2 by linarith),
    abs_of_nonneg (show 0 ≤ t + 4 - 2 - 1 by linarith), abs_of_nonneg (show 0 ≤ t + 4 - 2 + 1 by linarith)]
  ring

/-! ## Closed forms -/

/-- a block of a sequence that is a cubic polynomial there -/
theorem block_poly (m b : ℕ) (u : ℝ) (f : ℕ → ℝ) (p0 p1 p2 p3 : ℝ)
    (h : ∀ i < m, f (b * m + i) = p0 + p1 * i + p2 * i ^ 2 + p3 * i ^ 3) :
    ∑ i ∈ range m, (u - i) * f (b * m + i) ^ 2
      = ∑ i ∈ range m, (u - i) * (p0 + p1 * i + p2 * i ^ 2 + p3 * i ^ 3) ^ 2 :=
  sum_congr rfl fun i hi => by rw [h i (mem_range.1 hi)]

theorem grid (m i b : ℕ) (hi : i < m) : (0 : ℝ) ≤ (i : ℝ) / m ∧ (i : ℝ) / m ≤ 1 ∧ (((b * m + i : ℕ) : ℝ) / m) = b + i / m := by
  have hm : (0 : ℝ) < m := by exact_mod_cast (by omega : 0 < m)
  refine ⟨by positivity, ?_, ?_⟩
  · rw [div_le_one hm]
    exact_mod_cast hi.le
  · push_cast
    field_simp

/-- second differences of white frequency noise -/
theorem lagN_fm2 (m M : ℕ) (hm : 0 < m) (hM : 2 * m ≤ M) :
    lagN M (fun l : ℕ => ghSz .inf 0 2 ((l : ℝ) / m)) = 16 * (M * (2 * m / 3 + 5 / (6 * m)) - (m ^ 2 / 3 + 1 / 6)) := by
  have hm' : (0 : ℝ) < m := by exact_mod_cast hm
  generalize hf : (fun l : ℕ => ghSz .inf 0 2 ((l : ℝ) / m)) = f
  have hf' : ∀ l : ℕ, f l = ghSz .inf 0 2 ((l : ℝ) / m) := fun l => by rw [← hf]
  rw [lagN_blocks 2 m M (by omega) hM _ (fun l hl => by
    have hl' : (2 : ℝ) ≤ (l : ℝ) / m := by
      rw [le_div_iff₀ hm']
      exact_mod_cast hl
    rw [hf', ghSz_fm2, tri_far _ (by linarith), tri_far _ (by linarith), tri_far _ (by linarith)]
    ring)]
  simp only [sum_range_succ (n := 1), sum_range_succ (n := 0), sum_range_zero, zero_add]
  rw [block_poly m 0 _ _ 4 (-6 / m) 0 0 (fun i hi => by
      obtain ⟨h0, h1, h2⟩ := grid m i 0 hi
      rw [hf', h2, Nat.cast_zero, zero_add, fm2_piece0 _ h0 h1]
      ring),
    block_poly m 1 _ _ (-2) (2 / m) 0 0 (fun i hi => by
      obtain ⟨h0, h1, h2⟩ := grid m i 1 hi
      rw [hf', h2, Nat.cast_one, fm2_piece1 _ h0 h1]
      ring), sum_sq_cubic, sum_sq_cubic]
  rw [hf' 0, Nat.cast_zero, zero_div, fm2_piece0 0 le_rfl zero_le_one]
  push_cast
  field_simp
  ring

/-- third differences of white frequency noise, modified second differences of white phase noise -/
theorem lagN_pm (m M : ℕ) (hm : 0 < m) (hM : 3 * m ≤ M) :
    lagN M (fun l : ℕ => ghSz (.fin 1) 2 2 ((l : ℝ) / m)) = 144 * (M * (7 * m / 9 + 7 / (6 * m)) - (m ^ 2 + 1) / 2) := by
  have hm' : (0 : ℝ) < m := by exact_mod_cast hm
  generalize hf : (fun l : ℕ => ghSz (.fin 1) 2 2 ((l : ℝ) / m)) = f
  have hf' : ∀ l : ℕ, f l = ghSz (.fin 1) 2 2 ((l : ℝ) / m) := fun l => by rw [← hf]
  rw [lagN_blocks 3 m M (by omega) hM _ (fun l hl => (hf' l).trans <| ghSz_pm_zero _ (by
    rw [le_div_iff₀ hm']
    push_cast
    norm_num
    exact_mod_cast hl))]
  simp only [sum_range_succ (n := 2), sum_range_succ (n := 1), sum_range_succ (n := 0), sum_range_zero, zero_add]
  rw [block_poly m 0 _ _ 12 (-20 / m) 0 0 (fun i hi => by
      obtain ⟨h0, h1, h2⟩ := grid m i 0 hi
      rw [hf', h2, Nat.cast_zero, zero_add, pm_piece0 _ h0 h1]
      ring),
    block_poly m 1 _ _ (-8) (10 / m) 0 0 (fun i hi => by
      obtain ⟨h0, h1, h2⟩ := grid m i 1 hi
      rw [hf', h2, Nat.cast_one, pm_piece1 _ h0 h1]
      ring),
    block_poly m 2 _ _ 2 (-2 / m) 0 0 (fun i hi => by
      obtain ⟨h0, h1, h2⟩ := grid m i 2 hi
      rw [hf', h2, Nat.cast_ofNat, pm_piece2 _ h0 h1]
      ring), sum_sq_cubic, sum_sq_cubic, sum_sq_cubic]
  rw [hf' 0, Nat.cast_zero, zero_div, pm_piece0 0 le_rfl zero_le_one]
  push_cast
  field_simp
  ring

/-- modified second differences of white frequency noise -/
theorem lagN_mod (m M : ℕ) (hm : 0 < m) (hM : 3 * m ≤ M) :
    lagN M (modCov m) = m ^ 2 * (M * (31 * m ^ 5 / 30 + 23 * m ^ 3 / 15 + 49 * m / 30 + 9 / (5 * m))
      - (17 * m ^ 6 / 28 + 3 * m ^ 4 / 5 + m ^ 2 / 4 + 19 / 35)) := by
  have hm' : (0 : ℝ) < m := by exact_mod_cast hm
  have h3 : ∀ l : ℕ, 3 * m ≤ l → ((2 : ℕ) : ℝ) + 1 ≤ (l : ℝ) / m := fun l hl => by
    rw [le_div_iff₀ hm']
    push_cast
    norm_num
    exact_mod_cast hl
  rw [lagN_blocks 3 m M (by omega) hM _ (fun l hl => by
    rw [modCov, ghSz_pm_zero _ (h3 l hl), sz_fin_zero 1 le_rfl 2 (.inl rfl) _ (h3 l hl)]
    ring)]
  simp only [sum_range_succ (n := 2), sum_range_succ (n := 1), sum_range_succ (n := 0), sum_range_zero, zero_add]
  rw [block_poly m 0 _ _ (m * (m ^ 2 + 1)) (-5 / 3) (-3 * m) (5 / 3) (fun i hi => by
      obtain ⟨h0, h1, h2⟩ := grid m i 0 hi
      rw [modCov, h2, Nat.cast_zero, zero_add, pm_piece0 _ h0 h1, ghSz_mod_small _ h0 h1]
      field_simp
      ring),
    block_poly m 1 _ _ (-m * (m ^ 2 + 2) / 3) (-m ^ 2 + 5 / 6) (2 * m) (-5 / 6) (fun i hi => by
      obtain ⟨h0, h1, h2⟩ := grid m i 1 hi
      rw [modCov, h2, Nat.cast_one, pm_piece1 _ h0 h1, mod_piece1 _ h0 h1]
      field_simp
      ring),
    block_poly m 2 _ _ (m * (1 - m ^ 2) / 6) (m ^ 2 / 2 - 1 / 6) (-m / 2) (1 / 6) (fun i hi => by
      obtain ⟨h0, h1, h2⟩ := grid m i 2 hi
      rw [modCov, h2, Nat.cast_ofNat, pm_piece2 _ h0 h1, mod_piece2 _ h0 h1]
      field_simp
      ring), sum_sq_cubic, sum_sq_cubic, sum_sq_cubic]
  have z : modCov m 0 = m * (m ^ 2 + 1) := by
    rw [modCov, Nat.cast_zero, zero_div, pm_piece0 0 le_rfl zero_le_one, ghSz_mod_small 0 le_rfl zero_le_one]
    ring
  rw [z]
  push_cast
  field_simp
  ring

end AT
