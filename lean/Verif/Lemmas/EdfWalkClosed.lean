import Verif.Lemmas.EdfCoarse
import Verif.Lemmas.EdfWalkNear

/-!
# Closed forms and smoothness of the covariances of random walk frequency noise (for C94)
-/

namespace AT

open Spec Finset

/-! ## Sums of powers -/

theorem sum_poly11 (n : ℕ) (c0 c1 c2 c3 c4 c5 c6 c7 c8 c9 c10 c11 : ℝ) :
    ∑ i ∈ range n, (c0 * (i : ℝ) ^ 0 + c1 * (i : ℝ) ^ 1 + c2 * (i : ℝ) ^ 2 + c3 * (i : ℝ) ^ 3 + c4 * (i : ℝ) ^ 4 + c5 * (i : ℝ) ^ 5
      + c6 * (i : ℝ) ^ 6 + c7 * (i : ℝ) ^ 7 + c8 * (i : ℝ) ^ 8 + c9 * (i : ℝ) ^ 9 + c10 * (i : ℝ) ^ 10 + c11 * (i : ℝ) ^ 11)
      = c0 * ((1 : ℝ) * n ^ 1)
      + c1 * ((-1 / 2 : ℝ) * n ^ 1 + (1 / 2 : ℝ) * n ^ 2)
      + c2 * ((1 / 6 : ℝ) * n ^ 1 + (-1 / 2 : ℝ) * n ^ 2 + (1 / 3 : ℝ) * n ^ 3)
      + c3 * ((1 / 4 : ℝ) * n ^ 2 + (-1 / 2 : ℝ) * n ^ 3 + (1 / 4 : ℝ) * n ^ 4)
      + c4 * ((-1 / 30 : ℝ) * n ^ 1 + (1 / 3 : ℝ) * n ^ 3 + (-1 / 2 : ℝ) * n ^ 4 + (1 / 5 : ℝ) * n ^ 5)
      + c5 * ((-1 / 12 : ℝ) * n ^ 2 + (5 / 12 : ℝ) * n ^ 4 + (-1 / 2 : ℝ) * n ^ 5 + (1 / 6 : ℝ) * n ^ 6)
      + c6 * ((1 / 42 : ℝ) * n ^ 1 + (-1 / 6 : ℝ) * n ^ 3 + (1 / 2 : ℝ) * n ^ 5 + (-1 / 2 : ℝ) * n ^ 6 + (1 / 7 : ℝ) * n ^ 7)
      + c7 * ((1 / 12 : ℝ) * n ^ 2 + (-7 / 24 : ℝ) * n ^ 4 + (7 / 12 : ℝ) * n ^ 6 + (-1 / 2 : ℝ) * n ^ 7 + (1 / 8 : ℝ) * n ^ 8)
      + c8 * ((-1 / 30 : ℝ) * n ^ 1 + (2 / 9 : ℝ) * n ^ 3 + (-7 / 15 : ℝ) * n ^ 5 + (2 / 3 : ℝ) * n ^ 7 + (-1 / 2 : ℝ) * n ^ 8 + (1 / 9 : ℝ) * n ^ 9)
      + c9 * ((-3 / 20 : ℝ) * n ^ 2 + (1 / 2 : ℝ) * n ^ 4 + (-7 / 10 : ℝ) * n ^ 6 + (3 / 4 : ℝ) * n ^ 8 + (-1 / 2 : ℝ) * n ^ 9 + (1 / 10 : ℝ) * n ^ 10)
      + c10 * ((5 / 66 : ℝ) * n ^ 1 + (-1 / 2 : ℝ) * n ^ 3 + (1 : ℝ) * n ^ 5 + (-1 : ℝ) * n ^ 7 + (5 / 6 : ℝ) * n ^ 9 + (-1 / 2 : ℝ) * n ^ 10 + (1 / 11 : ℝ) * n ^ 11)
      + c11 * ((5 / 12 : ℝ) * n ^ 2 + (-11 / 8 : ℝ) * n ^ 4 + (11 / 6 : ℝ) * n ^ 6 + (-11 / 8 : ℝ) * n ^ 8 + (11 / 12 : ℝ) * n ^ 10 + (-1 / 2 : ℝ) * n ^ 11 + (1 / 12 : ℝ) * n ^ 12) := by
  induction n with
  | zero => simp
  | succ n ih =>
    rw [sum_range_succ, ih]
    push_cast
    ring

theorem quintic_sum0 (u v : ℝ) (n : ℕ) :
    ∑ i ∈ range n, (u - i) * ((-132) * (v * i) ^ 0 + 120 * (v * i) ^ 2 + (-60) * (v * i) ^ 4 + 20 * (v * i) ^ 5) ^ 2
      = ∑ i ∈ range n, ((u * 17424 * v ^ 0 - 0 * v ^ 0) * (i : ℝ) ^ 0 + (u * 0 * v ^ 1 - 17424 * v ^ 0) * (i : ℝ) ^ 1 + (u * (-31680) * v ^ 2 - 0 * v ^ 1) * (i : ℝ) ^ 2
        + (u * 0 * v ^ 3 - (-31680) * v ^ 2) * (i : ℝ) ^ 3 + (u * 30240 * v ^ 4 - 0 * v ^ 3) * (i : ℝ) ^ 4 + (u * (-5280) * v ^ 5 - 30240 * v ^ 4) * (i : ℝ) ^ 5
        + (u * (-14400) * v ^ 6 - (-5280) * v ^ 5) * (i : ℝ) ^ 6 + (u * 4800 * v ^ 7 - (-14400) * v ^ 6) * (i : ℝ) ^ 7 + (u * 3600 * v ^ 8 - 4800 * v ^ 7) * (i : ℝ) ^ 8
        + (u * (-2400) * v ^ 9 - 3600 * v ^ 8) * (i : ℝ) ^ 9 + (u * 400 * v ^ 10 - (-2400) * v ^ 9) * (i : ℝ) ^ 10 + (u * 0 * v ^ 11 - 400 * v ^ 10) * (i : ℝ) ^ 11) :=
  sum_congr rfl fun i _ => by ring

theorem quintic_sum1 (u v : ℝ) (n : ℕ) :
    ∑ i ∈ range n, (u - i) * ((-52) * (v * i) ^ 0 + 100 * (v * i) ^ 1 + (-40) * (v * i) ^ 2 + (-40) * (v * i) ^ 3 + 40 * (v * i) ^ 4 + (-10) * (v * i) ^ 5) ^ 2
      = ∑ i ∈ range n, ((u * 2704 * v ^ 0 - 0 * v ^ 0) * (i : ℝ) ^ 0 + (u * (-10400) * v ^ 1 - 2704 * v ^ 0) * (i : ℝ) ^ 1 + (u * 14160 * v ^ 2 - (-10400) * v ^ 1) * (i : ℝ) ^ 2
        + (u * (-3840) * v ^ 3 - 14160 * v ^ 2) * (i : ℝ) ^ 3 + (u * (-10560) * v ^ 4 - (-3840) * v ^ 3) * (i : ℝ) ^ 4 + (u * 12240 * v ^ 5 - (-10560) * v ^ 4) * (i : ℝ) ^ 5
        + (u * (-3600) * v ^ 6 - 12240 * v ^ 5) * (i : ℝ) ^ 6 + (u * (-2400) * v ^ 7 - (-3600) * v ^ 6) * (i : ℝ) ^ 7 + (u * 2400 * v ^ 8 - (-2400) * v ^ 7) * (i : ℝ) ^ 8
        + (u * (-800) * v ^ 9 - 2400 * v ^ 8) * (i : ℝ) ^ 9 + (u * 100 * v ^ 10 - (-800) * v ^ 9) * (i : ℝ) ^ 10 + (u * 0 * v ^ 11 - 100 * v ^ 10) * (i : ℝ) ^ 11) :=
  sum_congr rfl fun i _ => by ring

theorem quintic_sum2 (u v : ℝ) (n : ℕ) :
    ∑ i ∈ range n, (u - i) * ((-2) * (v * i) ^ 0 + 10 * (v * i) ^ 1 + (-20) * (v * i) ^ 2 + 20 * (v * i) ^ 3 + (-10) * (v * i) ^ 4 + 2 * (v * i) ^ 5) ^ 2
      = ∑ i ∈ range n, ((u * 4 * v ^ 0 - 0 * v ^ 0) * (i : ℝ) ^ 0 + (u * (-40) * v ^ 1 - 4 * v ^ 0) * (i : ℝ) ^ 1 + (u * 180 * v ^ 2 - (-40) * v ^ 1) * (i : ℝ) ^ 2
        + (u * (-480) * v ^ 3 - 180 * v ^ 2) * (i : ℝ) ^ 3 + (u * 840 * v ^ 4 - (-480) * v ^ 3) * (i : ℝ) ^ 4 + (u * (-1008) * v ^ 5 - 840 * v ^ 4) * (i : ℝ) ^ 5
        + (u * 840 * v ^ 6 - (-1008) * v ^ 5) * (i : ℝ) ^ 6 + (u * (-480) * v ^ 7 - 840 * v ^ 6) * (i : ℝ) ^ 7 + (u * 180 * v ^ 8 - (-480) * v ^ 7) * (i : ℝ) ^ 8
        + (u * (-40) * v ^ 9 - 180 * v ^ 8) * (i : ℝ) ^ 9 + (u * 4 * v ^ 10 - (-40) * v ^ 9) * (i : ℝ) ^ 10 + (u * 0 * v ^ 11 - 4 * v ^ 10) * (i : ℝ) ^ 11) :=
  sum_congr rfl fun i _ => by ring
/-! ## The pieces of the kernels -/

theorem kernA2_piece1 (s : ℝ) (h0 : 0 ≤ s) (h1 : s ≤ 1) : ghSz .inf (-2) 2 (1 + s) = 2 * (1 - s) ^ 3 := by
  have hx : ∀ u, ghSx .inf (-2) u = |u| ^ 3 := fun u => by simp [ghSx, ghSw]
  obtain ⟨t, rfl⟩ : ∃ t, s = t - 1 := ⟨s + 1, by ring⟩
  rw [show 1 + (t - 1) = t by ring]
  unfold ghSz
  simp only [sum_range_succ, sum_range_zero, hx]
  norm_num [Nat.choose]
  rw [abs_of_nonneg (show 0 ≤ t by linarith), abs_of_nonpos (show t - 2 ≤ 0 by linarith),
    abs_of_nonneg (show 0 ≤ t + 1 - 2 by linarith), abs_of_nonneg (show 0 ≤ t + 3 - 2 by linarith),
    abs_of_nonneg (show 0 ≤ t + 4 - 2 by linarith)]
  ring

theorem kernA3_mod (t : ℝ) : ghSz .inf (-2) 3 t = ghSz (.fin 1) 0 2 t := by
  have hx : ∀ u, ghSx .inf (-2) u = |u| ^ 3 := fun u => by simp [ghSx, ghSw]
  have hy : ∀ u, ghSx (.fin 1) 0 u = 2 * |u| ^ 3 - |u - 1| ^ 3 - |u + 1| ^ 3 := by
    intro u
    simp [ghSx, ghSw]
  unfold ghSz
  simp only [sum_range_succ, sum_range_zero, hx, hy]
  norm_num [Nat.choose]
  ring_nf

theorem kernQ_piece1 (s : ℝ) (h0 : 0 ≤ s) (h1 : s ≤ 1) :
    ghSz (.fin 1) (-2) 2 (1 + s) = -52 + 100 * s - 40 * s ^ 2 - 40 * s ^ 3 + 40 * s ^ 4 - 10 * s ^ 5 := by
  obtain ⟨t, rfl⟩ : ∃ t, s = t - 1 := ⟨s + 1, by ring⟩
  rw [show 1 + (t - 1) = t by ring, ghSz_fin1]
  simp only [sum_range_succ, sum_range_zero]
  norm_num [Nat.choose]
  rw [abs_of_nonneg (show 0 ≤ t by linarith), abs_of_nonneg (show 0 ≤ t + 4 - 3 by linarith),
    abs_of_nonneg (show 0 ≤ t + 5 - 3 by linarith),
    abs_of_nonneg (show 0 ≤ t + 6 - 3 by linarith), abs_of_nonpos (show t - 3 ≤ 0 by linarith),
    abs_of_nonpos (show t + 1 - 3 ≤ 0 by linarith), abs_of_nonneg (show 0 ≤ t + 2 - 3 by linarith)]
  ring

theorem kernQ_piece2 (s : ℝ) (h0 : 0 ≤ s) (h1 : s ≤ 1) :
    ghSz (.fin 1) (-2) 2 (2 + s) = -2 + 10 * s - 20 * s ^ 2 + 20 * s ^ 3 - 10 * s ^ 4 + 2 * s ^ 5 := by
  obtain ⟨t, rfl⟩ : ∃ t, s = t - 2 := ⟨s + 2, by ring⟩
  rw [show 2 + (t - 2) = t by ring, ghSz_fin1]
  simp only [sum_range_succ, sum_range_zero]
  norm_num [Nat.choose]
  rw [abs_of_nonneg (show 0 ≤ t by linarith), abs_of_nonneg (show 0 ≤ t + 4 - 3 by linarith),
    abs_of_nonneg (show 0 ≤ t + 5 - 3 by linarith),
    abs_of_nonneg (show 0 ≤ t + 6 - 3 by linarith), abs_of_nonpos (show t - 3 ≤ 0 by linarith),
    abs_of_nonneg (show 0 ≤ t + 1 - 3 by linarith), abs_of_nonneg (show 0 ≤ t + 2 - 3 by linarith)]
  ring

/-! ## Closed forms -/

/-- second differences -/
theorem lagN_walk2 (m M : ℕ) (hm : 0 < m) (hM : 2 * m ≤ M) :
    lagN M (fun l : ℕ => ghSz .inf (-2) 2 ((l : ℝ) / m)) = 64 * (M * (151 * m / 140 + 1 / (60 * m ^ 3) + 5 / (168 * m ^ 5))
      - (103 * m ^ 2 / 280 - 1 / 6 - 7 / (120 * m ^ 2) - 1 / (56 * m ^ 4))) := by
  have hm' : (0 : ℝ) < m := by exact_mod_cast hm
  generalize hf : (fun l : ℕ => ghSz .inf (-2) 2 ((l : ℝ) / m)) = f
  have hf' : ∀ l : ℕ, f l = ghSz .inf (-2) 2 ((l : ℝ) / m) := fun l => by rw [← hf]
  rw [lagN_blocks 2 m M (by omega) hM _ (fun l hl => by
    rw [hf', kernA2_far]
    rw [le_div_iff₀ hm']
    exact_mod_cast hl)]
  simp only [sum_range_succ (n := 1), sum_range_succ (n := 0), sum_range_zero, zero_add]
  rw [block_poly m 0 _ _ 8 0 (-12 / m ^ 2) (6 / m ^ 3) (fun i hi => by
      obtain ⟨h0, h1, h2⟩ := grid m i 0 hi
      rw [hf', h2, Nat.cast_zero, zero_add, kernA2 _ h0 h1]
      ring),
    block_poly m 1 _ _ 2 (-6 / m) (6 / m ^ 2) (-2 / m ^ 3) (fun i hi => by
      obtain ⟨h0, h1, h2⟩ := grid m i 1 hi
      rw [hf', h2, Nat.cast_one, kernA2_piece1 _ h0 h1]
      ring), sum_sq_cubic, sum_sq_cubic]
  rw [hf' 0, Nat.cast_zero, zero_div, kernA2 0 le_rfl zero_le_one]
  push_cast
  field_simp
  ring

/-- third differences -/
theorem lagN_walk3 (m M : ℕ) (hm : 0 < m) (hM : 3 * m ≤ M) :
    lagN M (fun l : ℕ => ghSz .inf (-2) 3 ((l : ℝ) / m)) = 144 * (M * (31 * m / 30 + 7 / (90 * m ^ 3) + 1 / (6 * m ^ 5))
      - (17 * m ^ 2 / 28 - 1 / 6 - 1 / (12 * m ^ 2) - 1 / (42 * m ^ 4))) := by
  have hm' : (0 : ℝ) < m := by exact_mod_cast hm
  generalize hf : (fun l : ℕ => ghSz .inf (-2) 3 ((l : ℝ) / m)) = f
  have hf' : ∀ l : ℕ, f l = ghSz (.fin 1) 0 2 ((l : ℝ) / m) := fun l => by rw [← hf]; exact kernA3_mod _
  rw [lagN_blocks 3 m M (by omega) hM _ (fun l hl => by
    rw [hf', sz_fin_zero 1 le_rfl 2 (.inl rfl)]
    rw [le_div_iff₀ hm']
    push_cast
    norm_num
    exact_mod_cast hl)]
  simp only [sum_range_succ (n := 2), sum_range_succ (n := 1), sum_range_succ (n := 0), sum_range_zero, zero_add]
  rw [block_poly m 0 _ _ 12 0 (-36 / m ^ 2) (20 / m ^ 3) (fun i hi => by
      obtain ⟨h0, h1, h2⟩ := grid m i 0 hi
      rw [hf', h2, Nat.cast_zero, zero_add, ghSz_mod_small _ h0 h1]
      ring),
    block_poly m 1 _ _ (-4) (-12 / m) (24 / m ^ 2) (-10 / m ^ 3) (fun i hi => by
      obtain ⟨h0, h1, h2⟩ := grid m i 1 hi
      rw [hf', h2, Nat.cast_one, mod_piece1 _ h0 h1]
      ring),
    block_poly m 2 _ _ (-2) (6 / m) (-6 / m ^ 2) (2 / m ^ 3) (fun i hi => by
      obtain ⟨h0, h1, h2⟩ := grid m i 2 hi
      rw [hf', h2, Nat.cast_ofNat, mod_piece2 _ h0 h1]
      ring), sum_sq_cubic, sum_sq_cubic, sum_sq_cubic]
  rw [hf' 0, Nat.cast_zero, zero_div, ghSz_mod_small 0 le_rfl zero_le_one]
  push_cast
  field_simp
  ring

/-- modified second differences -/
theorem lagN_walkQ (m M : ℕ) (hm : 0 < m) (hM : 3 * m ≤ M) :
    lagN M (fun l : ℕ => ghSz (.fin 1) (-2) 2 ((l : ℝ) / m)) = 17424 * (M * (655177 * m / 503118 + 23 / (22869 * m ^ 5)
        + 7 / (2178 * m ^ 7) + 35 / (7986 * m ^ 9))
      - (2851 * m ^ 2 / 5324 - 1 / 6 - 1 / (33 * m ^ 2) - 1 / (66 * m ^ 4) - 13 / (1452 * m ^ 6) - 25 / (7986 * m ^ 8))) := by
  have hm' : (0 : ℝ) < m := by exact_mod_cast hm
  generalize hf : (fun l : ℕ => ghSz (.fin 1) (-2) 2 ((l : ℝ) / m)) = f
  have hf' : ∀ l : ℕ, f l = ghSz (.fin 1) (-2) 2 ((l : ℝ) / m) := fun l => by rw [← hf]
  rw [lagN_blocks 3 m M (by omega) hM _ (fun l hl => by
    rw [hf', kern_fin_far 1 le_rfl 2 (.inl rfl)]
    rw [le_div_iff₀ hm']
    push_cast
    norm_num
    exact_mod_cast hl)]
  simp only [sum_range_succ (n := 2), sum_range_succ (n := 1), sum_range_succ (n := 0), sum_range_zero, zero_add]
  have e0 : ∀ u : ℝ, ∑ i ∈ range m, (u - i) * f (0 * m + i) ^ 2 = _ := fun u =>
    (sum_congr rfl fun i hi => by
      obtain ⟨h0, h1, h2⟩ := grid m i 0 (mem_range.1 hi)
      rw [hf', h2, Nat.cast_zero, zero_add, kernQ _ h0 h1]
      ring).trans (quintic_sum0 u (1 / m) m)
  have e1 : ∀ u : ℝ, ∑ i ∈ range m, (u - i) * f (1 * m + i) ^ 2 = _ := fun u =>
    (sum_congr rfl fun i hi => by
      obtain ⟨h0, h1, h2⟩ := grid m i 1 (mem_range.1 hi)
      rw [hf', h2, Nat.cast_one, kernQ_piece1 _ h0 h1]
      ring).trans (quintic_sum1 u (1 / m) m)
  have e2 : ∀ u : ℝ, ∑ i ∈ range m, (u - i) * f (2 * m + i) ^ 2 = _ := fun u =>
    (sum_congr rfl fun i hi => by
      obtain ⟨h0, h1, h2⟩ := grid m i 2 (mem_range.1 hi)
      rw [hf', h2, Nat.cast_ofNat, kernQ_piece2 _ h0 h1]
      ring).trans (quintic_sum2 u (1 / m) m)
  rw [e0, e1, e2, sum_poly11, sum_poly11, sum_poly11, hf' 0, Nat.cast_zero, zero_div, quintic_at0]
  push_cast
  clear e0 e1 e2 hf hf' hm hM
  field_simp
  ring

end AT
