import Verif.Lemmas.EdfSimple

/-!
# Sums of the squared covariances over all lags (for C96)
-/

namespace AT

open Spec Finset Filter Topology

/-- the sum of the squares over all lags -/
noncomputable def fullSq (f : ℕ → ℝ) (L : ℕ) : ℝ := 2 * ∑ l ∈ range L, f l ^ 2 - f 0 ^ 2

theorem lagN_limit (f : ℕ → ℝ) (L : ℕ) (hf : ∀ l, L ≤ l → f l = 0) :
    Tendsto (fun M : ℕ => lagN M f / M) atTop (𝓝 (fullSq f L)) := by
  have h : Tendsto (fun M : ℕ => fullSq f L - 2 * (∑ l ∈ range L, (l : ℝ) * f l ^ 2) / M) atTop (𝓝 (fullSq f L)) := by
    have := (tendsto_const_nhds (x := fullSq f L)).sub
      (tendsto_const_nhds.div_atTop (a := 2 * (∑ l ∈ range L, (l : ℝ) * f l ^ 2)) tendsto_natCast_atTop_atTop)
    rwa [sub_zero] at this
  refine h.congr' ?_
  filter_upwards [eventually_ge_atTop (L + 1)] with M hM
  have hM' : (0 : ℝ) < M := by exact_mod_cast (by omega : 0 < M)
  have e : ∑ l ∈ range M, ((M : ℝ) - l) * f l ^ 2 = ∑ l ∈ range L, ((M : ℝ) - l) * f l ^ 2 := by
    refine (sum_subset (range_subset_range.2 (by omega)) fun l _ hl => ?_).symm
    rw [hf l (by rw [mem_range] at hl; omega)]
    ring
  rw [lagN_sum M (by omega), e, fullSq]
  simp only [sub_mul, sum_sub_distrib, ← mul_sum]
  field_simp
  ring

theorem lagN_limit_affine (f : ℕ → ℝ) (L : ℕ) (T U : ℝ) (hf : ∀ M, L ≤ M → lagN M f = M * T - U) :
    Tendsto (fun M : ℕ => lagN M f / M) atTop (𝓝 T) := by
  have h : Tendsto (fun M : ℕ => T - U / M) atTop (𝓝 T) := by
    have := (tendsto_const_nhds (x := T)).sub (tendsto_const_nhds.div_atTop (a := U) tendsto_natCast_atTop_atTop)
    rwa [sub_zero] at this
  refine h.congr' ?_
  filter_upwards [eventually_ge_atTop (L + 1)] with M hM
  have hM' : (0 : ℝ) < M := by exact_mod_cast (by omega : 0 < M)
  rw [hf M (by omega)]
  field_simp

theorem fullSq_blocks (k m : ℕ) (f : ℕ → ℝ) :
    fullSq f (k * m) = 2 * ∑ b ∈ range k, ∑ i ∈ range m, f (b * m + i) ^ 2 - f 0 ^ 2 := by
  unfold fullSq
  congr 2
  induction k with
  | zero => simp
  | succ k ih => rw [Nat.succ_mul, sum_range_add, ih, sum_range_succ]

/-! ## Third differences of white phase noise -/

theorem fullSq_pm3 (m : ℕ) (hm : 0 < m) (f : ℕ → ℝ)
    (hf : ∀ l, f l = if l = 0 then 20 else if l = m then -15 else if l = 2 * m then 6 else if l = 3 * m then -1 else 0) :
    fullSq f (3 * m + 1) = 924 := by
  have e : ∀ l ∈ range (3 * m + 1), f l ^ 2 = (if l = 0 then 400 else 0) + (if l = m then 225 else 0)
      + (if l = 2 * m then 36 else 0) + if l = 3 * m then 1 else 0 := by
    intro l _
    rw [hf]
    rcases Nat.eq_zero_or_pos l with h0 | h0
    · subst h0
      simp [hm.ne, hm.ne']
      norm_num
    rw [if_neg h0.ne', if_neg h0.ne']
    by_cases h1 : l = m
    · rw [if_pos h1, if_pos h1, if_neg (by omega), if_neg (by omega)]
      norm_num
    rw [if_neg h1, if_neg h1]
    by_cases h2 : l = 2 * m
    · rw [if_pos h2, if_pos h2, if_neg (by omega)]
      norm_num
    rw [if_neg h2, if_neg h2]
    split_ifs <;> norm_num
  rw [fullSq, sum_congr rfl e]
  simp only [sum_add_distrib, sum_ite_eq', mem_range]
  rw [if_pos (by omega), if_pos (by omega), if_pos (by omega), if_pos (by omega), hf, if_pos rfl]
  norm_num

/-! ## Third differences of white frequency noise -/

/-- the covariances -/
noncomputable def fmCov3 (m l : ℕ) : ℝ := m / 2 * ghSz .inf 0 3 (l / m)

theorem fm3_p0 (m i : ℕ) (hi : i < m) : fmCov3 m (0 * m + i) = 6 * m - 10 * i := by
  have hm' : (0 : ℝ) < m := by exact_mod_cast (by omega : 0 < m)
  obtain ⟨h0, h1, h2⟩ := grid m i 0 hi
  rw [fmCov3, h2, Nat.cast_zero, zero_add, fm3_eq_pm, pm_piece0 _ h0 h1]
  field_simp
  ring

theorem fm3_p1 (m i : ℕ) (hi : i < m) : fmCov3 m (1 * m + i) = -4 * m + 5 * i := by
  have hm' : (0 : ℝ) < m := by exact_mod_cast (by omega : 0 < m)
  obtain ⟨h0, h1, h2⟩ := grid m i 1 hi
  rw [fmCov3, h2, Nat.cast_one, fm3_eq_pm, pm_piece1 _ h0 h1]
  field_simp
  ring

theorem fm3_p2 (m i : ℕ) (hi : i < m) : fmCov3 m (2 * m + i) = m - i := by
  have hm' : (0 : ℝ) < m := by exact_mod_cast (by omega : 0 < m)
  obtain ⟨h0, h1, h2⟩ := grid m i 2 hi
  rw [fmCov3, h2, Nat.cast_ofNat, fm3_eq_pm, pm_piece2 _ h0 h1]
  field_simp

theorem lag_fm3 (m M : ℕ) (hm : 0 < m) (hM : 3 * m ≤ M) :
    lagN M (fmCov3 m) = M * (28 * m ^ 3 + 42 * m) - 18 * m ^ 2 * (m ^ 2 + 1) := by
  have hm' : (0 : ℝ) < m := by exact_mod_cast hm
  have h := lagN_mul M ((m : ℝ) / 2) (fun l => ghSz (.fin 1) 2 2 ((l : ℝ) / m))
  rw [lagN_pm m M hm hM] at h
  rw [show fmCov3 m = fun l : ℕ => (m : ℝ) / 2 * ghSz (.fin 1) 2 2 ((l : ℝ) / m) from funext fun l => by
    rw [fmCov3, fm3_eq_pm], h]
  field_simp
  ring

/-! ## Third differences of random walk frequency noise -/

theorem fmCov3_far (m l : ℕ) (hm : 0 < m) (hl : 3 * m ≤ l) : fmCov3 m l = 0 := by
  have hm' : (0 : ℝ) < m := by exact_mod_cast hm
  have hl' : (3 : ℝ) ≤ (l : ℝ) / m := by
    rw [le_div_iff₀ hm']
    exact_mod_cast hl
  rw [fmCov3, fm3_eq_pm, ghSz_pm_zero _ (by norm_num; exact hl'), mul_zero]

theorem walk3_expand (m l : ℕ) : walkCov 3 m l = m ^ 3 / 12 * ghSz (.fin 1) 0 2 (l / m) + fmCov3 m l / 6 := by
  rw [walkCov, fmCov3, kernA3_mod]
  ring

theorem walk3_p0 (m i : ℕ) (hi : i < m) :
    walkCov 3 m (0 * m + i) = (m + m ^ 3) + -5 / 3 * i + -3 * m * (i : ℝ) ^ 2 + 5 / 3 * (i : ℝ) ^ 3 := by
  have hm' : (0 : ℝ) < m := by exact_mod_cast (by omega : 0 < m)
  obtain ⟨h0, h1, h2⟩ := grid m i 0 hi
  rw [walk3_expand, fm3_p0 m i hi, h2, Nat.cast_zero, zero_add, ghSz_mod_small _ h0 h1]
  field_simp
  ring

theorem walk3_p1 (m i : ℕ) (hi : i < m) : walkCov 3 m (1 * m + i)
    = (-2 / 3 * m + -1 / 3 * m ^ 3) + (5 / 6 + -m ^ 2) * i + 2 * m * (i : ℝ) ^ 2 + -5 / 6 * (i : ℝ) ^ 3 := by
  have hm' : (0 : ℝ) < m := by exact_mod_cast (by omega : 0 < m)
  obtain ⟨h0, h1, h2⟩ := grid m i 1 hi
  rw [walk3_expand, fm3_p1 m i hi, h2, Nat.cast_one, mod_piece1 _ h0 h1]
  field_simp
  ring

theorem walk3_p2 (m i : ℕ) (hi : i < m) : walkCov 3 m (2 * m + i)
    = (m / 6 + -m ^ 3 / 6) + (-1 / 6 + m ^ 2 / 2) * i + -m / 2 * (i : ℝ) ^ 2 + 1 / 6 * (i : ℝ) ^ 3 := by
  have hm' : (0 : ℝ) < m := by exact_mod_cast (by omega : 0 < m)
  obtain ⟨h0, h1, h2⟩ := grid m i 2 hi
  rw [walk3_expand, fm3_p2 m i hi, h2, Nat.cast_ofNat, mod_piece2 _ h0 h1]
  field_simp
  ring

theorem walk3_far (m l : ℕ) (hm : 0 < m) (hl : 3 * m ≤ l) : walkCov 3 m l = 0 := by
  have hm' : (0 : ℝ) < m := by exact_mod_cast hm
  have hl' : (3 : ℝ) ≤ (l : ℝ) / m := by
    rw [le_div_iff₀ hm']
    exact_mod_cast hl
  rw [walk3_expand, fmCov3_far m l hm hl, sz_fin_zero 1 le_rfl 2 (.inl rfl) _ (by push_cast; linarith)]
  ring

theorem lag_walk3 (m M : ℕ) (hm : 0 < m) (hM : 3 * m ≤ M) : lagN M (walkCov 3 m)
    = M * (9 / 5 * m + 49 / 30 * m ^ 3 + 23 / 15 * m ^ 5 + 31 / 30 * m ^ 7)
      - (19 / 35 * m ^ 2 + 1 / 4 * m ^ 4 + 3 / 5 * m ^ 6 + 17 / 28 * m ^ 8) := by
  rw [lagN_blocks 3 m M (by omega) hM _ (fun l hl => walk3_far m l hm hl)]
  simp only [sum_range_succ (n := 2), sum_range_succ (n := 1), sum_range_succ (n := 0), sum_range_zero, zero_add]
  rw [block_poly m 0 _ _ _ _ _ _ (fun i hi => walk3_p0 m i hi), block_poly m 1 _ _ _ _ _ _ (fun i hi => walk3_p1 m i hi),
    block_poly m 2 _ _ _ _ _ _ (fun i hi => walk3_p2 m i hi), sum_sq_cubic, sum_sq_cubic, sum_sq_cubic]
  have h0 := walk3_p0 m 0 hm
  rw [zero_mul, zero_add] at h0
  rw [h0]
  push_cast
  ring

/-! ## Modified second differences of random walk frequency noise -/

theorem mod_sq0 (m n : ℕ) :
    ∑ i ∈ range n, (((1/5 : ℝ) * m ^ 1 + (1/4 : ℝ) * m ^ 3 + (11/20 : ℝ) * m ^ 5) * (i : ℝ) ^ 0 + ((-1/3 : ℝ) * m ^ 0) * (i : ℝ) ^ 1 + ((-3/4 : ℝ) * m ^ 1 + (-1/2 : ℝ) * m ^ 3) * (i : ℝ) ^ 2 + ((5/12 : ℝ) * m ^ 0) * (i : ℝ) ^ 3 + ((1/4 : ℝ) * m ^ 1) * (i : ℝ) ^ 4 + ((-1/12 : ℝ) * m ^ 0) * (i : ℝ) ^ 5) ^ 2
      = ∑ i ∈ range n, (((1/25 : ℝ) * m ^ 2 + (1/10 : ℝ) * m ^ 4 + (113/400 : ℝ) * m ^ 6 + (11/40 : ℝ) * m ^ 8 + (121/400 : ℝ) * m ^ 10) * (i : ℝ) ^ 0 + ((-2/15 : ℝ) * m ^ 1 + (-1/6 : ℝ) * m ^ 3 + (-11/30 : ℝ) * m ^ 5) * (i : ℝ) ^ 1 + ((1/9 : ℝ) * m ^ 0 + (-3/10 : ℝ) * m ^ 2 + (-23/40 : ℝ) * m ^ 4 + (-43/40 : ℝ) * m ^ 6 + (-11/20 : ℝ) * m ^ 8) * (i : ℝ) ^ 2 + ((2/3 : ℝ) * m ^ 1 + (13/24 : ℝ) * m ^ 3 + (11/24 : ℝ) * m ^ 5) * (i : ℝ) ^ 3 + ((-5/18 : ℝ) * m ^ 0 + (53/80 : ℝ) * m ^ 2 + (7/8 : ℝ) * m ^ 4 + (21/40 : ℝ) * m ^ 6) * (i : ℝ) ^ 4 + ((-33/40 : ℝ) * m ^ 1 + (-11/24 : ℝ) * m ^ 3 + (-11/120 : ℝ) * m ^ 5) * (i : ℝ) ^ 5 + ((11/48 : ℝ) * m ^ 0 + (-3/8 : ℝ) * m ^ 2 + (-1/4 : ℝ) * m ^ 4) * (i : ℝ) ^ 6 + ((1/3 : ℝ) * m ^ 1 + (1/12 : ℝ) * m ^ 3) * (i : ℝ) ^ 7 + ((-5/72 : ℝ) * m ^ 0 + (1/16 : ℝ) * m ^ 2) * (i : ℝ) ^ 8 + ((-1/24 : ℝ) * m ^ 1) * (i : ℝ) ^ 9 + ((1/144 : ℝ) * m ^ 0) * (i : ℝ) ^ 10 + 0 * (i : ℝ) ^ 11) :=
  sum_congr rfl fun i _ => by ring

theorem mod_sq1 (m n : ℕ) :
    ∑ i ∈ range n, (((-2/15 : ℝ) * m ^ 1 + (-1/12 : ℝ) * m ^ 3 + (13/60 : ℝ) * m ^ 5) * (i : ℝ) ^ 0 + ((1/6 : ℝ) * m ^ 0 + (-1/4 : ℝ) * m ^ 2 + (-5/12 : ℝ) * m ^ 4) * (i : ℝ) ^ 1 + ((1/2 : ℝ) * m ^ 1 + (1/6 : ℝ) * m ^ 3) * (i : ℝ) ^ 2 + ((-5/24 : ℝ) * m ^ 0 + (1/6 : ℝ) * m ^ 2) * (i : ℝ) ^ 3 + ((-1/6 : ℝ) * m ^ 1) * (i : ℝ) ^ 4 + ((1/24 : ℝ) * m ^ 0) * (i : ℝ) ^ 5) ^ 2
      = ∑ i ∈ range n, (((4/225 : ℝ) * m ^ 2 + (1/45 : ℝ) * m ^ 4 + (-61/1200 : ℝ) * m ^ 6 + (-13/360 : ℝ) * m ^ 8 + (169/3600 : ℝ) * m ^ 10) * (i : ℝ) ^ 0 + ((-2/45 : ℝ) * m ^ 1 + (7/180 : ℝ) * m ^ 3 + (9/40 : ℝ) * m ^ 5 + (-7/180 : ℝ) * m ^ 7 + (-13/72 : ℝ) * m ^ 9) * (i : ℝ) ^ 1 + ((1/36 : ℝ) * m ^ 0 + (-13/60 : ℝ) * m ^ 2 + (-49/240 : ℝ) * m ^ 4 + (143/360 : ℝ) * m ^ 6 + (59/240 : ℝ) * m ^ 8) * (i : ℝ) ^ 2 + ((2/9 : ℝ) * m ^ 1 + (-49/240 : ℝ) * m ^ 3 + (-89/144 : ℝ) * m ^ 5 + (-1/15 : ℝ) * m ^ 7) * (i : ℝ) ^ 3 + ((-5/72 : ℝ) * m ^ 0 + (109/240 : ℝ) * m ^ 2 + (41/144 : ℝ) * m ^ 4 + (-11/60 : ℝ) * m ^ 6) * (i : ℝ) ^ 4 + ((-11/40 : ℝ) * m ^ 1 + (25/144 : ℝ) * m ^ 3 + (17/80 : ℝ) * m ^ 5) * (i : ℝ) ^ 5 + ((11/192 : ℝ) * m ^ 0 + (-37/144 : ℝ) * m ^ 2 + (-1/16 : ℝ) * m ^ 4) * (i : ℝ) ^ 6 + ((1/9 : ℝ) * m ^ 1 + (-1/24 : ℝ) * m ^ 3) * (i : ℝ) ^ 7 + ((-5/288 : ℝ) * m ^ 0 + (1/24 : ℝ) * m ^ 2) * (i : ℝ) ^ 8 + ((-1/72 : ℝ) * m ^ 1) * (i : ℝ) ^ 9 + ((1/576 : ℝ) * m ^ 0) * (i : ℝ) ^ 10 + 0 * (i : ℝ) ^ 11) :=
  sum_congr rfl fun i _ => by ring

theorem mod_sq2 (m n : ℕ) :
    ∑ i ∈ range n, (((1/30 : ℝ) * m ^ 1 + (-1/24 : ℝ) * m ^ 3 + (1/120 : ℝ) * m ^ 5) * (i : ℝ) ^ 0 + ((-1/30 : ℝ) * m ^ 0 + (1/8 : ℝ) * m ^ 2 + (-1/24 : ℝ) * m ^ 4) * (i : ℝ) ^ 1 + ((-1/8 : ℝ) * m ^ 1 + (1/12 : ℝ) * m ^ 3) * (i : ℝ) ^ 2 + ((1/24 : ℝ) * m ^ 0 + (-1/12 : ℝ) * m ^ 2) * (i : ℝ) ^ 3 + ((1/24 : ℝ) * m ^ 1) * (i : ℝ) ^ 4 + ((-1/120 : ℝ) * m ^ 0) * (i : ℝ) ^ 5) ^ 2
      = ∑ i ∈ range n, (((1/900 : ℝ) * m ^ 2 + (-1/360 : ℝ) * m ^ 4 + (11/4800 : ℝ) * m ^ 6 + (-1/1440 : ℝ) * m ^ 8 + (1/14400 : ℝ) * m ^ 10) * (i : ℝ) ^ 0 + ((-1/450 : ℝ) * m ^ 1 + (1/90 : ℝ) * m ^ 3 + (-11/800 : ℝ) * m ^ 5 + (1/180 : ℝ) * m ^ 7 + (-1/1440 : ℝ) * m ^ 9) * (i : ℝ) ^ 1 + ((1/900 : ℝ) * m ^ 0 + (-1/60 : ℝ) * m ^ 2 + (11/320 : ℝ) * m ^ 4 + (-7/360 : ℝ) * m ^ 6 + (1/320 : ℝ) * m ^ 8) * (i : ℝ) ^ 2 + ((1/90 : ℝ) * m ^ 1 + (-11/240 : ℝ) * m ^ 3 + (7/180 : ℝ) * m ^ 5 + (-1/120 : ℝ) * m ^ 7) * (i : ℝ) ^ 3 + ((-1/360 : ℝ) * m ^ 0 + (11/320 : ℝ) * m ^ 2 + (-7/144 : ℝ) * m ^ 4 + (7/480 : ℝ) * m ^ 6) * (i : ℝ) ^ 4 + ((-11/800 : ℝ) * m ^ 1 + (7/180 : ℝ) * m ^ 3 + (-7/400 : ℝ) * m ^ 5) * (i : ℝ) ^ 5 + ((11/4800 : ℝ) * m ^ 0 + (-7/360 : ℝ) * m ^ 2 + (7/480 : ℝ) * m ^ 4) * (i : ℝ) ^ 6 + ((1/180 : ℝ) * m ^ 1 + (-1/120 : ℝ) * m ^ 3) * (i : ℝ) ^ 7 + ((-1/1440 : ℝ) * m ^ 0 + (1/320 : ℝ) * m ^ 2) * (i : ℝ) ^ 8 + ((-1/1440 : ℝ) * m ^ 1) * (i : ℝ) ^ 9 + ((1/14400 : ℝ) * m ^ 0) * (i : ℝ) ^ 10 + 0 * (i : ℝ) ^ 11) :=
  sum_congr rfl fun i _ => by ring

theorem modw_eq (m l : ℕ) : modWalkCov m l
    = -m ^ 5 / 240 * ghSz (.fin 1) (-2) 2 (l / m) + m ^ 3 / 48 * ghSz (.fin 1) 0 2 (l / m) + fmCov3 m l / 30 := by
  rw [modWalkCov, fmCov3, kernA3_mod]
  ring

theorem modw_p0 (m i : ℕ) (hi : i < m) : modWalkCov m (0 * m + i)
    = ((1/5 : ℝ) * m ^ 1 + (1/4 : ℝ) * m ^ 3 + (11/20 : ℝ) * m ^ 5) * (i : ℝ) ^ 0 + ((-1/3 : ℝ) * m ^ 0) * (i : ℝ) ^ 1 + ((-3/4 : ℝ) * m ^ 1 + (-1/2 : ℝ) * m ^ 3) * (i : ℝ) ^ 2 + ((5/12 : ℝ) * m ^ 0) * (i : ℝ) ^ 3 + ((1/4 : ℝ) * m ^ 1) * (i : ℝ) ^ 4 + ((-1/12 : ℝ) * m ^ 0) * (i : ℝ) ^ 5 := by
  have hm' : (0 : ℝ) < m := by exact_mod_cast (by omega : 0 < m)
  obtain ⟨h0, h1, h2⟩ := grid m i 0 hi
  rw [modw_eq, fm3_p0 m i hi, h2, Nat.cast_zero, zero_add, kernQ _ h0 h1, ghSz_mod_small _ h0 h1]
  field_simp
  ring

theorem modw_p1 (m i : ℕ) (hi : i < m) : modWalkCov m (1 * m + i)
    = ((-2/15 : ℝ) * m ^ 1 + (-1/12 : ℝ) * m ^ 3 + (13/60 : ℝ) * m ^ 5) * (i : ℝ) ^ 0 + ((1/6 : ℝ) * m ^ 0 + (-1/4 : ℝ) * m ^ 2 + (-5/12 : ℝ) * m ^ 4) * (i : ℝ) ^ 1 + ((1/2 : ℝ) * m ^ 1 + (1/6 : ℝ) * m ^ 3) * (i : ℝ) ^ 2 + ((-5/24 : ℝ) * m ^ 0 + (1/6 : ℝ) * m ^ 2) * (i : ℝ) ^ 3 + ((-1/6 : ℝ) * m ^ 1) * (i : ℝ) ^ 4 + ((1/24 : ℝ) * m ^ 0) * (i : ℝ) ^ 5 := by
  have hm' : (0 : ℝ) < m := by exact_mod_cast (by omega : 0 < m)
  obtain ⟨h0, h1, h2⟩ := grid m i 1 hi
  rw [modw_eq, fm3_p1 m i hi, h2, Nat.cast_one, kernQ_piece1 _ h0 h1, mod_piece1 _ h0 h1]
  field_simp
  ring

theorem modw_p2 (m i : ℕ) (hi : i < m) : modWalkCov m (2 * m + i)
    = ((1/30 : ℝ) * m ^ 1 + (-1/24 : ℝ) * m ^ 3 + (1/120 : ℝ) * m ^ 5) * (i : ℝ) ^ 0 + ((-1/30 : ℝ) * m ^ 0 + (1/8 : ℝ) * m ^ 2 + (-1/24 : ℝ) * m ^ 4) * (i : ℝ) ^ 1 + ((-1/8 : ℝ) * m ^ 1 + (1/12 : ℝ) * m ^ 3) * (i : ℝ) ^ 2 + ((1/24 : ℝ) * m ^ 0 + (-1/12 : ℝ) * m ^ 2) * (i : ℝ) ^ 3 + ((1/24 : ℝ) * m ^ 1) * (i : ℝ) ^ 4 + ((-1/120 : ℝ) * m ^ 0) * (i : ℝ) ^ 5 := by
  have hm' : (0 : ℝ) < m := by exact_mod_cast (by omega : 0 < m)
  obtain ⟨h0, h1, h2⟩ := grid m i 2 hi
  rw [modw_eq, fm3_p2 m i hi, h2, Nat.cast_ofNat, kernQ_piece2 _ h0 h1, mod_piece2 _ h0 h1]
  field_simp
  ring

theorem modw_far (m l : ℕ) (hm : 0 < m) (hl : 3 * m ≤ l) : modWalkCov m l = 0 := by
  have hm' : (0 : ℝ) < m := by exact_mod_cast hm
  have hl' : (3 : ℝ) ≤ (l : ℝ) / m := by
    rw [le_div_iff₀ hm']
    exact_mod_cast hl
  rw [modw_eq, fmCov3_far m l hm hl, sz_fin_zero 1 le_rfl 2 (.inl rfl) _ (by push_cast; linarith),
    kern_fin_far 1 le_rfl 2 (.inl rfl) _ (by push_cast; linarith)]
  ring

theorem fullSq_mod (m : ℕ) (hm : 0 < m) : fullSq (modWalkCov m) (3 * m)
    = m / 11 + 479 / 5400 * m ^ 3 + 3197 / 30240 * m ^ 5 + 961 / 7200 * m ^ 7 + 809 / 4320 * m ^ 9 + 655177 / 1663200 * m ^ 11 := by
  rw [fullSq_blocks]
  simp only [sum_range_succ (n := 2), sum_range_succ (n := 1), sum_range_succ (n := 0), sum_range_zero, zero_add]
  have h0 := modw_p0 m 0 hm
  rw [zero_mul, zero_add] at h0
  rw [sum_congr rfl (fun i hi => by rw [modw_p0 m i (mem_range.1 hi)]), mod_sq0, sum_poly11,
    sum_congr rfl (fun i hi => by rw [modw_p1 m i (mem_range.1 hi)]), mod_sq1, sum_poly11,
    sum_congr rfl (fun i hi => by rw [modw_p2 m i (mem_range.1 hi)]), mod_sq2, sum_poly11, h0]
  push_cast
  ring

end AT
