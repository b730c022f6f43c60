import Verif.Props.EdfExact

/-!
# Degrees of freedom of neighbouring covariances
-/

namespace AT

open Spec Finset

/-! ## A weighted norm -/

theorem minkowski (s : Finset ℕ) (v f g : ℕ → ℝ) (hv : ∀ l ∈ s, 0 ≤ v l) :
    √(∑ l ∈ s, v l * (f l + g l) ^ 2) ≤ √(∑ l ∈ s, v l * f l ^ 2) + √(∑ l ∈ s, v l * g l ^ 2) := by
  have hA : 0 ≤ ∑ l ∈ s, v l * f l ^ 2 := sum_nonneg fun l hl => mul_nonneg (hv l hl) (sq_nonneg _)
  have hB : 0 ≤ ∑ l ∈ s, v l * g l ^ 2 := sum_nonneg fun l hl => mul_nonneg (hv l hl) (sq_nonneg _)
  have cs := sum_mul_sq_le_sq_mul_sq s (fun l => √(v l) * f l) (fun l => √(v l) * g l)
  have e : ∀ h k : ℕ → ℝ, ∑ l ∈ s, √(v l) * h l * (√(v l) * k l) = ∑ l ∈ s, v l * (h l * k l) := fun h k =>
    sum_congr rfl fun l hl => by
      rw [show √(v l) * h l * (√(v l) * k l) = √(v l) * √(v l) * (h l * k l) by ring, Real.mul_self_sqrt (hv l hl)]
  have e2 : ∀ h : ℕ → ℝ, ∑ l ∈ s, (√(v l) * h l) ^ 2 = ∑ l ∈ s, v l * h l ^ 2 := fun h =>
    sum_congr rfl fun l hl => by rw [mul_pow, Real.sq_sqrt (hv l hl)]
  rw [e, e2, e2] at cs
  have h1 : ∑ l ∈ s, v l * (f l * g l) ≤ √(∑ l ∈ s, v l * f l ^ 2) * √(∑ l ∈ s, v l * g l ^ 2) := by
    rw [← Real.sqrt_mul hA]
    exact Real.le_sqrt_of_sq_le cs
  have h2 : ∑ l ∈ s, v l * (f l + g l) ^ 2
      = ∑ l ∈ s, v l * f l ^ 2 + ∑ l ∈ s, v l * g l ^ 2 + 2 * ∑ l ∈ s, v l * (f l * g l) := by
    rw [mul_sum, ← sum_add_distrib, ← sum_add_distrib]
    exact sum_congr rfl fun l _ => by ring
  rw [Real.sqrt_le_left (by positivity), h2, add_sq, Real.sq_sqrt hA, Real.sq_sqrt hB]
  linarith

/-- weight of the lag `l` in the variance of a mean of `M` squares -/
def lagW (M l : ℕ) : ℝ := if l = 0 then M else 2 * ((M : ℝ) - l)

theorem lagW_nonneg {M l : ℕ} (h : l ∈ range M) : 0 ≤ lagW M l := by
  have : (l : ℝ) ≤ M := by exact_mod_cast (mem_range.1 h).le
  unfold lagW
  split_ifs
  · positivity
  · linarith

/-- the squared norm of a sequence of covariances -/
def lagN (M : ℕ) (f : ℕ → ℝ) : ℝ := ∑ l ∈ range M, lagW M l * f l ^ 2

theorem lagN_eq (M : ℕ) (hM : 0 < M) (f : ℕ → ℝ) :
    lagN M f = M * f 0 ^ 2 + 2 * ∑ l ∈ Ico 1 M, ((M : ℝ) - l) * f l ^ 2 := by
  unfold lagN
  rw [range_eq_Ico, sum_eq_sum_Ico_succ_bot hM, mul_sum]
  rw [lagW, if_pos rfl]
  congr 1
  refine sum_congr rfl fun l hl => ?_
  rw [lagW, if_neg (by have := mem_Ico.1 hl; omega)]
  ring

theorem lagN_nonneg (M : ℕ) (f : ℕ → ℝ) : 0 ≤ lagN M f :=
  sum_nonneg fun _ hl => mul_nonneg (lagW_nonneg hl) (sq_nonneg _)

theorem lagN_ge (M : ℕ) (hM : 0 < M) (f : ℕ → ℝ) : M * f 0 ^ 2 ≤ lagN M f := by
  have h := single_le_sum (f := fun l => lagW M l * f l ^ 2)
    (fun l hl => mul_nonneg (lagW_nonneg hl) (sq_nonneg _)) (mem_range.2 hM)
  exact h

theorem lagN_mul (M : ℕ) (k : ℝ) (f : ℕ → ℝ) : lagN M (fun l => k * f l) = k ^ 2 * lagN M f := by
  unfold lagN
  rw [mul_sum]
  exact sum_congr rfl fun l _ => by ring

/-- The degrees of freedom of a covariance `g` which is a mixture of the covariance `c` and of a
sequence `z`, all divided by their values at 0. -/
theorem edf_near (M : ℕ) (hM : 0 < M) (g c z : ℕ → ℝ) (g0 : g 0 ≠ 0) (c0 : c 0 ≠ 0) (δ κ : ℝ) (hδ : 0 ≤ δ)
    (hδ1 : δ ≤ 1) (hmix : ∀ l < M, g l / g 0 = (1 - δ) * (c l / c 0) + δ * z l)
    (hz : lagN M z ≤ κ ^ 2 * lagN M (fun l => c l / c 0)) (hκ : 0 ≤ κ) :
    |√(M ^ 2 * c 0 ^ 2 / lagN M c) - √(M ^ 2 * g 0 ^ 2 / lagN M g)| ≤ δ * (1 + κ) * √(M ^ 2 * g 0 ^ 2 / lagN M g) := by
  have hM' : (0 : ℝ) < M := by exact_mod_cast hM
  have key : ∀ f : ℕ → ℝ, f 0 ≠ 0 → √((M : ℝ) ^ 2 * f 0 ^ 2 / lagN M f) = M / √(lagN M fun l => f l / f 0) := by
    intro f f0
    have e : lagN M (fun l => f l / f 0) = (1 / f 0) ^ 2 * lagN M f := by
      rw [← lagN_mul]
      congr 1
      funext l
      ring
    have hp : 0 < lagN M f := lt_of_lt_of_le (by positivity) (lagN_ge M hM f)
    rw [e, ← Real.sqrt_sq hM'.le, ← Real.sqrt_div (by positivity), Real.sqrt_sq hM'.le]
    congr 1
    field_simp
  rw [key g g0, key c c0]
  set X := √(lagN M fun l => g l / g 0)
  set Y := √(lagN M fun l => c l / c 0) with hY
  set Z := √(lagN M z) with hZ
  have hX : 0 < X := Real.sqrt_pos.2 (lt_of_lt_of_le (by simp [g0]; exact hM) (lagN_ge M hM _))
  have hYp : 0 < Y := Real.sqrt_pos.2 (lt_of_lt_of_le (by simp [c0]; exact hM) (lagN_ge M hM _))
  have hZY : Z ≤ κ * Y := by
    rw [hZ, Real.sqrt_le_left (by positivity), mul_pow, hY, Real.sq_sqrt (lagN_nonneg _ _)]
    exact hz
  have hnorm : ∀ k : ℝ, 0 ≤ k → ∀ f, √(lagN M fun l => k * f l) = k * √(lagN M f) := fun k hk f => by
    rw [lagN_mul, Real.sqrt_mul (sq_nonneg _), Real.sqrt_sq hk]
  have u1 : X ≤ (1 - δ) * Y + δ * Z := by
    rw [← hnorm _ (by linarith), ← hnorm _ hδ]
    refine le_trans (le_of_eq ?_) (minkowski (range M) (lagW M) _ _ (fun l hl => lagW_nonneg hl))
    refine congrArg Real.sqrt (sum_congr rfl fun l hl => ?_)
    simp only
    rw [hmix l (mem_range.1 hl)]
  have u2 : (1 - δ) * Y ≤ X + δ * Z := by
    rw [← hnorm _ (by linarith), ← hnorm _ hδ]
    have e : √(lagN M fun l => (1 - δ) * (c l / c 0))
        = √(∑ l ∈ range M, lagW M l * (g l / g 0 + -(δ * z l)) ^ 2) :=
      congrArg Real.sqrt (sum_congr rfl fun l hl => by
        rw [hmix l (mem_range.1 hl)]
        congr 2
        ring)
    rw [e]
    refine le_trans (minkowski (range M) (lagW M) _ _ (fun l hl => lagW_nonneg hl)) (le_of_eq ?_)
    congr 2
    refine sum_congr rfl fun l _ => ?_
    ring
  have hxy : |X - Y| ≤ δ * (1 + κ) * Y := by
    have := mul_le_mul_of_nonneg_left hZY hδ
    rw [abs_le]
    constructor <;> nlinarith
  have e : (M : ℝ) / Y - M / X = (X - Y) * (M / (X * Y)) := by
    field_simp
  rw [e, abs_mul, abs_of_pos (show (0 : ℝ) < M / (X * Y) by positivity)]
  calc |X - Y| * (M / (X * Y)) ≤ δ * (1 + κ) * Y * (M / (X * Y)) :=
        mul_le_mul_of_nonneg_right hxy (by positivity)
    _ = δ * (1 + κ) * (M / X) := by field_simp

/-! ## The kernel of the unmodified variances on the grid of the lags -/

theorem sx_fin_grid (m : ℕ) (hm : 0 < m) (j : ℤ) :
    ghSx (.fin m) 0 ((j : ℝ) / m) = -6 * |(j : ℝ) / m| - 2 / m * if j = 0 then 1 else 0 := by
  have hm' : (0 : ℝ) < m := by exact_mod_cast hm
  have e : ghSx (.fin m) 0 ((j : ℝ) / m)
      = 1 / m * (2 * |(j : ℝ)| ^ 3 - |(j : ℝ) - 1| ^ 3 - |(j : ℝ) + 1| ^ 3) := by
    have a1 : |(j : ℝ) / m| = |(j : ℝ)| / m := by rw [abs_div, abs_of_pos hm']
    have a2 : |(j : ℝ) / m - 1 / m| = |(j : ℝ) - 1| / m := by rw [← sub_div, abs_div, abs_of_pos hm']
    have a3 : |(j : ℝ) / m + 1 / m| = |(j : ℝ) + 1| / m := by rw [← add_div, abs_div, abs_of_pos hm']
    simp only [ghSx, ghSw]
    norm_num
    norm_num at a2 a3
    rw [a1, a2, a3]
    field_simp
  rw [e, abs_div, abs_of_pos hm']
  obtain rfl | h | h : j = 0 ∨ 1 ≤ j ∨ j ≤ -1 := by omega
  · norm_num
    ring
  · have h' : (1 : ℝ) ≤ j := by exact_mod_cast h
    rw [if_neg (by omega), abs_of_nonneg (show (0 : ℝ) ≤ (j : ℝ) by linarith),
      abs_of_nonneg (show (0 : ℝ) ≤ (j : ℝ) - 1 by linarith), abs_of_nonneg (show (0 : ℝ) ≤ (j : ℝ) + 1 by linarith)]
    ring
  · have h' : (j : ℝ) ≤ -1 := by exact_mod_cast h
    rw [if_neg (by omega), abs_of_nonpos (show (j : ℝ) ≤ 0 by linarith),
      abs_of_nonpos (show (j : ℝ) - 1 ≤ 0 by linarith), abs_of_nonpos (show (j : ℝ) + 1 ≤ 0 by linarith)]
    ring

/-- the covariance of the second (third) differences of white noise at the lag `k` -/
def tapCov (d m k : ℕ) : ℝ :=
  if d = 2 then (if k = 0 then 6 else if k = m then -4 else if k = 2 * m then 1 else 0)
  else if k = 0 then 20 else if k = m then -15 else if k = 2 * m then 6 else if k = 3 * m then -1 else 0

theorem sz_fin_grid (d m k : ℕ) (hd : d = 2 ∨ d = 3) (hm : 0 < m) :
    ghSz (.fin m) 0 d ((k : ℝ) / m) = 6 * ghSz .inf 0 d ((k : ℝ) / m) - 2 / m * tapCov d m k := by
  have hm' : (0 : ℝ) < m := by exact_mod_cast hm
  have e : ∀ i : ℕ, ((k : ℝ) / m + i - d) = (((k : ℤ) + ((i : ℤ) - d) * m : ℤ) : ℝ) / m := fun i => by
    push_cast
    field_simp
    ring
  have hx : ∀ u, ghSx .inf 0 u = -|u| := fun u => by simp [ghSx, ghSw]
  have hi : ∀ i : ℕ, ghSx (.fin m) 0 ((k : ℝ) / m + i - d)
      = 6 * ghSx .inf 0 ((k : ℝ) / m + i - d) - 2 / m * if (k : ℤ) + ((i : ℤ) - d) * m = 0 then 1 else 0 := fun i => by
    rw [hx, e i, sx_fin_grid m hm]
    ring
  unfold ghSz
  simp only [hi]
  have e2 : ∑ i ∈ range (2 * d + 1), (-1 : ℝ) ^ (d + i) * (2 * d).choose i *
        (if (k : ℤ) + ((i : ℤ) - d) * m = 0 then 1 else 0) = tapCov d m k := by
    rcases hd with rfl | rfl
    · rw [tapCov, if_pos rfl]
      simp only [sum_range_succ, sum_range_zero]
      rcases Nat.eq_zero_or_pos k with h0 | h0
      all_goals rcases eq_or_ne k m with h1 | h1
      all_goals rcases eq_or_ne k (2 * m) with h2 | h2
      all_goals first
        | (exfalso; omega)
        | (push_cast
           repeat (first | rw [if_pos (by omega)] | rw [if_neg (by omega)])
           norm_num [Nat.choose])
    · rw [tapCov, if_neg (by norm_num)]
      simp only [sum_range_succ, sum_range_zero]
      rcases Nat.eq_zero_or_pos k with h0 | h0
      all_goals rcases eq_or_ne k m with h1 | h1
      all_goals rcases eq_or_ne k (2 * m) with h2 | h2
      all_goals rcases eq_or_ne k (3 * m) with h3 | h3
      all_goals first
        | (exfalso; omega)
        | (push_cast
           repeat (first | rw [if_pos (by omega)] | rw [if_neg (by omega)])
           norm_num [Nat.choose])
  rw [← e2, mul_sum, mul_sum, ← sum_sub_distrib]
  exact sum_congr rfl fun i _ => by ring

theorem tapCov_norm (d M S' S m : ℕ) (hd : d = 2 ∨ d = 3) (hM : 0 < M) (hm : 0 < m) (hS : S * S' = m) :
    lagN M (fun l => tapCov d m (l * S) / tapCov d m 0) ≤ (if d = 2 then 9 / 4 else 231 / 100) * M := by
  have hS0 : 0 < S := Nat.pos_of_ne_zero fun h => by simp [h] at hS; omega
  have hS1 : 0 < S' := Nat.pos_of_ne_zero fun h => by simp [h] at hS; omega
  have hl : ∀ l b, l * S = b * m ↔ l = b * S' := fun l b => by
    rw [← hS]
    constructor
    · intro h
      have : S * l = S * (b * S') := by rw [mul_comm S l, h]; ring
      exact Nat.eq_of_mul_eq_mul_left hS0 this
    · rintro rfl
      ring
  have hl1 : ∀ l, l * S = m ↔ l = S' := fun l => by simpa using hl l 1
  have hl0 : ∀ l, l * S = 0 ↔ l = 0 := fun l => by simp [hS0.ne']
  have hM' : (0 : ℝ) < M := by exact_mod_cast hM
  have pt : ∀ p : ℕ, 0 < p → ∀ k : ℝ, 0 ≤ k → ∑ l ∈ Ico 1 M, (if l = p then k * ((M : ℝ) - l) else 0) ≤ k * M := by
    intro p hp k hk
    rw [sum_point M p hp]
    split_ifs
    · have : (0 : ℝ) ≤ p := by positivity
      nlinarith
    · positivity
  rw [lagN_eq M hM]
  rcases hd with rfl | rfl
  · have e : ∀ l ∈ Ico 1 M, ((M : ℝ) - l) * (tapCov 2 m (l * S) / tapCov 2 m 0) ^ 2
        = (if l = S' then 16 / 36 * ((M : ℝ) - l) else 0) + (if l = 2 * S' then 1 / 36 * ((M : ℝ) - l) else 0) := by
      intro l h
      have := mem_Ico.1 h
      simp only [tapCov, if_true, hl, hl1, hl0]
      split_ifs <;> first | (exfalso; omega) | ring
    rw [sum_congr rfl e, sum_add_distrib]
    have p1 := pt S' hS1 (16 / 36) (by norm_num)
    have p2 := pt (2 * S') (by omega) (1 / 36) (by norm_num)
    have t0 : tapCov 2 m (0 * S) / tapCov 2 m 0 = 1 := by simp [tapCov]
    rw [t0, if_pos rfl]
    linarith
  · have e : ∀ l ∈ Ico 1 M, ((M : ℝ) - l) * (tapCov 3 m (l * S) / tapCov 3 m 0) ^ 2
        = (if l = S' then 225 / 400 * ((M : ℝ) - l) else 0) + ((if l = 2 * S' then 36 / 400 * ((M : ℝ) - l) else 0)
          + (if l = 3 * S' then 1 / 400 * ((M : ℝ) - l) else 0)) := by
      intro l h
      have := mem_Ico.1 h
      simp only [tapCov, hl, hl1, hl0]
      rw [if_neg (by norm_num)]
      split_ifs <;> first | (exfalso; omega) | ring
    rw [sum_congr rfl e, sum_add_distrib, sum_add_distrib]
    have p1 := pt S' hS1 (225 / 400) (by norm_num)
    have p2 := pt (2 * S') (by omega) (36 / 400) (by norm_num)
    have p3 := pt (3 * S') (by omega) (1 / 400) (by norm_num)
    have t0 : tapCov 3 m (0 * S) / tapCov 3 m 0 = 1 := by simp [tapCov]
    rw [t0, if_neg (by norm_num)]
    linarith

/-- the kernels vanish at long lags -/
theorem sz_fin_zero (F : ℝ) (hF : 1 ≤ F) (d : ℕ) (hd : d = 2 ∨ d = 3) (t : ℝ) (h : (d : ℝ) + 1 ≤ t) :
    ghSz (.fin F) 0 d t = 0 := by
  have hF' : (0 : ℝ) < F := by linarith
  have h1 : 1 / F ≤ 1 := by rwa [div_le_one hF']
  have h2 : 0 < 1 / F := by positivity
  have hs : ∀ u, 1 ≤ u → ghSx (.fin F) 0 u = -6 * u := by
    intro u hu
    simp only [ghSx, ghSw]
    norm_num
    norm_num at h1
    have hu0 : (0 : ℝ) < u := by linarith
    rw [abs_of_nonneg (show (0 : ℝ) ≤ u by linarith), abs_of_nonneg (show (0 : ℝ) ≤ u - F⁻¹ by linarith),
      abs_of_nonneg (show (0 : ℝ) ≤ u + F⁻¹ by positivity)]
    field_simp
    ring
  unfold ghSz
  have : ∀ i ∈ range (2 * d + 1), (-1 : ℝ) ^ (d + i) * (2 * d).choose i * ghSx (.fin F) 0 (t + i - d)
      = (-1 : ℝ) ^ (d + i) * (2 * d).choose i * (-6 * (t + i - d)) := fun i _ => by
    rw [hs _ (by have : (0 : ℝ) ≤ i := by positivity
                 linarith)]
  rw [sum_congr rfl this]
  rcases hd with rfl | rfl <;> simp only [sum_range_succ, sum_range_zero] <;> norm_num [Nat.choose] <;> ring

end AT
