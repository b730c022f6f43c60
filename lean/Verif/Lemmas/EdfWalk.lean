import Verif.Lemmas.EdfMod

/-!
# Random walk frequency noise: covariances of the differences
-/

namespace AT

open Spec Finset

/-! ## Cumulated filters -/

/-- the running sums of the coefficients of a filter -/
def cumCoef (a : ℕ → ℝ) (k : ℕ) : ℝ := ∑ j ∈ range (k + 1), a j

/-- summation by parts -/
theorem sum_cumCoef (a Y : ℕ → ℝ) (K : ℕ) :
    ∑ k ∈ range K, a k * Y k = (∑ k ∈ range K, a k) * Y K - ∑ k ∈ range K, cumCoef a k * (Y (k + 1) - Y k) := by
  induction K with
  | zero => simp
  | succ K ih =>
    have : cumCoef a K = ∑ k ∈ range K, a k + a K := sum_range_succ a K
    rw [sum_range_succ, ih, sum_range_succ a, sum_range_succ (fun k => cumCoef a k * (Y (k + 1) - Y k)), this]
    ring

theorem cumCoef_zero {a : ℕ → ℝ} {K : ℕ} (hK : ∀ k, K ≤ k → a k = 0) (h0 : ∑ k ∈ range K, a k = 0) (k : ℕ)
    (hk : K ≤ k) : cumCoef a k = 0 := by
  unfold cumCoef
  obtain ⟨r, hr⟩ : ∃ r, k + 1 = K + r := ⟨k + 1 - K, by omega⟩
  rw [hr, sum_range_add, h0, zero_add]
  exact sum_eq_zero fun i _ => hK _ (by omega)

/-- the second difference of the covariances of the cumulated filter -/
theorem cumCov_step {a : ℕ → ℝ} {K : ℕ} (h0 : ∑ k ∈ range K, a k = 0) (l : ℕ) :
    filterCov (cumCoef a) K 1 l = 2 * filterCov (cumCoef a) K 1 (l + 1) - filterCov (cumCoef a) K 1 (l + 2)
      - filterCov a K 1 (l + 1) := by
  have h := sum_cumCoef a (fun k => cumCoef a (k + l + 1) - cumCoef a (k + l)) K
  have e : ∀ k, cumCoef a (k + l + 1) - cumCoef a (k + l) = a (k + l + 1) := fun k => by
    rw [cumCoef, sum_range_succ, cumCoef]
    ring
  simp only [h0, zero_mul, e] at h
  unfold filterCov
  simp only [mul_one, ← add_assoc]
  rw [h, mul_sum, ← sum_sub_distrib, zero_sub, sub_neg_eq_add, ← sum_add_distrib]
  refine sum_congr rfl fun k _ => ?_
  rw [← e, ← e, show k + 1 + l + 1 = k + l + 2 by ring, show k + 1 + l = k + l + 1 by ring]
  ring

/-- a sequence of bounded support is determined by its second difference -/
theorem second_diff_unique (R G q : ℕ → ℝ) (L : ℕ) (hR : ∀ l, R l = 2 * R (l + 1) - R (l + 2) - q (l + 1))
    (hG : ∀ l, G l = 2 * G (l + 1) - G (l + 2) - q (l + 1)) (zR : ∀ l, L ≤ l → R l = 0) (zG : ∀ l, L ≤ l → G l = 0)
    (l : ℕ) : R l = G l := by
  have key : ∀ r l, L ≤ l + r → R l = G l := by
    intro r
    induction r using Nat.strong_induction_on with
    | _ r ih =>
      intro l hl
      rcases Nat.eq_zero_or_pos r with rfl | hr
      · rw [zR l hl, zG l hl]
      · rw [hR l, hG l, ih (r - 1) (by omega) (l + 1) (by omega), ih (r - 1) (by omega) (l + 2) (by omega)]
  exact key L l (by omega)

theorem cov_zero {a : ℕ → ℝ} {K : ℕ} (hK : ∀ k, K ≤ k → a k = 0) (l : ℕ) (hl : K ≤ l) : filterCov a K 1 l = 0 :=
  sum_eq_zero fun k _ => by rw [hK (k + l * 1) (by omega), mul_zero]

theorem cov_stride (a : ℕ → ℝ) (K S l : ℕ) : filterCov a K S l = filterCov a K 1 (l * S) := by
  unfold filterCov
  simp only [mul_one]

/-! ## The covariances of the second and third differences -/

/-- the fourth sum of the absolute value over the integers -/
noncomputable def absSum4 (v : ℤ) : ℝ := (|(v : ℝ)| ^ 5 - 5 * |(v : ℝ)| ^ 3 + 4 * |(v : ℝ)|) / 120

theorem absSum4_step (v : ℤ) : absSum4 (v + 1) - 2 * absSum4 v + absSum4 (v - 1) = absSum2 v := by
  unfold absSum4 absSum2
  push_cast
  obtain rfl | h | h : v = 0 ∨ 1 ≤ v ∨ v ≤ -1 := by omega
  · norm_num
  · have h' : (1 : ℝ) ≤ v := by exact_mod_cast h
    rw [abs_of_nonneg (show (0 : ℝ) ≤ (v : ℝ) by linarith),
      abs_of_nonneg (show (0 : ℝ) ≤ (v : ℝ) - 1 by linarith), abs_of_nonneg (show (0 : ℝ) ≤ (v : ℝ) + 1 by linarith)]
    ring
  · have h' : (v : ℝ) ≤ -1 := by exact_mod_cast h
    rw [abs_of_nonpos (show (v : ℝ) ≤ 0 by linarith),
      abs_of_nonpos (show (v : ℝ) - 1 ≤ 0 by linarith), abs_of_nonpos (show (v : ℝ) + 1 ≤ 0 by linarith)]
    ring

/-- the central difference of order `2d` at distance `m` -/
noncomputable def cdiff (d m : ℕ) (f : ℤ → ℝ) (v : ℤ) : ℝ :=
  ∑ i ∈ range (2 * d + 1), (-1 : ℝ) ^ (d + i) * (2 * d).choose i * f (v + ((i : ℤ) - d) * m)

theorem cdiff_step (d m : ℕ) (f g : ℤ → ℝ) (h : ∀ v, f (v + 1) - 2 * f v + f (v - 1) = g v) (v : ℤ) :
    cdiff d m f (v + 1) - 2 * cdiff d m f v + cdiff d m f (v - 1) = cdiff d m g v := by
  unfold cdiff
  rw [mul_sum, ← sum_sub_distrib, ← sum_add_distrib]
  refine sum_congr rfl fun i _ => ?_
  rw [← h, show v + 1 + ((i : ℤ) - d) * m = v + ((i : ℤ) - d) * m + 1 by ring,
    show v - 1 + ((i : ℤ) - d) * m = v + ((i : ℤ) - d) * m - 1 by ring]
  ring

theorem cdiff_arg {d m l : ℕ} (hl : d * m ≤ l) (i : ℕ) : (0 : ℝ) ≤ (((l : ℤ) + ((i : ℤ) - d) * m : ℤ) : ℝ) := by
  have : ((d * m : ℕ) : ℝ) ≤ l := by exact_mod_cast hl
  push_cast at this ⊢
  have h2 : (0 : ℝ) ≤ (i : ℝ) * m := by positivity
  linarith

theorem cdiff_sum2_zero (d m l : ℕ) (hd : d = 2 ∨ d = 3) (hl : d * m ≤ l) : cdiff d m absSum2 l = 0 := by
  unfold cdiff absSum2
  simp only [abs_of_nonneg (cdiff_arg hl _)]
  rcases hd with rfl | rfl <;> simp only [sum_range_succ, sum_range_zero] <;> push_cast <;> norm_num [Nat.choose] <;> ring

theorem cdiff_sum4_zero (m l : ℕ) (hl : 3 * m ≤ l) : cdiff 3 m absSum4 l = 0 := by
  unfold cdiff absSum4
  simp only [abs_of_nonneg (cdiff_arg hl _)]
  simp only [sum_range_succ, sum_range_zero]
  push_cast
  norm_num [Nat.choose]
  ring

theorem cdiff_abs (d m : ℕ) (hm : 0 < m) (v : ℤ) :
    cdiff d m (fun v => |(v : ℝ)|) v = -m * ghSz .inf 0 d ((v : ℝ) / m) := by
  have hm' : (0 : ℝ) < m := by exact_mod_cast hm
  have hx : ∀ u, ghSx .inf 0 u = -|u| := fun u => by simp [ghSx, ghSw]
  unfold cdiff ghSz
  rw [mul_sum]
  refine sum_congr rfl fun i _ => ?_
  have : |(v : ℝ) / m + i - d| = |((v + ((i : ℤ) - d) * m : ℤ) : ℝ)| / m := by
    rw [← abs_of_pos hm', ← abs_div, abs_of_pos hm']
    congr 1
    push_cast
    field_simp
    ring
  rw [hx, this]
  field_simp

theorem cdiff_sum2 (d m : ℕ) (hm : 0 < m) (v : ℤ) :
    cdiff d m absSum2 v = (m ^ 3 * ghSz .inf (-2) d ((v : ℝ) / m) + m * ghSz .inf 0 d ((v : ℝ) / m)) / 6 := by
  have hm' : (0 : ℝ) < m := by exact_mod_cast hm
  have hx : ∀ u, ghSx .inf 0 u = -|u| := fun u => by simp [ghSx, ghSw]
  have hy : ∀ u, ghSx .inf (-2) u = |u| ^ 3 := fun u => by simp [ghSx, ghSw]
  unfold cdiff ghSz
  rw [mul_sum, mul_sum, ← sum_add_distrib, sum_div]
  refine sum_congr rfl fun i _ => ?_
  have : |(v : ℝ) / m + i - d| = |((v + ((i : ℤ) - d) * m : ℤ) : ℝ)| / m := by
    rw [← abs_of_pos hm', ← abs_div, abs_of_pos hm']
    congr 1
    push_cast
    field_simp
    ring
  rw [hx, hy, this, absSum2]
  field_simp
  ring

/-- the covariance of the differences of order `d` of random walk frequency noise at the lag `l` -/
noncomputable def walkCov (d m l : ℕ) : ℝ :=
  (m ^ 3 * ghSz .inf (-2) d (l / m) + m * ghSz .inf 0 d (l / m)) / 12

/-- the filter of the frequencies -/
noncomputable def freqTaps (d m : ℕ) : ℕ → ℝ := blocks (if d = 2 then tapf else tap2) d m

theorem freqTaps_zero (d m k : ℕ) (hk : d * m ≤ k) : freqTaps d m k = 0 := blocks_zero _ d m k hk

theorem freqTaps_sum (d m : ℕ) (hd : d = 2 ∨ d = 3) : ∑ k ∈ range (d * m), freqTaps d m k = 0 := by
  have h := blocks_sum (if d = 2 then tapf else tap2) d m (fun _ => 1)
  simp only [mul_one] at h
  rw [freqTaps, h]
  rcases hd with rfl | rfl <;> (simp [sum_range_succ, tapf, tap2]; try ring)

theorem freqTaps_moment (m : ℕ) : ∑ k ∈ range (3 * m), freqTaps 3 m k * k = 0 := by
  have h := blocks_sum (if 3 = 2 then tapf else tap2) 3 m (fun k => (k : ℝ))
  rw [freqTaps, h]
  simp only [sum_range_succ, sum_range_zero]
  norm_num [sum_add_distrib, tap2]
  simp only [← mul_sum, sum_add_distrib, sum_const, card_range, nsmul_eq_mul]
  ring

theorem freqTaps_cov (d m l : ℕ) (hd : d = 2 ∨ d = 3) (hm : 0 < m) :
    filterCov (freqTaps d m) (d * m) 1 l = m / 2 * ghSz .inf 0 d (l / m) := by
  rcases hd with rfl | rfl
  · have := cov_fm2 m 1 l hm
    rw [mul_one] at this
    exact this
  · have := cov_fm3 m 1 l hm
    rw [mul_one] at this
    exact this

/-- the filter of the increments of the frequencies -/
noncomputable def walkTaps (d m : ℕ) : ℕ → ℝ := cumCoef (freqTaps d m)

theorem walkTaps_zero (d m : ℕ) (hd : d = 2 ∨ d = 3) (k : ℕ) (hk : d * m ≤ k) : walkTaps d m k = 0 :=
  cumCoef_zero (freqTaps_zero d m) (freqTaps_sum d m hd) k hk

theorem walkTaps_cov1 (d m l : ℕ) (hd : d = 2 ∨ d = 3) (hm : 0 < m) :
    filterCov (walkTaps d m) (d * m) 1 l = cdiff d m absSum2 l / 2 := by
  refine second_diff_unique _ (fun l => cdiff d m absSum2 (l : ℤ) / 2) (filterCov (freqTaps d m) (d * m) 1) (d * m)
    (cumCov_step (freqTaps_sum d m hd)) (fun l => ?_) (cov_zero (walkTaps_zero d m hd))
    (fun l hl => by rw [cdiff_sum2_zero d m l hd hl, zero_div]) l
  have h := cdiff_step d m absSum2 (fun v => |(v : ℝ)|) absSum2_step ((l : ℤ) + 1)
  rw [cdiff_abs d m hm, show (l : ℤ) + 1 + 1 = l + 2 by ring, show (l : ℤ) + 1 - 1 = l by ring] at h
  rw [freqTaps_cov d m _ hd hm]
  push_cast at h ⊢
  linarith

theorem walkTaps_cov (d m S l : ℕ) (hd : d = 2 ∨ d = 3) (hm : 0 < m) :
    filterCov (walkTaps d m) (d * m) S l = walkCov d m (l * S) := by
  rw [cov_stride, walkTaps_cov1 d m _ hd hm, cdiff_sum2 d m hm, walkCov]
  push_cast
  ring

/-! ## The covariances of the modified second differences -/

/-- the filter of the second differences of the phase -/
noncomputable def modTaps (m : ℕ) : ℕ → ℝ := cumCoef (walkTaps 3 m)

theorem walkTaps_sum (m : ℕ) : ∑ k ∈ range (3 * m), walkTaps 3 m k = 0 := by
  have h := sum_cumCoef (freqTaps 3 m) (fun k => (k : ℝ)) (3 * m)
  rw [freqTaps_moment, freqTaps_sum 3 m (.inr rfl)] at h
  push_cast at h
  simp only [add_sub_cancel_left, mul_one, zero_mul] at h
  unfold walkTaps
  linarith

theorem modTaps_zero (m k : ℕ) (hk : 3 * m ≤ k) : modTaps m k = 0 :=
  cumCoef_zero (walkTaps_zero 3 m (.inr rfl)) (walkTaps_sum m) k hk

/-- the covariance of the modified second differences of random walk frequency noise at the lag `l` -/
noncomputable def modWalkCov (m l : ℕ) : ℝ :=
  (-m ^ 5 * ghSz (.fin 1) (-2) 2 (l / m) + 5 * m ^ 3 * ghSz .inf (-2) 3 (l / m) + 4 * m * ghSz .inf 0 3 (l / m)) / 240

theorem ghSz_fin1 (t : ℝ) : ghSz (.fin 1) (-2) 2 t
    = ∑ i ∈ range 7, (-1 : ℝ) ^ (3 + i) * (2 * 3).choose i * |t + i - (3 : ℕ)| ^ 5 := by
  have hx : ∀ u, ghSx (.fin 1) (-2) u = 2 * |u| ^ 5 - |u - 1| ^ 5 - |u + 1| ^ 5 := by
    intro u
    simp [ghSx, ghSw]
  unfold ghSz
  simp only [sum_range_succ, sum_range_zero, hx]
  norm_num [Nat.choose]
  ring_nf

theorem cdiff_sum4 (m : ℕ) (hm : 0 < m) (l : ℕ) : cdiff 3 m absSum4 l / 2 = -modWalkCov m l := by
  have hm' : (0 : ℝ) < m := by exact_mod_cast hm
  have hx : ∀ u, ghSx .inf 0 u = -|u| := fun u => by simp [ghSx, ghSw]
  have hy : ∀ u, ghSx .inf (-2) u = |u| ^ 3 := fun u => by simp [ghSx, ghSw]
  rw [modWalkCov, ghSz_fin1]
  unfold cdiff ghSz
  rw [mul_sum, mul_sum, mul_sum, ← sum_add_distrib, ← sum_add_distrib, sum_div, sum_div, ← sum_neg_distrib]
  refine sum_congr rfl fun i _ => ?_
  have : |(l : ℝ) / m + i - (3 : ℕ)| = |(((l : ℤ) + ((i : ℤ) - (3 : ℕ)) * m : ℤ) : ℝ)| / m := by
    rw [← abs_of_pos hm', ← abs_div, abs_of_pos hm']
    congr 1
    push_cast
    field_simp
    ring
  rw [hx, hy, this, absSum4]
  field_simp
  ring

theorem modTaps_cov (m l : ℕ) (hm : 0 < m) : filterCov (modTaps m) (3 * m) 1 l = modWalkCov m l := by
  rw [← neg_eq_iff_eq_neg.2 (cdiff_sum4 m hm l)]
  refine second_diff_unique _ (fun l => -(cdiff 3 m absSum4 (l : ℤ) / 2)) (filterCov (walkTaps 3 m) (3 * m) 1) (3 * m)
    (cumCov_step (walkTaps_sum m)) (fun l => ?_) (cov_zero (modTaps_zero m))
    (fun l hl => by rw [cdiff_sum4_zero m l hl, zero_div, neg_zero]) l
  have h := cdiff_step 3 m absSum4 absSum2 absSum4_step ((l : ℤ) + 1)
  rw [show (l : ℤ) + 1 + 1 = l + 2 by ring, show (l : ℤ) + 1 - 1 = l by ring] at h
  rw [walkTaps_cov1 3 m _ (.inr rfl) hm]
  push_cast at h ⊢
  linarith

end AT
