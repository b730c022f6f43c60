import Verif.Lemmas.EdfNear

/-!
# The modified Allan variance of white frequency noise: covariances and kernels
-/

namespace AT

open Spec Finset

/-- the second sum of the absolute value over the integers -/
noncomputable def absSum2 (v : ℤ) : ℝ := (|(v : ℝ)| ^ 3 - |(v : ℝ)|) / 6

theorem absSum2_step (v : ℤ) : absSum2 (v + 1) - 2 * absSum2 v + absSum2 (v - 1) = |(v : ℝ)| := by
  unfold absSum2
  push_cast
  obtain rfl | h | h : v = 0 ∨ 1 ≤ v ∨ v ≤ -1 := by omega
  · norm_num
  · have h' : (1 : ℝ) ≤ v := by exact_mod_cast h
    rw [abs_of_nonneg (show (0 : ℝ) ≤ (v : ℝ) by linarith),
      abs_of_nonneg (show (0 : ℝ) ≤ (v : ℝ) - 1 by linarith), abs_of_nonneg (show (0 : ℝ) ≤ (v : ℝ) + 1 by linarith)]
    ring
  · have h' : (v : ℝ) ≤ -1 := by exact_mod_cast h
    rw [abs_of_nonpos (show (v : ℝ) ≤ 0 by linarith),
      abs_of_nonpos (show (v : ℝ) - 1 ≤ 0 by linarith), abs_of_nonpos (show (v : ℝ) + 1 ≤ 0 by linarith)]
    ring

theorem abs_sum (w : ℤ) (n : ℕ) : ∑ s ∈ range n, |((w + s : ℤ) : ℝ)|
    = (absSum2 (w + n) - absSum2 (w + n - 1)) - (absSum2 w - absSum2 (w - 1)) := by
  induction n with
  | zero => simp
  | succ n ih =>
    have h := absSum2_step (w + n)
    rw [sum_range_succ, ih, ← h]
    push_cast
    rw [show w + ((n : ℤ) + 1) = w + n + 1 by ring, show w + (n : ℤ) + 1 - 1 = w + n by ring]
    ring

theorem abs_sum2 (u : ℤ) (m : ℕ) : ∑ s ∈ range m, ∑ s' ∈ range m, |((u - s + s' : ℤ) : ℝ)|
    = absSum2 (u + m) - 2 * absSum2 u + absSum2 (u - m) := by
  have tel : ∀ (w : ℤ) (n : ℕ), ∑ s ∈ range n, (absSum2 (w - s) - absSum2 (w - s - 1)) = absSum2 w - absSum2 (w - n) := by
    intro w n
    induction n with
    | zero => simp
    | succ n ih =>
      rw [sum_range_succ, ih]
      push_cast
      rw [show w - ((n : ℤ) + 1) = w - n - 1 by ring]
      ring
  simp only [abs_sum]
  rw [sum_sub_distrib, tel u m]
  have := tel (u + m) m
  have e : ∀ s : ℕ, u + (m : ℤ) - s = u - s + m := fun s => by ring
  simp only [e] at this
  rw [this, show u - (m : ℤ) + m = u by ring]
  ring

/-- the covariance of the differences of blocks at the lag `v` -/
noncomputable def covZ (m : ℕ) (v : ℤ) : ℝ := m / 2 * ghSz .inf 0 2 ((v : ℝ) / m)

theorem shift_covZ (m x y n : ℕ) (hm : 0 < m) (hx : x + 2 * m ≤ n) (hy : y + 2 * m ≤ n) :
    ∑ p ∈ range n, shiftCoef (blocks tapf 2 m) 1 x p * shiftCoef (blocks tapf 2 m) 1 y p = covZ m ((y : ℤ) - x) := by
  have key : ∀ x y : ℕ, x ≤ y → y + 2 * m ≤ n →
      ∑ p ∈ range n, shiftCoef (blocks tapf 2 m) 1 x p * shiftCoef (blocks tapf 2 m) 1 y p = covZ m ((y : ℤ) - x) := by
    intro x y hxy hy
    rw [shift_cov (blocks tapf 2 m) (2 * m) 1 x y n (blocks_zero tapf 2 m) hxy (by omega)]
    have h := cov_fm2 m 1 (y - x) hm
    unfold filterCov at h
    rw [h, covZ]
    congr 3
    rw [mul_one, Nat.cast_sub hxy]
    push_cast
    ring
  rcases le_total x y with h | h
  · exact key x y h hy
  · have e : ∑ p ∈ range n, shiftCoef (blocks tapf 2 m) 1 x p * shiftCoef (blocks tapf 2 m) 1 y p
        = ∑ p ∈ range n, shiftCoef (blocks tapf 2 m) 1 y p * shiftCoef (blocks tapf 2 m) 1 x p :=
      sum_congr rfl fun _ _ => mul_comm _ _
    rw [e, key y x h hx, covZ, covZ, ← ghSz_even]
    congr 2
    push_cast
    ring

/-- the coefficients of the sum of `m` successive second differences -/
noncomputable def modCoef (m j p : ℕ) : ℝ := ∑ s ∈ range m, shiftCoef (blocks tapf 2 m) 1 (j + s) p

/-- the covariance of the modified second differences of white frequency noise at the lag `l` -/
noncomputable def modCov (m l : ℕ) : ℝ :=
  (m ^ 3 * ghSz (.fin 1) 0 2 (l / m) + m * ghSz (.fin 1) 2 2 (l / m)) / 12

theorem sum_covZ (m : ℕ) (hm : 0 < m) (l : ℕ) :
    ∑ s ∈ range m, ∑ s' ∈ range m, covZ m ((l : ℤ) - s + s') = modCov m l := by
  have hm' : (0 : ℝ) < m := by exact_mod_cast hm
  have hx : ∀ u, ghSx .inf 0 u = -|u| := fun u => by simp [ghSx, ghSw]
  have e1 : ∀ v : ℤ, covZ m v = -(1 / 2) * ∑ i ∈ range 5, (-1 : ℝ) ^ (2 + i) * (2 * 2).choose i * |((v + (i - 2) * m : ℤ) : ℝ)| := by
    intro v
    rw [covZ, ghSz, mul_sum, mul_sum]
    refine sum_congr rfl fun i _ => ?_
    rw [hx]
    have : |(v : ℝ) / m + i - (2 : ℕ)| = |((v + (i - 2) * m : ℤ) : ℝ)| / m := by
      rw [← abs_of_pos hm', ← abs_div, abs_of_pos hm']
      congr 1
      push_cast
      field_simp
      ring
    rw [this]
    field_simp
  have e2 : ∀ v : ℤ, (m : ℝ) ^ 3 * ghSx (.fin 1) 0 ((v : ℝ) / m) + m * ghSx (.fin 1) 2 ((v : ℝ) / m)
      = -6 * (absSum2 (v + m) - 2 * absSum2 v + absSum2 (v - m)) := by
    intro v
    have a1 : |(v : ℝ) / m| = |(v : ℝ)| / m := by rw [abs_div, abs_of_pos hm']
    have a2 : |(v : ℝ) / m - 1| = |(v : ℝ) - m| / m := by
      rw [show (v : ℝ) / m - 1 = ((v : ℝ) - m) / m by field_simp, abs_div, abs_of_pos hm']
    have a3 : |(v : ℝ) / m + 1| = |(v : ℝ) + m| / m := by
      rw [show (v : ℝ) / m + 1 = ((v : ℝ) + m) / m by field_simp, abs_div, abs_of_pos hm']
    simp only [ghSx, ghSw, absSum2]
    norm_num
    rw [a1, a2, a3]
    field_simp
    ring
  have e3 : modCov m l = ∑ i ∈ range 5, (-1 : ℝ) ^ (2 + i) * (2 * 2).choose i *
      (-(1 / 2) * (absSum2 (l + (i - 2) * m + m) - 2 * absSum2 (l + (i - 2) * m) + absSum2 (l + (i - 2) * m - m))) := by
    rw [modCov, ghSz, ghSz, mul_sum, mul_sum, ← sum_add_distrib, sum_div]
    refine sum_congr rfl fun i _ => ?_
    have := e2 (l + (i - 2) * m)
    have e4 : (((l + (i - 2) * m : ℤ) : ℝ) / m) = (l : ℝ) / m + i - (2 : ℕ) := by
      push_cast
      field_simp
      ring
    rw [e4] at this
    linear_combination ((-1 : ℝ) ^ (2 + i) * (2 * 2).choose i / 12) * this
  rw [e3]
  simp only [e1]
  simp only [← mul_sum]
  have e5 : ∑ s ∈ range m, ∑ s' ∈ range m, ∑ i ∈ range 5,
      (-1 : ℝ) ^ (2 + i) * (2 * 2).choose i * |(((l : ℤ) - s + s' + (i - 2) * m : ℤ) : ℝ)|
      = ∑ i ∈ range 5, (-1 : ℝ) ^ (2 + i) * (2 * 2).choose i *
        (absSum2 (l + (i - 2) * m + m) - 2 * absSum2 (l + (i - 2) * m) + absSum2 (l + (i - 2) * m - m)) := by
    have c1 : ∀ s ∈ range m, ∑ s' ∈ range m, ∑ i ∈ range 5,
        (-1 : ℝ) ^ (2 + i) * (2 * 2).choose i * |(((l : ℤ) - s + s' + (i - 2) * m : ℤ) : ℝ)|
        = ∑ i ∈ range 5, ∑ s' ∈ range m,
        (-1 : ℝ) ^ (2 + i) * (2 * 2).choose i * |(((l : ℤ) - s + s' + (i - 2) * m : ℤ) : ℝ)| := fun s _ => sum_comm
    rw [sum_congr rfl c1, sum_comm]
    refine sum_congr rfl fun i _ => ?_
    simp only [← mul_sum]
    rw [← abs_sum2]
    congr 1
    refine sum_congr rfl fun s _ => sum_congr rfl fun s' _ => ?_
    congr 2
    ring
  rw [e5, mul_sum]
  exact sum_congr rfl fun i _ => by ring

theorem modCoef_cov (m i j n : ℕ) (hm : 0 < m) (hij : i ≤ j) (hn : j + 3 * m ≤ n) :
    ∑ p ∈ range n, modCoef m i p * modCoef m j p = modCov m (j - i) := by
  rw [← sum_covZ m hm]
  unfold modCoef
  simp only [sum_mul_sum]
  rw [sum_comm]
  refine sum_congr rfl fun s hs => ?_
  rw [sum_comm]
  refine sum_congr rfl fun s' hs' => ?_
  rw [mem_range] at hs hs'
  rw [shift_covZ m (i + s) (j + s') n hm (by omega) (by omega)]
  congr 1
  push_cast [Nat.cast_sub hij]
  ring

/-! ## The kernels -/

theorem ghSz_mod_small (t : ℝ) (h0 : 0 ≤ t) (h1 : t ≤ 1) : ghSz (.fin 1) 0 2 t = 12 - 36 * t ^ 2 + 20 * t ^ 3 := by
  have hx : ∀ u, ghSx (.fin 1) 0 u = 2 * |u| ^ 3 - |u - 1| ^ 3 - |u + 1| ^ 3 := by
    intro u
    simp [ghSx, ghSw]
  unfold ghSz
  simp only [sum_range_succ, sum_range_zero, hx]
  norm_num [Nat.choose]
  simp only [abs_of_nonneg h0, abs_of_nonpos (show t - 2 ≤ 0 by linarith), abs_of_nonpos (show t - 2 - 1 ≤ 0 by linarith),
    abs_of_nonpos (show t - 2 + 1 ≤ 0 by linarith), abs_of_nonpos (show t + 1 - 2 ≤ 0 by linarith),
    abs_of_nonpos (show t + 1 - 2 - 1 ≤ 0 by linarith), abs_of_nonneg (show 0 ≤ t + 1 - 2 + 1 by linarith),
    abs_of_nonpos (show t - 1 ≤ 0 by linarith), abs_of_nonneg (show 0 ≤ t + 1 by linarith),
    abs_of_nonneg (show 0 ≤ t + 3 - 2 by linarith), abs_of_nonneg (show 0 ≤ t + 3 - 2 - 1 by linarith),
    abs_of_nonneg (show 0 ≤ t + 3 - 2 + 1 by linarith), abs_of_nonneg (show 0 ≤ t + 4 - 2 by linarith),
    abs_of_nonneg (show 0 ≤ t + 4 - 2 - 1 by linarith), abs_of_nonneg (show 0 ≤ t + 4 - 2 + 1 by linarith)]
  ring

theorem ghSz_pm_le (t : ℝ) (h0 : 0 ≤ t) : |ghSz (.fin 1) 2 2 t| ≤ 12 := by
  have small : ∀ u : ℝ, |u| ≤ 1 → tri u = 1 - |u| := fun u hu => max_eq_right (by linarith)
  have far : ∀ u : ℝ, u ≤ -1 ∨ 1 ≤ u → tri u = 0 := fun u hu => tri_zero (by
    rcases hu with h | h
    · rw [abs_of_nonpos (by linarith)]; linarith
    · rw [abs_of_nonneg (by linarith)]; exact h)
  rw [ghSz_pm, abs_le]
  rcases le_total t 1 with h | h
  · rw [far (t - 2) (.inl (by linarith)), far (t + 1) (.inr (by linarith)), far (t + 2) (.inr (by linarith)),
      small t (by rw [abs_of_nonneg h0]; exact h), small (t - 1) (by rw [abs_of_nonpos (by linarith)]; linarith),
      abs_of_nonneg h0, abs_of_nonpos (show t - 1 ≤ 0 by linarith)]
    constructor <;> linarith
  · rcases le_total t 2 with h2 | h2
    · rw [far t (.inr h), far (t + 1) (.inr (by linarith)), far (t + 2) (.inr (by linarith)),
        small (t - 2) (by rw [abs_of_nonpos (by linarith)]; linarith), small (t - 1) (by rw [abs_of_nonneg (by linarith)]; linarith),
        abs_of_nonpos (show t - 2 ≤ 0 by linarith), abs_of_nonneg (show 0 ≤ t - 1 by linarith)]
      constructor <;> linarith
    · rw [far t (.inr h), far (t - 1) (.inr (by linarith)), far (t + 1) (.inr (by linarith)), far (t + 2) (.inr (by linarith))]
      have h3 : 0 ≤ tri (t - 2) := le_max_left _ _
      have h4 : tri (t - 2) ≤ 1 := max_le zero_le_one (by have := abs_nonneg (t - 2); linarith)
      constructor <;> linarith

/-- the sum of an antitone function over `k` blocks -/
theorem sum_blocks_le (f : ℕ → ℝ) (hf : Antitone f) (k q : ℕ) : ∑ l ∈ range (k * q), f l ≤ k * ∑ l ∈ range q, f l := by
  induction k with
  | zero => simp
  | succ k ih =>
    rw [add_mul, one_mul, sum_range_add]
    have : ∑ x ∈ range q, f (k * q + x) ≤ ∑ x ∈ range q, f x := sum_le_sum fun x _ => hf (by omega)
    push_cast
    linarith

theorem mod_norm (M m : ℕ) (hM : 0 < M) (hm : 0 < m) :
    lagN M (fun l => ghSz (.fin 1) 2 2 (l / m) / 12)
      ≤ 5 ^ 2 * lagN M (fun l => ghSz (.fin 1) 0 2 ((l : ℝ) / m) / ghSz (.fin 1) 0 2 ((0 : ℕ) / m)) := by
  have hm' : (0 : ℝ) < m := by exact_mod_cast hm
  have hM' : (0 : ℝ) < M := by exact_mod_cast hM
  obtain ⟨q, hq, hq4, hq3⟩ : ∃ q, 0 < q ∧ m ≤ 4 * q ∧ 4 * q ≤ m + 3 := ⟨(m + 3) / 4, by omega, by omega, by omega⟩
  set w : ℕ → ℝ := fun l => ((M - l : ℕ) : ℝ) with hw
  have hwa : Antitone w := fun a b hab => by
    simp only [hw]
    exact_mod_cast (by omega : M - b ≤ M - a)
  have hw0 : ∀ l, 0 ≤ w l := fun l => by simp only [hw]; positivity
  have hweq : ∀ l, l < M → w l = (M : ℝ) - l := fun l hl => by
    simp only [hw]
    rw [Nat.cast_sub hl.le]
  have hwz : ∀ l, M ≤ l → w l = 0 := fun l hl => by
    simp only [hw]
    rw [Nat.sub_eq_zero_of_le hl, Nat.cast_zero]
  set Pq := ∑ l ∈ range q, w l with hPq
  have hP : (M : ℝ) ≤ Pq := by
    have := single_le_sum (f := w) (fun l _ => hw0 l) (mem_range.2 hq)
    simpa [hw] using this
  have lag2 : ∀ f : ℕ → ℝ, lagN M f = 2 * ∑ l ∈ range M, w l * f l ^ 2 - M * f 0 ^ 2 := by
    intro f
    have : ∑ l ∈ range M, w l * f l ^ 2 = M * f 0 ^ 2 + ∑ l ∈ Ico 1 M, ((M : ℝ) - l) * f l ^ 2 := by
      rw [range_eq_Ico, sum_eq_sum_Ico_succ_bot hM, hweq 0 hM]
      congr 1
      · push_cast; ring
      · exact sum_congr rfl fun l hl => by rw [hweq l (mem_Ico.1 hl).2]
    rw [lagN_eq M hM, this]
    ring
  have hz : ghSz (.fin 1) 0 2 ((0 : ℕ) / m) = 12 := by
    rw [Nat.cast_zero, zero_div, ghSz_mod_small 0 le_rfl zero_le_one]
    norm_num
  have hp0 : ghSz (.fin 1) 2 2 ((0 : ℕ) / m) = 12 := by
    rw [Nat.cast_zero, zero_div, ghSz_pm]
    norm_num [tri]
  rw [lag2, lag2, hz]
  simp only [hp0]
  have up : ∑ l ∈ range M, w l * (ghSz (.fin 1) 2 2 (l / m) / 12) ^ 2 ≤ 12 * Pq := by
    have s1 : ∑ l ∈ range M, w l * (ghSz (.fin 1) 2 2 (l / m) / 12) ^ 2 ≤ ∑ l ∈ range (12 * q), w l := by
      have t1 : ∀ l ∈ range M, w l * (ghSz (.fin 1) 2 2 (l / m) / 12) ^ 2 ≤ if l < 12 * q then w l else 0 := by
        intro l _
        split_ifs with h
        · have h1 := ghSz_pm_le ((l : ℝ) / m) (by positivity)
          have h2 : (ghSz (.fin 1) 2 2 (l / m) / 12) ^ 2 ≤ 1 := by
            rw [sq_le_one_iff_abs_le_one, abs_div, abs_of_pos (show (0 : ℝ) < 12 by norm_num), div_le_one (by norm_num)]
            exact h1
          have := mul_le_mul_of_nonneg_left h2 (hw0 l)
          linarith
        · have : ghSz (.fin 1) 2 2 (l / m) = 0 := ghSz_pm_zero _ (by
            rw [le_div_iff₀ hm']
            have : 3 * m ≤ l := by omega
            have : (3 : ℝ) * m ≤ l := by exact_mod_cast this
            push_cast
            linarith)
          rw [this]
          simp
      refine (sum_le_sum t1).trans ?_
      rw [← sum_filter]
      refine sum_le_sum_of_subset_of_nonneg (fun l hl => ?_) (fun l _ _ => hw0 l)
      simp only [mem_filter] at hl
      exact mem_range.2 hl.2
    refine s1.trans ?_
    have := sum_blocks_le w hwa 12 q
    push_cast at this
    exact this
  have lo : (M : ℝ) + 16 / 25 * (Pq - M) ≤ ∑ l ∈ range M, w l * (ghSz (.fin 1) 0 2 (l / m) / 12) ^ 2 := by
    have b : ∀ l, l < q → 4 / 5 ≤ ghSz (.fin 1) 0 2 (l / m) / 12 := by
      intro l hl
      have h4 : 4 * l ≤ m := by omega
      have h4' : (4 : ℝ) * l ≤ m := by exact_mod_cast h4
      have ht0 : (0 : ℝ) ≤ (l : ℝ) / m := by positivity
      have ht : (l : ℝ) / m ≤ 1 / 4 := by
        rw [div_le_iff₀ hm']
        linarith
      rw [ghSz_mod_small _ ht0 (by linarith)]
      generalize (l : ℝ) / m = t at *
      nlinarith [mul_nonneg ht0 (sq_nonneg t), mul_le_mul ht ht ht0 (by norm_num)]
    have e1 : ∑ l ∈ range M, w l * (ghSz (.fin 1) 0 2 (l / m) / 12) ^ 2
        = (M : ℝ) + ∑ l ∈ Ico 1 M, w l * (ghSz (.fin 1) 0 2 (l / m) / 12) ^ 2 := by
      rw [range_eq_Ico, sum_eq_sum_Ico_succ_bot hM, hz, hweq 0 hM]
      push_cast
      norm_num
    have e2 : Pq = M + ∑ l ∈ Ico 1 q, w l := by
      rw [hPq, range_eq_Ico, sum_eq_sum_Ico_succ_bot hq, hweq 0 hM]
      push_cast
      norm_num
    have e3 : 16 / 25 * ∑ l ∈ Ico 1 q, w l ≤ ∑ l ∈ Ico 1 M, w l * (ghSz (.fin 1) 0 2 (l / m) / 12) ^ 2 := by
      rw [mul_sum]
      have t1 : ∀ l ∈ Ico 1 q, 16 / 25 * w l ≤ if l < M then w l * (ghSz (.fin 1) 0 2 (l / m) / 12) ^ 2 else 0 := by
        intro l hl
        split_ifs with h
        · have := b l (mem_Ico.1 hl).2
          have h2 : 16 / 25 ≤ (ghSz (.fin 1) 0 2 (l / m) / 12) ^ 2 := by nlinarith
          have := mul_le_mul_of_nonneg_left h2 (hw0 l)
          linarith
        · rw [hwz l (by omega)]
          simp
      refine (sum_le_sum t1).trans ?_
      rw [← sum_filter]
      refine sum_le_sum_of_subset_of_nonneg (fun l hl => ?_) (fun l _ _ => mul_nonneg (hw0 l) (sq_nonneg _))
      simp only [mem_filter, mem_Ico] at hl ⊢
      omega
    rw [e1, e2]
    linarith
  norm_num
  nlinarith [up, lo, hP]

end AT
