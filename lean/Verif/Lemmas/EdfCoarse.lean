import Verif.Props.EdfTable
import Verif.Lemmas.EdfTrap

/-!
# The basic sum of 100 terms (for C90)
-/

namespace AT

open Spec Finset

/-- weighted squared covariance over the lags, as a function on `[0, 1]` -/
noncomputable def lagWt (z : ℝ → ℝ) (r s : ℝ) : ℝ := (1 - s) * (z (r * s) / z 0) ^ 2

theorem trapz_lagN (z : ℝ → ℝ) (hz : z 0 ≠ 0) (m M : ℕ) (hM : 0 < M) :
    (M : ℝ) ^ 2 * z 0 ^ 2 / lagN M (fun l => z ((l : ℝ) / m)) = 1 / (2 * trapz M (lagWt z ((M : ℝ) / m))) := by
  have hM' : (0 : ℝ) < M := by exact_mod_cast hM
  have h1 := trapz_sum M hM (lagWt z ((M : ℝ) / m)) (by simp [lagWt])
  have h2 : lagN M (fun l : ℕ => z ((l : ℝ) / m)) = M * z 0 ^ 2 * (2 * M * trapz M (lagWt z ((M : ℝ) / m))) := by
    rw [lagN_eq M hM, h1, lagWt, mul_zero, sub_zero, div_self hz, mul_add, mul_left_comm, mul_sum]
    simp only [Nat.cast_zero, zero_div]
    have e : ∀ l ∈ Ico 1 M, (M : ℝ) * z 0 ^ 2 * lagWt z ((M : ℝ) / m) (l / M) = ((M : ℝ) - l) * z ((l : ℝ) / m) ^ 2 := fun l _ => by
      rw [lagWt, show (M : ℝ) / m * (l / M) = l / m by field_simp]
      field_simp
    rw [← mul_sum, ← sum_congr rfl e, ← mul_sum]
    ring
  rw [h2, show (M : ℝ) * z 0 ^ 2 * (2 * M * trapz M (lagWt z ((M : ℝ) / m)))
    = (M : ℝ) ^ 2 * z 0 ^ 2 * (2 * trapz M (lagWt z ((M : ℝ) / m))) by ring, ← div_div, div_self (by positivity)]

theorem trapz_coarse (F : FArg) (alpha : ℤ) (d : ℕ) (r : ℝ) (h0 : ghSz F alpha d 0 ≠ 0) :
    ghSz F alpha d 0 ^ 2 * 100 / ghSum 100 100 (100 / r) F alpha d
      = 1 / (2 * trapz 100 (lagWt (ghSz F alpha d) r)) := by
  have h1 := trapz_sum 100 (by norm_num) (lagWt (ghSz F alpha d) r) (by simp [lagWt])
  have h2 : ghSum 100 100 (100 / r) F alpha d
      = ghSz F alpha d 0 ^ 2 * (2 * 100 * trapz 100 (lagWt (ghSz F alpha d) r)) := by
    push_cast at h1
    rw [h1, ghSum, lagWt, mul_zero, sub_zero, div_self h0]
    have e : ∀ j ∈ Ico (1 : ℕ) 100, 2 * (1 - (j : ℝ) / 100) * ghSz F alpha d (j / (100 / r)) ^ 2
        = 2 * (ghSz F alpha d 0 ^ 2 * lagWt (ghSz F alpha d) r (j / 100)) := fun j _ => by
      rw [lagWt, show r * ((j : ℝ) / 100) = j / (100 / r) by rw [div_div_eq_mul_div]; ring]
      field_simp
    rw [sum_congr rfl e, ← mul_sum, ← mul_sum]
    push_cast
    ring
  rw [h2, show ghSz F alpha d 0 ^ 2 * (2 * 100 * trapz 100 (lagWt (ghSz F alpha d) r))
    = ghSz F alpha d 0 ^ 2 * 100 * (2 * trapz 100 (lagWt (ghSz F alpha d) r)) by ring, ← div_div, div_self (by positivity)]

/-- distance of the square roots -/
theorem coarse_sqrt (a b B K η ε : ℝ) (hB : 0 < B) (ha : B ≤ a) (h : |a - b| ≤ K) (hK : K ≤ η * B) (hη : η < 1)
    (hε : η ≤ ε * (2 - η)) :
    0 < b ∧ |√(1 / (2 * a)) - √(1 / (2 * b))| ≤ ε * √(1 / (2 * b)) := by
  have ha0 : 0 < a := by linarith
  have hη0 : 0 ≤ η := by
    have : 0 ≤ K := (abs_nonneg _).trans h
    by_contra hn
    nlinarith
  have h1 : |a - b| ≤ η * a := h.trans (hK.trans (mul_le_mul_of_nonneg_left ha hη0))
  have hb : 0 < b := by
    have := (abs_le.1 h1).2
    nlinarith
  refine ⟨hb, ?_⟩
  have hq : 0 < b / a := by positivity
  have hx1 : 1 - η ≤ b / a := by
    rw [le_div_iff₀ ha0]
    have := (abs_le.1 h1).2
    linarith
  have hx2 : |b / a - 1| ≤ η := by
    rw [show b / a - 1 = (b - a) / a by field_simp, abs_div, abs_of_pos ha0, div_le_iff₀ ha0, abs_sub_comm]
    exact h1
  have hs : 1 - η ≤ √(b / a) := by
    refine Real.le_sqrt_of_sq_le (le_trans ?_ hx1)
    nlinarith
  have h3 : b / a - 1 = (√(b / a) - 1) * (√(b / a) + 1) := by
    have := Real.mul_self_sqrt hq.le
    linear_combination -this
  have h4 : |√(b / a) - 1| ≤ ε := by
    rw [h3, abs_mul, abs_of_pos (by linarith : 0 < √(b / a) + 1)] at hx2
    have h5 : |√(b / a) - 1| * (2 - η) ≤ ε * (2 - η) :=
      le_trans (mul_le_mul_of_nonneg_left (by linarith) (abs_nonneg _)) (hx2.trans hε)
    exact le_of_mul_le_mul_right h5 (by linarith)
  rw [show 1 / (2 * a) = 1 / (2 * b) * (b / a) by field_simp, Real.sqrt_mul (by positivity),
    show √(1 / (2 * b)) * √(b / a) - √(1 / (2 * b)) = (√(b / a) - 1) * √(1 / (2 * b)) by ring, abs_mul,
    abs_of_nonneg (Real.sqrt_nonneg (1 / (2 * b)))]
  exact mul_le_mul_of_nonneg_right h4 (Real.sqrt_nonneg _)

/-! ## Piecewise linear covariances -/

theorem fm2_hinges (t : ℝ) (ht : 0 ≤ t) : (ghSz .inf 0 2 t / ghSz .inf 0 2 0) ^ 2
    = 1 - 3 * max (t - 0) 0 ^ 1 + 9 / 4 * max (t - 0) 0 ^ 2 - 2 * max (t - 1) 0 ^ 1 - 2 * max (t - 1) 0 ^ 2
      - 1 / 4 * max (t - 2) 0 ^ 2 := by
  rw [fm2_piece0 0 le_rfl zero_le_one, sub_zero, max_eq_left ht]
  rcases le_total t 1 with h1 | h1
  · rw [fm2_piece0 t ht h1, max_eq_right (by linarith), max_eq_right (by linarith)]
    ring
  · rw [max_eq_left (by linarith : 0 ≤ t - 1)]
    rcases le_total t 2 with h2 | h2
    · have := fm2_piece1 (t - 1) (by linarith) (by linarith)
      rw [show 1 + (t - 1) = t by ring] at this
      rw [this, max_eq_right (by linarith)]
      ring
    · rw [max_eq_left (by linarith : 0 ≤ t - 2), ghSz_fm2, tri_out (u := t) (.inr (by linarith)),
        tri_out (u := t - 1) (.inr (by linarith)), tri_out (u := t + 1) (.inr (by linarith))]
      ring

theorem pm_hinges (t : ℝ) (ht : 0 ≤ t) : (ghSz (.fin 1) 2 2 t / ghSz (.fin 1) 2 2 0) ^ 2
    = 1 - 10 / 3 * max (t - 0) 0 ^ 1 + 25 / 9 * max (t - 0) 0 ^ 2 - 10 / 3 * max (t - 1) 0 ^ 1
      - 25 / 12 * max (t - 1) 0 ^ 2 - 1 / 3 * max (t - 2) 0 ^ 1 - 2 / 3 * max (t - 2) 0 ^ 2 - 1 / 36 * max (t - 3) 0 ^ 2 := by
  rw [pm_piece0 0 le_rfl zero_le_one, sub_zero, max_eq_left ht]
  rcases le_total t 1 with h1 | h1
  · rw [pm_piece0 t ht h1, max_eq_right (by linarith), max_eq_right (by linarith), max_eq_right (by linarith)]
    ring
  · rw [max_eq_left (by linarith : 0 ≤ t - 1)]
    rcases le_total t 2 with h2 | h2
    · have := pm_piece1 (t - 1) (by linarith) (by linarith)
      rw [show 1 + (t - 1) = t by ring] at this
      rw [this, max_eq_right (by linarith), max_eq_right (by linarith)]
      ring
    · rw [max_eq_left (by linarith : 0 ≤ t - 2)]
      rcases le_total t 3 with h3 | h3
      · have := pm_piece2 (t - 2) (by linarith) (by linarith)
        rw [show 2 + (t - 2) = t by ring] at this
        rw [this, max_eq_right (by linarith)]
        ring
      · rw [max_eq_left (by linarith : 0 ≤ t - 3), ghSz_pm, tri_out (u := t) (.inr (by linarith)),
          tri_out (u := t - 1) (.inr (by linarith)), tri_out (u := t + 1) (.inr (by linarith)),
          tri_out (u := t - 2) (.inr (by linarith)), tri_out (u := t + 2) (.inr (by linarith))]
        ring

theorem trapNear_const (n M : ℕ) (hn : 0 < n) (hM : n ≤ M) : TrapNear n M (fun x => 1 - x) 0 := by
  have := trapNear_convex (fun x => 1 - x) (fun _ => -1) (by fun_prop) n M hn hM le_rfl (fun x y _ _ _ _ => by linarith)
  rwa [sub_self] at this

theorem max_le_mul (r i R : ℝ) (k : ℕ) (h : r ≤ R) (hR : i ≤ R) : max (r - i) 0 ^ k ≤ (R - i) ^ k := by
  refine pow_le_pow_left₀ (le_max_right _ _) (max_le (by linarith) (by linarith)) k

theorem fm2_trap (r : ℝ) (hr : 0 < r) (hr3 : r ≤ 3) (M : ℕ) (hM : 100 ≤ M) :
    TrapNear 100 M (lagWt (ghSz .inf 0 2) r) (363 / 2) := by
  have h := fun i k hi hk => trapNear_term r i k hr hi hk 100 M (by norm_num) hM
  have := ((((((trapNear_const 100 M (by norm_num) hM).add ((h 0 1 le_rfl le_rfl).mul (-3))).add
    ((h 0 2 le_rfl (by norm_num)).mul (9 / 4))).add ((h 1 1 (by norm_num) le_rfl).mul (-2))).add
    ((h 1 2 (by norm_num) (by norm_num)).mul (-2))).add ((h 2 2 (by norm_num) (by norm_num)).mul (-(1 / 4))))
  refine this.congr (by norm_num) (by omega) (fun x hx0 _ => ?_) ?_
  · rw [lagWt, fm2_hinges _ (by positivity)]
    ring
  · have a1 := max_le_mul r 0 3 1 hr3 (by norm_num)
    have a2 := max_le_mul r 0 3 2 hr3 (by norm_num)
    have a3 := max_le_mul r 1 3 1 hr3 (by norm_num)
    have a4 := max_le_mul r 1 3 2 hr3 (by norm_num)
    have a5 := max_le_mul r 2 3 2 hr3 (by norm_num)
    simp only [abs_neg]
    rw [abs_of_pos (by norm_num : (0 : ℝ) < 3), abs_of_pos (by norm_num : (0 : ℝ) < 9 / 4), abs_of_pos (by norm_num : (0 : ℝ) < 2),
      abs_of_pos (by norm_num : (0 : ℝ) < 1 / 4)]
    push_cast
    linarith

theorem pm_trap (r R : ℝ) (hr : 0 < r) (hr3 : r ≤ R) (hR : 3 ≤ R) (M : ℕ) (hM : 100 ≤ M) :
    TrapNear 100 M (lagWt (ghSz (.fin 1) 2 2) r) (10 * R + 125 / 9 * R ^ 2 + 10 * (R - 1) + 125 / 12 * (R - 1) ^ 2
      + (R - 2) + 10 / 3 * (R - 2) ^ 2 + 5 / 36 * (R - 3) ^ 2) := by
  have h := fun i k hi hk => trapNear_term r i k hr hi hk 100 M (by norm_num) hM
  have := ((((((((trapNear_const 100 M (by norm_num) hM).add ((h 0 1 le_rfl le_rfl).mul (-(10 / 3)))).add
    ((h 0 2 le_rfl (by norm_num)).mul (25 / 9))).add ((h 1 1 (by norm_num) le_rfl).mul (-(10 / 3)))).add
    ((h 1 2 (by norm_num) (by norm_num)).mul (-(25 / 12)))).add ((h 2 1 (by norm_num) (by norm_num)).mul (-(1 / 3)))).add
    ((h 2 2 (by norm_num) (by norm_num)).mul (-(2 / 3)))).add ((h 3 2 (by norm_num) (by norm_num)).mul (-(1 / 36))))
  refine this.congr (by norm_num) (by omega) (fun x hx0 _ => ?_) ?_
  · rw [lagWt, pm_hinges _ (by positivity)]
    ring
  · have a1 := max_le_mul r 0 R 1 hr3 (by linarith)
    have a2 := max_le_mul r 0 R 2 hr3 (by linarith)
    have a3 := max_le_mul r 1 R 1 hr3 (by linarith)
    have a4 := max_le_mul r 1 R 2 hr3 (by linarith)
    have a5 := max_le_mul r 2 R 1 hr3 (by linarith)
    have a6 := max_le_mul r 2 R 2 hr3 (by linarith)
    have a7 := max_le_mul r 3 R 2 hr3 (by linarith)
    simp only [abs_neg]
    rw [abs_of_pos (by norm_num : (0 : ℝ) < 10 / 3), abs_of_pos (by norm_num : (0 : ℝ) < 25 / 9), abs_of_pos (by norm_num : (0 : ℝ) < 25 / 12),
      abs_of_pos (by norm_num : (0 : ℝ) < 1 / 3), abs_of_pos (by norm_num : (0 : ℝ) < 2 / 3), abs_of_pos (by norm_num : (0 : ℝ) < 1 / 36)]
    push_cast
    rw [pow_one, sub_zero] at *
    linarith

/-! ## Lower bounds of the sum of 100 terms -/

theorem trapz_lower (g f : ℝ → ℝ) (n : ℕ) (hn : n ≤ 100) (hn0 : 0 < n) (h1 : g 1 = 0) (h0 : ∀ x, 0 ≤ x → x ≤ 1 → 0 ≤ g x)
    (h : ∀ j, j < n → f ((j : ℝ) / 100) ≤ g ((j : ℝ) / 100)) :
    f 0 + 2 * ∑ j ∈ Ico 1 n, f ((j : ℝ) / 100) ≤ 200 * trapz 100 g := by
  have h2 := trapz_sum 100 (by norm_num) g h1
  push_cast at h2
  rw [show (200 : ℝ) = 2 * 100 by norm_num, h2]
  have h3 : ∑ j ∈ Ico 1 n, f ((j : ℝ) / 100) ≤ ∑ j ∈ Ico (1 : ℕ) 100, g ((j : ℝ) / 100) := by
    refine (sum_le_sum fun j hj => h j (mem_Ico.1 hj).2).trans ?_
    refine sum_le_sum_of_subset_of_nonneg (Ico_subset_Ico_right hn) fun j hj _ => h0 _ (by positivity) ?_
    have : (j : ℝ) < 100 := by exact_mod_cast (mem_Ico.1 hj).2
    linarith
  have h4 := h 0 hn0
  rw [Nat.cast_zero, zero_div] at h4
  linarith

theorem lagWt_nonneg (z : ℝ → ℝ) (r x : ℝ) (h : x ≤ 1) : 0 ≤ lagWt z r x := by
  have : 0 ≤ 1 - x := by linarith
  unfold lagWt
  positivity

theorem fm2_lower (r : ℝ) (hr : 0 < r) (hr3 : r ≤ 3) : 0.07 ≤ trapz 100 (lagWt (ghSz .inf 0 2) r) := by
  have := trapz_lower (lagWt (ghSz .inf 0 2) r) (fun x => (1 - x) * (1 - 9 / 2 * x) ^ 2) 23 (by norm_num) (by norm_num)
    (by simp [lagWt]) (fun x _ h => lagWt_nonneg _ _ _ h) (fun j hj => by
      have hj' : (j : ℝ) ≤ 22 := by exact_mod_cast Nat.lt_succ_iff.1 hj
      have hj0 : (0 : ℝ) ≤ j := by positivity
      have hx : r * ((j : ℝ) / 100) ≤ 3 * (j / 100) := mul_le_mul_of_nonneg_right hr3 (by positivity)
      rw [lagWt, fm2_piece0 0 le_rfl zero_le_one, fm2_piece0 _ (by positivity) (by linarith)]
      refine mul_le_mul_of_nonneg_left ?_ (by linarith)
      exact pow_le_pow_left₀ (by linarith) (by linarith) 2)
  norm_num [sum_Ico_succ_top] at this
  linarith

theorem pm_lower3 (r : ℝ) (hr : 0 < r) (hr3 : r ≤ 3) : 0.063 ≤ trapz 100 (lagWt (ghSz (.fin 1) 2 2) r) := by
  have := trapz_lower (lagWt (ghSz (.fin 1) 2 2) r) (fun x => (1 - x) * (1 - 5 * x) ^ 2) 21 (by norm_num) (by norm_num)
    (by simp [lagWt]) (fun x _ h => lagWt_nonneg _ _ _ h) (fun j hj => by
      have hj' : (j : ℝ) ≤ 20 := by exact_mod_cast Nat.lt_succ_iff.1 hj
      have hj0 : (0 : ℝ) ≤ j := by positivity
      have hx : r * ((j : ℝ) / 100) ≤ 3 * (j / 100) := mul_le_mul_of_nonneg_right hr3 (by positivity)
      rw [lagWt, pm_piece0 0 le_rfl zero_le_one, pm_piece0 _ (by positivity) (by linarith)]
      refine mul_le_mul_of_nonneg_left ?_ (by linarith)
      exact pow_le_pow_left₀ (by linarith) (by linarith) 2)
  norm_num [sum_Ico_succ_top] at this
  linarith

theorem pm_lower4 (r : ℝ) (hr : 0 < r) (hr3 : r ≤ 4) : 0.048 ≤ trapz 100 (lagWt (ghSz (.fin 1) 2 2) r) := by
  have := trapz_lower (lagWt (ghSz (.fin 1) 2 2) r) (fun x => (1 - x) * (1 - 20 / 3 * x) ^ 2) 16 (by norm_num) (by norm_num)
    (by simp [lagWt]) (fun x _ h => lagWt_nonneg _ _ _ h) (fun j hj => by
      have hj' : (j : ℝ) ≤ 15 := by exact_mod_cast Nat.lt_succ_iff.1 hj
      have hj0 : (0 : ℝ) ≤ j := by positivity
      have hx : r * ((j : ℝ) / 100) ≤ 4 * (j / 100) := mul_le_mul_of_nonneg_right hr3 (by positivity)
      rw [lagWt, pm_piece0 0 le_rfl zero_le_one, pm_piece0 _ (by positivity) (by linarith)]
      refine mul_le_mul_of_nonneg_left ?_ (by linarith)
      exact pow_le_pow_left₀ (by linarith) (by linarith) 2)
  norm_num [sum_Ico_succ_top] at this
  linarith

theorem mod_lower (r : ℝ) (hr : 0 < r) (hr3 : r ≤ 3) : 0.096 ≤ trapz 100 (lagWt (ghSz (.fin 1) 0 2) r) := by
  have := trapz_lower (lagWt (ghSz (.fin 1) 0 2) r) (fun x => (1 - x) * (1 - 27 * x ^ 2) ^ 2) 20 (by norm_num) (by norm_num)
    (by simp [lagWt]) (fun x _ h => lagWt_nonneg _ _ _ h) (fun j hj => by
      have hj' : (j : ℝ) ≤ 19 := by exact_mod_cast Nat.lt_succ_iff.1 hj
      have hj0 : (0 : ℝ) ≤ j := by positivity
      have hx : r * ((j : ℝ) / 100) ≤ 3 * (j / 100) := mul_le_mul_of_nonneg_right hr3 (by positivity)
      have hx0 : 0 ≤ r * ((j : ℝ) / 100) := by positivity
      rw [lagWt, ghSz_mod_at0, ghSz_mod_small _ hx0 (by linarith)]
      refine mul_le_mul_of_nonneg_left ?_ (by linarith)
      have h3 : 0 ≤ (r * ((j : ℝ) / 100)) ^ 3 := by positivity
      refine pow_le_pow_left₀ (by nlinarith) ?_ 2
      nlinarith)
  norm_num [sum_Ico_succ_top] at this
  linarith

/-! ## The covariance of the modified differences -/

/-- `f` has the slope `p`, whose Lipschitz constant is `L`, and itself the Lipschitz constant `P` on `[a, b]` -/
def SmoothOn (f p : ℝ → ℝ) (L P a b : ℝ) : Prop :=
  ∀ x y, a ≤ x → x ≤ b → a ≤ y → y ≤ b → |f y - f x - p x * (y - x)| ≤ L / 2 * (y - x) ^ 2 ∧
    |p y - p x| ≤ L * |y - x| ∧ |f y - f x| ≤ P * |y - x|

theorem SmoothOn.glue {f p : ℝ → ℝ} {L P a b c : ℝ} (h1 : SmoothOn f p L P a b) (h2 : SmoothOn f p L P b c) :
    SmoothOn f p L P a c := by
  have key : ∀ x y, SmoothOn f p L P (min x b) (max x b) → SmoothOn f p L P (min b y) (max b y) → (x ≤ b ∧ b ≤ y ∨ y ≤ b ∧ b ≤ x) →
      |f y - f x - p x * (y - x)| ≤ L / 2 * (y - x) ^ 2 ∧ |p y - p x| ≤ L * |y - x| ∧ |f y - f x| ≤ P * |y - x| := by
    intro x y hx hy hb
    obtain ⟨u1, u2, u3⟩ := hx x b (min_le_left _ _) (le_max_left _ _) (min_le_right _ _) (le_max_right _ _)
    obtain ⟨v1, v2, v3⟩ := hy b y (min_le_left _ _) (le_max_left _ _) (min_le_right _ _) (le_max_right _ _)
    have e : |y - x| = |y - b| + |b - x| := by
      rcases hb with ⟨i, j⟩ | ⟨i, j⟩
      · rw [abs_of_nonneg (by linarith), abs_of_nonneg (by linarith), abs_of_nonneg (by linarith)]; ring
      · rw [abs_of_nonpos (by linarith), abs_of_nonpos (by linarith), abs_of_nonpos (by linarith)]; ring
    refine ⟨?_, ?_, ?_⟩
    · rw [show f y - f x - p x * (y - x) = (f y - f b - p b * (y - b)) + (f b - f x - p x * (b - x)) + (p b - p x) * (y - b) by ring]
      refine (abs_add_le _ _).trans ((add_le_add_left (abs_add_le _ _) _).trans ?_)
      rw [abs_mul]
      have h3 : |p b - p x| * |y - b| ≤ L * |b - x| * |y - b| := mul_le_mul_of_nonneg_right u2 (abs_nonneg _)
      have e2 : (y - x) ^ 2 = (|y - b| + |b - x|) ^ 2 := by rw [← e, sq_abs]
      rw [e2]
      rw [← sq_abs (y - b)] at v1
      rw [← sq_abs (b - x)] at u1
      nlinarith
    · rw [e, show p y - p x = (p y - p b) + (p b - p x) by ring, mul_add]
      exact (abs_add_le _ _).trans (add_le_add v2 u2)
    · rw [e, show f y - f x = (f y - f b) + (f b - f x) by ring, mul_add]
      exact (abs_add_le _ _).trans (add_le_add v3 u3)
  intro x y hx1 hx2 hy1 hy2
  rcases le_total x b with hx | hx
  · rcases le_total y b with hy | hy
    · exact h1 x y hx1 hx hy1 hy
    · refine key x y (fun u v => ?_) (fun u v => ?_) (.inl ⟨hx, hy⟩)
      · rw [min_eq_left hx, max_eq_right hx]
        exact fun i1 i2 i3 i4 => h1 u v (by linarith) i2 (by linarith) i4
      · rw [min_eq_left hy, max_eq_right hy]
        exact fun i1 i2 i3 i4 => h2 u v i1 (by linarith) i3 (by linarith)
  · rcases le_total y b with hy | hy
    · refine key x y (fun u v => ?_) (fun u v => ?_) (.inr ⟨hy, hx⟩)
      · rw [min_eq_right hx, max_eq_left hx]
        exact fun i1 i2 i3 i4 => h2 u v i1 (by linarith) i3 (by linarith)
      · rw [min_eq_right hy, max_eq_left hy]
        exact fun i1 i2 i3 i4 => h1 u v (by linarith) i2 (by linarith) i4
    · exact h2 x y hx hx2 hy hy2

/-- a cubic on `[i, i+1]` -/
theorem smooth_cubic (f p : ℝ → ℝ) (i A B C D L P : ℝ)
    (hf : ∀ s, 0 ≤ s → s ≤ 1 → f (i + s) = A + B * s + C * s ^ 2 + D * s ^ 3)
    (hp : ∀ s, 0 ≤ s → s ≤ 1 → p (i + s) = B + 2 * C * s + 3 * D * s ^ 2)
    (h1 : |C| ≤ L / 2) (h2 : |C + 3 * D| ≤ L / 2)
    (h3 : ∀ s t, 0 ≤ s → s ≤ 1 → 0 ≤ t → t ≤ 1 → |B + C * (s + t) + D * (s ^ 2 + s * t + t ^ 2)| ≤ P) :
    SmoothOn f p L P i (i + 1) := by
  intro x y hx1 hx2 hy1 hy2
  obtain ⟨s, rfl⟩ : ∃ s, x = i + s := ⟨x - i, by ring⟩
  obtain ⟨t, rfl⟩ : ∃ t, y = i + t := ⟨y - i, by ring⟩
  have s0 : 0 ≤ s := by linarith
  have s1 : s ≤ 1 := by linarith
  have t0 : 0 ≤ t := by linarith
  have t1 : t ≤ 1 := by linarith
  rw [hf s s0 s1, hf t t0 t1, hp s s0 s1, hp t t0 t1, show i + t - (i + s) = t - s by ring]
  rw [abs_le] at h1 h2
  have w : ∀ u, 0 ≤ u → u ≤ 3 → |C + D * u| ≤ L / 2 := fun u u0 u3 => by
    have e : C + D * u = (1 - u / 3) * C + u / 3 * (C + 3 * D) := by ring
    rw [e]
    exact abs_le.2 ⟨by nlinarith, by nlinarith⟩
  refine ⟨?_, ?_, ?_⟩
  · rw [show A + B * t + C * t ^ 2 + D * t ^ 3 - (A + B * s + C * s ^ 2 + D * s ^ 3) - (B + 2 * C * s + 3 * D * s ^ 2) * (t - s)
      = (C + D * (2 * s + t)) * (t - s) ^ 2 by ring, abs_mul, abs_of_nonneg (sq_nonneg (t - s))]
    exact mul_le_mul_of_nonneg_right (w _ (by linarith) (by linarith)) (sq_nonneg _)
  · rw [show B + 2 * C * t + 3 * D * t ^ 2 - (B + 2 * C * s + 3 * D * s ^ 2) = 2 * (C + D * (3 / 2 * (s + t))) * (t - s) by ring,
      abs_mul, abs_mul, abs_of_pos (by norm_num : (0 : ℝ) < 2)]
    exact mul_le_mul_of_nonneg_right (by linarith [w (3 / 2 * (s + t)) (by linarith) (by linarith)]) (abs_nonneg _)
  · rw [show A + B * t + C * t ^ 2 + D * t ^ 3 - (A + B * s + C * s ^ 2 + D * s ^ 3)
      = (B + C * (s + t) + D * (s ^ 2 + s * t + t ^ 2)) * (t - s) by ring, abs_mul]
    exact mul_le_mul_of_nonneg_right (h3 s t s0 s1 t0 t1) (abs_nonneg _)

/-- slope of the covariance -/
noncomputable def modSlope (t : ℝ) : ℝ :=
  if t ≤ 1 then -72 * t + 60 * t ^ 2 else if t ≤ 2 then -12 + 48 * (t - 1) - 30 * (t - 1) ^ 2 else 6 * (3 - t) ^ 2

theorem mod_smooth : SmoothOn (ghSz (.fin 1) 0 2) modSlope 72 22 0 3 := by
  have h0 : SmoothOn (ghSz (.fin 1) 0 2) modSlope 72 22 0 (0 + 1) := by
    refine smooth_cubic _ _ 0 12 0 (-36) 20 72 22 (fun s s0 s1 => ?_) (fun s s0 s1 => ?_) (by norm_num [abs_le]) (by norm_num [abs_le])
      (fun s t s0 s1 t0 t1 => abs_le.2 ⟨?_, ?_⟩)
    · rw [zero_add, ghSz_mod_small s s0 s1]
      ring
    · rw [zero_add, modSlope, if_pos s1]
      ring
    · nlinarith [sq_nonneg (s - t), sq_nonneg (s + t - 6 / 5)]
    · nlinarith [mul_nonneg s0 t0, mul_nonneg s0 (sub_nonneg.2 t1), mul_nonneg t0 (sub_nonneg.2 s1),
        mul_nonneg s0 (sub_nonneg.2 s1), mul_nonneg t0 (sub_nonneg.2 t1)]
  have h1 : SmoothOn (ghSz (.fin 1) 0 2) modSlope 72 22 1 (1 + 1) := by
    refine smooth_cubic _ _ 1 (-4) (-12) 24 (-10) 72 22 (fun s s0 s1 => ?_) (fun s s0 s1 => ?_) (by norm_num [abs_le]) (by norm_num [abs_le])
      (fun s t s0 s1 t0 t1 => abs_le.2 ⟨?_, ?_⟩)
    · rw [mod_piece1 s s0 s1]
      ring
    · rw [modSlope]
      split_ifs with i j
      · have : s = 0 := by linarith
        subst this
        norm_num
      · ring
      · exact absurd (by linarith) j
    · nlinarith [mul_nonneg s0 t0, mul_nonneg s0 (sub_nonneg.2 t1), mul_nonneg t0 (sub_nonneg.2 s1),
        mul_nonneg s0 (sub_nonneg.2 s1), mul_nonneg t0 (sub_nonneg.2 t1)]
    · nlinarith [sq_nonneg (s - t), sq_nonneg (s + t - 8 / 5)]
  have h2 : SmoothOn (ghSz (.fin 1) 0 2) modSlope 72 22 2 (2 + 1) := by
    refine smooth_cubic _ _ 2 (-2) 6 (-6) 2 72 22 (fun s s0 s1 => ?_) (fun s s0 s1 => ?_) (by norm_num [abs_le]) (by norm_num [abs_le])
      (fun s t s0 s1 t0 t1 => abs_le.2 ⟨?_, ?_⟩)
    · rw [mod_piece2 s s0 s1]
      ring
    · rw [modSlope]
      split_ifs with i j
      · exact absurd i (by linarith)
      · have : s = 0 := by linarith
        subst this
        norm_num
      · ring
    · nlinarith [mul_nonneg s0 t0]
    · nlinarith [mul_nonneg s0 t0, mul_nonneg s0 (sub_nonneg.2 t1), mul_nonneg t0 (sub_nonneg.2 s1),
        mul_nonneg s0 (sub_nonneg.2 s1), mul_nonneg t0 (sub_nonneg.2 t1)]
  norm_num at h0 h1 h2
  exact (h0.glue h1).glue h2

theorem mod_bound (t : ℝ) (h0 : 0 ≤ t) (h3 : t ≤ 3) : |ghSz (.fin 1) 0 2 t| ≤ 12 := by
  rcases le_total t 1 with h1 | h1
  · rw [ghSz_mod_small t h0 h1]
    exact abs_le.2 ⟨by nlinarith [pow_nonneg h0 3, pow_le_one₀ (n := 2) h0 h1], by nlinarith [sq_nonneg t]⟩
  · rcases le_total t 2 with h2 | h2
    · have := mod_piece1 (t - 1) (by linarith) (by linarith)
      rw [show 1 + (t - 1) = t by ring] at this
      rw [this]
      have a0 : 0 ≤ t - 1 := by linarith
      have a1 : t - 1 ≤ 1 := by linarith
      have b2 := pow_le_one₀ (n := 2) a0 a1
      have b3 := pow_le_one₀ (n := 3) a0 a1
      have c2 := pow_nonneg a0 2
      have c3 := pow_nonneg a0 3
      have d3 : (t - 1) ^ 3 ≤ (t - 1) ^ 2 := by nlinarith
      have d2 : (t - 1) ^ 2 ≤ t - 1 := by nlinarith
      exact abs_le.2 ⟨by nlinarith, by nlinarith⟩
    · have := mod_piece2 (t - 2) (by linarith) (by linarith)
      rw [show 2 + (t - 2) = t by ring] at this
      rw [this]
      have a0 : 0 ≤ 1 - (t - 2) := by linarith
      have a1 : 1 - (t - 2) ≤ 1 := by linarith
      have b3 := pow_le_one₀ (n := 3) a0 a1
      have c3 := pow_nonneg a0 3
      exact abs_le.2 ⟨by linarith, by linarith⟩

theorem mod_continuous : Continuous (ghSz (.fin 1) 0 2) := by
  have hx : ∀ u, ghSx (.fin 1) 0 u = 2 * |u| ^ 3 - |u - 1| ^ 3 - |u + 1| ^ 3 := by
    intro u
    simp [ghSx, ghSw]
  unfold ghSz
  simp only [hx]
  fun_prop

/-- slope of the weighted square -/
theorem weighted_square (Z Q : ℝ → ℝ) (L P : ℝ) (hP : 0 ≤ P) (h : SmoothOn Z Q L P 0 1) (hb : ∀ x, 0 ≤ x → x ≤ 1 → |Z x| ≤ 1)
    (x y : ℝ) (hx0 : 0 ≤ x) (hx1 : x ≤ 1) (hy0 : 0 ≤ y) (hy1 : y ≤ 1) :
    |(1 - y) * Z y ^ 2 - (1 - x) * Z x ^ 2 - (-(Z x ^ 2) + (1 - x) * (2 * Z x * Q x)) * (y - x)|
      ≤ (2 * L + 2 * P ^ 2 + 4 * P) / 2 * (y - x) ^ 2 := by
  obtain ⟨u1, -, u3⟩ := h x y hx0 hx1 hy0 hy1
  have bx := hb x hx0 hx1
  have bye := hb y hy0 hy1
  have hL : 0 ≤ L / 2 * (y - x) ^ 2 := (abs_nonneg _).trans u1
  have e : (1 - y) * Z y ^ 2 - (1 - x) * Z x ^ 2 - (-(Z x ^ 2) + (1 - x) * (2 * Z x * Q x)) * (y - x)
      = (1 - x) * (2 * Z x * (Z y - Z x - Q x * (y - x))) + (1 - x) * (Z y - Z x) ^ 2 - (y - x) * ((Z y - Z x) * (Z y + Z x)) := by
    ring
  have t1 : |(1 - x) * (2 * Z x * (Z y - Z x - Q x * (y - x)))| ≤ L * (y - x) ^ 2 := by
    rw [abs_mul, abs_mul, abs_mul, abs_of_nonneg (by linarith : 0 ≤ 1 - x), abs_of_pos (by norm_num : (0 : ℝ) < 2)]
    calc (1 - x) * (2 * |Z x| * |Z y - Z x - Q x * (y - x)|) ≤ 1 * (2 * 1 * (L / 2 * (y - x) ^ 2)) := by
          gcongr
          linarith
      _ = L * (y - x) ^ 2 := by ring
  have t2 : |(1 - x) * (Z y - Z x) ^ 2| ≤ P ^ 2 * (y - x) ^ 2 := by
    rw [abs_mul, abs_of_nonneg (by linarith : 0 ≤ 1 - x), ← sq_abs (Z y - Z x), ← sq_abs (y - x), abs_of_nonneg (sq_nonneg _), ← mul_pow]
    calc (1 - x) * |Z y - Z x| ^ 2 ≤ 1 * (P * |y - x|) ^ 2 := by
          gcongr
          linarith
      _ = _ := one_mul _
  have t3 : |(y - x) * ((Z y - Z x) * (Z y + Z x))| ≤ 2 * P * (y - x) ^ 2 := by
    rw [abs_mul, abs_mul, ← sq_abs (y - x)]
    have : |Z y + Z x| ≤ 2 := (abs_add_le _ _).trans (by linarith)
    calc |y - x| * (|Z y - Z x| * |Z y + Z x|) ≤ |y - x| * (P * |y - x| * 2) := by gcongr
      _ = _ := by ring
  rw [e]
  refine (abs_sub _ _).trans ((add_le_add_left (abs_add_le _ _) _).trans ?_)
  nlinarith

theorem mod_trap (r : ℝ) (hr : 0 < r) (hr3 : r ≤ 3) (M : ℕ) (hM : 100 ≤ M) :
    TrapNear 100 M (lagWt (ghSz (.fin 1) 0 2) r) 128 := by
  have hZ : SmoothOn (fun x => ghSz (.fin 1) 0 2 (r * x) / 12) (fun x => r * modSlope (r * x) / 12) 54 (11 / 2) 0 1 := by
    intro x y hx0 hx1 hy0 hy1
    obtain ⟨u1, u2, u3⟩ := mod_smooth (r * x) (r * y) (by positivity) (by nlinarith) (by positivity) (by nlinarith)
    rw [show r * y - r * x = r * (y - x) by ring] at u1 u2 u3
    have hr9 : r ^ 2 ≤ 9 := by nlinarith
    refine ⟨?_, ?_, ?_⟩
    · rw [show ghSz (.fin 1) 0 2 (r * y) / 12 - ghSz (.fin 1) 0 2 (r * x) / 12 - r * modSlope (r * x) / 12 * (y - x)
        = (ghSz (.fin 1) 0 2 (r * y) - ghSz (.fin 1) 0 2 (r * x) - modSlope (r * x) * (r * (y - x))) / 12 by ring,
        abs_div, abs_of_pos (by norm_num : (0 : ℝ) < 12), div_le_iff₀ (by norm_num)]
      refine u1.trans ?_
      rw [mul_pow]
      nlinarith [sq_nonneg (y - x)]
    · rw [abs_mul, abs_of_pos hr] at u2
      rw [← sub_div, ← mul_sub, abs_div, abs_mul, abs_of_pos (by norm_num : (0 : ℝ) < 12), abs_of_pos hr, div_le_iff₀ (by norm_num)]
      have := mul_le_mul_of_nonneg_left u2 hr.le
      nlinarith [abs_nonneg (y - x)]
    · rw [abs_mul, abs_of_pos hr] at u3
      rw [← sub_div, abs_div, abs_of_pos (by norm_num : (0 : ℝ) < 12), div_le_iff₀ (by norm_num)]
      nlinarith [abs_nonneg (y - x)]
  have hb : ∀ x, 0 ≤ x → x ≤ 1 → |ghSz (.fin 1) 0 2 (r * x) / 12| ≤ 1 := fun x h0 h1 => by
    rw [abs_div, abs_of_pos (by norm_num : (0 : ℝ) < 12), div_le_one (by norm_num)]
    exact mod_bound _ (by positivity) (by nlinarith)
  have e : lagWt (ghSz (.fin 1) 0 2) r = fun x => (1 - x) * (ghSz (.fin 1) 0 2 (r * x) / 12) ^ 2 := by
    funext x
    rw [lagWt, ghSz_mod_at0]
  rw [e]
  have hc := mod_continuous
  refine (trapNear_smooth _ _ (2 * 54 + 2 * (11 / 2) ^ 2 + 4 * (11 / 2)) (by fun_prop) 100 M (by norm_num) hM (by norm_num)
    (fun x y h1 h2 h3 h4 => weighted_square _ _ 54 (11 / 2) (by norm_num) hZ hb x y h1 h2 h3 h4)).congr (by norm_num) (by omega)
    (fun _ _ _ => rfl) ?_
  have h1 := hb 1 zero_le_one le_rfl
  have h2 : (ghSz (.fin 1) 0 2 (r * 1) / 12) ^ 2 ≤ 1 := by
    rw [← sq_abs]
    exact pow_le_one₀ (abs_nonneg _) h1
  have h3 : modSlope 0 = 0 := by simp [modSlope]
  rw [mul_zero, h3, ghSz_mod_at0]
  have h4 : |-(ghSz (.fin 1) 0 2 (r * 1) / 12) ^ 2 + (1 - 1) * (2 * (ghSz (.fin 1) 0 2 (r * 1) / 12) * (r * modSlope (r * 1) / 12))
      - (-((12 : ℝ) / 12) ^ 2 + (1 - 0) * (2 * (12 / 12) * (r * 0 / 12)))| ≤ 1 := by
    rw [show -(ghSz (.fin 1) 0 2 (r * 1) / 12) ^ 2 + (1 - 1) * (2 * (ghSz (.fin 1) 0 2 (r * 1) / 12) * (r * modSlope (r * 1) / 12))
      - (-((12 : ℝ) / 12) ^ 2 + (1 - 0) * (2 * (12 / 12) * (r * 0 / 12))) = 1 - (ghSz (.fin 1) 0 2 (r * 1) / 12) ^ 2 by ring]
    exact abs_le.2 ⟨by linarith, by nlinarith [sq_nonneg (ghSz (.fin 1) 0 2 (r * 1) / 12)]⟩
  linarith

end AT
