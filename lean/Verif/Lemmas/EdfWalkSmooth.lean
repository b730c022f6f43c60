import Verif.Lemmas.EdfWalkClosed
import Mathlib.Analysis.Calculus.MeanValue
import Mathlib.Analysis.Calculus.Deriv.Abs

/-!
# The basic sum of 100 terms for random walk frequency noise (for C94)
-/

namespace AT

open Spec Finset

/-- the weighted square of a smooth covariance -/
theorem smooth_trap (z q : ℝ → ℝ) (L P R L' P' : ℝ) (hz : z 0 ≠ 0) (hc : Continuous z) (hq : q 0 = 0) (hP' : 0 ≤ P')
    (h : SmoothOn z q L P 0 R) (hb : ∀ t, 0 ≤ t → t ≤ R → |z t| ≤ |z 0|) (hL' : L * R ^ 2 ≤ L' * |z 0|) (hL0 : 0 ≤ L)
    (hP : P * R ≤ P' * |z 0|) (hP0 : 0 ≤ P) (r : ℝ) (hr : 0 < r) (hrR : r ≤ R) (M : ℕ) (hM : 100 ≤ M) :
    TrapNear 100 M (lagWt z r) (1 + 2 / 3 * (2 * L' + 2 * P' ^ 2 + 4 * P')) := by
  have hz0 : 0 < |z 0| := abs_pos.2 hz
  have hL'0 : 0 ≤ L' := by
    by_contra hn
    have : 0 ≤ L * R ^ 2 := by positivity
    nlinarith
  have hr2 : L * r ^ 2 ≤ L' * |z 0| := le_trans (by gcongr) hL'
  have hr1 : P * r ≤ P' * |z 0| := le_trans (by gcongr) hP
  have hZ : SmoothOn (fun x => z (r * x) / z 0) (fun x => r * q (r * x) / z 0) L' P' 0 1 := by
    intro x y hx0 hx1 hy0 hy1
    obtain ⟨u1, u2, u3⟩ := h (r * x) (r * y) (by positivity) (by nlinarith) (by positivity) (by nlinarith)
    rw [show r * y - r * x = r * (y - x) by ring] at u1 u2 u3
    refine ⟨?_, ?_, ?_⟩
    · rw [show z (r * y) / z 0 - z (r * x) / z 0 - r * q (r * x) / z 0 * (y - x)
        = (z (r * y) - z (r * x) - q (r * x) * (r * (y - x))) / z 0 by ring,
        abs_div, div_le_iff₀ hz0]
      refine u1.trans ?_
      rw [mul_pow]
      nlinarith [mul_le_mul_of_nonneg_right hr2 (sq_nonneg (y - x))]
    · rw [abs_mul, abs_of_pos hr] at u2
      rw [← sub_div, ← mul_sub, abs_div, abs_mul, abs_of_pos hr, div_le_iff₀ hz0]
      have := mul_le_mul_of_nonneg_left u2 hr.le
      nlinarith [mul_le_mul_of_nonneg_right hr2 (abs_nonneg (y - x))]
    · rw [abs_mul, abs_of_pos hr] at u3
      rw [← sub_div, abs_div, div_le_iff₀ hz0]
      nlinarith [mul_le_mul_of_nonneg_right hr1 (abs_nonneg (y - x))]
  have hb' : ∀ x, 0 ≤ x → x ≤ 1 → |z (r * x) / z 0| ≤ 1 := fun x h0 h1 => by
    rw [abs_div, div_le_one hz0]
    exact hb _ (by positivity) (by nlinarith)
  unfold lagWt
  refine (trapNear_smooth _ _ (2 * L' + 2 * P' ^ 2 + 4 * P') (by fun_prop) 100 M (by norm_num) hM (by positivity)
    (fun x y h1 h2 h3 h4 => weighted_square _ _ L' P' hP' hZ hb' x y h1 h2 h3 h4)).congr (by norm_num) (by omega)
    (fun _ _ _ => rfl) ?_
  have h1 := hb' 1 zero_le_one le_rfl
  have h2 : (z (r * 1) / z 0) ^ 2 ≤ 1 := by
    rw [← sq_abs]
    exact pow_le_one₀ (abs_nonneg _) h1
  rw [mul_zero, hq, div_self hz]
  have h4 : |-(z (r * 1) / z 0) ^ 2 + (1 - 1) * (2 * (z (r * 1) / z 0) * (r * q (r * 1) / z 0))
      - (-((1 : ℝ)) ^ 2 + (1 - 0) * (2 * 1 * (r * 0 / z 0)))| ≤ 1 := by
    rw [show -(z (r * 1) / z 0) ^ 2 + (1 - 1) * (2 * (z (r * 1) / z 0) * (r * q (r * 1) / z 0))
      - (-((1 : ℝ)) ^ 2 + (1 - 0) * (2 * 1 * (r * 0 / z 0))) = 1 - (z (r * 1) / z 0) ^ 2 by ring]
    exact abs_le.2 ⟨by linarith, by nlinarith [sq_nonneg (z (r * 1) / z 0)]⟩
  linarith

/-! ## Second differences -/

/-- slope of the covariance -/
noncomputable def walkSlope2 (t : ℝ) : ℝ := if t ≤ 1 then -24 * t + 18 * t ^ 2 else if t ≤ 2 then -6 * (2 - t) ^ 2 else 0

theorem walk2_smooth : SmoothOn (ghSz .inf (-2) 2) walkSlope2 24 8 0 3 := by
  have h0 : SmoothOn (ghSz .inf (-2) 2) walkSlope2 24 8 0 (0 + 1) := by
    refine smooth_cubic _ _ 0 8 0 (-12) 6 24 8 (fun s s0 s1 => ?_) (fun s s0 s1 => ?_) (by norm_num [abs_le]) (by norm_num [abs_le])
      (fun s t s0 s1 t0 t1 => abs_le.2 ⟨?_, ?_⟩)
    · rw [zero_add, kernA2 s s0 s1]
      ring
    · rw [zero_add, walkSlope2, if_pos s1]
      ring
    · nlinarith [sq_nonneg (s - t), sq_nonneg (s + t - 4 / 3)]
    · nlinarith [mul_nonneg s0 t0, mul_nonneg s0 (sub_nonneg.2 t1), mul_nonneg t0 (sub_nonneg.2 s1),
        mul_nonneg s0 (sub_nonneg.2 s1), mul_nonneg t0 (sub_nonneg.2 t1)]
  have h1 : SmoothOn (ghSz .inf (-2) 2) walkSlope2 24 8 1 (1 + 1) := by
    refine smooth_cubic _ _ 1 2 (-6) 6 (-2) 24 8 (fun s s0 s1 => ?_) (fun s s0 s1 => ?_) (by norm_num [abs_le]) (by norm_num [abs_le])
      (fun s t s0 s1 t0 t1 => abs_le.2 ⟨?_, ?_⟩)
    · rw [kernA2_piece1 s s0 s1]
      ring
    · rw [walkSlope2]
      split_ifs with i j
      · have : s = 0 := by linarith
        subst this
        norm_num
      · ring
      · exact absurd (by linarith) j
    · nlinarith [mul_nonneg s0 t0, mul_nonneg s0 (sub_nonneg.2 t1), mul_nonneg t0 (sub_nonneg.2 s1),
        mul_nonneg s0 (sub_nonneg.2 s1), mul_nonneg t0 (sub_nonneg.2 t1)]
    · nlinarith [mul_nonneg s0 t0, sq_nonneg (s + t - 2)]
  have h2 : SmoothOn (ghSz .inf (-2) 2) walkSlope2 24 8 2 (2 + 1) := by
    refine smooth_cubic _ _ 2 0 0 0 0 24 8 (fun s s0 s1 => ?_) (fun s s0 s1 => ?_) (by norm_num [abs_le]) (by norm_num [abs_le])
      (fun s t s0 s1 t0 t1 => by norm_num)
    · rw [kernA2_far _ (by linarith)]
      ring
    · rw [walkSlope2]
      split_ifs with i j
      · exact absurd i (by linarith)
      · have : s = 0 := by linarith
        subst this
        norm_num
      · ring
  norm_num at h0 h1 h2
  exact (h0.glue h1).glue h2

theorem walk_continuous (d : ℕ) : Continuous (ghSz .inf (-2) d) := by
  have hx : ∀ u, ghSx .inf (-2) u = |u| ^ 3 := fun u => by simp [ghSx, ghSw]
  unfold ghSz
  simp only [hx]
  fun_prop

theorem walk2_bound (t : ℝ) (h0 : 0 ≤ t) : |ghSz .inf (-2) 2 t| ≤ 8 := by
  rcases le_total t 1 with h1 | h1
  · rw [kernA2 t h0 h1]
    exact abs_le.2 ⟨by nlinarith [pow_nonneg h0 3, pow_le_one₀ (n := 2) h0 h1], by nlinarith [sq_nonneg t]⟩
  · rcases le_total t 2 with h2 | h2
    · have := kernA2_piece1 (t - 1) (by linarith) (by linarith)
      rw [show 1 + (t - 1) = t by ring] at this
      rw [this]
      have a0 : 0 ≤ 1 - (t - 1) := by linarith
      have a1 : 1 - (t - 1) ≤ 1 := by linarith
      have b3 := pow_le_one₀ (n := 3) a0 a1
      have c3 := pow_nonneg a0 3
      exact abs_le.2 ⟨by linarith, by linarith⟩
    · rw [kernA2_far t h2]
      norm_num

theorem walk2_zero : ghSz .inf (-2) 2 0 = 8 := by
  rw [kernA2 0 le_rfl zero_le_one]
  norm_num

theorem walk2_trap (r : ℝ) (hr : 0 < r) (hr3 : r ≤ 3) (M : ℕ) (hM : 100 ≤ M) :
    TrapNear 100 M (lagWt (ghSz .inf (-2) 2) r) (1 + 2 / 3 * (2 * 27 + 2 * 3 ^ 2 + 4 * 3)) :=
  smooth_trap _ walkSlope2 24 8 3 27 3 (by rw [walk2_zero]; norm_num) (walk_continuous 2) (by simp [walkSlope2]) (by norm_num)
    walk2_smooth (fun t h0 _ => by rw [walk2_zero, abs_of_pos (by norm_num : (0 : ℝ) < 8)]; exact walk2_bound t h0)
    (by rw [walk2_zero]; norm_num) (by norm_num) (by rw [walk2_zero]; norm_num) (by norm_num) r hr hr3 M hM

theorem walk2_lower (r : ℝ) (hr : 0 < r) (hr3 : r ≤ 3) : 0.12 ≤ trapz 100 (lagWt (ghSz .inf (-2) 2) r) := by
  have := trapz_lower (lagWt (ghSz .inf (-2) 2) r) (fun x => (1 - x) * (1 - 27 / 2 * x ^ 2) ^ 2) 27 (by norm_num) (by norm_num)
    (by simp [lagWt]) (fun x _ h => lagWt_nonneg _ _ _ h) (fun j hj => by
      have hj' : (j : ℝ) ≤ 26 := by exact_mod_cast Nat.lt_succ_iff.1 hj
      have hj0 : (0 : ℝ) ≤ j := by positivity
      have hx : r * ((j : ℝ) / 100) ≤ 3 * (j / 100) := mul_le_mul_of_nonneg_right hr3 (by positivity)
      have hx0 : 0 ≤ r * ((j : ℝ) / 100) := by positivity
      rw [lagWt, walk2_zero, kernA2 _ hx0 (by linarith)]
      refine mul_le_mul_of_nonneg_left ?_ (by linarith)
      have h3 : 0 ≤ (r * ((j : ℝ) / 100)) ^ 3 := by positivity
      refine pow_le_pow_left₀ (by nlinarith) ?_ 2
      nlinarith)
  norm_num [sum_Ico_succ_top] at this
  linarith

/-! ## Third differences -/

theorem walk3_eq : ghSz .inf (-2) 3 = ghSz (.fin 1) 0 2 := funext kernA3_mod

theorem walk3_zero : ghSz .inf (-2) 3 0 = 12 := by rw [walk3_eq, ghSz_mod_at0]

/-- slope of the covariance -/
noncomputable def walkSlope3 (t : ℝ) : ℝ := if t ≤ 3 then modSlope t else 0

theorem walk3_smooth : SmoothOn (ghSz .inf (-2) 3) walkSlope3 72 22 0 4 := by
  have h0 : SmoothOn (ghSz .inf (-2) 3) walkSlope3 72 22 0 3 := by
    intro x y hx hx3 hy hy3
    rw [walk3_eq, walkSlope3, walkSlope3, if_pos hx3, if_pos hy3]
    exact mod_smooth x y hx hx3 hy hy3
  have h1 : SmoothOn (ghSz .inf (-2) 3) walkSlope3 72 22 3 (3 + 1) := by
    refine smooth_cubic _ _ 3 0 0 0 0 72 22 (fun s s0 s1 => ?_) (fun s s0 s1 => ?_) (by norm_num [abs_le]) (by norm_num [abs_le])
      (fun s t s0 s1 t0 t1 => by norm_num)
    · rw [walk3_eq, sz_fin_zero 1 le_rfl 2 (.inl rfl) _ (by push_cast; linarith)]
      ring
    · rw [walkSlope3]
      split_ifs with i
      · have : s = 0 := by linarith
        subst this
        norm_num [modSlope]
      · ring
  norm_num at h1
  exact h0.glue h1

theorem walk3_bound (t : ℝ) (h0 : 0 ≤ t) : |ghSz .inf (-2) 3 t| ≤ 12 := by
  rw [walk3_eq]
  rcases le_total t 3 with h | h
  · exact mod_bound t h0 h
  · rw [sz_fin_zero 1 le_rfl 2 (.inl rfl) _ (by push_cast; linarith)]
    norm_num

theorem walk3_trap (r : ℝ) (hr : 0 < r) (hr4 : r ≤ 4) (M : ℕ) (hM : 100 ≤ M) :
    TrapNear 100 M (lagWt (ghSz .inf (-2) 3) r) (1 + 2 / 3 * (2 * 96 + 2 * (22 / 3) ^ 2 + 4 * (22 / 3))) :=
  smooth_trap _ walkSlope3 72 22 4 96 (22 / 3) (by rw [walk3_zero]; norm_num) (walk_continuous 3)
    (by norm_num [walkSlope3, modSlope]) (by norm_num) walk3_smooth
    (fun t h0 _ => by rw [walk3_zero, abs_of_pos (by norm_num : (0 : ℝ) < 12)]; exact walk3_bound t h0)
    (by rw [walk3_zero]; norm_num) (by norm_num) (by rw [walk3_zero]; norm_num) (by norm_num) r hr hr4 M hM

theorem walk3_lower (r : ℝ) (hr : 0 < r) (hr4 : r ≤ 4) : 0.072 ≤ trapz 100 (lagWt (ghSz .inf (-2) 3) r) := by
  have := trapz_lower (lagWt (ghSz .inf (-2) 3) r) (fun x => (1 - x) * (1 - 48 * x ^ 2) ^ 2) 15 (by norm_num) (by norm_num)
    (by simp [lagWt]) (fun x _ h => lagWt_nonneg _ _ _ h) (fun j hj => by
      have hj' : (j : ℝ) ≤ 14 := by exact_mod_cast Nat.lt_succ_iff.1 hj
      have hj0 : (0 : ℝ) ≤ j := by positivity
      have hx : r * ((j : ℝ) / 100) ≤ 4 * (j / 100) := mul_le_mul_of_nonneg_right hr4 (by positivity)
      have hx0 : 0 ≤ r * ((j : ℝ) / 100) := by positivity
      rw [lagWt, walk3_zero, walk3_eq, ghSz_mod_small _ hx0 (by linarith)]
      refine mul_le_mul_of_nonneg_left ?_ (by linarith)
      have h3 : 0 ≤ (r * ((j : ℝ) / 100)) ^ 3 := by positivity
      refine pow_le_pow_left₀ (by nlinarith) ?_ 2
      nlinarith)
  norm_num [sum_Ico_succ_top] at this
  linarith

/-! ## Modified second differences -/

theorem hasDerivAt_mul_abs (u : ℝ) : HasDerivAt (fun u : ℝ => u * |u|) (2 * |u|) u := by
  rcases lt_trichotomy u 0 with h | h | h
  · have := ((hasDerivAt_id u).mul (hasDerivAt_abs h.ne))
    refine this.congr_deriv ?_
    rw [sign_neg h, abs_of_neg h]
    simp
    ring
  · subst h
    have e : HasDerivAt (fun u : ℝ => u * |u|) 0 0 := by
      rw [hasDerivAt_iff_isLittleO_nhds_zero]
      simp only [zero_add, abs_zero, mul_zero, sub_zero, smul_zero]
      refine Asymptotics.isLittleO_iff.2 fun c hc => ?_
      filter_upwards [Metric.ball_mem_nhds (0 : ℝ) hc] with x hx
      rw [Metric.mem_ball, dist_zero_right] at hx
      rw [norm_mul, Real.norm_eq_abs, Real.norm_eq_abs, abs_abs]
      exact mul_le_mul_of_nonneg_right (by simpa using hx.le) (abs_nonneg _)
    simpa using e
  · have := ((hasDerivAt_id u).mul (hasDerivAt_abs h.ne'))
    refine this.congr_deriv ?_
    rw [sign_pos h, abs_of_pos h]
    simp
    ring

theorem hasDerivAt_abs5 (u : ℝ) : HasDerivAt (fun u : ℝ => |u| ^ 5) (5 * (u ^ 3 * |u|)) u := by
  have h := (hasDerivAt_mul_abs u).mul (hasDerivAt_pow 3 u)
  have e : (fun u : ℝ => |u| ^ 5) = (fun u => u * |u|) * fun u => u ^ 3 := by
    funext u
    simp only [Pi.mul_apply]
    rw [show |u| ^ 5 = (|u| ^ 2) ^ 2 * |u| by ring, sq_abs]
    ring
  rw [e]
  refine h.congr_deriv ?_
  push_cast
  ring

theorem hasDerivAt_cube_abs (u : ℝ) : HasDerivAt (fun u : ℝ => u ^ 3 * |u|) (4 * |u| ^ 3) u := by
  have h := (hasDerivAt_mul_abs u).mul (hasDerivAt_pow 2 u)
  have e : (fun u : ℝ => u ^ 3 * |u|) = (fun u => u * |u|) * fun u => u ^ 2 := by
    funext u
    simp only [Pi.mul_apply]
    ring
  rw [e]
  refine h.congr_deriv ?_
  rw [show |u| ^ 3 = |u| ^ 2 * |u| by ring, sq_abs]
  push_cast
  ring

/-- slope of the covariance -/
noncomputable def quinticSlope (t : ℝ) : ℝ :=
  ∑ i ∈ range 7, (-1 : ℝ) ^ (3 + i) * (2 * 3).choose i * (5 * ((t + i - (3 : ℕ)) ^ 3 * |t + i - (3 : ℕ)|))

theorem quintic_deriv (t : ℝ) : HasDerivAt (ghSz (.fin 1) (-2) 2) (quinticSlope t) t := by
  rw [show ghSz (.fin 1) (-2) 2 = fun t : ℝ => ∑ i ∈ range 7, (-1 : ℝ) ^ (3 + i) * (2 * 3).choose i * |t + i - (3 : ℕ)| ^ 5
    from funext ghSz_fin1, quinticSlope]
  refine HasDerivAt.fun_sum fun i _ => HasDerivAt.const_mul _ ?_
  have h1 : HasDerivAt (fun t : ℝ => t + i - (3 : ℕ)) 1 t := ((hasDerivAt_id t).add_const _).sub_const _
  exact ((hasDerivAt_abs5 (t + i - (3 : ℕ))).comp t h1).congr_deriv (mul_one _)

theorem quintic_deriv2 (t : ℝ) : HasDerivAt quinticSlope (20 * ghSz .inf (-2) 3 t) t := by
  have hx : ∀ u, ghSx .inf (-2) u = |u| ^ 3 := fun u => by simp [ghSx, ghSw]
  have e : 20 * ghSz .inf (-2) 3 t
      = ∑ i ∈ range 7, (-1 : ℝ) ^ (3 + i) * (2 * 3).choose i * (5 * (4 * |t + i - (3 : ℕ)| ^ 3)) := by
    unfold ghSz
    rw [mul_sum]
    refine sum_congr rfl fun i _ => ?_
    rw [hx]
    ring
  rw [e]
  unfold quinticSlope
  refine HasDerivAt.fun_sum fun i _ => HasDerivAt.const_mul _ (HasDerivAt.const_mul _ ?_)
  have h1 : HasDerivAt (fun t : ℝ => t + i - (3 : ℕ)) 1 t := ((hasDerivAt_id t).add_const _).sub_const _
  exact ((hasDerivAt_cube_abs (t + i - (3 : ℕ))).comp t h1).congr_deriv (mul_one _)

/-- a function with two derivatives -/
theorem smooth_of_deriv (f p q : ℝ → ℝ) (L b : ℝ) (hL : 0 ≤ L) (h1 : ∀ x, HasDerivAt f (p x) x) (h2 : ∀ x, HasDerivAt p (q x) x)
    (hq : ∀ x, 0 ≤ x → x ≤ b → |q x| ≤ L) (p0 : p 0 = 0) (pb : p b = 0) (hb : 0 ≤ b) :
    SmoothOn f p (2 * L) (L * b / 2) 0 b := by
  have hp : ∀ x y, 0 ≤ x → x ≤ b → 0 ≤ y → y ≤ b → |p y - p x| ≤ L * |y - x| := fun x y hx0 hx1 hy0 hy1 => by
    have := Convex.norm_image_sub_le_of_norm_hasDerivWithin_le (f := p) (f' := q) (s := Set.Icc 0 b) (C := L)
      (fun t _ => (h2 t).hasDerivWithinAt) (fun t ht => by rw [Real.norm_eq_abs]; exact hq t ht.1 ht.2)
      (convex_Icc 0 b) ⟨hx0, hx1⟩ ⟨hy0, hy1⟩
    simpa only [Real.norm_eq_abs] using this
  intro x y hx0 hx1 hy0 hy1
  refine ⟨?_, (hp x y hx0 hx1 hy0 hy1).trans ?_, ?_⟩
  · have := Convex.norm_image_sub_le_of_norm_hasDerivWithin_le (f := fun t => f t - p x * t) (f' := fun t => p t - p x)
      (s := Set.uIcc x y) (C := L * |y - x|)
      (fun t _ => by
        have := ((h1 t).sub ((hasDerivAt_id t).const_mul (p x)))
        exact (this.congr_deriv (by simp)).hasDerivWithinAt)
      (fun t ht => by
        have t0 : 0 ≤ t := by
          rcases Set.mem_uIcc.1 ht with h | h <;> linarith [h.1]
        have t1 : t ≤ b := by
          rcases Set.mem_uIcc.1 ht with h | h <;> linarith [h.2]
        rw [Real.norm_eq_abs]
        refine (hp x t hx0 hx1 t0 t1).trans (mul_le_mul_of_nonneg_left ?_ hL)
        exact Set.abs_sub_left_of_mem_uIcc ht)
      (convex_uIcc x y) Set.left_mem_uIcc Set.right_mem_uIcc
    simp only [Real.norm_eq_abs] at this
    rw [show f y - f x - p x * (y - x) = f y - p x * y - (f x - p x * x) by ring]
    refine this.trans (le_of_eq ?_)
    rw [← sq_abs (y - x)]
    ring
  · have := mul_nonneg hL (abs_nonneg (y - x))
    linarith
  · have := Convex.norm_image_sub_le_of_norm_hasDerivWithin_le (f := f) (f' := p) (s := Set.Icc 0 b) (C := L * b / 2)
      (fun t _ => (h1 t).hasDerivWithinAt) (fun t ht => by
        have a1 := hp 0 t le_rfl hb ht.1 ht.2
        have a2 := hp b t hb le_rfl ht.1 ht.2
        rw [p0, sub_zero, sub_zero, abs_of_nonneg ht.1] at a1
        rw [pb, sub_zero, abs_of_nonpos (a := t - b) (by linarith [ht.2])] at a2
        rw [Real.norm_eq_abs]
        linarith)
      (convex_Icc 0 b) ⟨hx0, hx1⟩ ⟨hy0, hy1⟩
    simpa only [Real.norm_eq_abs] using this

theorem quintic_smooth : SmoothOn (ghSz (.fin 1) (-2) 2) quinticSlope 480 360 0 3 := by
  have := smooth_of_deriv (ghSz (.fin 1) (-2) 2) quinticSlope (fun t => 20 * ghSz .inf (-2) 3 t) 240 3 (by norm_num)
    quintic_deriv quintic_deriv2 (fun x h0 _ => by
      rw [abs_mul, abs_of_pos (by norm_num : (0 : ℝ) < 20)]
      linarith [walk3_bound x h0])
    (by unfold quinticSlope
        simp only [sum_range_succ, sum_range_zero]
        norm_num [Nat.choose])
    (by unfold quinticSlope
        simp only [sum_range_succ, sum_range_zero]
        norm_num [Nat.choose]) (by norm_num)
  norm_num at this
  exact this

theorem quintic_bound (t : ℝ) (h0 : 0 ≤ t) (h3 : t ≤ 3) : |ghSz (.fin 1) (-2) 2 t| ≤ 132 := by
  rcases le_total t 1 with h1 | h1
  · rw [kernQ t h0 h1, abs_neg]
    have b2 := pow_le_one₀ (n := 2) h0 h1
    have c2 := pow_nonneg h0 2
    have c4 := pow_nonneg h0 4
    have c5 := pow_nonneg h0 5
    have d5 : t ^ 5 ≤ t ^ 4 := by nlinarith
    have d4 : t ^ 4 ≤ t ^ 2 := by nlinarith
    exact abs_le.2 ⟨by nlinarith, by nlinarith⟩
  · rcases le_total t 2 with h2 | h2
    · have := kernQ_piece1 (t - 1) (by linarith) (by linarith)
      rw [show 1 + (t - 1) = t by ring] at this
      rw [this]
      have a0 : 0 ≤ t - 1 := by linarith
      have a1 : t - 1 ≤ 1 := by linarith
      generalize t - 1 = s at a0 a1
      have c2 := pow_nonneg a0 2
      have c3 := pow_nonneg a0 3
      have c4 := pow_nonneg a0 4
      have c5 := pow_nonneg a0 5
      have d5 : s ^ 5 ≤ s ^ 4 := by nlinarith
      have d4 : s ^ 4 ≤ s ^ 3 := by nlinarith
      have d3 : s ^ 3 ≤ s ^ 2 := by nlinarith
      have d2 : s ^ 2 ≤ s := by nlinarith
      exact abs_le.2 ⟨by nlinarith, by nlinarith⟩
    · have := kernQ_piece2 (t - 2) (by linarith) (by linarith)
      rw [show 2 + (t - 2) = t by ring] at this
      rw [this, show -2 + 10 * (t - 2) - 20 * (t - 2) ^ 2 + 20 * (t - 2) ^ 3 - 10 * (t - 2) ^ 4 + 2 * (t - 2) ^ 5
        = -(2 * (1 - (t - 2)) ^ 5) by ring, abs_neg]
      have a0 : 0 ≤ 1 - (t - 2) := by linarith
      have a1 : 1 - (t - 2) ≤ 1 := by linarith
      have b3 := pow_le_one₀ (n := 5) a0 a1
      have c3 := pow_nonneg a0 5
      exact abs_le.2 ⟨by linarith, by linarith⟩

theorem quintic_trap (r : ℝ) (hr : 0 < r) (hr3 : r ≤ 3) (M : ℕ) (hM : 100 ≤ M) :
    TrapNear 100 M (lagWt (ghSz (.fin 1) (-2) 2) r) (1 + 2 / 3 * (2 * (360 / 11) + 2 * (90 / 11) ^ 2 + 4 * (90 / 11))) :=
  smooth_trap _ quinticSlope 480 360 3 (360 / 11) (90 / 11) (by rw [quintic_at0]; norm_num)
    (continuous_iff_continuousAt.2 fun t => (quintic_deriv t).continuousAt)
    (by unfold quinticSlope
        simp only [sum_range_succ, sum_range_zero]
        norm_num [Nat.choose]) (by norm_num) quintic_smooth
    (fun t h0 h3 => by rw [quintic_at0, abs_neg, abs_of_pos (by norm_num : (0 : ℝ) < 132)]; exact quintic_bound t h0 h3)
    (by rw [quintic_at0]; norm_num) (by norm_num) (by rw [quintic_at0]; norm_num) (by norm_num) r hr hr3 M hM

theorem quintic_lower (r : ℝ) (hr : 0 < r) (hr3 : r ≤ 3) : 0.16 ≤ trapz 100 (lagWt (ghSz (.fin 1) (-2) 2) r) := by
  have := trapz_lower (lagWt (ghSz (.fin 1) (-2) 2) r) (fun x => (1 - x) * (1 - 90 / 11 * x ^ 2) ^ 2) 34 (by norm_num) (by norm_num)
    (by simp [lagWt]) (fun x _ h => lagWt_nonneg _ _ _ h) (fun j hj => by
      have hj' : (j : ℝ) ≤ 33 := by exact_mod_cast Nat.lt_succ_iff.1 hj
      have hj0 : (0 : ℝ) ≤ j := by positivity
      have hx : r * ((j : ℝ) / 100) ≤ 3 * (j / 100) := mul_le_mul_of_nonneg_right hr3 (by positivity)
      have hx0 : 0 ≤ r * ((j : ℝ) / 100) := by positivity
      rw [lagWt, quintic_at0, kernQ _ hx0 (by linarith)]
      refine mul_le_mul_of_nonneg_left ?_ (by linarith)
      have ht1 : r * ((j : ℝ) / 100) ≤ 1 := by linarith
      have h4 : 0 ≤ (r * ((j : ℝ) / 100)) ^ 4 := by positivity
      have h5 : (r * ((j : ℝ) / 100)) ^ 5 ≤ (r * ((j : ℝ) / 100)) ^ 4 := pow_le_pow_of_le_one hx0 ht1 (by norm_num)
      have h2 : (r * ((j : ℝ) / 100)) ^ 2 ≤ (3 * (j / 100)) ^ 2 := pow_le_pow_left₀ hx0 hx 2
      refine pow_le_pow_left₀ (by nlinarith) ?_ 2
      rw [show -(132 - 120 * (r * ((j : ℝ) / 100)) ^ 2 + 60 * (r * ((j : ℝ) / 100)) ^ 4 - 20 * (r * ((j : ℝ) / 100)) ^ 5) / -132
        = 1 - 10 / 11 * (r * ((j : ℝ) / 100)) ^ 2 + (60 * (r * ((j : ℝ) / 100)) ^ 4 - 20 * (r * ((j : ℝ) / 100)) ^ 5) / 132 by ring]
      have e2 : (3 * ((j : ℝ) / 100)) ^ 2 = 9 * ((j : ℝ) / 100) ^ 2 := by ring
      rw [e2] at h2
      linarith)
  norm_num [sum_Ico_succ_top] at this
  linarith

end AT
