import Mathlib.Analysis.SpecialFunctions.Integrals.Basic
import Mathlib.MeasureTheory.Integral.IntervalIntegral.Basic
import Mathlib.Algebra.Order.Ring.Pow
import Mathlib.Tactic.Linarith
import Mathlib.Tactic.FieldSimp
import Mathlib.Tactic.Positivity

/-!
# The trapezoidal rule with `n` and with more than `n` intervals (for C90)
-/

namespace AT

open Finset

/-- trapezoidal rule on `[0, 1]` with `n` intervals -/
noncomputable def trapz (n : ℕ) (f : ℝ → ℝ) : ℝ := ∑ j ∈ range n, (f (j / n) + f ((j + 1) / n)) / (2 * n)

/-- one interval, tangents from both ends -/
theorem cell_tangent (f : ℝ → ℝ) (hf : Continuous f) (a b pa pb L : ℝ) (hab : a ≤ b)
    (ha : ∀ x, a ≤ x → x ≤ b → -(L / 2 * (x - a) ^ 2) ≤ f x - f a - pa * (x - a))
    (hb : ∀ x, a ≤ x → x ≤ b → -(L / 2 * (x - b) ^ 2) ≤ f x - f b - pb * (x - b)) :
    (b - a) * (f a + f b) / 2 - (pb - pa) * (b - a) ^ 2 / 8 - L * (b - a) ^ 3 / 24 ≤ ∫ x in a..b, f x := by
  have h1 : ∫ x in a..((a + b) / 2), (f a + pa * (x - a) - L / 2 * (x - a) ^ 2) ≤ ∫ x in a..((a + b) / 2), f x := by
    refine intervalIntegral.integral_mono_on (by linarith) ?_ (hf.intervalIntegrable _ _) fun x hx => ?_
    · exact Continuous.intervalIntegrable (by fun_prop) _ _
    · have := ha x hx.1 (by linarith [hx.2])
      linarith
  have h2 : ∫ x in ((a + b) / 2)..b, (f b + pb * (x - b) - L / 2 * (x - b) ^ 2) ≤ ∫ x in ((a + b) / 2)..b, f x := by
    refine intervalIntegral.integral_mono_on (by linarith) ?_ (hf.intervalIntegrable _ _) fun x hx => ?_
    · exact Continuous.intervalIntegrable (by fun_prop) _ _
    · have := hb x (by linarith [hx.1]) hx.2
      linarith
  have key : ∀ u v c p q L : ℝ, ∫ x in u..v, (c + p * (x - q) - L / 2 * (x - q) ^ 2)
      = c * (v - u) + p * ((v - q) ^ 2 - (u - q) ^ 2) / 2 - L / 6 * ((v - q) ^ 3 - (u - q) ^ 3) := by
    intro u v c p q L
    have hd : ∀ x ∈ Set.uIcc u v, HasDerivAt (fun x => c * x + p * (x - q) ^ 2 / 2 - L / 6 * (x - q) ^ 3)
        (c + p * (x - q) - L / 2 * (x - q) ^ 2) x := by
      intro x _
      have h0 : HasDerivAt (fun x : ℝ => x - q) 1 x := (hasDerivAt_id x).sub_const q
      have := (((hasDerivAt_id x).const_mul c).add (((h0.pow 2).const_mul p).div_const 2)).sub ((h0.pow 3).const_mul (L / 6))
      refine HasDerivAt.congr_deriv this ?_
      push_cast
      ring
    rw [intervalIntegral.integral_eq_sub_of_hasDerivAt hd (Continuous.intervalIntegrable (by fun_prop) _ _)]
    ring
  rw [key] at h1 h2
  rw [← intervalIntegral.integral_add_adjacent_intervals (hf.intervalIntegrable a ((a + b) / 2)) (hf.intervalIntegrable _ b)]
  have e : ((a + b) / 2 - a) = (b - a) / 2 := by ring
  nlinarith

/-- the trapezoidal rule exceeds the integral by at most the total increase of the slope -/
theorem trapz_le (f p : ℝ → ℝ) (L : ℝ) (hf : Continuous f) (n : ℕ) (hn : 0 < n)
    (h : ∀ x y, 0 ≤ x → x ≤ 1 → 0 ≤ y → y ≤ 1 → -(L / 2 * (y - x) ^ 2) ≤ f y - f x - p x * (y - x)) :
    trapz n f ≤ (∫ x in (0 : ℝ)..1, f x) + (p 1 - p 0) / (8 * n ^ 2) + L / (24 * n ^ 2) := by
  have hn' : (0 : ℝ) < n := by exact_mod_cast hn
  have hs : ∫ x in (0 : ℝ)..1, f x = ∑ j ∈ range n, ∫ x in ((j : ℝ) / n)..(((j + 1 : ℕ) : ℝ) / n), f x := by
    rw [intervalIntegral.sum_integral_adjacent_intervals (a := fun j : ℕ => (j : ℝ) / n) fun k _ => hf.intervalIntegrable _ _]
    simp [hn'.ne']
  have hp : p 1 - p 0 = ∑ j ∈ range n, (p (((j + 1 : ℕ) : ℝ) / n) - p ((j : ℝ) / n)) := by
    rw [sum_range_sub (fun j : ℕ => p ((j : ℝ) / n))]
    simp [hn'.ne']
  have hL : L / (24 * n ^ 2) = ∑ j ∈ range n, L / (24 * (n : ℝ) ^ 3) := by
    rw [sum_const, card_range, nsmul_eq_mul]
    field_simp
  rw [hs, hp, hL, sum_div, ← sum_add_distrib, ← sum_add_distrib]
  refine sum_le_sum fun j hj => ?_
  have hj' : (j : ℝ) + 1 ≤ n := by exact_mod_cast mem_range.1 hj
  have h0 : (0 : ℝ) ≤ (j : ℝ) / n := by positivity
  have h1 : (((j + 1 : ℕ) : ℝ) / n) ≤ 1 := by
    rw [div_le_one hn']
    push_cast
    exact hj'
  have hw : ((j + 1 : ℕ) : ℝ) / n - (j : ℝ) / n = 1 / n := by
    push_cast
    ring
  have hw' : (0 : ℝ) < 1 / n := by positivity
  have := cell_tangent f hf ((j : ℝ) / n) (((j + 1 : ℕ) : ℝ) / n) (p ((j : ℝ) / n)) (p (((j + 1 : ℕ) : ℝ) / n)) L
    (by linarith) (fun x hx1 hx2 => h _ _ h0 (by linarith) (by linarith) (by linarith))
    (fun x hx1 hx2 => h _ _ (by linarith) h1 (by linarith) (by linarith))
  rw [hw] at this
  push_cast at this ⊢
  have e : 1 / (n : ℝ) * (f ((j : ℝ) / n) + f (((j : ℝ) + 1) / n)) / 2 = (f ((j : ℝ) / n) + f (((j : ℝ) + 1) / n)) / (2 * n) := by
    field_simp
  have e2 : (p (((j : ℝ) + 1) / n) - p ((j : ℝ) / n)) * (1 / (n : ℝ)) ^ 2 / 8 = (p (((j : ℝ) + 1) / n) - p ((j : ℝ) / n)) / (8 * n ^ 2) := by
    field_simp
  have e3 : L * (1 / (n : ℝ)) ^ 3 / 24 = L / (24 * (n : ℝ) ^ 3) := by
    field_simp
  rw [e, e2, e3] at this
  linarith

/-- for a convex function it is not less than the integral -/
theorem le_trapz (f p : ℝ → ℝ) (hf : Continuous f) (n : ℕ) (hn : 0 < n)
    (h : ∀ x y, 0 ≤ x → x ≤ 1 → 0 ≤ y → y ≤ 1 → 0 ≤ f y - f x - p x * (y - x)) :
    (∫ x in (0 : ℝ)..1, f x) ≤ trapz n f := by
  have hn' : (0 : ℝ) < n := by exact_mod_cast hn
  have hs : ∫ x in (0 : ℝ)..1, f x = ∑ j ∈ range n, ∫ x in ((j : ℝ) / n)..(((j + 1 : ℕ) : ℝ) / n), f x := by
    rw [intervalIntegral.sum_integral_adjacent_intervals (a := fun j : ℕ => (j : ℝ) / n) fun k _ => hf.intervalIntegrable _ _]
    simp [hn'.ne']
  rw [hs]
  refine sum_le_sum fun j hj => ?_
  have hj' : (j : ℝ) + 1 ≤ n := by exact_mod_cast mem_range.1 hj
  set a : ℝ := (j : ℝ) / n with ha
  set b : ℝ := ((j : ℝ) + 1) / n with hb
  have h0 : (0 : ℝ) ≤ a := by positivity
  have h1 : b ≤ 1 := by
    rw [hb, div_le_one hn']
    exact hj'
  have hw : b - a = 1 / n := by
    rw [ha, hb]
    ring
  have hw' : (0 : ℝ) < 1 / n := by positivity
  have e : (((j + 1 : ℕ) : ℝ) / n) = b := by rw [hb]; push_cast; rfl
  rw [e]
  have h2 : ∫ x in a..b, f x ≤ ∫ x in a..b, (f a + (f b - f a) * n * (x - a)) := by
    refine intervalIntegral.integral_mono_on (by linarith) (hf.intervalIntegrable _ _)
      (Continuous.intervalIntegrable (by fun_prop) _ _) fun x hx => ?_
    have k1 := h x a (by linarith [hx.1]) (by linarith [hx.2]) h0 (by linarith)
    have k2 := h x b (by linarith [hx.1]) (by linarith [hx.2]) (by linarith) h1
    have k3 : f x * (b - a) ≤ f a * (b - a) + (f b - f a) * (x - a) := by
      nlinarith [mul_nonneg k1 (sub_nonneg.2 hx.2), mul_nonneg k2 (sub_nonneg.2 hx.1)]
    rw [hw] at k3
    have k4 := mul_le_mul_of_nonneg_right k3 hn'.le
    have : f x * (1 / n) * n = f x := by field_simp
    have : f a * (1 / n) * n = f a := by field_simp
    nlinarith
  refine h2.trans (le_of_eq ?_)
  have hd : ∀ x ∈ Set.uIcc a b, HasDerivAt (fun x => f a * x + (f b - f a) * n * (x - a) ^ 2 / 2)
      (f a + (f b - f a) * n * (x - a)) x := by
    intro x _
    have h0 : HasDerivAt (fun x : ℝ => x - a) 1 x := (hasDerivAt_id x).sub_const a
    have := ((hasDerivAt_id x).const_mul (f a)).add (((h0.pow 2).const_mul ((f b - f a) * n)).div_const 2)
    refine HasDerivAt.congr_deriv this ?_
    push_cast
    ring
  rw [intervalIntegral.integral_eq_sub_of_hasDerivAt hd (Continuous.intervalIntegrable (by fun_prop) _ _)]
  have : b = a + 1 / n := by linarith
  rw [sub_self, show f a * b + (f b - f a) * n * (b - a) ^ 2 / 2 - (f a * a + (f b - f a) * n * 0 ^ 2 / 2)
    = f a * (b - a) + (f b - f a) * n * (b - a) ^ 2 / 2 by ring, hw]
  field_simp
  ring

theorem trapz_add (n : ℕ) (f g : ℝ → ℝ) : trapz n (fun x => f x + g x) = trapz n f + trapz n g := by
  simp only [trapz, ← sum_add_distrib]
  refine sum_congr rfl fun j _ => ?_
  ring

theorem trapz_mul (n : ℕ) (c : ℝ) (f : ℝ → ℝ) : trapz n (fun x => c * f x) = c * trapz n f := by
  simp only [trapz, mul_sum]
  refine sum_congr rfl fun j _ => ?_
  ring

/-- the rule depends on the values in `[0, 1]` only -/
theorem trapz_congr (n : ℕ) (hn : 0 < n) (f g : ℝ → ℝ) (h : ∀ x, 0 ≤ x → x ≤ 1 → f x = g x) : trapz n f = trapz n g := by
  have hn' : (0 : ℝ) < n := by exact_mod_cast hn
  refine sum_congr rfl fun j hj => ?_
  have hj' : (j : ℝ) + 1 ≤ n := by exact_mod_cast mem_range.1 hj
  rw [h _ (by positivity) (by rw [div_le_one hn']; linarith), h _ (by positivity) (by rw [div_le_one hn']; linarith)]

theorem trapz_mono (n : ℕ) (hn : 0 < n) (f g : ℝ → ℝ) (h : ∀ x, 0 ≤ x → x ≤ 1 → f x ≤ g x) : trapz n f ≤ trapz n g := by
  have hn' : (0 : ℝ) < n := by exact_mod_cast hn
  refine sum_le_sum fun j hj => ?_
  have hj' : (j : ℝ) + 1 ≤ n := by exact_mod_cast mem_range.1 hj
  have h1 := h _ (by positivity) (by rw [div_le_one hn']; linarith : (j : ℝ) / n ≤ 1)
  have h2 := h _ (by positivity) (by rw [div_le_one hn']; linarith : ((j : ℝ) + 1) / n ≤ 1)
  gcongr

/-- the sum that the degrees of freedom contain -/
theorem trapz_sum (n : ℕ) (hn : 0 < n) (f : ℝ → ℝ) (h1 : f 1 = 0) :
    2 * n * trapz n f = f 0 + 2 * ∑ j ∈ Ico 1 n, f ((j : ℝ) / n) := by
  have hn' : (n : ℝ) ≠ 0 := by exact_mod_cast hn.ne'
  obtain ⟨k, rfl⟩ : ∃ k, n = k + 1 := ⟨n - 1, by omega⟩
  have e : 2 * ((k + 1 : ℕ) : ℝ) * trapz (k + 1) f
      = ∑ j ∈ range (k + 1), f ((j : ℝ) / (k + 1 : ℕ)) + ∑ j ∈ range (k + 1), f (((j + 1 : ℕ) : ℝ) / (k + 1 : ℕ)) := by
    rw [trapz, mul_sum, ← sum_add_distrib]
    refine sum_congr rfl fun j _ => ?_
    push_cast at hn' ⊢
    field_simp
  rw [e, sum_range_succ', sum_range_succ (fun j => f (((j + 1 : ℕ) : ℝ) / (k + 1 : ℕ))) k, div_self hn', h1, sum_Ico_eq_sum_range]
  simp only [Nat.cast_zero, zero_div, Nat.add_sub_cancel]
  simp only [add_comm 1]
  ring

/-- `c` bounds the difference of the rule with `n` and with more intervals -/
def TrapNear (n M : ℕ) (f : ℝ → ℝ) (c : ℝ) : Prop := |trapz n f - trapz M f| ≤ c / (8 * n ^ 2)

theorem TrapNear.add {n M : ℕ} {f g : ℝ → ℝ} {c d : ℝ} (hf : TrapNear n M f c) (hg : TrapNear n M g d) :
    TrapNear n M (fun x => f x + g x) (c + d) := by
  unfold TrapNear at *
  rw [trapz_add, trapz_add, add_div, show trapz n f + trapz n g - (trapz M f + trapz M g)
    = (trapz n f - trapz M f) + (trapz n g - trapz M g) by ring]
  exact (abs_add_le _ _).trans (add_le_add hf hg)

theorem TrapNear.mul {n M : ℕ} {f : ℝ → ℝ} {c : ℝ} (hf : TrapNear n M f c) (a : ℝ) :
    TrapNear n M (fun x => a * f x) (|a| * c) := by
  unfold TrapNear at *
  rw [trapz_mul, trapz_mul, ← mul_sub, abs_mul, mul_div_assoc]
  exact mul_le_mul_of_nonneg_left hf (abs_nonneg a)

theorem TrapNear.congr {n M : ℕ} {f g : ℝ → ℝ} {c d : ℝ} (hf : TrapNear n M f c) (hn : 0 < n) (hM : 0 < M)
    (h : ∀ x, 0 ≤ x → x ≤ 1 → g x = f x) (hc : c ≤ d) : TrapNear n M g d := by
  unfold TrapNear at *
  rw [trapz_congr n hn g f h, trapz_congr M hM g f h]
  refine hf.trans ?_
  gcongr

/-- a convex function -/
theorem trapNear_convex (f p : ℝ → ℝ) (hf : Continuous f) (n M : ℕ) (hn : 0 < n) (hM : n ≤ M) (hp : p 0 ≤ p 1)
    (h : ∀ x y, 0 ≤ x → x ≤ 1 → 0 ≤ y → y ≤ 1 → 0 ≤ f y - f x - p x * (y - x)) : TrapNear n M f (p 1 - p 0) := by
  have hn' : (0 : ℝ) < n := by exact_mod_cast hn
  have hM' : (n : ℝ) ≤ M := by exact_mod_cast hM
  have a1 := trapz_le f p 0 hf n hn (by simpa using h)
  have a2 := trapz_le f p 0 hf M (by omega) (by simpa using h)
  have b1 := le_trapz f p hf n hn h
  have b2 := le_trapz f p hf M (by omega) h
  have c1 : (p 1 - p 0) / (8 * (M : ℝ) ^ 2) ≤ (p 1 - p 0) / (8 * n ^ 2) :=
    div_le_div_of_nonneg_left (by linarith) (by positivity) (by gcongr)
  rw [zero_div] at a1 a2
  exact abs_le.2 ⟨by linarith, by linarith⟩

/-- a function whose slope has the Lipschitz constant `L` -/
theorem trapNear_smooth (f p : ℝ → ℝ) (L : ℝ) (hf : Continuous f) (n M : ℕ) (hn : 0 < n) (hM : n ≤ M) (hL : 0 ≤ L)
    (h : ∀ x y, 0 ≤ x → x ≤ 1 → 0 ≤ y → y ≤ 1 → |f y - f x - p x * (y - x)| ≤ L / 2 * (y - x) ^ 2) :
    TrapNear n M f (|p 1 - p 0| + 2 / 3 * L) := by
  have hn' : (0 : ℝ) < n := by exact_mod_cast hn
  have hM' : (n : ℝ) ≤ M := by exact_mod_cast hM
  have main : ∀ k : ℕ, n ≤ k → ∃ e, |e| ≤ L / (24 * n ^ 2) ∧
      trapz k f = (∫ x in (0 : ℝ)..1, f x) + (p 1 - p 0) / (8 * k ^ 2) + e := by
    intro k hk
    have hk' : (n : ℝ) ≤ k := by exact_mod_cast hk
    refine ⟨trapz k f - ((∫ x in (0 : ℝ)..1, f x) + (p 1 - p 0) / (8 * k ^ 2)), ?_, by ring⟩
    have a1 := trapz_le f p L hf k (by omega) fun x y h1 h2 h3 h4 => (abs_le.1 (h x y h1 h2 h3 h4)).1
    have a2 := trapz_le (fun x => (-1) * f x) (fun x => -p x) L (by fun_prop) k (by omega) fun x y h1 h2 h3 h4 => by
      have := (abs_le.1 (h x y h1 h2 h3 h4)).2
      linarith
    rw [trapz_mul, intervalIntegral.integral_const_mul] at a2
    have c1 : L / (24 * (k : ℝ) ^ 2) ≤ L / (24 * n ^ 2) :=
      div_le_div_of_nonneg_left hL (by positivity) (by gcongr)
    have c2 : (-p 1 - -p 0) / (8 * (k : ℝ) ^ 2) = -((p 1 - p 0) / (8 * (k : ℝ) ^ 2)) := by ring
    rw [c2] at a2
    exact abs_le.2 ⟨by linarith, by linarith⟩
  obtain ⟨e1, h1, g1⟩ := main n le_rfl
  obtain ⟨e2, h2, g2⟩ := main M hM
  unfold TrapNear
  rw [g1, g2, show (∫ x in (0 : ℝ)..1, f x) + (p 1 - p 0) / (8 * (n : ℝ) ^ 2) + e1
    - ((∫ x in (0 : ℝ)..1, f x) + (p 1 - p 0) / (8 * (M : ℝ) ^ 2) + e2)
    = (p 1 - p 0) * (1 / (8 * (n : ℝ) ^ 2) - 1 / (8 * (M : ℝ) ^ 2)) + (e1 - e2) by ring]
  have c3 : 1 / (8 * (M : ℝ) ^ 2) ≤ 1 / (8 * (n : ℝ) ^ 2) := by
    apply div_le_div_of_nonneg_left (by norm_num) (by positivity)
    gcongr
  have c4 : (0 : ℝ) ≤ 1 / (8 * (M : ℝ) ^ 2) := by positivity
  have c5 : |(p 1 - p 0) * (1 / (8 * (n : ℝ) ^ 2) - 1 / (8 * (M : ℝ) ^ 2))| ≤ |p 1 - p 0| * (1 / (8 * (n : ℝ) ^ 2)) := by
    rw [abs_mul, abs_of_nonneg (by linarith : (0 : ℝ) ≤ 1 / (8 * (n : ℝ) ^ 2) - 1 / (8 * (M : ℝ) ^ 2))]
    exact mul_le_mul_of_nonneg_left (by linarith) (abs_nonneg _)
  have c6 : |e1 - e2| ≤ L / (24 * n ^ 2) + L / (24 * n ^ 2) := (abs_sub _ _).trans (add_le_add h1 h2)
  refine (abs_add_le _ _).trans ((add_le_add c5 c6).trans (le_of_eq ?_))
  field_simp
  ring

/-- `(x - κ)^k` cut off at 0 -/
theorem trapNear_hinge (κ : ℝ) (k : ℕ) (hκ : 0 ≤ κ) (hκ1 : κ < 1) (hk : 1 ≤ k) (n M : ℕ) (hn : 0 < n) (hM : n ≤ M) :
    TrapNear n M (fun x => max (x - κ) 0 ^ k) (k * (1 - κ) ^ (k - 1)) := by
  have := trapNear_convex (fun x => max (x - κ) 0 ^ k) (fun x => if κ < x then k * (x - κ) ^ (k - 1) else 0)
    (by fun_prop) n M hn hM (by
      rw [if_neg (by linarith), if_pos hκ1]
      have : 0 ≤ 1 - κ := by linarith
      positivity) (fun x y _ _ _ _ => by
      have hk' : (1 : ℝ) ≤ k := by exact_mod_cast hk
      split_ifs with h
      · have hx : 0 < x - κ := by linarith
        rw [max_eq_left hx.le]
        obtain ⟨q, rfl⟩ : ∃ q, k = q + 1 := ⟨k - 1, by omega⟩
        rw [Nat.add_sub_cancel]
        rcases le_total (y - κ) 0 with hy | hy
        · rw [max_eq_right hy, zero_pow (by omega), pow_succ]
          have hq : 0 ≤ (x - κ) ^ q := by positivity
          have : (x - κ) ≤ ((q + 1 : ℕ) : ℝ) * (x - y) := by nlinarith
          nlinarith
        · rw [max_eq_left hy]
          have hb := one_add_mul_le_pow (a := (y - κ) / (x - κ) - 1) (by
            have : 0 ≤ (y - κ) / (x - κ) := by positivity
            linarith) (q + 1)
          have e : 1 + ((y - κ) / (x - κ) - 1) = (y - κ) / (x - κ) := by ring
          rw [e, div_pow, le_div_iff₀ (by positivity)] at hb
          have e2 : (1 + ((q + 1 : ℕ) : ℝ) * ((y - κ) / (x - κ) - 1)) * (x - κ) ^ (q + 1)
              = (x - κ) ^ (q + 1) + ((q + 1 : ℕ) : ℝ) * (x - κ) ^ q * (y - x) := by
            rw [pow_succ]
            field_simp
            ring
          linarith
      · rw [max_eq_right (by linarith : x - κ ≤ 0), zero_pow (by omega)]
        have : 0 ≤ max (y - κ) 0 ^ k := by positivity
        linarith)
  rwa [if_pos hκ1, if_neg (by linarith), sub_zero] at this

/-- the terms of the weighted squared covariance -/
theorem trapNear_term (r i : ℝ) (k : ℕ) (hr : 0 < r) (hi : 0 ≤ i) (hk : 1 ≤ k) (n M : ℕ) (hn : 0 < n) (hM : n ≤ M) :
    TrapNear n M (fun x => (1 - x) * max (r * x - i) 0 ^ k) ((2 * k + 1) * max (r - i) 0 ^ k) := by
  rcases lt_or_ge i r with h | h
  · have hκ : i / r < 1 := by rwa [div_lt_one hr]
    have h0 : 0 ≤ i / r := by positivity
    have h1 := (trapNear_hinge (i / r) k h0 hκ hk n M hn hM).mul (r ^ k * (1 - i / r))
    have h2 := (trapNear_hinge (i / r) (k + 1) h0 hκ (by omega) n M hn hM).mul (-(r ^ k))
    refine (h1.add h2).congr hn (by omega) (fun x _ _ => ?_) (le_of_eq ?_)
    · have e : max (r * x - i) 0 = r * max (x - i / r) 0 := by
        rw [mul_max_of_nonneg _ _ hr.le, mul_zero]
        congr 1
        field_simp
      rw [e, mul_pow, pow_succ]
      rcases le_total (x - i / r) 0 with hx | hx
      · rw [max_eq_right hx, zero_pow (by omega)]
        ring
      · rw [max_eq_left hx]
        ring
    · have hp : 0 < 1 - i / r := by linarith
      rw [max_eq_left (by linarith), abs_neg, abs_of_pos (by positivity), abs_of_pos (by positivity),
        show r - i = r * (1 - i / r) by field_simp, mul_pow, Nat.add_sub_cancel]
      obtain ⟨q, rfl⟩ : ∃ q, k = q + 1 := ⟨k - 1, by omega⟩
      rw [Nat.add_sub_cancel, pow_succ (1 - i / r)]
      push_cast
      ring
  · have h1 := (trapNear_convex (fun _ => 0) (fun _ => 0) (by fun_prop) n M hn hM le_rfl (by simp)).congr hn (by omega)
      (g := fun x => (1 - x) * max (r * x - i) 0 ^ k) (fun x hx0 hx1 => by
        rw [max_eq_right (by nlinarith), zero_pow (by omega), mul_zero]) (sub_self (0 : ℝ)).le
    rwa [max_eq_right (by linarith), zero_pow (by omega), mul_zero]

end AT
