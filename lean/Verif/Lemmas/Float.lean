import Verif.Spec.Float
import Verif.Lemmas.Tau

/-!
# Relative errors
-/

namespace AT

open Spec

theorem unitRoundoff_pos : 0 < unitRoundoff := by unfold unitRoundoff; positivity

/-- `a` differs from `b` by at most `n` roundings -/
def Near (n : ℕ) (a b : ℝ) : Prop := |a - b| ≤ ((1 + unitRoundoff) ^ n - 1) * |b|

theorem near_eps_nonneg (n : ℕ) : 0 ≤ (1 + unitRoundoff) ^ n - 1 := by
  have := one_le_pow₀ (n := n) (show (1 : ℝ) ≤ 1 + unitRoundoff by linarith [unitRoundoff_pos])
  linarith

theorem Near.refl (a : ℝ) : Near 0 a a := by simp [Near]

theorem Near.mono {n k : ℕ} {a b : ℝ} (h : Near n a b) (hk : n ≤ k) : Near k a b := by
  refine le_trans h ?_
  apply mul_le_mul_of_nonneg_right _ (abs_nonneg _)
  have := pow_le_pow_right₀ (show (1 : ℝ) ≤ 1 + unitRoundoff by linarith [unitRoundoff_pos]) hk
  linarith

theorem Near.abs_le {n : ℕ} {a b : ℝ} (h : Near n a b) : |a| ≤ (1 + unitRoundoff) ^ n * |b| := by
  have h1 : |a| ≤ |a - b| + |b| := by
    have := abs_add_le (a - b) b
    simpa using this
  unfold Near at h
  linarith

theorem Near.fl {fl : ℝ → ℝ} (hfl : FloatRound fl) {n : ℕ} {a b : ℝ} (h : Near n a b) :
    Near (n + 1) (fl a) b := by
  have h1 := hfl a
  have h2 := h.abs_le
  have h3 : |fl a - b| ≤ |fl a - a| + |a - b| := abs_sub_le _ _ _
  unfold Near at *
  have h4 := mul_le_mul_of_nonneg_left h2 unitRoundoff_pos.le
  rw [pow_succ]
  nlinarith

theorem Near.mul {n k : ℕ} {a b c d : ℝ} (h : Near n a b) (h' : Near k c d) :
    Near (n + k) (a * c) (b * d) := by
  have h1 : |a * c - b * d| ≤ |a - b| * |c| + |b| * |c - d| := by
    rw [← abs_mul, ← abs_mul]
    have : a * c - b * d = (a - b) * c + b * (c - d) := by ring
    rw [this]; exact abs_add_le _ _
  have h2 := h'.abs_le
  unfold Near at *
  rw [abs_mul, pow_add]
  have e1 := near_eps_nonneg n
  have h3 : |a - b| * |c| ≤
      (((1 + unitRoundoff) ^ n - 1) * |b|) * ((1 + unitRoundoff) ^ k * |d|) :=
    mul_le_mul h h2 (abs_nonneg _) (by positivity)
  have h4 := mul_le_mul_of_nonneg_left h' (abs_nonneg b)
  nlinarith

theorem Near.const_mul {n : ℕ} {a b : ℝ} (c : ℝ) (h : Near n a b) : Near n (c * a) (c * b) := by
  have := (Near.refl c).mul h
  rwa [zero_add] at this

theorem Near.mul_const {n : ℕ} {a b : ℝ} (h : Near n a b) (c : ℝ) : Near n (a * c) (b * c) :=
  h.mul (Near.refl c)

theorem Near.div_const {n : ℕ} {a b : ℝ} (h : Near n a b) (c : ℝ) : Near n (a / c) (b / c) := by
  rw [div_eq_mul_inv, div_eq_mul_inv]; exact h.mul_const _

theorem Near.of_fl {fl : ℝ → ℝ} (hfl : FloatRound fl) (a : ℝ) : Near 1 (fl a) a :=
  (Near.refl a).fl hfl

/-- sums of nonnegative numbers keep the relative error -/
theorem Near.sum {n : ℕ} {ι : Type*} (s : Finset ι) (f g : ι → ℝ) (hg : ∀ i ∈ s, 0 ≤ g i)
    (h : ∀ i ∈ s, Near n (f i) (g i)) : Near n (∑ i ∈ s, f i) (∑ i ∈ s, g i) := by
  unfold Near at *
  rw [← Finset.sum_sub_distrib, abs_of_nonneg (Finset.sum_nonneg hg), Finset.mul_sum]
  refine (Finset.abs_sum_le_sum_abs _ _).trans (Finset.sum_le_sum fun i hi => ?_)
  have := h i hi
  rwa [abs_of_nonneg (hg i hi)] at this

theorem Near.sqrt {n : ℕ} {a b : ℝ} (hb : 0 ≤ b) (h : Near n a b) : Near n (√a) (√b) := by
  unfold Near at *
  rw [abs_of_nonneg hb] at h
  rw [abs_of_nonneg (Real.sqrt_nonneg b)]
  rcases hb.eq_or_lt with rfl | hb'
  · rw [mul_zero] at h
    have := abs_nonpos_iff.1 h
    rw [sub_zero] at this
    simp [this]
  have hs : 0 < √b := Real.sqrt_pos.2 hb'
  have hbb : √b * √b = b := Real.mul_self_sqrt hb
  rcases le_total 0 a with ha | ha
  · have haa : √a * √a = a := Real.mul_self_sqrt ha
    have h1 : |√a - √b| * √b ≤ |a - b| := by
      have : a - b = (√a - √b) * (√a + √b) := by nlinarith
      rw [this, abs_mul]
      apply mul_le_mul_of_nonneg_left _ (abs_nonneg _)
      rw [abs_of_nonneg (by positivity)]
      linarith [Real.sqrt_nonneg a]
    have h2 : |√a - √b| * √b ≤ ((1 + unitRoundoff) ^ n - 1) * √b * √b := by
      rw [mul_assoc, hbb]; linarith
    exact le_of_mul_le_mul_right h2 hs
  · rw [Real.sqrt_eq_zero_of_nonpos ha, zero_sub, abs_neg, abs_of_pos hs]
    rw [abs_of_nonpos (by linarith)] at h
    have : 1 ≤ (1 + unitRoundoff) ^ n - 1 := by
      by_contra hc
      push Not at hc
      nlinarith
    nlinarith

/-- six roundings of a number up to `2^49` move it by less than a half -/
theorem Near.lt_half {n : ℕ} {a b : ℝ} (h : Near n a b) (hn : n ≤ 6) (hb : |b| ≤ 2 ^ 49) :
    |a - b| < 1 / 2 := by
  have h' := h.mono hn
  unfold Near at h'
  have e : (1 + unitRoundoff) ^ 6 - 1 ≤ 7 / 2 ^ 53 := by
    unfold unitRoundoff; norm_num
  have e0 := near_eps_nonneg 6
  calc |a - b| ≤ _ := h'
    _ ≤ (7 / 2 ^ 53) * 2 ^ 49 := mul_le_mul e hb (abs_nonneg _) (by positivity)
    _ < 1 / 2 := by norm_num

theorem isRound_of_lt {x : ℝ} {k : ℤ} (h : |x - k| < 1 / 2) : IsRound x k :=
  ⟨h.le, fun h' => absurd h' h.ne⟩

theorem npRound_of_lt {x : ℝ} {k : ℤ} (h : |x - k| < 1 / 2) : npRound x = k :=
  (npRound_eq_iff x k).2 (isRound_of_lt h)

/-! ## The 53 bit rounding -/

theorem isBinary64_rel {x y : ℝ} (h : IsBinary64 x y) : |y - x| ≤ unitRoundoff * |x| := by
  rcases h with ⟨rfl, rfl⟩ | ⟨e, k, h1, h2, h3, rfl⟩
  · simp
  have hp : (0 : ℝ) < (2 : ℝ) ^ e := by positivity
  have h4 : |(k : ℝ) * (2 : ℝ) ^ e - x| = |x / (2 : ℝ) ^ e - k| * (2 : ℝ) ^ e := by
    rw [abs_sub_comm, ← abs_of_pos hp, ← abs_mul, abs_of_pos hp]
    congr 1
    field_simp
  rw [h4]
  have h5 := h3.1
  rw [le_div_iff₀ hp] at h1
  unfold unitRoundoff
  have h6 : |x / (2 : ℝ) ^ e - k| * (2 : ℝ) ^ e ≤ 1 / 2 * (2 : ℝ) ^ e :=
    mul_le_mul_of_nonneg_right h5 hp.le
  have h7 : (1 / 2 ^ 53 : ℝ) * ((2 : ℝ) ^ 52 * (2 : ℝ) ^ e) ≤ 1 / 2 ^ 53 * |x| :=
    mul_le_mul_of_nonneg_left h1 (by positivity)
  have h8 : (1 / 2 ^ 53 : ℝ) * ((2 : ℝ) ^ 52 * (2 : ℝ) ^ e) = 1 / 2 * (2 : ℝ) ^ e := by
    rw [← mul_assoc]; norm_num
  linarith

theorem exists_exponent {x : ℝ} (hx : x ≠ 0) : ∃ e : ℤ,
    (2 : ℝ) ^ (52 : ℕ) ≤ |x| / (2 : ℝ) ^ e ∧ |x| / (2 : ℝ) ^ e < (2 : ℝ) ^ (53 : ℕ) := by
  obtain ⟨n, h1, h2⟩ := exists_mem_Ico_zpow (x := |x|) (y := (2 : ℝ)) (abs_pos.2 hx) (by norm_num)
  refine ⟨n - 52, ?_, ?_⟩
  · rw [le_div_iff₀ (by positivity), ← zpow_natCast, ← zpow_add₀ (by norm_num)]
    convert h1 using 2
    push_cast; ring
  · rw [div_lt_iff₀ (by positivity), ← zpow_natCast, ← zpow_add₀ (by norm_num)]
    convert h2 using 2
    push_cast; ring

theorem exists_isBinary64 (x : ℝ) : ∃ y, IsBinary64 x y := by
  by_cases hx : x = 0
  · exact ⟨0, Or.inl ⟨hx, rfl⟩⟩
  · obtain ⟨e, h1, h2⟩ := exists_exponent hx
    exact ⟨_, Or.inr ⟨e, _, h1, h2, npRound_isRound _, rfl⟩⟩

theorem isBinary64_unique {x y z : ℝ} (hy : IsBinary64 x y) (hz : IsBinary64 x z) : y = z := by
  rcases hy with ⟨rfl, rfl⟩ | ⟨e, k, h1, h2, h3, rfl⟩
  · rcases hz with ⟨_, rfl⟩ | ⟨e, k, h1, h2, h3, rfl⟩
    · rfl
    · simp at h1; norm_num at h1
  rcases hz with ⟨rfl, rfl⟩ | ⟨e', k', h1', h2', h3', rfl⟩
  · simp at h1; norm_num at h1
  have key : ∀ a b : ℤ, (2 : ℝ) ^ (52 : ℕ) ≤ |x| / (2 : ℝ) ^ a →
      |x| / (2 : ℝ) ^ b < (2 : ℝ) ^ (53 : ℕ) → a ≤ b := by
    intro a b ha hb
    rw [le_div_iff₀ (by positivity), ← zpow_natCast, ← zpow_add₀ (by norm_num)] at ha
    rw [div_lt_iff₀ (by positivity), ← zpow_natCast, ← zpow_add₀ (by norm_num)] at hb
    have := (zpow_lt_zpow_iff_right₀ (show (1 : ℝ) < 2 by norm_num)).1 (ha.trans_lt hb)
    push_cast at this
    omega
  have he : e = e' := le_antisymm (key e e' h1 h2') (key e' e h1' h2)
  subst he
  rw [isRound_unique h3 h3']

end AT
