import Verif.Lemmas.TotSum
import Verif.Spec.TotBias

/-!
# The sums of squares of the coefficients of `totTerm`
-/

namespace AT

open Finset Spec

/-- `1 / (h (3m - h))` for `h = ⌊3m/2⌋` -/
noncomputable def kap (m : ℕ) : ℝ := 1 / (((3 * m / 2 : ℕ) : ℝ) * ((3 * m - 3 * m / 2 : ℕ) : ℝ))

/-- the coefficients of the slope -/
noncomputable def tc (m i : ℕ) : ℝ :=
  kap m * ((if 3 * m - 3 * m / 2 ≤ i then 1 else 0) - (if i < 3 * m / 2 then 1 else 0))

theorem halfSlope_tc (m : ℕ) (s : ℕ → ℝ) : halfSlope s m 1 = ∑ i ∈ range (3 * m), tc m i * s i := by
  have h1 : ∑ i ∈ range (3 * m), (if 3 * m - 3 * m / 2 ≤ i then 1 else 0) * s i =
      ∑ k ∈ range (3 * m / 2), s (3 * m - 3 * m / 2 + k) := by
    have := sum_range_add (fun i => (if 3 * m - 3 * m / 2 ≤ i then (1 : ℝ) else 0) * s i) (3 * m - 3 * m / 2) (3 * m / 2)
    rw [show 3 * m - 3 * m / 2 + 3 * m / 2 = 3 * m by omega] at this
    rw [this, sum_eq_zero (fun i hi => by rw [if_neg (by have := mem_range.1 hi; omega), zero_mul]), zero_add]
    exact sum_congr rfl fun i _ => by rw [if_pos (by omega), one_mul]
  have h2 : ∑ i ∈ range (3 * m), (if i < 3 * m / 2 then 1 else 0) * s i = ∑ k ∈ range (3 * m / 2), s k := by
    have := sum_range_add (fun i => (if i < 3 * m / 2 then (1 : ℝ) else 0) * s i) (3 * m / 2) (3 * m - 3 * m / 2)
    rw [show 3 * m / 2 + (3 * m - 3 * m / 2) = 3 * m by omega] at this
    rw [this, sum_eq_zero (s := range (3 * m - 3 * m / 2)) (fun i hi => by rw [if_neg (by omega), zero_mul]), add_zero]
    exact sum_congr rfl fun i hi => by rw [if_pos (mem_range.1 hi), one_mul]
  have h3 : ∑ i ∈ range (3 * m), tc m i * s i = kap m * (∑ i ∈ range (3 * m), (if 3 * m - 3 * m / 2 ≤ i then 1 else 0) * s i
      - ∑ i ∈ range (3 * m), (if i < 3 * m / 2 then 1 else 0) * s i) := by
    rw [← sum_sub_distrib, mul_sum]
    exact sum_congr rfl fun i _ => by unfold tc; ring
  rw [h3, h1, h2]
  unfold halfSlope kap
  simp only
  rw [← sub_div, div_div]
  rw [mul_one, one_div, ← div_eq_inv_mul]

theorem odd_tc (m : ℕ) : Odd3 m 0 (tc m) := fun i hi => by
  unfold tc
  have h1 : (if 3 * m - 3 * m / 2 ≤ 3 * m - 1 - i then (1 : ℝ) else 0) = if i < 3 * m / 2 then 1 else 0 := by
    congr 1; apply propext; omega
  have h2 : (if 3 * m - 1 - i < 3 * m / 2 then (1 : ℝ) else 0) = if 3 * m - 3 * m / 2 ≤ i then 1 else 0 := by
    congr 1; apply propext; omega
  rw [h1, h2]; ring

theorem psum_tc {m n : ℕ} (hn : n ≤ 3 * m / 2) : psum (tc m) n = -kap m * n := by
  unfold psum
  have : ∀ i ∈ range n, tc m i = -kap m := fun i hi => by
    have := mem_range.1 hi
    unfold tc; rw [if_neg (by omega), if_pos (by omega)]; ring
  rw [sum_congr rfl this, sum_const, card_range, nsmul_eq_mul, mul_comm]

theorem psum_tc_all (m : ℕ) : psum (tc m) (3 * m) = 0 := by
  have := (odd_tc m).psum (n := 3 * m) le_rfl
  rw [Nat.sub_self] at this
  rw [this]; simp [psum]

theorem tc_sq (m : ℕ) : ∑ i ∈ range (3 * m), tc m i ^ 2 = 2 * (3 * m / 2 : ℕ) * kap m ^ 2 := by
  have h : ∀ i ∈ range (3 * m), tc m i ^ 2 = tc m i * (kap m * ((if 3 * m - 3 * m / 2 ≤ i then 1 else 0) - (if i < 3 * m / 2 then 1 else 0))) :=
    fun i _ => by unfold tc; ring
  rw [sum_congr rfl h, ← halfSlope_tc]
  unfold halfSlope
  simp only
  have g1 : ∀ k ∈ range (3 * m / 2), kap m * ((if 3 * m - 3 * m / 2 ≤ 3 * m - 3 * m / 2 + k then 1 else 0) -
      (if 3 * m - 3 * m / 2 + k < 3 * m / 2 then 1 else 0)) = kap m := fun k hk => by
    rw [if_pos (by omega), if_neg (by omega)]; ring
  have g2 : ∀ k ∈ range (3 * m / 2), kap m * ((if 3 * m - 3 * m / 2 ≤ k then 1 else 0) -
      (if k < 3 * m / 2 then 1 else 0)) = -kap m := fun k hk => by
    have := mem_range.1 hk
    rw [if_neg (by omega), if_pos (by omega)]; ring
  rw [sum_congr rfl g1, sum_congr rfl g2]
  simp only [sum_const, card_range, nsmul_eq_mul]
  rcases Nat.eq_zero_or_pos (3 * m / 2) with h0 | h0
  · rw [h0]; simp
  · have h1 : (0 : ℝ) < (3 * m / 2 : ℕ) := by exact_mod_cast h0
    have h2 : (0 : ℝ) < (3 * m - 3 * m / 2 : ℕ) := by
      have : 0 < 3 * m - 3 * m / 2 := by omega
      exact_mod_cast this
    have h3 : kap m = 1 / (((3 * m / 2 : ℕ) : ℝ) * ((3 * m - 3 * m / 2 : ℕ) : ℝ)) := rfl
    rw [h3]
    field_simp
    ring

/-- the slope of a step -/
noncomputable def tb (m s : ℕ) : ℝ := -psum (tc m) s

theorem tb_low {m s : ℕ} (hs : s ≤ 3 * m / 2) : tb m s = kap m * s := by
  unfold tb; rw [psum_tc hs]; ring

theorem tb_symm {m s : ℕ} (hs : s ≤ 3 * m) : tb m (3 * m - s) = tb m s := by
  unfold tb
  have := (odd_tc m).psum hs
  rw [this]; ring

theorem halfSlope_step {m s : ℕ} (hs : s ≤ 3 * m) : halfSlope (step s) m 1 = tb m s := by
  rw [halfSlope_tc]
  have h1 := sum_range_add (fun i => tc m i * step s i) s (3 * m - s)
  rw [show s + (3 * m - s) = 3 * m by omega] at h1
  rw [h1, sum_eq_zero (fun i hi => by unfold step; rw [if_neg (by have := mem_range.1 hi; omega), mul_zero]), zero_add]
  have h2 := sum_range_add (tc m) s (3 * m - s)
  rw [show s + (3 * m - s) = 3 * m by omega] at h2
  have h3 : ∑ i ∈ range (3 * m), tc m i = 0 := psum_tc_all m
  have h4 : ∑ i ∈ range (3 * m - s), tc m (s + i) * step s (s + i) = ∑ i ∈ range (3 * m - s), tc m (s + i) :=
    sum_congr rfl fun i _ => by unfold step; rw [if_pos (by omega), mul_one]
  unfold tb psum
  rw [h4]; linarith

/-- the combination of the steps with their slopes -/
noncomputable def tq (m i : ℕ) : ℝ := psum (tb m) (i + 1)

theorem tb_sum {m : ℕ} (hm : 0 < m) : psum (tb m) (3 * m) = 1 := by
  have h1 : psum (tb m) (3 * m) = ∑ s ∈ range (3 * m), ∑ i ∈ range (3 * m), tc m i * step s i :=
    sum_congr rfl fun s hs => by rw [← halfSlope_tc, halfSlope_step (mem_range.1 hs).le]
  rw [h1, sum_comm]
  have h2 : ∀ i ∈ range (3 * m), ∑ s ∈ range (3 * m), tc m i * step s i = tc m i * i + tc m i := fun i hi => by
    have hi := mem_range.1 hi
    rw [← mul_sum]
    have h3 := sum_range_add (fun s => step s i) (i + 1) (3 * m - (i + 1))
    rw [show i + 1 + (3 * m - (i + 1)) = 3 * m by omega] at h3
    rw [h3, sum_eq_zero (s := range (3 * m - (i + 1))) (fun s _ => by unfold step; rw [if_neg (by omega)]), add_zero,
      sum_congr (g := fun _ => 1) rfl (fun s hs => by unfold step; rw [if_pos (by have := mem_range.1 hs; omega)])]
    simp; ring
  rw [sum_congr rfl h2, sum_add_distrib, ← halfSlope_tc m (fun i => (i : ℝ))]
  have h3 : ∑ i ∈ range (3 * m), tc m i = 0 := psum_tc_all m
  rw [h3, add_zero]
  have h4 := halfSlope_affine (fun _ => 0) 0 1 m hm
  have e : (fun k : ℕ => (0 : ℝ) + (0 + 1 * (k : ℝ))) = fun k : ℕ => (k : ℝ) := by funext k; ring
  rw [e] at h4
  rw [h4]
  have h5 : halfSlope (fun _ => 0) m 1 = 0 := by rw [halfSlope_tc]; simp
  rw [h5, zero_add]

theorem odd_tq {m : ℕ} (hm : 0 < m) : Odd3 m 1 (tq m) := fun i hi => by
  have h0 : tb m 0 = 0 := by simp [tb, psum]
  have h1 : tb m (3 * m) = 0 := by unfold tb; rw [psum_tc_all]; simp
  have h2 : psum (tb m) (3 * m + 1) = 1 := by
    have : psum (tb m) (3 * m + 1) = psum (tb m) (3 * m) + tb m (3 * m) := sum_range_succ _ _
    rw [this, tb_sum hm, h1, add_zero]
  have h3 := sum_range_add (tb m) (3 * m - i) (i + 1)
  rw [show 3 * m - i + (i + 1) = 3 * m + 1 by omega] at h3
  have h4 : ∑ x ∈ range (i + 1), tb m (3 * m - i + x) = ∑ x ∈ range (i + 1), tb m x := by
    rw [← sum_range_reflect]
    refine sum_congr rfl fun x hx => ?_
    have := mem_range.1 hx
    rw [← tb_symm (m := m) (s := x) (by omega)]
    congr 1; omega
  rw [h4] at h3
  unfold psum at h2
  unfold tq psum
  rw [show 3 * m - 1 - i + 1 = 3 * m - i by omega]
  linarith

theorem psum_tq {m : ℕ} : ∀ n ≤ 3 * m / 2, psum (tq m) n = kap m * ((n : ℝ) ^ 3 - n) / 6 := by
  have h : ∀ n ≤ 3 * m / 2, tq m n = kap m * (n * (n + 1) / 2) := by
    intro n
    induction n with
    | zero => intro _; simp [tq, psum, tb]
    | succ n ih =>
      intro hn
      have h1 : tq m (n + 1) = tq m n + tb m (n + 1) := sum_range_succ _ _
      rw [h1, ih (by omega), tb_low hn]; push_cast; ring
  intro n
  induction n with
  | zero => intro _; simp [psum]
  | succ n ih =>
    intro hn
    have h1 : psum (tq m) (n + 1) = psum (tq m) n + tq m n := sum_range_succ _ _
    rw [h1, ih (by omega), h n (by omega)]; push_cast; ring

theorem tb_sq_even (p : ℕ) : ∑ s ∈ range (3 * (2 * p)), tb (2 * p) s ^ 2 = kap (2 * p) ^ 2 * (p * (18 * p ^ 2 + 1)) := by
  have h := sum_range_add (fun s => tb (2 * p) s ^ 2) (3 * p) (3 * p)
  rw [show 3 * p + 3 * p = 3 * (2 * p) by ring] at h
  rw [h]
  have e1 : ∀ s ∈ range (3 * p), tb (2 * p) s ^ 2 = 0 + 0 * (s : ℝ) + kap (2 * p) ^ 2 * s ^ 2 + 0 * s ^ 3 + 0 * s ^ 4 + 0 * s ^ 5 :=
    fun s hs => by rw [tb_low (by have := mem_range.1 hs; omega)]; ring
  have e2 : ∀ s ∈ range (3 * p), tb (2 * p) (3 * p + s) ^ 2 = (kap (2 * p) ^ 2 * 9 * p ^ 2) + (-6 * kap (2 * p) ^ 2 * p) * (s : ℝ) +
      kap (2 * p) ^ 2 * s ^ 2 + 0 * s ^ 3 + 0 * s ^ 4 + 0 * s ^ 5 :=
    fun s hs => by
      have hs := mem_range.1 hs
      rw [← tb_symm (by omega), tb_low (by omega), show 3 * (2 * p) - (3 * p + s) = 3 * p - s by omega,
        Nat.cast_sub (by omega)]
      push_cast; ring
  rw [sum_congr rfl e1, sum_congr rfl e2, sum_poly, sum_poly]
  push_cast; ring

theorem tb_sq_odd (p : ℕ) : ∑ s ∈ range (3 * (2 * p + 1)), tb (2 * p + 1) s ^ 2 =
    kap (2 * p + 1) ^ 2 * ((3 * p + 1) * (3 * p + 2) * (6 * p + 3) / 3) := by
  have h := sum_range_add (fun s => tb (2 * p + 1) s ^ 2) (3 * p + 2) (3 * p + 1)
  rw [show 3 * p + 2 + (3 * p + 1) = 3 * (2 * p + 1) by ring] at h
  rw [h]
  have e1 : ∀ s ∈ range (3 * p + 2), tb (2 * p + 1) s ^ 2 =
      0 + 0 * (s : ℝ) + kap (2 * p + 1) ^ 2 * s ^ 2 + 0 * s ^ 3 + 0 * s ^ 4 + 0 * s ^ 5 :=
    fun s hs => by rw [tb_low (by have := mem_range.1 hs; omega)]; ring
  have e2 : ∀ s ∈ range (3 * p + 1), tb (2 * p + 1) (3 * p + 2 + s) ^ 2 = (kap (2 * p + 1) ^ 2 * (3 * p + 1) ^ 2) +
      (-2 * kap (2 * p + 1) ^ 2 * (3 * p + 1)) * (s : ℝ) + kap (2 * p + 1) ^ 2 * s ^ 2 + 0 * s ^ 3 + 0 * s ^ 4 + 0 * s ^ 5 :=
    fun s hs => by
      have hs := mem_range.1 hs
      rw [← tb_symm (by omega), tb_low (by omega), show 3 * (2 * p + 1) - (3 * p + 2 + s) = 3 * p + 1 - s by omega,
        Nat.cast_sub (by omega)]
      push_cast; ring
  rw [sum_congr rfl e1, sum_congr rfl e2, sum_poly, sum_poly]
  push_cast; ring

/-! ## The product of the forms of the straight line and of an odd subsequence -/

section

variable {m : ℕ} {a b C : ℝ} {u : ℕ → ℝ}

theorem tr_mul_cubic (h : Odd3 m C u) (hp : ∀ n ≤ 3 * m / 2, psum u n = a * (n : ℝ) ^ 3 + b * n) :
    ∑ j ∈ range (6 * m), tr m j * tf m u j = 4 * ∑ i ∈ range m, if 2 * i ≤ m then
      (10 * (i : ℝ) ^ 2 - 12 * m * i) * (a * i ^ 3 + b * i) + (-2 * m ^ 2 + 8 * m * i - 5 * i ^ 2) * (a * (m + i) ^ 3 + b * (m + i))
        + (m - i) ^ 2 * (a * (m - i) ^ 3 + b * (m - i) + (m + 2 * i) * C / 2) else
      (10 * (i : ℝ) ^ 2 - 12 * m * i) * (a * i ^ 3 + b * i) + (-2 * m ^ 2 + 8 * m * i - 5 * i ^ 2) *
        (a * (2 * m - i) ^ 3 + b * (2 * m - i) + (2 * i - m) * C / 2)
        + (m - i) ^ 2 * (a * (m - i) ^ 3 + b * (m - i) + (m + 2 * i) * C / 2) := by
  rw [tr_mul h]
  congr 1
  refine sum_congr rfl fun i hi => ?_
  have hi := mem_range.1 hi
  have e1 := h.psum (n := 2 * m + i) (by omega)
  rw [show 3 * m - (2 * m + i) = m - i by omega, hp (m - i) (by omega), Nat.cast_sub hi.le] at e1
  rw [hp i (by omega), e1]
  by_cases hc : 2 * i ≤ m
  · rw [if_pos hc, hp (m + i) (by omega)]; push_cast; ring
  · have e2 := h.psum (n := m + i) (by omega)
    rw [show 3 * m - (m + i) = 2 * m - i by omega, hp (2 * m - i) (by omega), Nat.cast_sub (by omega)] at e2
    rw [if_neg hc, e2]; push_cast; ring

end

section

variable {p : ℕ} {a b C : ℝ} {u : ℕ → ℝ}

theorem tr_mul_even (h : Odd3 (2 * p) C u) (hp : ∀ n ≤ 3 * (2 * p) / 2, psum u n = a * (n : ℝ) ^ 3 + b * n) :
    ∑ j ∈ range (6 * (2 * p)), tr (2 * p) j * tf (2 * p) u j = (448/5) * p ^ 6 * a + (54) * p ^ 4 * a + (-50) * p ^ 4 * b + (25) * p ^ 4 * C + (2/5) * p ^ 2 * a + (2) * p ^ 2 * b + (-1) * p ^ 2 * C := by
  rw [tr_mul_cubic h hp]
  rw [show range (2 * p) = range (p + p) by rw [two_mul], sum_range_add]
  have e1 : ∀ i ∈ range p, (if 2 * i ≤ 2 * p then
      (10 * (i : ℝ) ^ 2 - 12 * (2 * p : ℕ) * i) * (a * i ^ 3 + b * i) + (-2 * (2 * p : ℕ) ^ 2 + 8 * (2 * p : ℕ) * i - 5 * i ^ 2) * (a * ((2 * p : ℕ) + i) ^ 3 + b * ((2 * p : ℕ) + i))
        + ((2 * p : ℕ) - i) ^ 2 * (a * ((2 * p : ℕ) - i) ^ 3 + b * ((2 * p : ℕ) - i) + ((2 * p : ℕ) + 2 * i) * C / 2) else
      (10 * (i : ℝ) ^ 2 - 12 * (2 * p : ℕ) * i) * (a * i ^ 3 + b * i) + (-2 * (2 * p : ℕ) ^ 2 + 8 * (2 * p : ℕ) * i - 5 * i ^ 2) *
        (a * (2 * (2 * p : ℕ) - i) ^ 3 + b * (2 * (2 * p : ℕ) - i) + (2 * i - (2 * p : ℕ)) * C / 2)
        + ((2 * p : ℕ) - i) ^ 2 * (a * ((2 * p : ℕ) - i) ^ 3 + b * ((2 * p : ℕ) - i) + ((2 * p : ℕ) + 2 * i) * C / 2)) = ((-32) * p ^ 5 * a + (-8) * p ^ 3 * b + (4) * p ^ 3 * C) + ((-48) * p ^ 4 * a + (12) * p ^ 2 * b) * (i : ℝ) + ((184) * p ^ 3 * a + (-12) * p * b + (-3) * p * C) * (i : ℝ) ^ 2 + ((-12) * p ^ 2 * a + (4) * b + (1) * C) * (i : ℝ) ^ 3 + ((-28) * p * a) * (i : ℝ) ^ 4 + ((4) * a) * (i : ℝ) ^ 5 := fun i hi => by
    have := mem_range.1 hi
    rw [if_pos (by omega)]; push_cast; ring
  rw [sum_congr rfl e1, sum_poly]
  have e2 : ∀ i ∈ range p, (if 2 * (p + i) ≤ 2 * p then
      (10 * ((p + i : ℕ) : ℝ) ^ 2 - 12 * (2 * p : ℕ) * (p + i : ℕ)) * (a * (p + i : ℕ) ^ 3 + b * (p + i : ℕ)) + (-2 * (2 * p : ℕ) ^ 2 + 8 * (2 * p : ℕ) * (p + i : ℕ) - 5 * (p + i : ℕ) ^ 2) * (a * ((2 * p : ℕ) + (p + i : ℕ)) ^ 3 + b * ((2 * p : ℕ) + (p + i : ℕ)))
        + ((2 * p : ℕ) - (p + i : ℕ)) ^ 2 * (a * ((2 * p : ℕ) - (p + i : ℕ)) ^ 3 + b * ((2 * p : ℕ) - (p + i : ℕ)) + ((2 * p : ℕ) + 2 * (p + i : ℕ)) * C / 2) else
      (10 * ((p + i : ℕ) : ℝ) ^ 2 - 12 * (2 * p : ℕ) * (p + i : ℕ)) * (a * (p + i : ℕ) ^ 3 + b * (p + i : ℕ)) + (-2 * (2 * p : ℕ) ^ 2 + 8 * (2 * p : ℕ) * (p + i : ℕ) - 5 * (p + i : ℕ) ^ 2) *
        (a * (2 * (2 * p : ℕ) - (p + i : ℕ)) ^ 3 + b * (2 * (2 * p : ℕ) - (p + i : ℕ)) + (2 * (p + i : ℕ) - (2 * p : ℕ)) * C / 2)
        + ((2 * p : ℕ) - (p + i : ℕ)) ^ 2 * (a * ((2 * p : ℕ) - (p + i : ℕ)) ^ 3 + b * ((2 * p : ℕ) - (p + i : ℕ)) + ((2 * p : ℕ) + 2 * (p + i : ℕ)) * C / 2)) = ((68) * p ^ 5 * a + (-4) * p ^ 3 * b + (2) * p ^ 3 * C) + ((30) * p ^ 4 * a + (-6) * p ^ 2 * b) * (i : ℝ) + ((-304) * p ^ 3 * a + (-12) * p * b + (6) * p * C) * (i : ℝ) ^ 2 + ((180) * p ^ 2 * a + (14) * b + (-4) * C) * (i : ℝ) ^ 3 + ((-20) * p * a) * (i : ℝ) ^ 4 + ((14) * a) * (i : ℝ) ^ 5 := fun i hi => by
    rcases Nat.eq_zero_or_pos i with rfl | h0
    · rw [if_pos (by omega)]; push_cast; ring
    · rw [if_neg (by omega)]; push_cast; ring
  rw [sum_congr rfl e2, sum_poly]
  ring

theorem tr_mul_odd (h : Odd3 (2 * p + 1) C u) (hp : ∀ n ≤ 3 * (2 * p + 1) / 2, psum u n = a * (n : ℝ) ^ 3 + b * n) :
    ∑ j ∈ range (6 * (2 * p + 1)), tr (2 * p + 1) j * tf (2 * p + 1) u j = (448/5) * p ^ 6 * a + (1344/5) * p ^ 5 * a + (309) * p ^ 4 * a + (-50) * p ^ 4 * b + (25) * p ^ 4 * C + (170) * p ^ 3 * a + (-100) * p ^ 3 * b + (50) * p ^ 3 * C + (137/5) * p ^ 2 * a + (-76) * p ^ 2 * b + (38) * p ^ 2 * C + (-64/5) * p * a + (-26) * p * b + (13) * p * C + (-4) * a + (-4) * b + (2) * C := by
  rw [tr_mul_cubic h hp]
  rw [show range (2 * p + 1) = range (p + 1 + p) by congr 1; ring, sum_range_add]
  have e1 : ∀ i ∈ range (p + 1), (if 2 * i ≤ 2 * p + 1 then
      (10 * (i : ℝ) ^ 2 - 12 * (2 * p + 1 : ℕ) * i) * (a * i ^ 3 + b * i) + (-2 * (2 * p + 1 : ℕ) ^ 2 + 8 * (2 * p + 1 : ℕ) * i - 5 * i ^ 2) * (a * ((2 * p + 1 : ℕ) + i) ^ 3 + b * ((2 * p + 1 : ℕ) + i))
        + ((2 * p + 1 : ℕ) - i) ^ 2 * (a * ((2 * p + 1 : ℕ) - i) ^ 3 + b * ((2 * p + 1 : ℕ) - i) + ((2 * p + 1 : ℕ) + 2 * i) * C / 2) else
      (10 * (i : ℝ) ^ 2 - 12 * (2 * p + 1 : ℕ) * i) * (a * i ^ 3 + b * i) + (-2 * (2 * p + 1 : ℕ) ^ 2 + 8 * (2 * p + 1 : ℕ) * i - 5 * i ^ 2) *
        (a * (2 * (2 * p + 1 : ℕ) - i) ^ 3 + b * (2 * (2 * p + 1 : ℕ) - i) + (2 * i - (2 * p + 1 : ℕ)) * C / 2)
        + ((2 * p + 1 : ℕ) - i) ^ 2 * (a * ((2 * p + 1 : ℕ) - i) ^ 3 + b * ((2 * p + 1 : ℕ) - i) + ((2 * p + 1 : ℕ) + 2 * i) * C / 2)) = ((-32) * p ^ 5 * a + (-80) * p ^ 4 * a + (-80) * p ^ 3 * a + (-8) * p ^ 3 * b + (4) * p ^ 3 * C + (-40) * p ^ 2 * a + (-12) * p ^ 2 * b + (6) * p ^ 2 * C + (-10) * p * a + (-6) * p * b + (3) * p * C + (-1) * a + (-1) * b + (1/2) * C) + ((-48) * p ^ 4 * a + (-96) * p ^ 3 * a + (-72) * p ^ 2 * a + (12) * p ^ 2 * b + (-24) * p * a + (12) * p * b + (-3) * a + (3) * b) * (i : ℝ) + ((184) * p ^ 3 * a + (276) * p ^ 2 * a + (138) * p * a + (-12) * p * b + (-3) * p * C + (23) * a + (-6) * b + (-3/2) * C) * (i : ℝ) ^ 2 + ((-12) * p ^ 2 * a + (-12) * p * a + (-3) * a + (4) * b + (1) * C) * (i : ℝ) ^ 3 + ((-28) * p * a + (-14) * a) * (i : ℝ) ^ 4 + ((4) * a) * (i : ℝ) ^ 5 := fun i hi => by
    have := mem_range.1 hi
    rw [if_pos (by omega)]; push_cast; ring
  rw [sum_congr rfl e1, sum_poly]
  have e2 : ∀ i ∈ range p, (if 2 * (p + 1 + i) ≤ 2 * p + 1 then
      (10 * ((p + 1 + i : ℕ) : ℝ) ^ 2 - 12 * (2 * p + 1 : ℕ) * (p + 1 + i : ℕ)) * (a * (p + 1 + i : ℕ) ^ 3 + b * (p + 1 + i : ℕ)) + (-2 * (2 * p + 1 : ℕ) ^ 2 + 8 * (2 * p + 1 : ℕ) * (p + 1 + i : ℕ) - 5 * (p + 1 + i : ℕ) ^ 2) * (a * ((2 * p + 1 : ℕ) + (p + 1 + i : ℕ)) ^ 3 + b * ((2 * p + 1 : ℕ) + (p + 1 + i : ℕ)))
        + ((2 * p + 1 : ℕ) - (p + 1 + i : ℕ)) ^ 2 * (a * ((2 * p + 1 : ℕ) - (p + 1 + i : ℕ)) ^ 3 + b * ((2 * p + 1 : ℕ) - (p + 1 + i : ℕ)) + ((2 * p + 1 : ℕ) + 2 * (p + 1 + i : ℕ)) * C / 2) else
      (10 * ((p + 1 + i : ℕ) : ℝ) ^ 2 - 12 * (2 * p + 1 : ℕ) * (p + 1 + i : ℕ)) * (a * (p + 1 + i : ℕ) ^ 3 + b * (p + 1 + i : ℕ)) + (-2 * (2 * p + 1 : ℕ) ^ 2 + 8 * (2 * p + 1 : ℕ) * (p + 1 + i : ℕ) - 5 * (p + 1 + i : ℕ) ^ 2) *
        (a * (2 * (2 * p + 1 : ℕ) - (p + 1 + i : ℕ)) ^ 3 + b * (2 * (2 * p + 1 : ℕ) - (p + 1 + i : ℕ)) + (2 * (p + 1 + i : ℕ) - (2 * p + 1 : ℕ)) * C / 2)
        + ((2 * p + 1 : ℕ) - (p + 1 + i : ℕ)) ^ 2 * (a * ((2 * p + 1 : ℕ) - (p + 1 + i : ℕ)) ^ 3 + b * ((2 * p + 1 : ℕ) - (p + 1 + i : ℕ)) + ((2 * p + 1 : ℕ) + 2 * (p + 1 + i : ℕ)) * C / 2)) = ((68) * p ^ 5 * a + (185) * p ^ 4 * a + (124) * p ^ 3 * a + (-4) * p ^ 3 * b + (2) * p ^ 3 * C + (16) * p ^ 2 * a + (-9) * p ^ 2 * b + (3) * p ^ 2 * C + (-7) * p * a + (-9) * p * b + (3) * p * C + (-1) * a + (-1) * b + (1/2) * C) + ((30) * p ^ 4 * a + (-244) * p ^ 3 * a + (-276) * p ^ 2 * a + (-6) * p ^ 2 * b + (-88) * p * a + (-18) * p * b + (6) * p * C + (-3) * a + (3) * b) * (i : ℝ) + ((-304) * p ^ 3 * a + (-186) * p ^ 2 * a + (12) * p * a + (-12) * p * b + (6) * p * C + (32) * a + (15) * b + (-3) * C) * (i : ℝ) ^ 2 + ((180) * p ^ 2 * a + (140) * p * a + (60) * a + (14) * b + (-4) * C) * (i : ℝ) ^ 3 + ((-20) * p * a + (25) * a) * (i : ℝ) ^ 4 + ((14) * a) * (i : ℝ) ^ 5 := fun i hi => by
    rw [if_neg (by omega)]; push_cast; ring
  rw [sum_congr rfl e2, sum_poly]
  push_cast
  ring

end

/-! ## The sums -/

theorem sum_sq_expand (m n : ℕ) (v : ℕ → ℕ → ℝ) (b : ℕ → ℝ) (u : ℕ → ℝ) (hu : ∀ k < 3 * m, u k = ∑ i ∈ range n, b i * v i k) :
    ∑ i ∈ range n, ∑ j ∈ range (6 * m), (tf m (v i) j - b i * tr m j) ^ 2 =
      ∑ i ∈ range n, ∑ j ∈ range (6 * m), tf m (v i) j ^ 2 - 2 * ∑ j ∈ range (6 * m), tr m j * tf m u j +
        (∑ i ∈ range n, b i ^ 2) * ∑ j ∈ range (6 * m), tr m j ^ 2 := by
  have h1 : ∑ j ∈ range (6 * m), tr m j * tf m u j = ∑ i ∈ range n, ∑ j ∈ range (6 * m), b i * (tr m j * tf m (v i) j) := by
    rw [sum_comm]
    refine sum_congr rfl fun j hj => ?_
    rw [tf_congr (mem_range.1 hj) hu, tf_sum, mul_sum]
    exact sum_congr rfl fun i _ => by ring
  rw [h1, sum_mul, mul_sum, ← sum_sub_distrib, ← sum_add_distrib]
  refine sum_congr rfl fun i _ => ?_
  rw [mul_sum, mul_sum, ← sum_sub_distrib, ← sum_add_distrib]
  exact sum_congr rfl fun j _ => by ring

theorem tc_unit (m : ℕ) : ∀ k < 3 * m, tc m k = ∑ i ∈ range (3 * m), tc m i * unit i k := fun k hk => by
  unfold unit
  simp only [mul_ite, mul_one, mul_zero]
  rw [sum_ite_eq, if_pos (mem_range.2 hk)]

theorem tq_step (m : ℕ) : ∀ k < 3 * m, tq m k = ∑ s ∈ range (3 * m), tb m s * step s k := fun k hk => by
  have h3 := sum_range_add (fun s => tb m s * step s k) (k + 1) (3 * m - (k + 1))
  rw [show k + 1 + (3 * m - (k + 1)) = 3 * m by omega] at h3
  rw [h3, sum_eq_zero (s := range (3 * m - (k + 1))) (fun s _ => by unfold step; rw [if_neg (by omega), mul_zero]), add_zero]
  unfold tq psum
  exact sum_congr rfl fun s hs => by unfold step; rw [if_pos (by have := mem_range.1 hs; omega), mul_one]

theorem kap_even {p : ℕ} (hp : 0 < p) : kap (2 * p) = 1 / (9 * p ^ 2) := by
  unfold kap
  rw [show 3 * (2 * p) / 2 = 3 * p by omega, show 3 * (2 * p) - 3 * p = 3 * p by omega]
  push_cast; congr 1; ring

theorem kap_odd (p : ℕ) : kap (2 * p + 1) = 1 / ((3 * p + 1) * (3 * p + 2)) := by
  unfold kap
  rw [show 3 * (2 * p + 1) / 2 = 3 * p + 1 by omega, show 3 * (2 * p + 1) - (3 * p + 1) = 3 * p + 2 by omega]
  push_cast; rfl

/-- white points -/
theorem white_total {m : ℕ} (hm : 0 < m) :
    ∑ i ∈ range (3 * m), ∑ j ∈ range (6 * m), (tf m (unit i) j - tc m i * tr m j) ^ 2 = 36 * m ^ 2 * bias0 m := by
  rw [sum_sq_expand m (3 * m) unit (tc m) (tc m) (tc_unit m), unit_total, tc_sq, tr_total]
  obtain ⟨p, rfl | rfl⟩ := m.even_or_odd'
  · have hp : 0 < p := by omega
    have hp' : (0 : ℝ) < p := by exact_mod_cast hp
    rw [tr_mul_even (a := 0) (b := -kap (2 * p)) (odd_tc _) (fun n hn => by rw [psum_tc hn]; ring)]
    unfold bias0
    rw [if_pos (by omega), if_pos (by omega), kap_even hp, show 3 * (2 * p) / 2 = 3 * p by omega]
    push_cast
    field_simp
    ring
  · have hp' : (0 : ℝ) ≤ p := Nat.cast_nonneg p
    rw [tr_mul_odd (a := 0) (b := -kap (2 * p + 1)) (odd_tc _) (fun n hn => by rw [psum_tc hn]; ring)]
    unfold bias0
    rw [if_neg (by omega), if_neg (by omega), kap_odd, show 3 * (2 * p + 1) / 2 = 3 * p + 1 by omega]
    push_cast
    have e : 9 * (2 * (p : ℝ) + 1) ^ 2 - 1 = 4 * ((3 * p + 1) * (3 * p + 2)) := by ring
    rw [e]
    field_simp
    ring

/-- white increments -/
theorem walk_total {m : ℕ} (hm : 0 < m) :
    ∑ s ∈ range (3 * m), ∑ j ∈ range (6 * m), (tf m (step s) j - tb m s * tr m j) ^ 2 = 6 * m ^ 2 * (m ^ 2 + 1) * bias1 m := by
  rw [sum_sq_expand m (3 * m) step (tb m) (tq m) (tq_step m), step_total hm, tr_total]
  obtain ⟨p, rfl | rfl⟩ := m.even_or_odd'
  · have hp : 0 < p := by omega
    have hp' : (0 : ℝ) < p := by exact_mod_cast hp
    rw [tr_mul_even (a := kap (2 * p) / 6) (b := -kap (2 * p) / 6) (odd_tq hm) (fun n hn => by rw [psum_tq n hn]; ring), tb_sq_even]
    unfold bias1
    rw [if_pos (by omega), if_pos (by omega), kap_even hp]
    push_cast
    field_simp
    ring
  · have hp' : (0 : ℝ) ≤ p := Nat.cast_nonneg p
    rw [tr_mul_odd (a := kap (2 * p + 1) / 6) (b := -kap (2 * p + 1) / 6) (odd_tq hm) (fun n hn => by rw [psum_tq n hn]; ring),
      tb_sq_odd]
    unfold bias1
    rw [if_neg (by omega), if_neg (by omega), kap_odd]
    push_cast
    have e : 9 * (2 * (p : ℝ) + 1) ^ 2 - 1 = 4 * ((3 * p + 1) * (3 * p + 2)) := by ring
    rw [e]
    field_simp
    ring

end AT
