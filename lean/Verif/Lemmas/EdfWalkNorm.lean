import Verif.Lemmas.EdfWalk

/-!
# Random walk frequency noise: kernels and norms
-/

namespace AT

open Spec Finset

/-! ## Norms -/

theorem lagW_shift {M l p : ℕ} (hl : l < M) : lagW M l ≤ 2 * lagW M (l - p) := by
  have h1 : (l : ℝ) ≤ M := by exact_mod_cast hl.le
  have h0 : (0 : ℝ) ≤ l := by positivity
  have h2 : ((l - p : ℕ) : ℝ) ≤ l := by exact_mod_cast Nat.sub_le l p
  unfold lagW
  split_ifs
  · linarith
  · omega
  · linarith
  · linarith

/-- a block of lags charged to the first block -/
theorem charge_block (M p : ℕ) (h : ℕ → ℝ) (h0 : ∀ l, 0 ≤ h l) :
    ∑ l ∈ range M, (if p ≤ l then lagW M l * h (l - p) else 0) ≤ 2 * ∑ l ∈ range M, lagW M l * h l := by
  have s1 : ∑ l ∈ range M, (if p ≤ l then lagW M l * h (l - p) else 0)
      ≤ ∑ l ∈ range M, (if p ≤ l then 2 * (lagW M (l - p) * h (l - p)) else 0) := sum_le_sum fun l hl => by
    split_ifs
    · have := mul_le_mul_of_nonneg_right (lagW_shift (p := p) (mem_range.1 hl)) (h0 (l - p))
      linarith
    · exact le_rfl
  refine s1.trans ?_
  rw [mul_sum]
  rcases le_total M p with hp | hp
  · rw [sum_eq_zero fun l hl => if_neg (by have := mem_range.1 hl; omega)]
    exact sum_nonneg fun l hl => mul_nonneg (by norm_num) (mul_nonneg (lagW_nonneg hl) (h0 l))
  · obtain ⟨r, rfl⟩ : ∃ r, M = p + r := ⟨M - p, by omega⟩
    rw [sum_range_add, sum_eq_zero (s := range p) (fun l hl => if_neg (by have := mem_range.1 hl; omega)), zero_add]
    have e : ∀ x ∈ range r, (if p ≤ p + x then 2 * (lagW (p + r) (p + x - p) * h (p + x - p)) else 0)
        = 2 * (lagW (p + r) x * h x) := fun x _ => by
      rw [if_pos (by omega), Nat.add_sub_cancel_left]
    rw [sum_congr rfl e]
    exact sum_le_sum_of_subset_of_nonneg (range_mono (by omega))
      (fun l hl _ => mul_nonneg (by norm_num) (mul_nonneg (lagW_nonneg hl) (h0 l)))

/-- the norm of a sequence on three blocks, each bounded by the values on the first block of another one -/
theorem norm_blocks (M S : ℕ) (z f : ℕ → ℝ) (r0 r1 r2 : ℝ) (b0 : ∀ l < S, |z l| ≤ r0 * f l)
    (b1 : ∀ l < S, |z (S + l)| ≤ r1 * f l) (b2 : ∀ l < S, |z (2 * S + l)| ≤ r2 * f l)
    (b3 : ∀ l, 3 * S ≤ l → z l = 0) : lagN M z ≤ (r0 ^ 2 + 2 * r1 ^ 2 + 2 * r2 ^ 2) * lagN M f := by
  have sq : ∀ {a b : ℝ}, |a| ≤ b → a ^ 2 ≤ b ^ 2 := fun {a b} h => by
    rw [← sq_abs a]
    exact pow_le_pow_left₀ (abs_nonneg a) h 2
  have pt : ∀ l ∈ range M, lagW M l * z l ^ 2 ≤ r0 ^ 2 * (lagW M l * f l ^ 2)
      + (r1 ^ 2 * (if S ≤ l then lagW M l * f (l - S) ^ 2 else 0)
        + r2 ^ 2 * (if 2 * S ≤ l then lagW M l * f (l - 2 * S) ^ 2 else 0)) := by
    intro l hl
    have hw := lagW_nonneg hl
    have t0 : 0 ≤ r0 ^ 2 * (lagW M l * f l ^ 2) := by positivity
    have t1 : 0 ≤ r1 ^ 2 * (if S ≤ l then lagW M l * f (l - S) ^ 2 else 0) := by
      split_ifs <;> positivity
    have t2 : 0 ≤ r2 ^ 2 * (if 2 * S ≤ l then lagW M l * f (l - 2 * S) ^ 2 else 0) := by
      split_ifs <;> positivity
    rcases lt_or_ge l S with h | h
    · have := mul_le_mul_of_nonneg_left (sq (b0 l h)) hw
      rw [mul_pow] at this
      linarith
    · rcases lt_or_ge l (2 * S) with h2 | h2
      · have := mul_le_mul_of_nonneg_left (sq (b1 (l - S) (by omega))) hw
        rw [mul_pow, Nat.add_sub_cancel' h] at this
        rw [if_pos h] at t1 ⊢
        linarith
      · rcases lt_or_ge l (3 * S) with h3 | h3
        · have := mul_le_mul_of_nonneg_left (sq (b2 (l - 2 * S) (by omega))) hw
          rw [mul_pow, Nat.add_sub_cancel' h2] at this
          rw [if_pos h2] at t2 ⊢
          linarith
        · rw [b3 l h3]
          linarith
  refine (sum_le_sum pt).trans ?_
  rw [sum_add_distrib, sum_add_distrib, ← mul_sum, ← mul_sum, ← mul_sum]
  have c1 := mul_le_mul_of_nonneg_left (charge_block M S (fun l => f l ^ 2) (fun l => sq_nonneg _)) (sq_nonneg r1)
  have c2 := mul_le_mul_of_nonneg_left (charge_block M (2 * S) (fun l => f l ^ 2) (fun l => sq_nonneg _)) (sq_nonneg r2)
  unfold lagN
  linarith

/-- every value taken twice -/
theorem lagN_half (M : ℕ) (f : ℕ → ℝ) : lagN M (fun l => f (l / 2)) ≤ 3 * lagN M f := by
  set w : ℕ → ℝ := fun l => if l < M then lagW M l else 0 with hw
  have w0 : ∀ l, 0 ≤ w l := fun l => by
    simp only [hw]
    split_ifs with h
    · exact lagW_nonneg (mem_range.2 h)
    · exact le_rfl
  have dbl : ∀ n, ∑ l ∈ range (2 * n), w l * f (l / 2) ^ 2 = ∑ j ∈ range n, (w (2 * j) + w (2 * j + 1)) * f j ^ 2 := by
    intro n
    induction n with
    | zero => simp
    | succ n ih =>
      rw [show 2 * (n + 1) = 2 * n + 1 + 1 by ring, sum_range_succ, sum_range_succ, ih, sum_range_succ,
        show 2 * n / 2 = n by omega, show (2 * n + 1) / 2 = n by omega]
      ring
  have s1 : lagN M (fun l => f (l / 2)) ≤ ∑ l ∈ range (2 * M), w l * f (l / 2) ^ 2 := by
    have : lagN M (fun l => f (l / 2)) = ∑ l ∈ range M, w l * f (l / 2) ^ 2 :=
      sum_congr rfl fun l hl => by simp only [hw, if_pos (mem_range.1 hl)]
    rw [this]
    exact sum_le_sum_of_subset_of_nonneg (range_mono (by omega)) (fun l _ _ => mul_nonneg (w0 l) (sq_nonneg _))
  refine s1.trans ?_
  rw [dbl, lagN, mul_sum]
  refine sum_le_sum fun j hj => ?_
  rw [← mul_assoc]
  refine mul_le_mul_of_nonneg_right ?_ (sq_nonneg _)
  rw [mem_range] at hj
  have hM : (j : ℝ) < M := by exact_mod_cast hj
  have h0 : (0 : ℝ) ≤ j := by positivity
  rcases Nat.eq_zero_or_pos j with rfl | hp
  · simp only [hw, lagW, mul_zero, if_true]
    push_cast
    split_ifs <;> norm_num at * <;> linarith
  · simp only [hw, lagW, if_neg hp.ne', if_neg (show ¬ 2 * j = 0 by omega), if_neg (show ¬ 2 * j + 1 = 0 by omega)]
    push_cast
    split_ifs <;> linarith

/-- The degrees of freedom of a covariance `g` near the covariance `c`. -/
theorem edf_near2 (M : ℕ) (hM : 0 < M) (g c : ℕ → ℝ) (g0 : g 0 ≠ 0) (c0 : c 0 ≠ 0) (ε : ℝ)
    (hn : √(lagN M fun l => g l / g 0 - c l / c 0) ≤ ε * √(lagN M fun l => c l / c 0)) :
    |√(M ^ 2 * c 0 ^ 2 / lagN M c) - √(M ^ 2 * g 0 ^ 2 / lagN M g)| ≤ ε * √(M ^ 2 * g 0 ^ 2 / lagN M g) := by
  have hM' : (0 : ℝ) < M := by exact_mod_cast hM
  have key : ∀ f : ℕ → ℝ, f 0 ≠ 0 → √((M : ℝ) ^ 2 * f 0 ^ 2 / lagN M f) = M / √(lagN M fun l => f l / f 0) := by
    intro f f0
    have e : lagN M (fun l => f l / f 0) = (1 / f 0) ^ 2 * lagN M f := by
      rw [← lagN_mul]
      congr 1
      funext l
      ring
    have hp : 0 < lagN M f := lt_of_lt_of_le (by positivity) (lagN_ge M hM f)
    rw [e, ← Real.sqrt_sq hM'.le, ← Real.sqrt_div (by positivity), Real.sqrt_sq hM'.le]
    congr 1
    field_simp
  rw [key g g0, key c c0]
  set X := √(lagN M fun l => g l / g 0)
  set Y := √(lagN M fun l => c l / c 0) with hY
  set Z := √(lagN M fun l => g l / g 0 - c l / c 0)
  have hX : 0 < X := Real.sqrt_pos.2 (lt_of_lt_of_le (by simp [g0]; exact hM) (lagN_ge M hM _))
  have hYp : 0 < Y := Real.sqrt_pos.2 (lt_of_lt_of_le (by simp [c0]; exact hM) (lagN_ge M hM _))
  have u1 : X ≤ Y + Z := by
    refine le_trans (le_of_eq ?_) (minkowski (range M) (lagW M) _ _ (fun l hl => lagW_nonneg hl))
    exact congrArg Real.sqrt (sum_congr rfl fun l _ => by ring)
  have u2 : Y ≤ X + Z := by
    have e : Z = √(∑ l ∈ range M, lagW M l * (c l / c 0 - g l / g 0) ^ 2) :=
      congrArg Real.sqrt (sum_congr rfl fun l _ => by ring)
    rw [e]
    refine le_trans (le_of_eq ?_) (minkowski (range M) (lagW M) _ _ (fun l hl => lagW_nonneg hl))
    exact congrArg Real.sqrt (sum_congr rfl fun l _ => by ring)
  have hxy : |X - Y| ≤ ε * Y := by
    rw [abs_le]
    constructor <;> linarith
  have e : (M : ℝ) / Y - M / X = (X - Y) * (M / (X * Y)) := by
    field_simp
  rw [e, abs_mul, abs_of_pos (show (0 : ℝ) < M / (X * Y) by positivity)]
  calc |X - Y| * (M / (X * Y)) ≤ ε * Y * (M / (X * Y)) :=
        mul_le_mul_of_nonneg_right hxy (by positivity)
    _ = ε * (M / X) := by field_simp

/-- the norm of a deviation in three directions -/
theorem lagN_tri (M : ℕ) (z t c : ℕ → ℝ) (α β κ τ : ℝ) (hκ : 0 ≤ κ) (hτ : 0 ≤ τ)
    (hz : lagN M z ≤ κ ^ 2 * lagN M c) (ht : lagN M t ≤ τ ^ 2 * lagN M c) :
    √(lagN M fun l => α * (z l - c l) + β * (t l - c l)) ≤ (|α| * (1 + κ) + |β| * (1 + τ)) * √(lagN M c) := by
  have hY := Real.sqrt_nonneg (lagN M c)
  have bd : ∀ (u : ℕ → ℝ) (k : ℝ), 0 ≤ k → lagN M u ≤ k ^ 2 * lagN M c → √(lagN M u) ≤ k * √(lagN M c) := fun u k hk h => by
    rw [Real.sqrt_le_left (by positivity), mul_pow, Real.sq_sqrt (lagN_nonneg _ _)]
    exact h
  have hnorm : ∀ k : ℝ, ∀ f, √(lagN M fun l => k * f l) = |k| * √(lagN M f) := fun k f => by
    rw [lagN_mul, Real.sqrt_mul (sq_nonneg _), Real.sqrt_sq_eq_abs]
  have tri : ∀ f g : ℕ → ℝ, √(lagN M fun l => f l + g l) ≤ √(lagN M f) + √(lagN M g) := fun f g =>
    minkowski (range M) (lagW M) f g (fun l hl => lagW_nonneg hl)
  have neg : √(lagN M fun l => -c l) = √(lagN M c) :=
    congrArg Real.sqrt (sum_congr rfl fun l _ => by ring)
  have dif : ∀ (u : ℕ → ℝ) (k : ℝ), 0 ≤ k → lagN M u ≤ k ^ 2 * lagN M c →
      √(lagN M fun l => u l - c l) ≤ (1 + k) * √(lagN M c) := fun u k hk h => by
    have h1 := tri u (fun l => -c l)
    have h2 := bd u k hk h
    simp only [← sub_eq_add_neg] at h1
    rw [neg] at h1
    linarith
  refine (tri _ _).trans ?_
  rw [hnorm α (fun l => z l - c l), hnorm β (fun l => t l - c l)]
  have h1 := mul_le_mul_of_nonneg_left (dif z κ hκ hz) (abs_nonneg α)
  have h2 := mul_le_mul_of_nonneg_left (dif t τ hτ ht) (abs_nonneg β)
  linarith

/-! ## Kernels -/

theorem kernA2 (t : ℝ) (h0 : 0 ≤ t) (h1 : t ≤ 1) : ghSz .inf (-2) 2 t = 8 - 12 * t ^ 2 + 6 * t ^ 3 := by
  have hx : ∀ u, ghSx .inf (-2) u = |u| ^ 3 := fun u => by simp [ghSx, ghSw]
  unfold ghSz
  simp only [sum_range_succ, sum_range_zero, hx]
  norm_num [Nat.choose]
  rw [abs_of_nonneg h0, abs_of_nonpos (show t - 2 ≤ 0 by linarith), abs_of_nonpos (show t + 1 - 2 ≤ 0 by linarith),
    abs_of_nonneg (show 0 ≤ t + 3 - 2 by linarith), abs_of_nonneg (show 0 ≤ t + 4 - 2 by linarith)]
  ring

theorem kernZ2 (t : ℝ) (h0 : 0 ≤ t) : ghSz .inf 0 2 t
    = if t ≤ 1 then 4 - 6 * t else if t ≤ 2 then -2 * (2 - t) else 0 := by
  have hx : ∀ u, ghSx .inf 0 u = -|u| := fun u => by simp [ghSx, ghSw]
  unfold ghSz
  simp only [sum_range_succ, sum_range_zero, hx]
  norm_num [Nat.choose]
  rw [abs_of_nonneg h0, abs_of_nonneg (show 0 ≤ t + 3 - 2 by linarith), abs_of_nonneg (show 0 ≤ t + 4 - 2 by linarith)]
  split_ifs with h1 h2
  · rw [abs_of_nonpos (show t - 2 ≤ 0 by linarith), abs_of_nonpos (show t + 1 - 2 ≤ 0 by linarith)]
    ring
  · rw [abs_of_nonpos (show t - 2 ≤ 0 by linarith), abs_of_nonneg (show 0 ≤ t + 1 - 2 by linarith)]
    ring
  · rw [abs_of_nonneg (show 0 ≤ t - 2 by linarith), abs_of_nonneg (show 0 ≤ t + 1 - 2 by linarith)]
    ring

theorem kernZ3 (t : ℝ) (h0 : 0 ≤ t) : ghSz .inf 0 3 t
    = if t ≤ 1 then 12 - 20 * t else if t ≤ 2 then -18 + 10 * t else if t ≤ 3 then 2 * (3 - t) else 0 := by
  have hx : ∀ u, ghSx .inf 0 u = -|u| := fun u => by simp [ghSx, ghSw]
  unfold ghSz
  simp only [sum_range_succ, sum_range_zero, hx]
  norm_num [Nat.choose]
  rw [abs_of_nonneg h0, abs_of_nonneg (show 0 ≤ t + 4 - 3 by linarith), abs_of_nonneg (show 0 ≤ t + 5 - 3 by linarith),
    abs_of_nonneg (show 0 ≤ t + 6 - 3 by linarith)]
  split_ifs with h1 h2 h3
  · rw [abs_of_nonpos (show t - 3 ≤ 0 by linarith), abs_of_nonpos (show t + 1 - 3 ≤ 0 by linarith),
      abs_of_nonpos (show t + 2 - 3 ≤ 0 by linarith)]
    ring
  · rw [abs_of_nonpos (show t - 3 ≤ 0 by linarith), abs_of_nonpos (show t + 1 - 3 ≤ 0 by linarith),
      abs_of_nonneg (show 0 ≤ t + 2 - 3 by linarith)]
    ring
  · rw [abs_of_nonpos (show t - 3 ≤ 0 by linarith), abs_of_nonneg (show 0 ≤ t + 1 - 3 by linarith),
      abs_of_nonneg (show 0 ≤ t + 2 - 3 by linarith)]
    ring
  · rw [abs_of_nonneg (show 0 ≤ t - 3 by linarith), abs_of_nonneg (show 0 ≤ t + 1 - 3 by linarith),
      abs_of_nonneg (show 0 ≤ t + 2 - 3 by linarith)]
    ring

theorem kernA3 (t : ℝ) (h0 : 0 ≤ t) : ghSz .inf (-2) 3 t
    = if t ≤ 1 then 12 - 36 * t ^ 2 + 20 * t ^ 3 else if t ≤ 2 then 12 - 36 * t ^ 2 + 20 * t ^ 3 - 30 * (t - 1) ^ 3
      else if t ≤ 3 then -2 * (3 - t) ^ 3 else 0 := by
  have hx : ∀ u, ghSx .inf (-2) u = |u| ^ 3 := fun u => by simp [ghSx, ghSw]
  unfold ghSz
  simp only [sum_range_succ, sum_range_zero, hx]
  norm_num [Nat.choose]
  rw [abs_of_nonneg h0, abs_of_nonneg (show 0 ≤ t + 4 - 3 by linarith), abs_of_nonneg (show 0 ≤ t + 5 - 3 by linarith),
    abs_of_nonneg (show 0 ≤ t + 6 - 3 by linarith)]
  split_ifs with h1 h2 h3
  · rw [abs_of_nonpos (show t - 3 ≤ 0 by linarith), abs_of_nonpos (show t + 1 - 3 ≤ 0 by linarith),
      abs_of_nonpos (show t + 2 - 3 ≤ 0 by linarith)]
    ring
  · rw [abs_of_nonpos (show t - 3 ≤ 0 by linarith), abs_of_nonpos (show t + 1 - 3 ≤ 0 by linarith),
      abs_of_nonneg (show 0 ≤ t + 2 - 3 by linarith)]
    ring
  · rw [abs_of_nonpos (show t - 3 ≤ 0 by linarith), abs_of_nonneg (show 0 ≤ t + 1 - 3 by linarith),
      abs_of_nonneg (show 0 ≤ t + 2 - 3 by linarith)]
    ring
  · rw [abs_of_nonneg (show 0 ≤ t - 3 by linarith), abs_of_nonneg (show 0 ≤ t + 1 - 3 by linarith),
      abs_of_nonneg (show 0 ≤ t + 2 - 3 by linarith)]
    ring

theorem kernQ (t : ℝ) (h0 : 0 ≤ t) (h1 : t ≤ 1) :
    ghSz (.fin 1) (-2) 2 t = -(132 - 120 * t ^ 2 + 60 * t ^ 4 - 20 * t ^ 5) := by
  rw [ghSz_fin1]
  simp only [sum_range_succ, sum_range_zero]
  norm_num [Nat.choose]
  rw [abs_of_nonneg h0, abs_of_nonneg (show 0 ≤ t + 4 - 3 by linarith), abs_of_nonneg (show 0 ≤ t + 5 - 3 by linarith),
    abs_of_nonneg (show 0 ≤ t + 6 - 3 by linarith), abs_of_nonpos (show t - 3 ≤ 0 by linarith),
    abs_of_nonpos (show t + 1 - 3 ≤ 0 by linarith), abs_of_nonpos (show t + 2 - 3 ≤ 0 by linarith)]
  ring

theorem kern_inf_far (d : ℕ) (hd : d = 2 ∨ d = 3) (t : ℝ) (h : (d : ℝ) + 1 ≤ t) : ghSz .inf (-2) d t = 0 := by
  have hx : ∀ u, ghSx .inf (-2) u = |u| ^ 3 := fun u => by simp [ghSx, ghSw]
  unfold ghSz
  have : ∀ i ∈ range (2 * d + 1), (-1 : ℝ) ^ (d + i) * (2 * d).choose i * ghSx .inf (-2) (t + i - d)
      = (-1 : ℝ) ^ (d + i) * (2 * d).choose i * (t + i - d) ^ 3 := fun i _ => by
    rw [hx, abs_of_nonneg (by have : (0 : ℝ) ≤ i := by positivity
                              linarith)]
  rw [sum_congr rfl this]
  rcases hd with rfl | rfl <;> simp only [sum_range_succ, sum_range_zero] <;> norm_num [Nat.choose] <;> ring

theorem kern_fin_far (F : ℝ) (hF : 1 ≤ F) (d : ℕ) (hd : d = 2 ∨ d = 3) (t : ℝ) (h : (d : ℝ) + 1 ≤ t) :
    ghSz (.fin F) (-2) d t = 0 := by
  have hF' : (0 : ℝ) < F := by linarith
  have h1 : 1 / F ≤ 1 := by rwa [div_le_one hF']
  have h2 : 0 < 1 / F := by positivity
  have hs : ∀ u, 1 ≤ u → ghSx (.fin F) (-2) u = -20 * u ^ 3 - 10 / F ^ 2 * u := by
    intro u hu
    simp only [ghSx, ghSw]
    norm_num
    norm_num at h1
    have hu0 : (0 : ℝ) < u := by linarith
    rw [abs_of_nonneg (show (0 : ℝ) ≤ u by linarith), abs_of_nonneg (show (0 : ℝ) ≤ u - F⁻¹ by linarith),
      abs_of_nonneg (show (0 : ℝ) ≤ u + F⁻¹ by positivity)]
    field_simp
    ring
  unfold ghSz
  have : ∀ i ∈ range (2 * d + 1), (-1 : ℝ) ^ (d + i) * (2 * d).choose i * ghSx (.fin F) (-2) (t + i - d)
      = (-1 : ℝ) ^ (d + i) * (2 * d).choose i * (-20 * (t + i - d) ^ 3 - 10 / F ^ 2 * (t + i - d)) := fun i _ => by
    rw [hs _ (by have : (0 : ℝ) ≤ i := by positivity
                 linarith)]
  rw [sum_congr rfl this]
  rcases hd with rfl | rfl <;> simp only [sum_range_succ, sum_range_zero] <;> norm_num [Nat.choose] <;> ring

theorem walk_sx_grid (m : ℕ) (hm : 0 < m) (j : ℤ) :
    ghSx (.fin m) (-2) ((j : ℝ) / m)
      = -20 * |(j : ℝ) / m| ^ 3 - 10 / m ^ 2 * |(j : ℝ) / m| - 2 / m ^ 3 * if j = 0 then 1 else 0 := by
  have hm' : (0 : ℝ) < m := by exact_mod_cast hm
  have e : ghSx (.fin m) (-2) ((j : ℝ) / m)
      = 1 / m ^ 3 * (2 * |(j : ℝ)| ^ 5 - |(j : ℝ) - 1| ^ 5 - |(j : ℝ) + 1| ^ 5) := by
    have a1 : |(j : ℝ) / m| = |(j : ℝ)| / m := by rw [abs_div, abs_of_pos hm']
    have a2 : |(j : ℝ) / m - 1 / m| = |(j : ℝ) - 1| / m := by rw [← sub_div, abs_div, abs_of_pos hm']
    have a3 : |(j : ℝ) / m + 1 / m| = |(j : ℝ) + 1| / m := by rw [← add_div, abs_div, abs_of_pos hm']
    simp only [ghSx, ghSw]
    norm_num
    norm_num at a2 a3
    rw [a1, a2, a3]
    field_simp
  rw [e, abs_div, abs_of_pos hm']
  obtain rfl | h | h : j = 0 ∨ 1 ≤ j ∨ j ≤ -1 := by omega
  · norm_num
    ring
  · have h' : (1 : ℝ) ≤ j := by exact_mod_cast h
    rw [if_neg (by omega), abs_of_nonneg (show (0 : ℝ) ≤ (j : ℝ) by linarith),
      abs_of_nonneg (show (0 : ℝ) ≤ (j : ℝ) - 1 by linarith), abs_of_nonneg (show (0 : ℝ) ≤ (j : ℝ) + 1 by linarith)]
    field_simp
    ring
  · have h' : (j : ℝ) ≤ -1 := by exact_mod_cast h
    rw [if_neg (by omega), abs_of_nonpos (show (j : ℝ) ≤ 0 by linarith),
      abs_of_nonpos (show (j : ℝ) - 1 ≤ 0 by linarith), abs_of_nonpos (show (j : ℝ) + 1 ≤ 0 by linarith)]
    field_simp
    ring

/-- the kernel at finite filter factor on the grid of the lags -/
theorem walk_sz_grid (d m k : ℕ) (hd : d = 2 ∨ d = 3) (hm : 0 < m) :
    ghSz (.fin m) (-2) d ((k : ℝ) / m) = -20 * ghSz .inf (-2) d ((k : ℝ) / m) + 10 / m ^ 2 * ghSz .inf 0 d ((k : ℝ) / m)
      - 2 / m ^ 3 * tapCov d m k := by
  have hm' : (0 : ℝ) < m := by exact_mod_cast hm
  have e : ∀ i : ℕ, ((k : ℝ) / m + i - d) = (((k : ℤ) + ((i : ℤ) - d) * m : ℤ) : ℝ) / m := fun i => by
    push_cast
    field_simp
    ring
  have hx : ∀ u, ghSx .inf 0 u = -|u| := fun u => by simp [ghSx, ghSw]
  have hy : ∀ u, ghSx .inf (-2) u = |u| ^ 3 := fun u => by simp [ghSx, ghSw]
  have hi : ∀ i : ℕ, ghSx (.fin m) (-2) ((k : ℝ) / m + i - d)
      = -20 * ghSx .inf (-2) ((k : ℝ) / m + i - d) + 10 / m ^ 2 * ghSx .inf 0 ((k : ℝ) / m + i - d)
        + m / m ^ 3 * (ghSx (.fin m) 0 ((k : ℝ) / m + i - d) - 6 * ghSx .inf 0 ((k : ℝ) / m + i - d)) := fun i => by
    rw [hx, hy, e i, walk_sx_grid m hm, sx_fin_grid m hm]
    field_simp
    ring
  have h0 := sz_fin_grid d m k hd hm
  have e2 : 2 / (m : ℝ) ^ 3 * tapCov d m k
      = -(1 / m ^ 2 * (ghSz (.fin m) 0 d ((k : ℝ) / m) - 6 * ghSz .inf 0 d ((k : ℝ) / m))) := by
    rw [h0]
    field_simp
    ring
  rw [e2]
  unfold ghSz
  simp only [hi, mul_sum, ← sum_sub_distrib, ← sum_add_distrib, ← sum_neg_distrib]
  refine sum_congr rfl fun i _ => ?_
  field_simp
  ring

end AT
