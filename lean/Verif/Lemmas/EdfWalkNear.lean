import Verif.Lemmas.EdfWalkNorm

/-!
# Random walk frequency noise: how far the kernels are from the covariances
-/

namespace AT

open Spec Finset

theorem walk_norm2 (M S : ℕ) (hS : 0 < S) (f : ℕ → ℝ)
    (hf : ∀ l < S, 1 - 3 / 2 * ((l : ℝ) / S) ^ 2 + 3 / 4 * ((l : ℝ) / S) ^ 3 ≤ f l) :
    lagN M (fun l => ghSz .inf 0 2 (l / S) / 4) ≤ (17 / 8) ^ 2 * lagN M f := by
  have hS' : (0 : ℝ) < S := by exact_mod_cast hS
  have ht : ∀ l < S, (0 : ℝ) ≤ (l : ℝ) / S ∧ (l : ℝ) / S ≤ 1 := fun l hl =>
    ⟨by positivity, by rw [div_le_one hS']; exact_mod_cast hl.le⟩
  have h := norm_blocks M S (fun l => ghSz .inf 0 2 (l / S) / 4) f 2 (1 / 2) 0 (fun l hl => ?_) (fun l hl => ?_)
    (fun l hl => ?_) (fun l hl => ?_)
  · refine h.trans (mul_le_mul_of_nonneg_right (by norm_num) (lagN_nonneg _ _))
  · obtain ⟨h0, h1⟩ := ht l hl
    have := hf l hl
    rw [kernZ2 _ h0, if_pos h1]
    generalize (l : ℝ) / S = t at *
    rw [abs_le]
    constructor
    · nlinarith [mul_nonneg (sub_nonneg.2 h1) (show 0 ≤ 2 + t - t ^ 2 by nlinarith)]
    · nlinarith [mul_nonneg h0 h0, mul_nonneg (mul_nonneg h0 h0) h0]
  · obtain ⟨h0, h1⟩ := ht l hl
    have := hf l hl
    have e : (((S + l : ℕ) : ℝ) / S) = 1 + (l : ℝ) / S := by push_cast; field_simp
    rw [e, kernZ2 _ (by linarith)]
    generalize (l : ℝ) / S = t at *
    rw [abs_le]
    split_ifs with g1 g2
    · have : t = 0 := by linarith
      subst this
      constructor <;> linarith
    · constructor
      · nlinarith [mul_nonneg h0 (show 0 ≤ 1 - 3 / 2 * t + 3 / 4 * t ^ 2 by nlinarith [sq_nonneg (t - 1)])]
      · nlinarith [mul_nonneg h0 (show 0 ≤ 1 - 3 / 2 * t + 3 / 4 * t ^ 2 by nlinarith [sq_nonneg (t - 1)])]
    · exfalso; linarith
  · have e : (((2 * S + l : ℕ) : ℝ) / S) = 2 + (l : ℝ) / S := by push_cast; field_simp
    obtain ⟨h0, h1⟩ := ht l hl
    rw [e, kernZ2 _ (by linarith)]
    generalize (l : ℝ) / S = t at *
    split_ifs with g1 g2
    · exfalso; linarith
    · have : t = 0 := by linarith
      subst this
      norm_num
    · norm_num
  · have : (3 : ℝ) ≤ (l : ℝ) / S := by
      rw [le_div_iff₀ hS']
      exact_mod_cast hl
    rw [kernZ2 _ (by linarith), if_neg (by linarith), if_neg (by linarith), zero_div]

/-- the bounds on the three blocks of the kernel of the third differences of white frequency noise -/
theorem kernZ3_blocks (t : ℝ) (h0 : 0 ≤ t) (h1 : t ≤ 1) :
    |ghSz .inf 0 3 t / 12| = |1 - 5 / 3 * t| ∧ |ghSz .inf 0 3 (1 + t) / 12| = |4 - 5 * t| / 6 ∧
    |ghSz .inf 0 3 (2 + t) / 12| = (1 - t) / 6 := by
  refine ⟨?_, ?_, ?_⟩
  · rw [kernZ3 _ h0, if_pos h1]
    congr 1
    ring
  · have e : ghSz .inf 0 3 (1 + t) = -8 + 10 * t := by
      rw [kernZ3 _ (by linarith)]
      split_ifs with g1 g2 g3
      · have : t = 0 := by linarith
        subst this
        norm_num
      · ring
      · exfalso; linarith
      · exfalso; linarith
    rw [e, ← abs_neg, show -((-8 + 10 * t) / 12) = (4 - 5 * t) / 6 by ring, abs_div, abs_of_pos (show (0 : ℝ) < 6 by norm_num)]
  · have e : ghSz .inf 0 3 (2 + t) = 2 * (1 - t) := by
      rw [kernZ3 _ (by linarith)]
      split_ifs with g1 g2 g3
      · exfalso; linarith
      · have : t = 0 := by linarith
        subst this
        norm_num
      · ring
      · exfalso; linarith
    rw [e, abs_of_nonneg (by linarith)]
    ring

theorem walk_norm3 (M S : ℕ) (hS : 0 < S) (f : ℕ → ℝ)
    (hf : ∀ l, 2 * l ≤ S → 1 - 3 * ((l : ℝ) / S) ^ 2 + 5 / 3 * ((l : ℝ) / S) ^ 3 ≤ f l) :
    lagN M (fun l => ghSz .inf 0 3 (l / S) / 12) ≤ (61 / 20) ^ 2 * lagN M f := by
  have hS' : (0 : ℝ) < S := by exact_mod_cast hS
  have ht : ∀ l < S, (0 : ℝ) ≤ (l : ℝ) / S ∧ (l : ℝ) / S ≤ 1 := fun l hl =>
    ⟨by positivity, by rw [div_le_one hS']; exact_mod_cast hl.le⟩
  have low : ∀ l < S, 1 - 3 / 4 * ((l : ℝ) / S) ^ 2 + 5 / 24 * ((l : ℝ) / S) ^ 3 ≤ f (l / 2) := by
    intro l hl
    refine le_trans ?_ (hf (l / 2) (by omega))
    have h2 : ((l / 2 : ℕ) : ℝ) / S ≤ (l : ℝ) / S / 2 := by
      have : ((l / 2 : ℕ) : ℝ) * 2 ≤ l := by exact_mod_cast Nat.div_mul_le_self l 2
      rw [div_div, div_le_div_iff₀ hS' (by positivity)]
      nlinarith
    have h3 : (0 : ℝ) ≤ ((l / 2 : ℕ) : ℝ) / S := by positivity
    obtain ⟨h0, h1⟩ := ht l hl
    generalize ((l / 2 : ℕ) : ℝ) / S = u at *
    generalize (l : ℝ) / S = t at *
    have e : (1 - 3 * u ^ 2 + 5 / 3 * u ^ 3) - (1 - 3 / 4 * t ^ 2 + 5 / 24 * t ^ 3)
        = (t / 2 - u) * (3 * (t / 2 + u) - 5 / 3 * ((t / 2) ^ 2 + t / 2 * u + u ^ 2)) := by ring
    have hp : 0 ≤ 3 * (t / 2 + u) - 5 / 3 * ((t / 2) ^ 2 + t / 2 * u + u ^ 2) := by nlinarith
    have := mul_nonneg (sub_nonneg.2 h2) hp
    linarith
  have h := norm_blocks M S (fun l => ghSz .inf 0 3 (l / S) / 12) (fun l => f (l / 2)) (73 / 50) (2 / 3) (1 / 6)
    (fun l hl => ?_) (fun l hl => ?_) (fun l hl => ?_) (fun l hl => ?_)
  · have h3 := lagN_half M f
    refine h.trans ?_
    have := lagN_nonneg M f
    have := mul_le_mul_of_nonneg_left h3 (show (0 : ℝ) ≤ (73 / 50) ^ 2 + 2 * (2 / 3) ^ 2 + 2 * (1 / 6) ^ 2 by norm_num)
    refine this.trans ?_
    nlinarith
  · obtain ⟨h0, h1⟩ := ht l hl
    have := low l hl
    rw [(kernZ3_blocks _ h0 h1).1]
    generalize (l : ℝ) / S = t at *
    rw [abs_le]
    constructor
    · nlinarith [mul_nonneg h0 (sub_nonneg.2 h1), mul_nonneg (mul_nonneg h0 h0) (sub_nonneg.2 h1)]
    · nlinarith [mul_nonneg h0 (sub_nonneg.2 h1), mul_nonneg (mul_nonneg h0 h0) h0]
  · obtain ⟨h0, h1⟩ := ht l hl
    have := low l hl
    have e : (((S + l : ℕ) : ℝ) / S) = 1 + (l : ℝ) / S := by push_cast; field_simp
    rw [e, (kernZ3_blocks _ h0 h1).2.1]
    generalize (l : ℝ) / S = t at *
    rw [div_le_iff₀ (by norm_num), abs_le]
    constructor
    · nlinarith [mul_nonneg h0 (sub_nonneg.2 h1), mul_nonneg (mul_nonneg h0 h0) h0]
    · nlinarith [mul_nonneg h0 (sub_nonneg.2 h1), mul_nonneg (mul_nonneg h0 h0) h0]
  · obtain ⟨h0, h1⟩ := ht l hl
    have := low l hl
    have e : (((2 * S + l : ℕ) : ℝ) / S) = 2 + (l : ℝ) / S := by push_cast; field_simp
    rw [e, (kernZ3_blocks _ h0 h1).2.2]
    generalize (l : ℝ) / S = t at *
    nlinarith [mul_nonneg h0 (sub_nonneg.2 h1), mul_nonneg (mul_nonneg h0 h0) h0]
  · have : (3 : ℝ) ≤ (l : ℝ) / S := by
      rw [le_div_iff₀ hS']
      exact_mod_cast hl
    rw [kernZ3 _ (by linarith)]
    split_ifs
    · exfalso; linarith
    · exfalso; linarith
    · have : (l : ℝ) / S = 3 := by linarith
      rw [this]; norm_num
    · simp

/-! ## The modified second differences -/

theorem quintic_low (t : ℝ) (h0 : 0 ≤ t) (h1 : t ≤ 1) :
    ghSz (.fin 1) (-2) 2 t / -132 = 1 - 10 / 11 * t ^ 2 + 5 / 11 * t ^ 4 - 5 / 33 * t ^ 5 := by
  rw [kernQ t h0 h1]
  ring

theorem mod_normZ (M m : ℕ) (hm : 0 < m) :
    lagN M (fun l => ghSz .inf 0 3 (l / m) / 12) ≤ (49 / 25) ^ 2 * lagN M (fun l => ghSz (.fin 1) (-2) 2 (l / m) / -132) := by
  have hS' : (0 : ℝ) < m := by exact_mod_cast hm
  have ht : ∀ l < m, (0 : ℝ) ≤ (l : ℝ) / m ∧ (l : ℝ) / m ≤ 1 := fun l hl =>
    ⟨by positivity, by rw [div_le_one hS']; exact_mod_cast hl.le⟩
  have h := norm_blocks M m (fun l => ghSz .inf 0 3 (l / m) / 12) (fun l => ghSz (.fin 1) (-2) 2 (l / m) / -132)
    (17 / 10) (2 / 3) (1 / 6)
    (fun l hl => ?_) (fun l hl => ?_) (fun l hl => ?_) (fun l hl => ?_)
  · exact h.trans (mul_le_mul_of_nonneg_right (by norm_num) (lagN_nonneg _ _))
  · obtain ⟨h0, h1⟩ := ht l hl
    rw [(kernZ3_blocks _ h0 h1).1, quintic_low _ h0 h1]
    generalize (l : ℝ) / m = t at *
    have a2 : 0 ≤ t ^ 2 * (1 - t) := by have := sub_nonneg.2 h1; positivity
    have a4 : 0 ≤ t ^ 4 * (1 - t) := by have := sub_nonneg.2 h1; positivity
    have a6 : 0 ≤ t * (1 - t) := by have := sub_nonneg.2 h1; positivity
    rw [abs_le]
    constructor <;> nlinarith [sq_nonneg (t ^ 2 - 1)]
  · obtain ⟨h0, h1⟩ := ht l hl
    have e : (((m + l : ℕ) : ℝ) / m) = 1 + (l : ℝ) / m := by push_cast; field_simp
    rw [e, (kernZ3_blocks _ h0 h1).2.1, quintic_low _ h0 h1]
    generalize (l : ℝ) / m = t at *
    have a2 : 0 ≤ t ^ 2 * (1 - t) := by have := sub_nonneg.2 h1; positivity
    have a4 : 0 ≤ t ^ 4 * (1 - t) := by have := sub_nonneg.2 h1; positivity
    have a6 : 0 ≤ t * (1 - t) := by have := sub_nonneg.2 h1; positivity
    rw [div_le_iff₀ (by norm_num), abs_le]
    constructor <;> nlinarith [sq_nonneg (t ^ 2 - 1)]
  · obtain ⟨h0, h1⟩ := ht l hl
    have e : (((2 * m + l : ℕ) : ℝ) / m) = 2 + (l : ℝ) / m := by push_cast; field_simp
    rw [e, (kernZ3_blocks _ h0 h1).2.2, quintic_low _ h0 h1]
    generalize (l : ℝ) / m = t at *
    have a2 : 0 ≤ t ^ 2 * (1 - t) := by have := sub_nonneg.2 h1; positivity
    have a4 : 0 ≤ t ^ 4 * (1 - t) := by have := sub_nonneg.2 h1; positivity
    have a6 : 0 ≤ t * (1 - t) := by have := sub_nonneg.2 h1; positivity
    nlinarith [sq_nonneg (t ^ 2 - 1)]
  · have : (3 : ℝ) ≤ (l : ℝ) / m := by
      rw [le_div_iff₀ hS']
      exact_mod_cast hl
    rw [kernZ3 _ (by linarith)]
    split_ifs
    · exfalso; linarith
    · exfalso; linarith
    · have : (l : ℝ) / m = 3 := by linarith
      rw [this]; norm_num
    · simp

theorem kernA3_blocks (t : ℝ) (h0 : 0 ≤ t) (h1 : t ≤ 1) :
    ghSz .inf (-2) 3 t / 12 = 1 - 3 * t ^ 2 + 5 / 3 * t ^ 3 ∧
    ghSz .inf (-2) 3 (1 + t) / 12 = (-2 - 6 * t + 12 * t ^ 2 - 5 * t ^ 3) / 6 ∧
    ghSz .inf (-2) 3 (2 + t) / 12 = -(1 - t) ^ 3 / 6 := by
  refine ⟨?_, ?_, ?_⟩
  · rw [kernA3 _ h0, if_pos h1]
    ring
  · rw [kernA3 _ (by linarith)]
    split_ifs with g1 g2 g3
    · have : t = 0 := by linarith
      subst this
      norm_num
    · ring
    · exfalso; linarith
    · exfalso; linarith
  · rw [kernA3 _ (by linarith)]
    split_ifs with g1 g2 g3
    · exfalso; linarith
    · have : t = 0 := by linarith
      subst this
      norm_num
    · ring
    · exfalso; linarith

theorem mod_normA (M m : ℕ) (hm : 0 < m) :
    lagN M (fun l => ghSz .inf (-2) 3 (l / m) / 12) ≤ (13 / 10) ^ 2 * lagN M (fun l => ghSz (.fin 1) (-2) 2 (l / m) / -132) := by
  have hS' : (0 : ℝ) < m := by exact_mod_cast hm
  have ht : ∀ l < m, (0 : ℝ) ≤ (l : ℝ) / m ∧ (l : ℝ) / m ≤ 1 := fun l hl =>
    ⟨by positivity, by rw [div_le_one hS']; exact_mod_cast hl.le⟩
  have h := norm_blocks M m (fun l => ghSz .inf (-2) 3 (l / m) / 12) (fun l => ghSz (.fin 1) (-2) 2 (l / m) / -132)
    1 (14 / 25) (1 / 6)
    (fun l hl => ?_) (fun l hl => ?_) (fun l hl => ?_) (fun l hl => ?_)
  · exact h.trans (mul_le_mul_of_nonneg_right (by norm_num) (lagN_nonneg _ _))
  · obtain ⟨h0, h1⟩ := ht l hl
    rw [(kernA3_blocks _ h0 h1).1, quintic_low _ h0 h1]
    generalize (l : ℝ) / m = t at *
    have a2 : 0 ≤ t ^ 2 * (1 - t) := by have := sub_nonneg.2 h1; positivity
    have a3 : 0 ≤ t ^ 3 * (1 - t) := by have := sub_nonneg.2 h1; positivity
    have a4 : 0 ≤ t ^ 4 * (1 - t) := by have := sub_nonneg.2 h1; positivity
    have a6 : 0 ≤ t * (1 - t) := by have := sub_nonneg.2 h1; positivity
    rw [abs_le]
    constructor <;> nlinarith [sq_nonneg (t ^ 2 - 1)]
  · obtain ⟨h0, h1⟩ := ht l hl
    have e : (((m + l : ℕ) : ℝ) / m) = 1 + (l : ℝ) / m := by push_cast; field_simp
    rw [e, (kernA3_blocks _ h0 h1).2.1, quintic_low _ h0 h1]
    generalize (l : ℝ) / m = t at *
    have a2 : 0 ≤ t ^ 2 * (1 - t) := by have := sub_nonneg.2 h1; positivity
    have a3 : 0 ≤ t ^ 3 * (1 - t) := by have := sub_nonneg.2 h1; positivity
    have a4 : 0 ≤ t ^ 4 * (1 - t) := by have := sub_nonneg.2 h1; positivity
    have a6 : 0 ≤ t * (1 - t) := by have := sub_nonneg.2 h1; positivity
    rw [abs_le]
    constructor
    · nlinarith [sq_nonneg (t ^ 2 - 1), mul_nonneg h0 (sq_nonneg (t - 1 / 2)), sq_nonneg (t - 1 / 2), mul_nonneg h0 (sq_nonneg (t ^ 2 - 1 / 3))]
    · nlinarith [sq_nonneg (t ^ 2 - 1)]
  · obtain ⟨h0, h1⟩ := ht l hl
    have e : (((2 * m + l : ℕ) : ℝ) / m) = 2 + (l : ℝ) / m := by push_cast; field_simp
    rw [e, (kernA3_blocks _ h0 h1).2.2, quintic_low _ h0 h1]
    generalize (l : ℝ) / m = t at *
    have a1 := sub_nonneg.2 h1
    have a2 : 0 ≤ t ^ 2 * (1 - t) := by positivity
    have a4 : 0 ≤ t ^ 4 * (1 - t) := by positivity
    have a6 : 0 ≤ t * (1 - t) := by positivity
    rw [neg_div, abs_neg, abs_of_nonneg (by positivity)]
    have : (1 - t) ^ 3 ≤ 1 - t := by nlinarith [mul_nonneg a6 a1]
    nlinarith [sq_nonneg (t ^ 2 - 1)]
  · have : (3 : ℝ) ≤ (l : ℝ) / m := by
      rw [le_div_iff₀ hS']
      exact_mod_cast hl
    rw [kernA3 _ (by linarith)]
    split_ifs
    · exfalso; linarith
    · exfalso; linarith
    · have : (l : ℝ) / m = 3 := by linarith
      rw [this]; norm_num
    · simp

/-! ## The unmodified differences -/

theorem kernA_at0 (d : ℕ) (hd : d = 2 ∨ d = 3) : ghSz .inf (-2) d 0 = if d = 2 then 8 else 12 := by
  rcases hd with rfl | rfl
  · rw [kernA2 0 le_rfl zero_le_one]; norm_num
  · rw [kernA3 0 le_rfl, if_pos zero_le_one]; norm_num

theorem kernZ_at0 (d : ℕ) (hd : d = 2 ∨ d = 3) : ghSz .inf 0 d 0 = if d = 2 then 4 else 12 := by
  rcases hd with rfl | rfl
  · rw [kernZ2 0 le_rfl, if_pos zero_le_one]; norm_num
  · rw [kernZ3 0 le_rfl, if_pos zero_le_one]; norm_num

theorem walk_alg (A Z T a z t u : ℝ) (hz : z ≠ 0) (ht : t ≠ 0) (hG : a + z * u ^ 2 ≠ 0)
    (hC : -20 * a + 10 * u ^ 2 * z - 2 * u ^ 3 * t ≠ 0) :
    (A + Z * u ^ 2) / (a + z * u ^ 2) - (-20 * A + 10 * u ^ 2 * Z - 2 * u ^ 3 * T) / (-20 * a + 10 * u ^ 2 * z - 2 * u ^ 3 * t)
      = 3 / 2 * z * u ^ 2 / (a + z * u ^ 2) * (Z / z
        - (-20 * A + 10 * u ^ 2 * Z - 2 * u ^ 3 * T) / (-20 * a + 10 * u ^ 2 * z - 2 * u ^ 3 * t))
      + -(t * u ^ 3 / 10 / (a + z * u ^ 2)) * (T / t
        - (-20 * A + 10 * u ^ 2 * Z - 2 * u ^ 3 * T) / (-20 * a + 10 * u ^ 2 * z - 2 * u ^ 3 * t)) := by
  have h1 : A = -(-20 * A + 10 * u ^ 2 * Z - 2 * u ^ 3 * T) / 20 + u ^ 2 * Z / 2 - u ^ 3 * T / 10 := by ring
  have h2 : a + z * u ^ 2 = -(-20 * a + 10 * u ^ 2 * z - 2 * u ^ 3 * t) / 20 + 3 / 2 * (u ^ 2 * z) - u ^ 3 * t / 10 := by ring
  generalize -20 * A + 10 * u ^ 2 * Z - 2 * u ^ 3 * T = C at *
  generalize -20 * a + 10 * u ^ 2 * z - 2 * u ^ 3 * t = c at *
  generalize a + z * u ^ 2 = G at *
  rw [h1, ← sub_eq_zero]
  have e : (-C / 20 + u ^ 2 * Z / 2 - u ^ 3 * T / 10 + Z * u ^ 2) / G - C / c
      - (3 / 2 * z * u ^ 2 / G * (Z / z - C / c) + -(t * u ^ 3 / 10 / G) * (T / t - C / c))
      = -C / (G * c) * (G - (-c / 20 + 3 / 2 * (u ^ 2 * z) - u ^ 3 * t / 10)) := by
    field_simp
    ring
  rw [e, ← h2, sub_self, mul_zero]

theorem walk_alg_inf (A Z a z u : ℝ) (hz : z ≠ 0) (ha : a ≠ 0) (hG : a + z * u ^ 2 ≠ 0) :
    (A + Z * u ^ 2) / (a + z * u ^ 2) - A / a = z * u ^ 2 / (a + z * u ^ 2) * (Z / z - A / a) + 0 * (Z / z - A / a) := by
  obtain ⟨G, hg⟩ : ∃ G, G = a + z * u ^ 2 := ⟨_, rfl⟩
  rw [← hg] at hG ⊢
  rw [← sub_eq_zero]
  have e : (A + Z * u ^ 2) / G - A / a - (z * u ^ 2 / G * (Z / z - A / a) + 0 * (Z / z - A / a))
      = -A / (G * a) * (G - (a + z * u ^ 2)) := by
    field_simp
    ring
  rw [e, ← hg, sub_self, mul_zero]

theorem walk_low2 (t u : ℝ) (hu : 0 < u) (hu1 : u ≤ 1) (hut : u ≤ t) (h1 : t ≤ 1) :
    1 - 3 / 2 * t ^ 2 + 3 / 4 * t ^ 3
      ≤ (-20 * (8 - 12 * t ^ 2 + 6 * t ^ 3) + 10 * u ^ 2 * (4 - 6 * t) - 2 * u ^ 3 * 0)
        / (-20 * 8 + 10 * u ^ 2 * 4 - 2 * u ^ 3 * 6) := by
  have h0 : 0 < t := by linarith
  have hd : -20 * 8 + 10 * u ^ 2 * 4 - 2 * u ^ 3 * 6 < 0 := by nlinarith [pow_pos hu 3, mul_pos hu hu]
  rw [le_div_iff_of_neg hd]
  have e : (1 - 3 / 2 * t ^ 2 + 3 / 4 * t ^ 3) * (-20 * 8 + 10 * u ^ 2 * 4 - 2 * u ^ 3 * 6)
      - (-20 * (8 - 12 * t ^ 2 + 6 * t ^ 3) + 10 * u ^ 2 * (4 - 6 * t) - 2 * u ^ 3 * 0)
      = u ^ 2 * (60 * t * (1 - t + t ^ 2 / 2) - 12 * u * (1 - 3 / 2 * t ^ 2 + 3 / 4 * t ^ 3)) := by ring
  have h2 : 1 / 2 ≤ 1 - t + t ^ 2 / 2 := by nlinarith [sq_nonneg (1 - t)]
  have h3 : 1 - 3 / 2 * t ^ 2 + 3 / 4 * t ^ 3 ≤ 1 := by nlinarith [mul_nonneg (sq_nonneg t) (sub_nonneg.2 h1)]
  have h4 : 0 ≤ 60 * t * (1 - t + t ^ 2 / 2) - 12 * u * (1 - 3 / 2 * t ^ 2 + 3 / 4 * t ^ 3) := by
    nlinarith [mul_le_mul_of_nonneg_left h2 h0.le, mul_le_mul_of_nonneg_left h3 hu.le]
  have := mul_nonneg (sq_nonneg u) h4
  linarith

theorem walk_low3 (t u : ℝ) (hu : 0 < u) (hu1 : u ≤ 1) (hut : u ≤ t) (h1 : t ≤ 1 / 2) :
    1 - 3 * t ^ 2 + 5 / 3 * t ^ 3
      ≤ (-20 * (12 - 36 * t ^ 2 + 20 * t ^ 3) + 10 * u ^ 2 * (12 - 20 * t) - 2 * u ^ 3 * 0)
        / (-20 * 12 + 10 * u ^ 2 * 12 - 2 * u ^ 3 * 20) := by
  have h0 : 0 < t := by linarith
  have hd : -20 * 12 + 10 * u ^ 2 * 12 - 2 * u ^ 3 * 20 < 0 := by nlinarith [pow_pos hu 3, mul_pos hu hu]
  rw [le_div_iff_of_neg hd]
  have e : (1 - 3 * t ^ 2 + 5 / 3 * t ^ 3) * (-20 * 12 + 10 * u ^ 2 * 12 - 2 * u ^ 3 * 20)
      - (-20 * (12 - 36 * t ^ 2 + 20 * t ^ 3) + 10 * u ^ 2 * (12 - 20 * t) - 2 * u ^ 3 * 0)
      = u ^ 2 * (200 * t * (1 - 9 / 5 * t + t ^ 2) - 40 * u * (1 - 3 * t ^ 2 + 5 / 3 * t ^ 3)) := by ring
  have h2 : 7 / 20 ≤ 1 - 9 / 5 * t + t ^ 2 := by nlinarith
  have h3 : 1 - 3 * t ^ 2 + 5 / 3 * t ^ 3 ≤ 1 := by nlinarith [mul_nonneg (sq_nonneg t) (sub_nonneg.2 h1), sq_nonneg t]
  have h4 : 0 ≤ 200 * t * (1 - 9 / 5 * t + t ^ 2) - 40 * u * (1 - 3 * t ^ 2 + 5 / 3 * t ^ 3) := by
    nlinarith [mul_le_mul_of_nonneg_left h2 h0.le, mul_le_mul_of_nonneg_left h3 hu.le]
  have := mul_nonneg (sq_nonneg u) h4
  linarith

theorem tapCov_mid (d m k : ℕ) (h0 : 0 < k) (h1 : k < m) : tapCov d m k = 0 := by
  unfold tapCov
  split_ifs <;> first | rfl | (exfalso; omega)

theorem walkCov_ratio (d m l : ℕ) (hm : 0 < m) : walkCov d m l / walkCov d m 0
    = (ghSz .inf (-2) d (l / m) + ghSz .inf 0 d (l / m) * (1 / (m : ℝ)) ^ 2)
      / (ghSz .inf (-2) d 0 + ghSz .inf 0 d 0 * (1 / (m : ℝ)) ^ 2) := by
  have hm' : (0 : ℝ) < m := by exact_mod_cast hm
  have e : ∀ l : ℕ, walkCov d m l
      = (m : ℝ) ^ 3 / 12 * (ghSz .inf (-2) d (l / m) + ghSz .inf 0 d (l / m) * (1 / (m : ℝ)) ^ 2) := fun l => by
    rw [walkCov]
    field_simp
  rw [e, e, mul_div_mul_left _ _ (by positivity), Nat.cast_zero, zero_div]

/-- the relative error of the degrees of freedom -/
noncomputable def walkK (d : ℕ) : ℝ := if d = 2 then 12 / 5 else 61 / 10

theorem eps_add (a b D k j : ℝ) : a / D * k + b / D * j = (a * k + b * j) / D := by ring

theorem walk_eps2 (u : ℝ) (hu : 0 < u) : |3 / 2 * 4 * u ^ 2 / (8 + 4 * u ^ 2)| * (1 + 17 / 8)
    + |-(6 * u ^ 3 / 10 / (8 + 4 * u ^ 2))| * (1 + 3 / 2) ≤ 12 / 5 * u ^ 2 := by
  rw [abs_neg, abs_of_pos (by positivity), abs_of_pos (by positivity), eps_add, div_le_iff₀ (by positivity)]
  nlinarith [mul_nonneg (sq_nonneg u) (show 0 ≤ 48 / 5 * u ^ 2 - 3 / 2 * u + 9 / 20 by nlinarith [sq_nonneg (u - 1 / 12)])]

theorem walk_eps3 (u : ℝ) (hu : 0 < u) : |3 / 2 * 12 * u ^ 2 / (12 + 12 * u ^ 2)| * (1 + 61 / 20)
    + |-(20 * u ^ 3 / 10 / (12 + 12 * u ^ 2))| * (1 + 38 / 25) ≤ 61 / 10 * u ^ 2 := by
  rw [abs_neg, abs_of_pos (by positivity), abs_of_pos (by positivity), eps_add, div_le_iff₀ (by positivity)]
  nlinarith [mul_nonneg (sq_nonneg u) (show 0 ≤ 366 / 5 * u ^ 2 - 126 / 25 * u + 3 / 10 by nlinarith [sq_nonneg (u - 1 / 29)])]

theorem walk_eps_inf2 (u : ℝ) (hu : 0 < u) : |4 * u ^ 2 / (8 + 4 * u ^ 2)| * (1 + 17 / 8) + |(0 : ℝ)| * (1 + 17 / 8)
    ≤ 12 / 5 * u ^ 2 := by
  rw [abs_zero, zero_mul, add_zero, abs_of_pos (by positivity), div_mul_eq_mul_div, div_le_iff₀ (by positivity)]
  nlinarith [sq_nonneg (u ^ 2), sq_nonneg u]

theorem walk_eps_inf3 (u : ℝ) (hu : 0 < u) : |12 * u ^ 2 / (12 + 12 * u ^ 2)| * (1 + 61 / 20) + |(0 : ℝ)| * (1 + 61 / 20)
    ≤ 61 / 10 * u ^ 2 := by
  rw [abs_zero, zero_mul, add_zero, abs_of_pos (by positivity), div_mul_eq_mul_div, div_le_iff₀ (by positivity)]
  nlinarith [sq_nonneg (u ^ 2), sq_nonneg u]

theorem walk_fin0 (d m : ℕ) (hd : d = 2 ∨ d = 3) (hm : 0 < m) : ghSz (.fin m) (-2) d 0 < 0 := by
  have hm' : (0 : ℝ) < m := by exact_mod_cast hm
  have hu : 0 < 1 / (m : ℝ) := by positivity
  have hu1 : 1 / (m : ℝ) ≤ 1 := by rw [div_le_one hm']; exact_mod_cast hm
  have h := walk_sz_grid d m 0 hd hm
  rw [Nat.cast_zero, zero_div, kernA_at0 d hd, kernZ_at0 d hd] at h
  rw [h, show (10 : ℝ) / (m : ℝ) ^ 2 = 10 * (1 / m) ^ 2 by ring, show (2 : ℝ) / (m : ℝ) ^ 3 = 2 * (1 / m) ^ 3 by ring]
  generalize 1 / (m : ℝ) = u at *
  rcases hd with rfl | rfl
  · simp only [tapCov, if_true]
    nlinarith [pow_pos hu 3, mul_pos hu hu]
  · simp only [tapCov, if_true]
    norm_num
    nlinarith [pow_pos hu 3, mul_pos hu hu]

theorem walk_near_cov (d M m S S' : ℕ) (hd : d = 2 ∨ d = 3) (hM : 0 < M) (hm : 0 < m) (hS : S * S' = m) (F : FArg)
    (hF : F = .inf ∨ F = .fin m) :
    |√(M ^ 2 * (fun l : ℕ => ghSz F (-2) d ((l : ℝ) / S')) 0 ^ 2 / lagN M (fun l => ghSz F (-2) d ((l : ℝ) / S')))
      - √(M ^ 2 * (fun l : ℕ => walkCov d m (l * S)) 0 ^ 2 / lagN M (fun l => walkCov d m (l * S)))|
      ≤ walkK d / m ^ 2 * √(M ^ 2 * (fun l : ℕ => walkCov d m (l * S)) 0 ^ 2 / lagN M (fun l => walkCov d m (l * S))) := by
  have hS0 : 0 < S := Nat.pos_of_ne_zero fun h => by simp [h] at hS; omega
  have hS1 : 0 < S' := Nat.pos_of_ne_zero fun h => by simp [h] at hS; omega
  have hm' : (0 : ℝ) < m := by exact_mod_cast hm
  have hS' : (0 : ℝ) < S' := by exact_mod_cast hS1
  have hM' : (0 : ℝ) < M := by exact_mod_cast hM
  have e1 : ∀ l : ℕ, (((l * S : ℕ) : ℝ) / m) = l / S' := fun l => by
    have h2 : (S : ℝ) * S' = m := by exact_mod_cast hS
    rw [div_eq_div_iff hm'.ne' hS'.ne', ← h2]
    push_cast
    ring
  have hu : 0 < 1 / (m : ℝ) := by positivity
  have hu1 : 1 / (m : ℝ) ≤ 1 := by rw [div_le_one hm']; exact_mod_cast hm
  have a0 := kernA_at0 d hd
  have z0 := kernZ_at0 d hd
  have tc0 : tapCov d m 0 = if d = 2 then 6 else 20 := by simp [tapCov]
  have g0 : walkCov d m (0 * S) ≠ 0 := by
    rw [Nat.zero_mul, walkCov, Nat.cast_zero, zero_div, a0, z0]
    split_ifs <;> positivity
  have c0 : ghSz F (-2) d (((0 : ℕ) : ℝ) / S') ≠ 0 := by
    rw [Nat.cast_zero, zero_div]
    rcases hF with rfl | rfl
    · rw [a0]
      split_ifs <;> norm_num
    · exact (walk_fin0 d m hd hm).ne
  have hK : walkK d / (m : ℝ) ^ 2 = walkK d * (1 / (m : ℝ)) ^ 2 := by ring
  have hMc : ∀ c : ℕ → ℝ, c 0 ≠ 0 → (M : ℝ) ≤ lagN M (fun l => c l / c 0) := fun c hc => by
    refine le_trans (le_of_eq ?_) (lagN_ge _ hM _)
    rw [div_self hc]
    ring
  have bl : ∀ l, 2 * l ≤ S' → (l : ℝ) / S' ≤ 1 / 2 := fun l hl => by
    have : (2 : ℝ) * l ≤ S' := by exact_mod_cast hl
    rw [div_le_iff₀ hS']
    linarith
  have bl' : ∀ l < S', (l : ℝ) / S' ≤ 1 := fun l hl => by
    rw [div_le_one hS']
    exact_mod_cast hl.le
  have pl : ∀ l : ℕ, (0 : ℝ) ≤ (l : ℝ) / S' := fun l => by positivity
  refine edf_near2 M hM (fun l : ℕ => walkCov d m (l * S)) (fun l : ℕ => ghSz F (-2) d ((l : ℝ) / S')) g0 c0 _ ?_
  have hg : ∀ l : ℕ, walkCov d m (l * S) / walkCov d m (0 * S)
      = (ghSz .inf (-2) d (l / S') + ghSz .inf 0 d (l / S') * (1 / (m : ℝ)) ^ 2)
      / (ghSz .inf (-2) d 0 + ghSz .inf 0 d 0 * (1 / (m : ℝ)) ^ 2) := fun l => by
    rw [Nat.zero_mul, walkCov_ratio d m _ hm, e1]
  simp only [hg, hK]
  rcases hF with rfl | rfl
  · simp only [Nat.cast_zero, zero_div]
    simp only [walk_alg_inf _ _ (ghSz .inf (-2) d 0) (ghSz .inf 0 d 0) (1 / (m : ℝ)) (by rw [z0]; split_ifs <;> norm_num)
      (by rw [a0]; split_ifs <;> norm_num) (by rw [a0, z0]; split_ifs <;> positivity)]
    rcases hd with rfl | rfl
    · rw [if_pos rfl] at a0 z0
      have hn := walk_norm2 M S' hS1 (fun l => ghSz .inf (-2) 2 (l / S') / 8) (fun l hl => by
        rw [kernA2 _ (pl l) (bl' l hl)]
        exact le_of_eq (by ring))
      have := lagN_tri M _ _ (fun l => ghSz .inf (-2) 2 (l / S') / 8) (4 * (1 / (m : ℝ)) ^ 2 / (8 + 4 * (1 / (m : ℝ)) ^ 2)) 0
        (17 / 8) (17 / 8) (by norm_num) (by norm_num) hn hn
      rw [a0, z0]
      refine this.trans (mul_le_mul_of_nonneg_right ?_ (Real.sqrt_nonneg _))
      rw [walkK, if_pos rfl]
      exact walk_eps_inf2 _ hu
    · rw [if_neg (by norm_num)] at a0 z0
      have hn := walk_norm3 M S' hS1 (fun l => ghSz .inf (-2) 3 (l / S') / 12) (fun l hl => by
        rw [kernA3 _ (pl l), if_pos (by linarith [bl l hl])]
        exact le_of_eq (by ring))
      have := lagN_tri M _ _ (fun l => ghSz .inf (-2) 3 (l / S') / 12) (12 * (1 / (m : ℝ)) ^ 2 / (12 + 12 * (1 / (m : ℝ)) ^ 2)) 0
        (61 / 20) (61 / 20) (by norm_num) (by norm_num) hn hn
      rw [a0, z0]
      refine this.trans (mul_le_mul_of_nonneg_right ?_ (Real.sqrt_nonneg _))
      rw [walkK, if_neg (by norm_num)]
      exact walk_eps_inf3 _ hu
  · have hc : ∀ l : ℕ, ghSz (.fin m) (-2) d (l / S') = -20 * ghSz .inf (-2) d (l / S')
        + 10 * (1 / (m : ℝ)) ^ 2 * ghSz .inf 0 d (l / S') - 2 * (1 / (m : ℝ)) ^ 3 * tapCov d m (l * S) := fun l => by
      rw [← e1, walk_sz_grid d m _ hd hm]
      ring
    have hn := tapCov_norm d M S' S m hd hM hm hS
    have hMc' := hMc (fun l : ℕ => ghSz (.fin m) (-2) d ((l : ℝ) / S')) c0
    have zl : ∀ l, 0 < l → l < S' → tapCov d m (l * S) = 0 := fun l h0 h1 => by
      refine tapCov_mid d m _ (Nat.mul_pos h0 hS0) ?_
      rw [← hS, mul_comm]
      exact Nat.mul_lt_mul_of_pos_left h1 hS0
    have ul : ∀ l : ℕ, 0 < l → 1 / (m : ℝ) ≤ l / S' := fun l h0 => by
      rw [← e1, div_le_div_iff_of_pos_right hm']
      exact_mod_cast Nat.mul_pos h0 hS0
    have hc0 : ghSz (.fin m) (-2) d 0 = -20 * ghSz .inf (-2) d 0 + 10 * (1 / (m : ℝ)) ^ 2 * ghSz .inf 0 d 0
        - 2 * (1 / (m : ℝ)) ^ 3 * tapCov d m 0 := by
      have := hc 0
      rwa [Nat.zero_mul, Nat.cast_zero, zero_div] at this
    have c0' : -20 * ghSz .inf (-2) d 0 + 10 * (1 / (m : ℝ)) ^ 2 * ghSz .inf 0 d 0 - 2 * (1 / (m : ℝ)) ^ 3 * tapCov d m 0 ≠ 0 := by
      rw [← hc0]
      exact (walk_fin0 d m hd hm).ne
    simp only [hc, hc0, Nat.cast_zero, zero_div] at hMc' ⊢
    simp only [walk_alg _ _ _ (ghSz .inf (-2) d 0) (ghSz .inf 0 d 0) (tapCov d m 0) (1 / (m : ℝ))
      (by rw [z0]; split_ifs <;> norm_num) (by rw [tc0]; split_ifs <;> norm_num)
      (by rw [a0, z0]; split_ifs <;> positivity) c0']
    rcases hd with rfl | rfl
    · rw [if_pos rfl] at a0 z0 tc0 hn
      rw [a0, z0, tc0] at c0' hMc' ⊢
      rw [tc0] at hn
      have hz := walk_norm2 M S' hS1 (fun l => (-20 * ghSz .inf (-2) 2 (l / S')
        + 10 * (1 / (m : ℝ)) ^ 2 * ghSz .inf 0 2 (l / S') - 2 * (1 / (m : ℝ)) ^ 3 * tapCov 2 m (l * S))
        / (-20 * 8 + 10 * (1 / (m : ℝ)) ^ 2 * 4 - 2 * (1 / (m : ℝ)) ^ 3 * 6)) (fun l hl => by
          rcases Nat.eq_zero_or_pos l with rfl | h0
          · rw [Nat.zero_mul, Nat.cast_zero, zero_div, a0, z0, tc0, div_self c0']
            norm_num
          · rw [kernA2 _ (pl l) (bl' l hl), kernZ2 _ (pl l), if_pos (bl' l hl), zl l h0 hl]
            exact walk_low2 _ _ hu hu1 (ul l h0) (bl' l hl))
      have ht := hn.trans (mul_le_mul_of_nonneg_left hMc' (show (0 : ℝ) ≤ 9 / 4 by norm_num))
      rw [show (9 / 4 : ℝ) = (3 / 2) ^ 2 by norm_num] at ht
      refine (lagN_tri M _ _ _ _ _ (17 / 8) (3 / 2) (by norm_num) (by norm_num) hz ht).trans
        (mul_le_mul_of_nonneg_right ?_ (Real.sqrt_nonneg _))
      rw [walkK, if_pos rfl]
      exact walk_eps2 _ hu
    · rw [if_neg (by norm_num)] at a0 z0 tc0 hn
      rw [a0, z0, tc0] at c0' hMc' ⊢
      rw [tc0] at hn
      have hz := walk_norm3 M S' hS1 (fun l => (-20 * ghSz .inf (-2) 3 (l / S')
        + 10 * (1 / (m : ℝ)) ^ 2 * ghSz .inf 0 3 (l / S') - 2 * (1 / (m : ℝ)) ^ 3 * tapCov 3 m (l * S))
        / (-20 * 12 + 10 * (1 / (m : ℝ)) ^ 2 * 12 - 2 * (1 / (m : ℝ)) ^ 3 * 20)) (fun l hl => by
          rcases Nat.eq_zero_or_pos l with rfl | h0
          · rw [Nat.zero_mul, Nat.cast_zero, zero_div, a0, z0, tc0, div_self c0']
            norm_num
          · have h1 := bl l hl
            rw [kernA3 _ (pl l), if_pos (by linarith), kernZ3 _ (pl l), if_pos (by linarith), zl l h0 (by omega)]
            exact walk_low3 _ _ hu hu1 (ul l h0) h1)
      have ht := hn.trans (mul_le_mul_of_nonneg_left hMc' (show (0 : ℝ) ≤ 231 / 100 by norm_num))
      have ht := ht.trans (mul_le_mul_of_nonneg_right (show (231 / 100 : ℝ) ≤ (38 / 25) ^ 2 by norm_num) (lagN_nonneg _ _))
      refine (lagN_tri M _ _ _ _ _ (61 / 20) (38 / 25) (by norm_num) (by norm_num) hz ht).trans
        (mul_le_mul_of_nonneg_right ?_ (Real.sqrt_nonneg _))
      rw [walkK, if_neg (by norm_num)]
      exact walk_eps3 _ hu

/-! ## The modified second differences, continued -/

theorem mod_alg (Q A Z u : ℝ) (hG : 132 + 60 * u ^ 2 + 48 * u ^ 4 ≠ 0) :
    (-Q + 5 * u ^ 2 * A + 4 * u ^ 4 * Z) / (132 + 60 * u ^ 2 + 48 * u ^ 4) - Q / -132
      = 60 * u ^ 2 / (132 + 60 * u ^ 2 + 48 * u ^ 4) * (A / 12 - Q / -132)
        + 48 * u ^ 4 / (132 + 60 * u ^ 2 + 48 * u ^ 4) * (Z / 12 - Q / -132) := by
  obtain ⟨G, hg⟩ : ∃ G, G = 132 + 60 * u ^ 2 + 48 * u ^ 4 := ⟨_, rfl⟩
  rw [← hg] at hG ⊢
  rw [← sub_eq_zero]
  have e : (-Q + 5 * u ^ 2 * A + 4 * u ^ 4 * Z) / G - Q / -132
      - (60 * u ^ 2 / G * (A / 12 - Q / -132) + 48 * u ^ 4 / G * (Z / 12 - Q / -132))
      = Q / (132 * G) * (G - (132 + 60 * u ^ 2 + 48 * u ^ 4)) := by
    field_simp
    ring
  rw [e, ← hg, sub_self, mul_zero]

theorem mod_eps (u : ℝ) (hu : 0 < u) : |60 * u ^ 2 / (132 + 60 * u ^ 2 + 48 * u ^ 4)| * (1 + 13 / 10)
    + |48 * u ^ 4 / (132 + 60 * u ^ 2 + 48 * u ^ 4)| * (1 + 49 / 25) ≤ 5 / 4 * u ^ 2 := by
  rw [abs_of_pos (by positivity), abs_of_pos (by positivity), eps_add, div_le_iff₀ (by positivity)]
  nlinarith [mul_nonneg (sq_nonneg u) (show 0 ≤ 27 - 1677 / 25 * u ^ 2 + 60 * u ^ 4 by nlinarith [sq_nonneg (u ^ 2 - 559 / 1000)])]

theorem quintic_at0 : ghSz (.fin 1) (-2) 2 0 = -132 := by
  rw [kernQ 0 le_rfl zero_le_one]
  norm_num

theorem modWalkCov_eq (m l : ℕ) (hm : 0 < m) : modWalkCov m l = (m : ℝ) ^ 5 / 240 * (-ghSz (.fin 1) (-2) 2 (l / m)
    + 5 * (1 / (m : ℝ)) ^ 2 * ghSz .inf (-2) 3 (l / m) + 4 * (1 / (m : ℝ)) ^ 4 * ghSz .inf 0 3 (l / m)) := by
  have hm' : (0 : ℝ) < m := by exact_mod_cast hm
  rw [modWalkCov]
  field_simp

theorem modWalkCov_zero (m : ℕ) (hm : 0 < m) : modWalkCov m 0
    = (m : ℝ) ^ 5 / 240 * (132 + 60 * (1 / (m : ℝ)) ^ 2 + 48 * (1 / (m : ℝ)) ^ 4) := by
  have a0 := kernA_at0 3 (.inr rfl)
  have z0 := kernZ_at0 3 (.inr rfl)
  rw [if_neg (by norm_num)] at a0 z0
  rw [modWalkCov_eq m 0 hm, Nat.cast_zero, zero_div, quintic_at0, a0, z0]
  ring

theorem mod_near_cov (M m : ℕ) (hM : 0 < M) (hm : 0 < m) :
    |√(M ^ 2 * (fun l : ℕ => ghSz (.fin 1) (-2) 2 ((l : ℝ) / m)) 0 ^ 2 / lagN M (fun l => ghSz (.fin 1) (-2) 2 ((l : ℝ) / m)))
      - √(M ^ 2 * modWalkCov m 0 ^ 2 / lagN M (modWalkCov m))|
      ≤ 5 / 4 / m ^ 2 * √(M ^ 2 * modWalkCov m 0 ^ 2 / lagN M (modWalkCov m)) := by
  have hm' : (0 : ℝ) < m := by exact_mod_cast hm
  have hu : 0 < 1 / (m : ℝ) := by positivity
  have hG : 132 + 60 * (1 / (m : ℝ)) ^ 2 + 48 * (1 / (m : ℝ)) ^ 4 ≠ 0 := by positivity
  have g0 : modWalkCov m 0 ≠ 0 := by
    rw [modWalkCov_zero m hm]
    positivity
  have c0 : ghSz (.fin 1) (-2) 2 (((0 : ℕ) : ℝ) / m) ≠ 0 := by
    rw [Nat.cast_zero, zero_div, quintic_at0]
    norm_num
  refine edf_near2 M hM (modWalkCov m) (fun l : ℕ => ghSz (.fin 1) (-2) 2 ((l : ℝ) / m)) g0 c0 _ ?_
  have hg : ∀ l : ℕ, modWalkCov m l / modWalkCov m 0 = (-ghSz (.fin 1) (-2) 2 (l / m)
    + 5 * (1 / (m : ℝ)) ^ 2 * ghSz .inf (-2) 3 (l / m) + 4 * (1 / (m : ℝ)) ^ 4 * ghSz .inf 0 3 (l / m))
    / (132 + 60 * (1 / (m : ℝ)) ^ 2 + 48 * (1 / (m : ℝ)) ^ 4) := fun l => by
    rw [modWalkCov_zero m hm, modWalkCov_eq m l hm, mul_div_mul_left _ _ (by positivity)]
  simp only [hg, Nat.cast_zero, zero_div, quintic_at0]
  simp only [mod_alg _ _ _ (1 / (m : ℝ)) hG]
  refine (lagN_tri M _ _ _ _ _ (13 / 10) (49 / 25) (by norm_num) (by norm_num) (mod_normA M m hm) (mod_normZ M m hm)).trans
    (mul_le_mul_of_nonneg_right ?_ (Real.sqrt_nonneg _))
  rw [show (5 / 4 : ℝ) / (m : ℝ) ^ 2 = 5 / 4 * (1 / (m : ℝ)) ^ 2 by ring]
  exact mod_eps _ hu

/-! ## The averaging factor 1 -/

theorem edf_ratio (M : ℕ) (hM : 0 < M) (g c : ℕ → ℝ) (g0 : g 0 ≠ 0) (c0 : c 0 ≠ 0)
    (h1 : lagN M (fun l => g l / g 0) ≤ (23 / 20) ^ 2 * lagN M (fun l => c l / c 0))
    (h2 : (17 / 20) ^ 2 * lagN M (fun l => c l / c 0) ≤ lagN M (fun l => g l / g 0)) :
    |√(M ^ 2 * c 0 ^ 2 / lagN M c) - √(M ^ 2 * g 0 ^ 2 / lagN M g)| ≤ 3 / 20 * √(M ^ 2 * g 0 ^ 2 / lagN M g) := by
  have hM' : (0 : ℝ) < M := by exact_mod_cast hM
  have key : ∀ f : ℕ → ℝ, f 0 ≠ 0 → √((M : ℝ) ^ 2 * f 0 ^ 2 / lagN M f) = M / √(lagN M fun l => f l / f 0) := by
    intro f f0
    have e : lagN M (fun l => f l / f 0) = (1 / f 0) ^ 2 * lagN M f := by
      rw [← lagN_mul]
      congr 1
      funext l
      ring
    have hp : 0 < lagN M f := lt_of_lt_of_le (by positivity) (lagN_ge M hM f)
    rw [e, ← Real.sqrt_sq hM'.le, ← Real.sqrt_div (by positivity), Real.sqrt_sq hM'.le]
    congr 1
    field_simp
  rw [key g g0, key c c0]
  have u1 := Real.sqrt_le_sqrt h1
  have u2 := Real.sqrt_le_sqrt h2
  rw [Real.sqrt_mul (by norm_num), Real.sqrt_sq (by norm_num)] at u1 u2
  have hX : 0 < √(lagN M fun l => g l / g 0) := Real.sqrt_pos.2 (lt_of_lt_of_le (by simp [g0]; exact hM) (lagN_ge M hM _))
  have hY : 0 < √(lagN M fun l => c l / c 0) := Real.sqrt_pos.2 (lt_of_lt_of_le (by simp [c0]; exact hM) (lagN_ge M hM _))
  generalize √(lagN M fun l => g l / g 0) = X at *
  generalize √(lagN M fun l => c l / c 0) = Y at *
  have hxy : |X - Y| ≤ 3 / 20 * Y := by
    rw [abs_le]
    constructor <;> linarith
  have e : (M : ℝ) / Y - M / X = (X - Y) * (M / (X * Y)) := by
    field_simp
  rw [e, abs_mul, abs_of_pos (show (0 : ℝ) < M / (X * Y) by positivity)]
  calc |X - Y| * (M / (X * Y)) ≤ 3 / 20 * Y * (M / (X * Y)) :=
        mul_le_mul_of_nonneg_right hxy (by positivity)
    _ = 3 / 20 * (M / X) := by field_simp

theorem kernA2_far (t : ℝ) (h : 2 ≤ t) : ghSz .inf (-2) 2 t = 0 := by
  have hx : ∀ u, ghSx .inf (-2) u = |u| ^ 3 := fun u => by simp [ghSx, ghSw]
  unfold ghSz
  simp only [sum_range_succ, sum_range_zero, hx]
  norm_num [Nat.choose]
  rw [abs_of_nonneg (show 0 ≤ t by linarith), abs_of_nonneg (show 0 ≤ t - 2 by linarith),
    abs_of_nonneg (show 0 ≤ t + 1 - 2 by linarith),
    abs_of_nonneg (show 0 ≤ t + 3 - 2 by linarith), abs_of_nonneg (show 0 ≤ t + 4 - 2 by linarith)]
  ring

theorem unit_A2 (l : ℕ) : ghSz .inf (-2) 2 (l : ℝ) = if l = 0 then 8 else if l = 1 then 2 else 0 := by
  obtain rfl | rfl | h : l = 0 ∨ l = 1 ∨ 2 ≤ l := by omega
  · rw [Nat.cast_zero, kernA2 0 le_rfl zero_le_one]; norm_num
  · rw [Nat.cast_one, kernA2 1 zero_le_one le_rfl]; norm_num
  · rw [kernA2_far _ (by exact_mod_cast h), if_neg (by omega), if_neg (by omega)]

theorem unit_Z2 (l : ℕ) : ghSz .inf 0 2 (l : ℝ) = if l = 0 then 4 else if l = 1 then -2 else 0 := by
  rw [kernZ2 _ (by positivity)]
  obtain rfl | rfl | rfl | h : l = 0 ∨ l = 1 ∨ l = 2 ∨ 3 ≤ l := by omega
  · norm_num
  · norm_num
  · norm_num
  · have : (3 : ℝ) ≤ l := by exact_mod_cast h
    rw [if_neg (by linarith), if_neg (by linarith), if_neg (by omega), if_neg (by omega)]

theorem unit_A3 (l : ℕ) : ghSz .inf (-2) 3 (l : ℝ)
    = if l = 0 then 12 else if l = 1 then -4 else if l = 2 then -2 else 0 := by
  rw [kernA3 _ (by positivity)]
  obtain rfl | rfl | rfl | rfl | h : l = 0 ∨ l = 1 ∨ l = 2 ∨ l = 3 ∨ 4 ≤ l := by omega
  · norm_num
  · norm_num
  · norm_num
  · norm_num
  · have : (4 : ℝ) ≤ l := by exact_mod_cast h
    rw [if_neg (by linarith), if_neg (by linarith), if_neg (by linarith), if_neg (by omega), if_neg (by omega),
      if_neg (by omega)]

theorem unit_Z3 (l : ℕ) : ghSz .inf 0 3 (l : ℝ)
    = if l = 0 then 12 else if l = 1 then -8 else if l = 2 then 2 else 0 := by
  rw [kernZ3 _ (by positivity)]
  obtain rfl | rfl | rfl | rfl | h : l = 0 ∨ l = 1 ∨ l = 2 ∨ l = 3 ∨ 4 ≤ l := by omega
  · norm_num
  · norm_num
  · norm_num
  · norm_num
  · have : (4 : ℝ) ≤ l := by exact_mod_cast h
    rw [if_neg (by linarith), if_neg (by linarith), if_neg (by linarith), if_neg (by omega), if_neg (by omega),
      if_neg (by omega)]

theorem unit_cov2 (l : ℕ) : walkCov 2 1 l = if l = 0 then 1 else 0 := by
  rw [walkCov, Nat.cast_one, div_one, unit_A2, unit_Z2]
  split_ifs <;> norm_num

theorem unit_cov3 (l : ℕ) : walkCov 3 1 l = if l = 0 then 2 else if l = 1 then -1 else 0 := by
  rw [walkCov, Nat.cast_one, div_one, unit_A3, unit_Z3]
  split_ifs <;> norm_num

theorem unit_kern2 (l : ℕ) : ghSz (.fin 1) (-2) 2 (l : ℝ)
    = if l = 0 then -132 else if l = 1 then -52 else if l = 2 then -2 else 0 := by
  have h := walk_sz_grid 2 1 l (.inl rfl) one_pos
  rw [Nat.cast_one, div_one, unit_A2, unit_Z2] at h
  rw [h]
  simp only [tapCov, if_true]
  split_ifs <;> norm_num

theorem unit_kern3 (l : ℕ) : ghSz (.fin 1) (-2) 3 (l : ℝ)
    = if l = 0 then -160 else if l = 1 then 30 else if l = 2 then 48 else if l = 3 then 2 else 0 := by
  have h := walk_sz_grid 3 1 l (.inr rfl) one_pos
  rw [Nat.cast_one, div_one, unit_A3, unit_Z3] at h
  rw [h, show tapCov 3 1 l = if l = 0 then 20 else if l = 1 then -15 else if l = 2 then 6 else if l = 3 then -1 else 0 by
    simp [tapCov]]
  split_ifs <;> norm_num

/-- the norm of a sequence of four values, the first one being 1 -/
theorem lagN_four (M : ℕ) (hM : 0 < M) (a b c : ℝ) (f : ℕ → ℝ)
    (hf : ∀ l, f l = if l = 0 then 1 else if l = 1 then a else if l = 2 then b else if l = 3 then c else 0) :
    lagN M f = M + 2 * ((if 1 < M then a ^ 2 * ((M : ℝ) - 1) else 0) + (if 2 < M then b ^ 2 * ((M : ℝ) - 2) else 0)
      + (if 3 < M then c ^ 2 * ((M : ℝ) - 3) else 0)) := by
  rw [lagN_eq M hM, hf 0, if_pos rfl]
  have e : ∀ l ∈ Ico 1 M, ((M : ℝ) - l) * f l ^ 2 = (if l = 1 then a ^ 2 * ((M : ℝ) - l) else 0)
      + (if l = 2 then b ^ 2 * ((M : ℝ) - l) else 0) + (if l = 3 then c ^ 2 * ((M : ℝ) - l) else 0) := by
    intro l h
    have := mem_Ico.1 h
    rw [hf l]
    split_ifs <;> first | (exfalso; omega) | ring
  rw [sum_congr rfl e, sum_add_distrib, sum_add_distrib, sum_point M 1 one_pos, sum_point M 2 two_pos,
    sum_point M 3 three_pos]
  push_cast
  ring

theorem unit_near2 (M : ℕ) (hM : 0 < M) (g : ℕ → ℝ) (hg : ∀ l, g l = if l = 0 then 1 else 0) :
    |√(M ^ 2 * (fun l : ℕ => ghSz (.fin 1) (-2) 2 (l : ℝ)) 0 ^ 2 / lagN M (fun l => ghSz (.fin 1) (-2) 2 (l : ℝ)))
      - √(M ^ 2 * g 0 ^ 2 / lagN M g)| ≤ 3 / 20 * √(M ^ 2 * g 0 ^ 2 / lagN M g) := by
  have hM' : (1 : ℝ) ≤ M := by exact_mod_cast hM
  have eg := lagN_four M hM 0 0 0 (fun l => g l / g 0) (fun l => by
    simp only [hg]
    split_ifs <;> norm_num)
  have ec := lagN_four M hM (52 / 132) (2 / 132) 0
    (fun l => (fun l : ℕ => ghSz (.fin 1) (-2) 2 (l : ℝ)) l / (fun l : ℕ => ghSz (.fin 1) (-2) 2 (l : ℝ)) 0) (fun l => by
    simp only [unit_kern2, if_true]
    split_ifs <;> norm_num)
  refine edf_ratio M hM g (fun l : ℕ => ghSz (.fin 1) (-2) 2 (l : ℝ)) (by rw [hg]; norm_num)
    (by simp only [unit_kern2, if_true]; norm_num) ?_ ?_
  · rw [eg, ec]
    have : ∀ {p : Prop} [Decidable p] {x : ℝ}, (p → 0 ≤ x) → 0 ≤ if p then x else 0 := fun {p} _ {x} h => by
      split_ifs with h' <;> [exact h h'; exact le_rfl]
    have i1 : 0 ≤ if 1 < M then (52 / 132 : ℝ) ^ 2 * ((M : ℝ) - 1) else 0 := this fun _ => mul_nonneg (by norm_num) (by linarith)
    have i2 : 0 ≤ if 2 < M then (2 / 132 : ℝ) ^ 2 * ((M : ℝ) - 2) else 0 := this fun h => mul_nonneg (by norm_num) (by
      have : (2 : ℝ) < M := by exact_mod_cast h
      linarith)
    norm_num at i1 i2 ⊢
    linarith
  · rw [eg, ec]
    norm_num
    split_ifs <;> nlinarith

theorem unit_near3 (M : ℕ) (hM : 0 < M) (g : ℕ → ℝ) (hg : ∀ l, g l = if l = 0 then 2 else if l = 1 then -1 else 0) :
    |√(M ^ 2 * (fun l : ℕ => ghSz (.fin 1) (-2) 3 (l : ℝ)) 0 ^ 2 / lagN M (fun l => ghSz (.fin 1) (-2) 3 (l : ℝ)))
      - √(M ^ 2 * g 0 ^ 2 / lagN M g)| ≤ 3 / 20 * √(M ^ 2 * g 0 ^ 2 / lagN M g) := by
  have hM' : (1 : ℝ) ≤ M := by exact_mod_cast hM
  have eg := lagN_four M hM (-1 / 2) 0 0 (fun l => g l / g 0) (fun l => by
    simp only [hg]
    split_ifs <;> norm_num at *)
  have ec := lagN_four M hM (-30 / 160) (-48 / 160) (-2 / 160)
    (fun l => (fun l : ℕ => ghSz (.fin 1) (-2) 3 (l : ℝ)) l / (fun l : ℕ => ghSz (.fin 1) (-2) 3 (l : ℝ)) 0) (fun l => by
    simp only [unit_kern3, if_true]
    split_ifs <;> norm_num)
  refine edf_ratio M hM g (fun l : ℕ => ghSz (.fin 1) (-2) 3 (l : ℝ)) (by rw [hg]; norm_num)
    (by simp only [unit_kern3, if_true]; norm_num) ?_ ?_
  all_goals
    rw [eg, ec]
    obtain rfl | rfl | h : M = 1 ∨ M = 2 ∨ 3 ≤ M := by omega
    · norm_num
    · norm_num
    · have h3 : (3 : ℝ) ≤ M := by exact_mod_cast h
      simp only [if_pos (show 1 < M by omega), if_pos (show 2 < M by omega)]
      norm_num
      split_ifs <;> linarith

end AT
