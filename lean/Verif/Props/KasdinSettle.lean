import Verif.Props.Mixed
import Verif.Lemmas.OddAsym

/-!
# C84: the deviations of long simulated noise
-/

namespace AT

open Spec Finset MeasureTheory ProbabilityTheory Filter
open scoped NNReal ENNReal

/-- Allan variance at `τ = m` of the noise with exponent `b`, driven by noise of variance 1 at unit distance -/
noncomputable def Spec.simAvar (b : ℝ) (m : ℕ) : ℝ :=
  if b = 0 then 3 / m ^ 2
  else if b = -1 then (8 * oddSum m - 2 * oddSum (2 * m)) / (Real.pi * m ^ 2)
  else if b = -2 then 1 / m
  else if b = -3 then 2 * (oddG (2 * m) - 4 * oddG m) / (Real.pi * m ^ 2)
  else (2 * m ^ 2 + 1) / (6 * m)

/-- Hadamard variance -/
noncomputable def Spec.simHvar (b : ℝ) (m : ℕ) : ℝ :=
  if b = 0 then 10 / (3 * m ^ 2)
  else if b = -1 then 2 * (15 * oddSum m - 6 * oddSum (2 * m) + oddSum (3 * m)) / (3 * Real.pi * m ^ 2)
  else if b = -2 then 1 / m
  else if b = -3 then 2 * (6 * oddG (2 * m) - 15 * oddG m - oddG (3 * m)) / (3 * Real.pi * m ^ 2)
  else (m ^ 2 + 1) / (6 * m)

/-- modified Allan variance -/
noncomputable def Spec.simMvar (b : ℝ) (m : ℕ) : ℝ :=
  if b = 0 then 3 / m ^ 3
  else if b = -1 then 2 * (6 * oddG (2 * m) - 15 * oddG m - oddG (3 * m)) / (Real.pi * m ^ 4)
  else if b = -2 then (m ^ 2 + 1) / (2 * m ^ 3)
  else if b = -3 then 2 * (oddH (3 * m) - 6 * oddH (2 * m) + 15 * oddH m) / (Real.pi * m ^ 4)
  else (11 * m ^ 4 + 5 * m ^ 2 + 4) / (40 * m ^ 3)

/-! ## Forms -/

theorem oddG_zero : oddG 0 = 0 := by simp [oddG, oddSum_zero]

theorem oddH_zero : oddH 0 = 0 := by simp [oddH, oddSum_zero]

/-- weights at 0, m, 2m, ... -/
theorem form_point (f : ℤ → ℝ) (n m r : ℕ) (w : ℕ → ℝ) :
    ∑ u ∈ range n, ∑ v ∈ range n, w u * w v * f (((u * m + r : ℕ) : ℤ) - ((v * m + r : ℕ) : ℤ))
      = ∑ u ∈ range n, ∑ v ∈ range n, w u * w v * f ((u * m : ℕ) - (v * m : ℕ)) :=
  sum_congr rfl fun u _ => sum_congr rfl fun v _ => by
    rw [show ((u * m + r : ℕ) : ℤ) - ((v * m + r : ℕ) : ℤ) = (u * m : ℕ) - (v * m : ℕ) by push_cast; ring]

/-- weights on blocks of `m` samples -/
theorem form_block {f G : ℤ → ℝ} (hf : ∀ z, f z = G (z + 1) - 2 * G z + G (z - 1)) (n m r : ℕ) (w : ℕ → ℝ) :
    ∑ x ∈ range n ×ˢ range m, ∑ y ∈ range n ×ˢ range m,
        w x.1 * w y.1 * f (((x.1 * m + x.2 + r : ℕ) : ℤ) - ((y.1 * m + y.2 + r : ℕ) : ℤ))
      = ∑ u ∈ range n, ∑ v ∈ range n, w u * w v * (fun z => G (z + m) - 2 * G z + G (z - m)) ((u * m : ℕ) - (v * m : ℕ)) := by
  rw [sum_product]
  refine sum_congr rfl fun u _ => ?_
  simp only [sum_product]
  rw [sum_comm]
  refine sum_congr rfl fun v _ => ?_
  rw [← sum_square hf, mul_sum]
  refine sum_congr rfl fun k _ => ?_
  rw [mul_sum]
  refine sum_congr rfl fun l _ => ?_
  congr 2
  push_cast
  ring

/-- weights on sums of blocks of `m` samples -/
theorem form_tri {f G H : ℤ → ℝ} (hf : ∀ z, f z = G (z + 1) - 2 * G z + G (z - 1))
    (hG : ∀ z, G z = H (z + 1) - 2 * H z + H (z - 1)) (n m r : ℕ) (w : ℕ → ℝ) :
    ∑ x ∈ range n ×ˢ (range m ×ˢ range m), ∑ y ∈ range n ×ˢ (range m ×ˢ range m),
        w x.1 * w y.1 * f (((x.1 * m + x.2.1 + x.2.2 + r : ℕ) : ℤ) - ((y.1 * m + y.2.1 + y.2.2 + r : ℕ) : ℤ))
      = ∑ u ∈ range n, ∑ v ∈ range n, w u * w v * (fun z => H (z + 2 * m) - 4 * H (z + m) + 6 * H z - 4 * H (z - m) + H (z - 2 * m))
          ((u * m : ℕ) - (v * m : ℕ)) := by
  have hK : ∀ z : ℤ, (G (z + m) - 2 * G z + G (z - m))
      = (fun z => H (z + m) - 2 * H z + H (z - m)) (z + 1) - 2 * (fun z => H (z + m) - 2 * H z + H (z - m)) z
        + (fun z => H (z + m) - 2 * H z + H (z - m)) (z - 1) := by
    intro z
    simp only
    rw [hG, hG z, hG (z - m)]
    rw [show z + 1 + (m : ℤ) = z + m + 1 by ring, show z - 1 + (m : ℤ) = z + m - 1 by ring,
      show z + 1 - (m : ℤ) = z - m + 1 by ring, show z - 1 - (m : ℤ) = z - m - 1 by ring]
    ring
  rw [sum_product]
  refine sum_congr rfl fun u _ => ?_
  simp only [sum_product]
  have e1 : ∀ k ∈ range m, ∀ l ∈ range m,
      ∑ v ∈ range n, ∑ k' ∈ range m, ∑ l' ∈ range m, w u * w v * f (((u * m + k + l + r : ℕ) : ℤ) - ((v * m + k' + l' + r : ℕ) : ℤ))
      = ∑ v ∈ range n, ∑ k' ∈ range m, ∑ l' ∈ range m, w u * w v * f (((u * m : ℕ) - (v * m : ℕ) + (k : ℤ) - k') + l - l') := by
    intro k _ l _
    refine sum_congr rfl fun v _ => sum_congr rfl fun k' _ => sum_congr rfl fun l' _ => ?_
    congr 2
    push_cast
    ring
  rw [sum_congr rfl fun k hk => sum_congr rfl (e1 k hk)]
  have e2 : ∀ k ∈ range m,
      ∑ l ∈ range m, ∑ v ∈ range n, ∑ k' ∈ range m, ∑ l' ∈ range m, w u * w v * f (((u * m : ℕ) - (v * m : ℕ) + (k : ℤ) - k') + l - l')
      = ∑ v ∈ range n, ∑ k' ∈ range m, w u * w v * (fun z => G (z + m) - 2 * G z + G (z - m)) ((u * m : ℕ) - (v * m : ℕ) + (k : ℤ) - k') := by
    intro k _
    rw [sum_comm]
    refine sum_congr rfl fun v _ => ?_
    rw [sum_comm]
    refine sum_congr rfl fun k' _ => ?_
    simp only
    rw [← sum_square hf, mul_sum]
    exact sum_congr rfl fun l _ => by rw [mul_sum]
  rw [sum_congr rfl e2, sum_comm]
  refine sum_congr rfl fun v _ => ?_
  simp only [← mul_sum]
  refine congrArg (w u * w v * ·) ((sum_square (f := fun z => G (z + m) - 2 * G z + G (z - m)) (G := fun z => H (z + m) - 2 * H z + H (z - m)) hK m ((u * m : ℕ) - (v * m : ℕ))).trans ?_)
  rw [show ∀ z : ℤ, z + m - m = z from fun z => by ring, show ∀ z : ℤ, z - m + m = z from fun z => by ring,
    show ∀ z : ℤ, z + m + m = z + 2 * m from fun z => by ring, show ∀ z : ℤ, z - m - m = z - 2 * m from fun z => by ring]
  ring

section

variable (m : ℕ)

/-- `oddSum`, `oddG` and `oddH` of integers -/
noncomputable def zO (z : ℤ) : ℝ := oddSum z.natAbs
noncomputable def zG (z : ℤ) : ℝ := oddG z.natAbs
noncomputable def zH (z : ℤ) : ℝ := oddH z.natAbs

theorem zO_neg (z : ℤ) : zO (-z) = zO z := by simp [zO]
theorem zG_neg (z : ℤ) : zG (-z) = zG z := by simp [zG]
theorem zH_neg (z : ℤ) : zH (-z) = zH z := by simp [zH]
theorem zO_nat (n : ℕ) : zO n = oddSum n := by simp [zO]
theorem zG_nat (n : ℕ) : zG n = oddG n := by simp [zG]
theorem zH_nat (n : ℕ) : zH n = oddH n := by simp [zH]
theorem zO_zero : zO 0 = 0 := by simp [zO, oddSum_zero]
theorem zG_zero : zG 0 = 0 := by simp [zG, oddG_zero]
theorem zH_zero : zH 0 = 0 := by simp [zH, oddH_zero]
theorem zO_mul (k m : ℕ) : zO (k * m : ℤ) = oddSum (k * m) := by rw [← zO_nat]; push_cast; rfl
theorem zG_mul (k m : ℕ) : zG (k * m : ℤ) = oddG (k * m) := by rw [← zG_nat]; push_cast; rfl
theorem zH_mul (k m : ℕ) : zH (k * m : ℤ) = oddH (k * m) := by rw [← zH_nat]; push_cast; rfl

theorem zGm_neg (z : ℤ) : zG (-z + m) - 2 * zG (-z) + zG (-z - m) = zG (z + m) - 2 * zG z + zG (z - m) := by
  rw [show -z + (m : ℤ) = -(z - m) by ring, show -z - (m : ℤ) = -(z + m) by ring, zG_neg, zG_neg, zG_neg]
  ring

theorem zHm_neg (z : ℤ) : zH (-z + 2 * m) - 4 * zH (-z + m) + 6 * zH (-z) - 4 * zH (-z - m) + zH (-z - 2 * m)
    = zH (z + 2 * m) - 4 * zH (z + m) + 6 * zH z - 4 * zH (z - m) + zH (z - 2 * m) := by
  rw [show -z + (m : ℤ) = -(z - m) by ring, show -z - (m : ℤ) = -(z + m) by ring,
    show -z + 2 * (m : ℤ) = -(z - 2 * m) by ring, show -z - 2 * (m : ℤ) = -(z + 2 * m) by ring, zH_neg, zH_neg, zH_neg, zH_neg, zH_neg]
  ring

theorem quad_a1 (r : ℕ) : ∑ u ∈ range 3, ∑ v ∈ range 3, w2 u * w2 v * zO (((u * m + r : ℕ) : ℤ) - ((v * m + r : ℕ) : ℤ))
    = -8 * oddSum m + 2 * oddSum (2 * m) := by
  rw [form_point, form_w2 zO zO_neg, zO_zero, zO_nat, ← zO_mul]
  push_cast
  ring

theorem quad_h1 (r : ℕ) : ∑ u ∈ range 4, ∑ v ∈ range 4, w3 u * w3 v * zO (((u * m + r : ℕ) : ℤ) - ((v * m + r : ℕ) : ℤ))
    = -30 * oddSum m + 12 * oddSum (2 * m) - 2 * oddSum (3 * m) := by
  rw [form_point, form_w3 zO zO_neg, zO_zero, zO_nat, ← zO_mul, ← zO_mul]
  push_cast
  ring

theorem quad_m1 (r : ℕ) : ∑ x ∈ range 3 ×ˢ range m, ∑ y ∈ range 3 ×ˢ range m,
      w2 x.1 * w2 y.1 * zO (((x.1 * m + x.2 + r : ℕ) : ℤ) - ((y.1 * m + y.2 + r : ℕ) : ℤ))
    = 30 * oddG m - 12 * oddG (2 * m) + 2 * oddG (3 * m) := by
  rw [form_block (f := zO) (G := zG) oddG_diff, form_w2 (fun z => zG (z + m) - 2 * zG z + zG (z - m)) (fun z => zGm_neg m z), ← zG_nat m, ← zG_mul, ← zG_mul]
  simp only [zero_add, zero_sub, zG_neg, zG_zero, sub_self]
  push_cast
  rw [show (m : ℤ) + m = 2 * m by ring, show 2 * (m : ℤ) + m = 3 * m by ring, show 2 * (m : ℤ) - m = m by ring]
  ring

theorem quad_a3 (r : ℕ) : ∑ x ∈ range 2 ×ˢ range m, ∑ y ∈ range 2 ×ˢ range m,
      w1 x.1 * w1 y.1 * zO (((x.1 * m + x.2 + r : ℕ) : ℤ) - ((y.1 * m + y.2 + r : ℕ) : ℤ))
    = 8 * oddG m - 2 * oddG (2 * m) := by
  rw [form_block (f := zO) (G := zG) oddG_diff, form_w1 (fun z => zG (z + m) - 2 * zG z + zG (z - m)) (fun z => zGm_neg m z), ← zG_nat m, ← zG_mul]
  simp only [zero_add, zero_sub, zG_neg, zG_zero, sub_self]
  push_cast
  rw [show (m : ℤ) + m = 2 * m by ring]
  ring

theorem quad_m3 (r : ℕ) : ∑ x ∈ range 2 ×ˢ (range m ×ˢ range m), ∑ y ∈ range 2 ×ˢ (range m ×ˢ range m),
      w1 x.1 * w1 y.1 * zO (((x.1 * m + x.2.1 + x.2.2 + r : ℕ) : ℤ) - ((y.1 * m + y.2.1 + y.2.2 + r : ℕ) : ℤ))
    = -2 * oddH (3 * m) + 12 * oddH (2 * m) - 30 * oddH m := by
  rw [form_tri (f := zO) (G := zG) (H := zH) oddG_diff oddH_diff, form_w1 (fun z => zH (z + 2 * m) - 4 * zH (z + m) + 6 * zH z - 4 * zH (z - m) + zH (z - 2 * m)) (fun z => zHm_neg m z), ← zH_nat m, ← zH_mul, ← zH_mul]
  simp only [zero_add, zero_sub, zH_neg, zH_zero, sub_self]
  push_cast
  rw [show (m : ℤ) + m = 2 * m by ring, show (m : ℤ) + 2 * m = 3 * m by ring, show (m : ℤ) - 2 * m = -m by ring, zH_neg]
  ring

end

/-! ## Terms of the variances as forms in flicker phase noise -/

section

variable (x : ℕ → ℝ) (m i : ℕ)

theorem d2_pts : d2 x m i = ∑ u ∈ range 3, w2 u * x (i + (u * m + 0)) := by
  simp only [sum_range_succ, sum_range_zero, w2, d2]
  norm_num
  ring

theorem d3_pts : d3 x m i = ∑ u ∈ range 4, w3 u * x (i + (u * m + 0)) := by
  simp only [sum_range_succ, sum_range_zero, w3, d3]
  norm_num
  ring

theorem mod_pts : ∑ k ∈ range m, d2 x m (i + k) = ∑ u ∈ range 3 ×ˢ range m, w2 u.1 * x (i + (u.1 * m + u.2 + 0)) := by
  rw [sum_product, sum_comm]
  refine sum_congr rfl fun k _ => ?_
  rw [d2_pts]
  exact sum_congr rfl fun u _ => by rw [show i + k + (u * m + 0) = i + (u * m + k + 0) by ring]

variable {x} {y : ℕ → ℝ} (h : ∀ i, x (i + 1) - x i = y (i + 1))
include h

theorem block_diff (i m : ℕ) : x (i + m) - x i = ∑ k ∈ range m, y (i + (k + 1)) := by
  have := sum_range_sub (fun k => x (i + k)) m
  rw [add_zero] at this
  rw [← this]
  exact sum_congr rfl fun k _ => h (i + k)

theorem d2_pts_diff : d2 x m i = ∑ u ∈ range 2 ×ˢ range m, w1 u.1 * y (i + (u.1 * m + u.2 + 1)) := by
  rw [sum_product]
  simp only [sum_range_succ, sum_range_zero, ← mul_sum, zero_mul, one_mul, zero_add]
  have h1 := block_diff h i m
  have h2 := block_diff h (i + m) m
  have e : ∑ k ∈ range m, y (i + (m + k + 1)) = ∑ k ∈ range m, y (i + m + (k + 1)) :=
    sum_congr rfl fun k _ => by rw [show i + (m + k + 1) = i + m + (k + 1) by ring]
  rw [e, ← h1, ← h2, show i + m + m = i + 2 * m by ring]
  simp only [w1, d2]
  norm_num
  ring

theorem d3_pts_diff : d3 x m i = ∑ u ∈ range 3 ×ˢ range m, w2 u.1 * y (i + (u.1 * m + u.2 + 1)) := by
  rw [sum_product]
  simp only [sum_range_succ, sum_range_zero, ← mul_sum, zero_mul, one_mul, zero_add]
  have h1 := block_diff h i m
  have h2 := block_diff h (i + m) m
  have h3 := block_diff h (i + 2 * m) m
  have e : ∑ k ∈ range m, y (i + (m + k + 1)) = ∑ k ∈ range m, y (i + m + (k + 1)) :=
    sum_congr rfl fun k _ => by rw [show i + (m + k + 1) = i + m + (k + 1) by ring]
  have e' : ∑ k ∈ range m, y (i + (2 * m + k + 1)) = ∑ k ∈ range m, y (i + 2 * m + (k + 1)) :=
    sum_congr rfl fun k _ => by rw [show i + (2 * m + k + 1) = i + 2 * m + (k + 1) by ring]
  rw [e, e', ← h1, ← h2, ← h3, show i + m + m = i + 2 * m by ring, show i + 2 * m + m = i + 3 * m by ring]
  simp only [w2, d3]
  norm_num
  ring

theorem mod_pts_diff : ∑ k ∈ range m, d2 x m (i + k)
    = ∑ u ∈ range 2 ×ˢ (range m ×ˢ range m), w1 u.1 * y (i + (u.1 * m + u.2.1 + u.2.2 + 1)) := by
  rw [sum_product]
  simp only [sum_product]
  rw [sum_comm]
  refine sum_congr rfl fun k _ => ?_
  rw [d2_pts_diff m (i + k) h, sum_product]
  refine sum_congr rfl fun u _ => sum_congr rfl fun l _ => ?_
  rw [show i + k + (u * m + l + 1) = i + (u * m + k + l + 1) by ring]

end

theorem w1_sum : ∑ u ∈ range 2, w1 u = 0 := by simp [sum_range_succ, w1]
theorem w2_sum : ∑ u ∈ range 3, w2 u = 0 := by norm_num [sum_range_succ, w2]
theorem w3_sum : ∑ u ∈ range 4, w3 u = 0 := by norm_num [sum_range_succ, w3]

theorem wsum_prod {n : ℕ} {w : ℕ → ℝ} (h : ∑ u ∈ range n, w u = 0) {κ : Type} (t : Finset κ) : ∑ x ∈ range n ×ˢ t, w x.1 = 0 := by
  rw [sum_product]
  simp only [sum_const, nsmul_eq_mul, ← mul_sum, h, mul_zero]

theorem kasdinNoise_smul (b r : ℝ) (w : ℕ → ℝ) (n : ℕ) : kasdinNoise b (fun i => r * w i) n = r * kasdinNoise b w n := by
  unfold kasdinNoise
  rw [mul_sum]
  exact sum_congr rfl fun k _ => by ring

section

variable {Ω : Type} [MeasurableSpace Ω] {P : Measure Ω} [IsProbabilityMeasure P]

/-- a deviation whose terms are squares of a form in flicker phase noise -/
theorem tail_form {fn : DevName} (h1 : fn ≠ .mtie) (h2 : fn ≠ .totdev) {rate : ℝ} (hr : 0 < rate) {m : ℕ} (hm : 0 < m)
    (he : fn = .theo1 → Even m) {Z : ℕ → Ω → ℝ} (hZ : NormalNoise P Z 1) {q : ℝ} (hq : 0 ≤ q) {X : Ω → ℕ → ℝ} {ι : Type}
    (s : Finset ι) (c : ι → ℝ) (p : ι → ℕ) (hc : ∑ u ∈ s, c u = 0) {κ E v : ℝ}
    (ht : ∀ ω i, unitTerm fn rate m (fun k => X ω (i * hop fn m + k))
      = κ * (∑ u ∈ s, c u * kasdinNoise (-1) (fun k => √q * Z k ω) (i * hop fn m + p u)) ^ 2)
    (hE : ∑ u ∈ s, ∑ v ∈ s, c u * c v * zO ((p u : ℤ) - p v) = E) (hv : v = -(2 / Real.pi) * (κ * q * E)) :
    InProb P (fun N ω => value fn (X ω) N rate m ^ 2) v := by
  have hS : 0 < hop fn m := by unfold hop; split <;> omega
  have key := ((flicker_lln hZ s c p hc hS).comp (summands_tendsto fn hm)).map (fun t => κ * q * t) (by fun_prop)
  have e : κ * q * (((1 : ℝ≥0) : ℝ) * (-(2 / Real.pi) * ∑ u ∈ s, ∑ v ∈ s, c u * c v * oddSum ((p u : ℤ) - p v).natAbs)) = v := by
    rw [hv, ← hE]
    simp only [zO, NNReal.coe_one]
    ring
  rw [e] at key
  refine key.congr ?_
  filter_upwards [usable_eventually fn hm he] with N hu ω
  rw [value_terms fn h1 h2 _ hr hu]
  simp only [ht ω, kasdinNoise_smul, div_eq_mul_inv, one_mul]
  rw [← mul_sum]
  have e2 : ∀ i, ∑ u ∈ s, c u * (√q * kasdinNoise (-1) (fun k => Z k ω) (i * hop fn m + p u))
      = √q * ∑ u ∈ s, c u * kasdinNoise (-1) (fun k => Z k ω) (i * hop fn m + p u) := fun i => by
    rw [mul_sum]; exact sum_congr rfl fun u _ => by ring
  simp only [e2, mul_pow, Real.sq_sqrt hq, ← mul_sum]
  ring

theorem settles_of_inProb {fn : DevName} {X : Ω → ℕ → ℝ} {rate : ℝ} (hr : 0 < rate) {w : ℕ → ℝ}
    (h : ∀ m, 0 < m → (fn = .theo1 → Even m) → InProb P (fun N ω => value fn (X ω) N rate m ^ 2) (w m)) :
    Settles P fn (fun N ω => tab N (X ω)) rate "phase" w := by
  refine settles_of_tail hr fun m hm he => ⟨?_, fun c δ hc hδ => ?_⟩
  · by_contra hw
    push Not at hw
    obtain ⟨N, hN⟩ := eventually_atTop.1 (h m hm he (-w m) (by linarith) (1 / 2) (by norm_num))
    have := hN N le_rfl
    have e : {ω | ¬ |value fn (X ω) N rate m ^ 2 - w m| < -w m} = Set.univ := by
      refine Set.eq_univ_of_forall fun ω => ?_
      simp only [Set.mem_ofPred_eq, not_lt]
      have := sq_nonneg (value fn (X ω) N rate m)
      rw [abs_of_nonneg (by linarith)]
      linarith
    rw [e, measure_univ, ENNReal.one_le_ofReal] at this
    norm_num at this
  · filter_upwards [h m hm he c hc δ hδ] with N hN
    simpa only [not_lt] using hN

/-- flicker phase noise -/
theorem fpm_inProb {Z : ℕ → Ω → ℝ} (hZ : NormalNoise P Z 1) {q rate : ℝ} (hq : 0 ≤ q) (hr : 0 < rate) {m : ℕ} (hm : 0 < m) :
    InProb P (fun N ω => value .adev (kasdinNoise (-1) (fun k => √q * Z k ω)) N rate m ^ 2) (q * rate ^ 2 * simAvar (-1) m) ∧
    InProb P (fun N ω => value .oadev (kasdinNoise (-1) (fun k => √q * Z k ω)) N rate m ^ 2) (q * rate ^ 2 * simAvar (-1) m) ∧
    InProb P (fun N ω => value .hdev (kasdinNoise (-1) (fun k => √q * Z k ω)) N rate m ^ 2) (q * rate ^ 2 * simHvar (-1) m) ∧
    InProb P (fun N ω => value .ohdev (kasdinNoise (-1) (fun k => √q * Z k ω)) N rate m ^ 2) (q * rate ^ 2 * simHvar (-1) m) ∧
    InProb P (fun N ω => value .mdev (kasdinNoise (-1) (fun k => √q * Z k ω)) N rate m ^ 2) (q * rate ^ 2 * simMvar (-1) m) ∧
    InProb P (fun N ω => value .tdev (kasdinNoise (-1) (fun k => √q * Z k ω)) N rate m ^ 2)
      ((m / rate) ^ 2 / 3 * (q * rate ^ 2 * simMvar (-1) m)) := by
  have hm' : (0 : ℝ) < m := by exact_mod_cast hm
  have hpi := Real.pi_pos
  have ea : simAvar (-1) m = (8 * oddSum m - 2 * oddSum (2 * m)) / (Real.pi * m ^ 2) := by norm_num [simAvar]
  have eh : simHvar (-1) m = 2 * (15 * oddSum m - 6 * oddSum (2 * m) + oddSum (3 * m)) / (3 * Real.pi * m ^ 2) := by norm_num [simHvar]
  have em : simMvar (-1) m = 2 * (6 * oddG (2 * m) - 15 * oddG m - oddG (3 * m)) / (Real.pi * m ^ 4) := by norm_num [simMvar]
  rw [ea, eh, em]
  refine ⟨tail_form (by decide) (by decide) hr hm (by simp) hZ hq (range 3) w2 (fun u => u * m + 0) w2_sum
      (κ := 1 / (2 * (m / rate) ^ 2)) (fun ω i => ?_) (quad_a1 m 0) ?_,
    tail_form (by decide) (by decide) hr hm (by simp) hZ hq (range 3) w2 (fun u => u * m + 0) w2_sum
      (κ := 1 / (2 * (m / rate) ^ 2)) (fun ω i => ?_) (quad_a1 m 0) ?_,
    tail_form (by decide) (by decide) hr hm (by simp) hZ hq (range 4) w3 (fun u => u * m + 0) w3_sum
      (κ := 1 / (6 * (m / rate) ^ 2)) (fun ω i => ?_) (quad_h1 m 0) ?_,
    tail_form (by decide) (by decide) hr hm (by simp) hZ hq (range 4) w3 (fun u => u * m + 0) w3_sum
      (κ := 1 / (6 * (m / rate) ^ 2)) (fun ω i => ?_) (quad_h1 m 0) ?_,
    tail_form (by decide) (by decide) hr hm (by simp) hZ hq (range 3 ×ˢ range m) (fun u => w2 u.1) (fun u => u.1 * m + u.2 + 0)
      (wsum_prod w2_sum _) (κ := 1 / (2 * m ^ 2 * (m / rate) ^ 2)) (fun ω i => ?_) (quad_m1 m 0) ?_,
    tail_form (by decide) (by decide) hr hm (by simp) hZ hq (range 3 ×ˢ range m) (fun u => w2 u.1) (fun u => u.1 * m + u.2 + 0)
      (wsum_prod w2_sum _) (κ := (m / rate) ^ 2 / 3 * (1 / (2 * m ^ 2 * (m / rate) ^ 2))) (fun ω i => ?_) (quad_m1 m 0) ?_⟩
  · simp only [unitTerm, hop, d2_shift', add_zero]; rw [d2_pts]; simp only [add_zero]; ring
  · field_simp; ring
  · simp only [unitTerm, hop, d2_shift, add_zero]; rw [d2_pts]; simp only [mul_one, add_zero]; ring
  · field_simp; ring
  · simp only [unitTerm, hop, d3_shift', add_zero]; rw [d3_pts]; simp only [add_zero]; ring
  · field_simp; ring
  · simp only [unitTerm, hop, d3_shift, add_zero]; rw [d3_pts]; simp only [mul_one, add_zero]; ring
  · field_simp; ring
  · simp only [unitTerm, hop, d2_shift]; rw [mod_pts]; simp only [mul_one, add_zero]; ring
  · field_simp; ring
  · simp only [unitTerm, hop, d2_shift]; rw [mod_pts]; simp only [mul_one, add_zero]; ring
  · field_simp; ring

/-- flicker frequency noise -/
theorem ffm_inProb {Z : ℕ → Ω → ℝ} (hZ : NormalNoise P Z 1) {q rate : ℝ} (hq : 0 ≤ q) (hr : 0 < rate) {m : ℕ} (hm : 0 < m) :
    InProb P (fun N ω => value .adev (kasdinNoise (-3) (fun k => √q * Z k ω)) N rate m ^ 2) (q * rate ^ 2 * simAvar (-3) m) ∧
    InProb P (fun N ω => value .oadev (kasdinNoise (-3) (fun k => √q * Z k ω)) N rate m ^ 2) (q * rate ^ 2 * simAvar (-3) m) ∧
    InProb P (fun N ω => value .hdev (kasdinNoise (-3) (fun k => √q * Z k ω)) N rate m ^ 2) (q * rate ^ 2 * simHvar (-3) m) ∧
    InProb P (fun N ω => value .ohdev (kasdinNoise (-3) (fun k => √q * Z k ω)) N rate m ^ 2) (q * rate ^ 2 * simHvar (-3) m) ∧
    InProb P (fun N ω => value .mdev (kasdinNoise (-3) (fun k => √q * Z k ω)) N rate m ^ 2) (q * rate ^ 2 * simMvar (-3) m) ∧
    InProb P (fun N ω => value .tdev (kasdinNoise (-3) (fun k => √q * Z k ω)) N rate m ^ 2)
      ((m / rate) ^ 2 / 3 * (q * rate ^ 2 * simMvar (-3) m)) := by
  have hm' : (0 : ℝ) < m := by exact_mod_cast hm
  have hpi := Real.pi_pos
  have ea : simAvar (-3) m = 2 * (oddG (2 * m) - 4 * oddG m) / (Real.pi * m ^ 2) := by norm_num [simAvar]
  have eh : simHvar (-3) m = 2 * (6 * oddG (2 * m) - 15 * oddG m - oddG (3 * m)) / (3 * Real.pi * m ^ 2) := by norm_num [simHvar]
  have em : simMvar (-3) m = 2 * (oddH (3 * m) - 6 * oddH (2 * m) + 15 * oddH m) / (Real.pi * m ^ 4) := by norm_num [simMvar]
  have hd : ∀ ω i, kasdinNoise (-3) (fun k => √q * Z k ω) (i + 1) - kasdinNoise (-3) (fun k => √q * Z k ω) i
      = kasdinNoise (-1) (fun k => √q * Z k ω) (i + 1) := fun ω i => by
    rw [kasdinNoise_diff, show (-3 + 2 : ℝ) = -1 by norm_num]
  rw [ea, eh, em]
  refine ⟨tail_form (by decide) (by decide) hr hm (by simp) hZ hq (range 2 ×ˢ range m) (fun u => w1 u.1) (fun u => u.1 * m + u.2 + 1)
      (wsum_prod w1_sum _) (κ := 1 / (2 * (m / rate) ^ 2)) (fun ω i => ?_) (quad_a3 m 1) ?_,
    tail_form (by decide) (by decide) hr hm (by simp) hZ hq (range 2 ×ˢ range m) (fun u => w1 u.1) (fun u => u.1 * m + u.2 + 1)
      (wsum_prod w1_sum _) (κ := 1 / (2 * (m / rate) ^ 2)) (fun ω i => ?_) (quad_a3 m 1) ?_,
    tail_form (by decide) (by decide) hr hm (by simp) hZ hq (range 3 ×ˢ range m) (fun u => w2 u.1) (fun u => u.1 * m + u.2 + 1)
      (wsum_prod w2_sum _) (κ := 1 / (6 * (m / rate) ^ 2)) (fun ω i => ?_) (quad_m1 m 1) ?_,
    tail_form (by decide) (by decide) hr hm (by simp) hZ hq (range 3 ×ˢ range m) (fun u => w2 u.1) (fun u => u.1 * m + u.2 + 1)
      (wsum_prod w2_sum _) (κ := 1 / (6 * (m / rate) ^ 2)) (fun ω i => ?_) (quad_m1 m 1) ?_,
    tail_form (by decide) (by decide) hr hm (by simp) hZ hq (range 2 ×ˢ (range m ×ˢ range m)) (fun u => w1 u.1)
      (fun u => u.1 * m + u.2.1 + u.2.2 + 1)
      (wsum_prod w1_sum _) (κ := 1 / (2 * m ^ 2 * (m / rate) ^ 2)) (fun ω i => ?_) (quad_m3 m 1) ?_,
    tail_form (by decide) (by decide) hr hm (by simp) hZ hq (range 2 ×ˢ (range m ×ˢ range m)) (fun u => w1 u.1)
      (fun u => u.1 * m + u.2.1 + u.2.2 + 1)
      (wsum_prod w1_sum _) (κ := (m / rate) ^ 2 / 3 * (1 / (2 * m ^ 2 * (m / rate) ^ 2))) (fun ω i => ?_) (quad_m3 m 1) ?_⟩
  · simp only [unitTerm, hop, d2_shift', add_zero]; rw [d2_pts_diff _ _ (hd ω)]; ring
  · field_simp; ring
  · simp only [unitTerm, hop, d2_shift, add_zero]; rw [d2_pts_diff _ _ (hd ω)]; simp only [mul_one]; ring
  · field_simp; ring
  · simp only [unitTerm, hop, d3_shift', add_zero]; rw [d3_pts_diff _ _ (hd ω)]; ring
  · field_simp; ring
  · simp only [unitTerm, hop, d3_shift, add_zero]; rw [d3_pts_diff _ _ (hd ω)]; simp only [mul_one]; ring
  · field_simp; ring
  · simp only [unitTerm, hop, d2_shift]; rw [mod_pts_diff _ _ (hd ω)]; simp only [mul_one]; ring
  · field_simp; ring
  · simp only [unitTerm, hop, d2_shift]; rw [mod_pts_diff _ _ (hd ω)]; simp only [mul_one]; ring
  · field_simp; ring

omit [IsProbabilityMeasure P] in
/-- a random phase and frequency offset changes nothing -/
theorem settles_affine {fn : DevName} (h1 : fn ≠ .mtie) (h2 : fn ≠ .totdev) (h3 : fn ≠ .tierms) {X Y : Ω → ℕ → ℝ} {rate : ℝ}
    (hr : 0 < rate) {w : ℕ → ℝ} (hXY : ∀ ω, ∃ A B : ℝ, ∀ k, Y ω k = X ω k + (A + B * k))
    (h : Settles P fn (fun N ω => tab N (X ω)) rate "phase" w) : Settles P fn (fun N ω => tab N (Y ω)) rate "phase" w := by
  intro m hm he ε δ hε hδ
  obtain ⟨N₀, hN⟩ := h m hm he ε δ hε hδ
  obtain ⟨N₁, hN₁⟩ := eventually_atTop.1 (usable_eventually fn hm he)
  refine ⟨max N₀ N₁, fun N hNN => ?_⟩
  obtain ⟨D, hD, hP⟩ := hN N (le_of_max_le_left hNN)
  have hu := hN₁ N (le_of_max_le_right hNN)
  refine ⟨D, fun ω => ?_, hP⟩
  obtain ⟨e, ns, hrun⟩ := hD ω
  obtain ⟨e', ns', hrun'⟩ := run_at hu hr (X ω)
  obtain ⟨e2, ns2, hrun2⟩ := run_at hu hr (Y ω)
  have hDv : D ω = value fn (X ω) N rate m := by
    have := hrun.symm.trans hrun'
    injection this with h4
    injection h4 with h5 h6
    injection h6
  have hval : value fn (Y ω) N rate m = value fn (X ω) N rate m := by
    obtain ⟨A, B, hAB⟩ := hXY ω
    have e : value fn (Y ω) N rate m ^ 2 = value fn (X ω) N rate m ^ 2 := by
      rw [value_terms fn h1 h2 _ hr hu, value_terms fn h1 h2 _ hr hu]
      congr 1
      refine sum_congr rfl fun i _ => ?_
      rw [← unitTerm_affine fn h1 h2 h3 rate hm he (fun k => X ω (i * hop fn m + k)) (A + B * (i * hop fn m : ℕ)) B]
      congr 1
      funext k
      rw [hAB]
      push_cast
      ring
    exact (sq_eq_sq₀ (value_nonneg fn _ N rate hr m) (value_nonneg fn _ N rate hr m)).1 e
  exact ⟨e2, ns2, by rw [hrun2, hval, hDv]⟩

omit [IsProbabilityMeasure P] in
theorem sources_shift {Z : ℕ → Ω → ℝ} (hZ : NormalNoise P Z 1) (r : ℕ) : Sources (K := Unit) P (fun _ i => Z (i + r)) where
  indep := hZ.indep.precomp (g := fun q : Unit × ℕ => q.2 + r) fun a b hab => by
    refine Prod.ext rfl ?_
    simp only at hab
    omega
  law := fun _ i => hZ.law _

theorem kasdin_walk (w : ℕ → ℝ) (i : ℕ) : kasdinNoise (-2) w i = kasdinNoise (-2) w 0 + ∑ j ∈ range i, w (j + 1) := by
  have := sum_range_sub (kasdinNoise (-2) w) i
  have e : ∀ j, kasdinNoise (-2) w (j + 1) - kasdinNoise (-2) w j = w (j + 1) := fun j => by
    rw [kasdinNoise_diff, show (-2 + 2 : ℝ) = 0 by norm_num, kasdinNoise_white]
  simp only [e] at this
  linarith

theorem kasdin_run (w : ℕ → ℝ) : ∃ B : ℝ, ∀ i : ℕ, kasdinNoise (-4) w i
    = kasdinNoise (-4) w 0 + B * i + ∑ j ∈ range i, ∑ k ∈ range j, w (k + 2) := by
  refine ⟨kasdinNoise (-2) w 0 + w 1, fun i => ?_⟩
  have := sum_range_sub (kasdinNoise (-4) w) i
  have e : ∀ j, kasdinNoise (-4) w (j + 1) - kasdinNoise (-4) w j
      = kasdinNoise (-2) w 0 + w 1 + ∑ k ∈ range j, w (k + 2) := fun j => by
    rw [kasdinNoise_diff, show (-4 + 2 : ℝ) = -2 by norm_num, kasdin_walk, sum_range_succ']
    ring
  simp only [e] at this
  rw [sum_add_distrib, sum_const, card_range, nsmul_eq_mul] at this
  linarith

/-- the six limits -/
def Six (P : Measure Ω) (s : Noise) (tau0 : ℝ) (X : ℕ → Ω → List ℝ) : Prop :=
      Settles P .adev X (1 / tau0) "phase" (fun m => s.qd / tau0 ^ 2 * simAvar s.b m) ∧
      Settles P .oadev X (1 / tau0) "phase" (fun m => s.qd / tau0 ^ 2 * simAvar s.b m) ∧
      Settles P .hdev X (1 / tau0) "phase" (fun m => s.qd / tau0 ^ 2 * simHvar s.b m) ∧
      Settles P .ohdev X (1 / tau0) "phase" (fun m => s.qd / tau0 ^ 2 * simHvar s.b m) ∧
      Settles P .mdev X (1 / tau0) "phase" (fun m => s.qd / tau0 ^ 2 * simMvar s.b m) ∧
      Settles P .tdev X (1 / tau0) "phase" (fun m => (m * tau0) ^ 2 / 3 * (s.qd / tau0 ^ 2 * simMvar s.b m))

/-- **C84.** Long simulated noise of the five types, `b = 0, -1, -2, -3, -4`.  Let the draws be independent
standard normal numbers and let `generateNoise` of an object with `nr = N` make `N` points of them.  As `N` grows,
the Allan deviations settle at `√(qd / tau0² · simAvar b m)`, the Hadamard deviations at
`√(qd / tau0² · simHvar b m)`, and the modified Allan and the time deviation accordingly. -/
theorem kasdin_settles (s : Noise) (hb : KasdinType s.b) (hq : 0 ≤ s.qd) {tau0 : ℝ} (h0 : 0 < tau0) {Z : ℕ → Ω → ℝ}
    (hZ : NormalNoise P Z 1) :
    ∃ X : ℕ → Ω → List ℝ,
      (∀ N > 0, ∀ ω, { s with nr := N }.generateNoise (tab N (fun i => Z i ω)) = .ok { s with nr := N, time_series := X N ω }) ∧
      Settles P .adev X (1 / tau0) "phase" (fun m => s.qd / tau0 ^ 2 * simAvar s.b m) ∧
      Settles P .oadev X (1 / tau0) "phase" (fun m => s.qd / tau0 ^ 2 * simAvar s.b m) ∧
      Settles P .hdev X (1 / tau0) "phase" (fun m => s.qd / tau0 ^ 2 * simHvar s.b m) ∧
      Settles P .ohdev X (1 / tau0) "phase" (fun m => s.qd / tau0 ^ 2 * simHvar s.b m) ∧
      Settles P .mdev X (1 / tau0) "phase" (fun m => s.qd / tau0 ^ 2 * simMvar s.b m) ∧
      Settles P .tdev X (1 / tau0) "phase" (fun m => (m * tau0) ^ 2 / 3 * (s.qd / tau0 ^ 2 * simMvar s.b m)) := by
  have hr : 0 < 1 / tau0 := by positivity
  have er : (1 / tau0) ^ 2 = 1 / tau0 ^ 2 := by field_simp
  refine ⟨fun N ω => tab N (kasdinNoise s.b (fun i => √s.qd * Z i ω)),
    fun N hN ω => generateNoise_random { s with nr := N } Z hN ω, ?_⟩
  change Six P s tau0 _
  have even : ∀ (k : Kind) (r : ℕ), (∀ ω, ∃ A B : ℝ, ∀ i, kasdinNoise s.b (fun i => √s.qd * Z i ω) i
        = offsetPhase 0 0 (mix (K := Unit) (fun _ => k) (fun _ => √s.qd) (fun _ i => Z (i + r) ω)) i + (A + B * i)) →
      (∀ m : ℕ, 0 < m → avarOf (1 / tau0) k m = 1 / tau0 ^ 2 * simAvar s.b m) →
      (∀ m : ℕ, 0 < m → hvarOf (1 / tau0) k m = 1 / tau0 ^ 2 * simHvar s.b m) →
      (∀ m : ℕ, 0 < m → mvarOf (1 / tau0) k m = 1 / tau0 ^ 2 * simMvar s.b m) →
      Six P s tau0 (fun N ω => tab N (kasdinNoise s.b (fun i => √s.qd * Z i ω))) := fun k r hk ha hh hmv => by
    obtain ⟨a1, a2, a3, a4, a5, a6⟩ := mix_limits (sources_shift hZ r) hr (fun _ => k) (fun _ => √s.qd) 0 0
    have c : ∀ {fn : DevName} {w w' : ℕ → ℝ}, fn ≠ .mtie → fn ≠ .totdev → fn ≠ .tierms →
        Settles P fn (fun N ω => tab N (offsetPhase 0 0 (mix (K := Unit) (fun _ => k) (fun _ => √s.qd) (fun _ i => Z (i + r) ω))))
          (1 / tau0) "phase" w → (∀ m, 0 < m → w m = w' m) →
        Settles P fn (fun N ω => tab N (kasdinNoise s.b (fun i => √s.qd * Z i ω))) (1 / tau0) "phase" w' := by
      intro fn w w' h1 h2 h3 h hw
      have := settles_affine h1 h2 h3 hr hk h
      intro m hm
      rw [← hw m hm]
      exact this m hm
    refine ⟨c (by decide) (by decide) (by decide) a1 fun m hm => ?_, c (by decide) (by decide) (by decide) a2 fun m hm => ?_,
      c (by decide) (by decide) (by decide) a3 fun m hm => ?_, c (by decide) (by decide) (by decide) a4 fun m hm => ?_,
      c (by decide) (by decide) (by decide) a5 fun m hm => ?_, c (by decide) (by decide) (by decide) a6 fun m hm => ?_⟩
    all_goals
      simp only [univ_unique, sum_singleton, Real.sq_sqrt hq, ha m hm, hh m hm, hmv m hm]
      field_simp
  rcases hb with hb | hb | hb | hb | hb
  · refine even .wpm 0 (fun ω => ⟨0, 0, fun i => ?_⟩) (fun m hm => ?_) (fun m hm => ?_) (fun m hm => ?_)
    · simp only [hb, kasdinNoise_white, offset_zero, mix, univ_unique, sum_singleton, noise]
      ring_nf
    all_goals
      have hm' : (0 : ℝ) < m := by exact_mod_cast hm
      simp only [avarOf, hvarOf, mvarOf, simAvar, simHvar, simMvar, if_pos hb]
      field_simp
  · unfold Six
    rw [hb]
    have k := fun m hm => fpm_inProb hZ hq hr (m := m) hm
    refine ⟨settles_of_inProb hr fun m hm _ => ?_, settles_of_inProb hr fun m hm _ => ?_, settles_of_inProb hr fun m hm _ => ?_,
      settles_of_inProb hr fun m hm _ => ?_, settles_of_inProb hr fun m hm _ => ?_, settles_of_inProb hr fun m hm _ => ?_⟩
    · convert (k m hm).1 using 1; rw [er]; ring
    · convert (k m hm).2.1 using 1; rw [er]; ring
    · convert (k m hm).2.2.1 using 1; rw [er]; ring
    · convert (k m hm).2.2.2.1 using 1; rw [er]; ring
    · convert (k m hm).2.2.2.2.1 using 1; rw [er]; ring
    · convert (k m hm).2.2.2.2.2 using 1; field_simp
  · refine even .wfm 1 (fun ω => ⟨kasdinNoise (-2) (fun i => √s.qd * Z i ω) 0, 0, fun i => ?_⟩)
      (fun m hm => ?_) (fun m hm => ?_) (fun m hm => ?_)
    · rw [hb, kasdin_walk]
      simp only [offset_zero, mix, univ_unique, sum_singleton, noise, mul_sum]
      ring
    all_goals
      have hm' : (0 : ℝ) < m := by exact_mod_cast hm
      simp only [avarOf, hvarOf, mvarOf, simAvar, simHvar, simMvar, hb]
      norm_num
      try field_simp
  · unfold Six
    rw [hb]
    have k := fun m hm => ffm_inProb hZ hq hr (m := m) hm
    refine ⟨settles_of_inProb hr fun m hm _ => ?_, settles_of_inProb hr fun m hm _ => ?_, settles_of_inProb hr fun m hm _ => ?_,
      settles_of_inProb hr fun m hm _ => ?_, settles_of_inProb hr fun m hm _ => ?_, settles_of_inProb hr fun m hm _ => ?_⟩
    · convert (k m hm).1 using 1; rw [er]; ring
    · convert (k m hm).2.1 using 1; rw [er]; ring
    · convert (k m hm).2.2.1 using 1; rw [er]; ring
    · convert (k m hm).2.2.2.1 using 1; rw [er]; ring
    · convert (k m hm).2.2.2.2.1 using 1; rw [er]; ring
    · convert (k m hm).2.2.2.2.2 using 1; field_simp
  · refine even .rwfm 2 (fun ω => ?_) (fun m hm => ?_) (fun m hm => ?_) (fun m hm => ?_)
    · obtain ⟨B, hB⟩ := kasdin_run (fun i => √s.qd * Z i ω)
      refine ⟨kasdinNoise (-4) (fun i => √s.qd * Z i ω) 0, B, fun i => ?_⟩
      rw [hb, hB]
      simp only [offset_zero, mix, univ_unique, sum_singleton, noise, mul_sum]
      ring
    all_goals
      have hm' : (0 : ℝ) < m := by exact_mod_cast hm
      simp only [avarOf, hvarOf, mvarOf, simAvar, simHvar, simMvar, hb]
      norm_num
      try field_simp

end

/-- 1000 and more standard normal draws made into flicker frequency noise -/
example := kasdin_settles (Noise.init 1000 2 (-3)) (by norm_num [Noise.init, KasdinType]) (by norm_num [Noise.init]) (tau0 := 1 / 10)
  (by norm_num) normal_gauss

/-! ## Comparison with the predictions -/

/-- the squares of the predicted deviations of flicker noise -/
theorem kasdin_flicker_sq (s : Noise) (hq : 0 ≤ s.qd) {tau0 : ℝ} (h0 : 0 < tau0) (hb : s.b = -1 ∨ s.b = -3) {m : ℕ} (hm : 0 < m) :
    ∃ d dm : ℝ, s.adev tau0 (m * tau0) = .ok (some d) ∧ s.mdev tau0 (m * tau0) = .ok (some dm) ∧
      (s.b = -1 → d ^ 2 = s.qd / tau0 ^ 2 * ((3 * 0.57721566490153286060651209 - Real.log 2 + 3 * Real.log (Real.pi * m))
        / (Real.pi * m ^ 2)) ∧ dm ^ 2 = s.qd / tau0 ^ 2 * ((24 * Real.log 2 - 9 * Real.log 3) / (2 * Real.pi * m ^ 2))) ∧
      (s.b = -3 → d ^ 2 = s.qd / tau0 ^ 2 * (2 * Real.log 2 / Real.pi) ∧
        dm ^ 2 = s.qd / tau0 ^ 2 * (27 / 20 * Real.log 2 / Real.pi)) := by
  have hk : KasdinType s.b := by unfold KasdinType; tauto
  have hmr : (0 : ℝ) < m := by exact_mod_cast hm
  have ht : 0 < m * tau0 := by positivity
  have hpi := Real.pi_pos
  have hn := frequency_psd_nonneg s tau0 hq h0
  have hle : tau0 ≤ m * tau0 := le_mul_of_one_le_left h0.le (by exact_mod_cast hm)
  have ka : 0 ≤ avarCoeff s.b tau0 (m * tau0) * s.frequency_psd_from_qd tau0 :=
    mul_nonneg (avarCoeff_pos_fpm s.b tau0 (m * tau0) h0 hle).le hn
  have km : 0 ≤ mvarCoeff s.b * s.frequency_psd_from_qd tau0 := mul_nonneg (mvarCoeff_pos _).le hn
  refine ⟨_, _, by rw [kasdin_adev_eq s tau0 _ hk ht, if_neg (not_lt.2 ka)], kasdin_mdev_eq s tau0 _ hk hq h0 ht,
    fun h => ⟨?_, ?_⟩, fun h => ⟨?_, ?_⟩⟩
  · rw [mul_pow, Real.sq_sqrt ka, ← Real.rpow_natCast, ← Real.rpow_mul ht.le]
    unfold Noise.frequency_psd_from_qd avarCoeff avarExp
    rw [h, show Real.pi * (m * tau0) / tau0 = Real.pi * m by field_simp]
    norm_num
    field_simp
    try norm_num
    try ring
  · rw [mul_pow, Real.sq_sqrt km, ← Real.rpow_natCast, ← Real.rpow_mul ht.le]
    unfold Noise.frequency_psd_from_qd mvarCoeff
    rw [h]
    norm_num
    field_simp
    try norm_num
    try ring
  · rw [mul_pow, Real.sq_sqrt ka, ← Real.rpow_natCast, ← Real.rpow_mul ht.le]
    unfold Noise.frequency_psd_from_qd avarCoeff avarExp
    rw [h]
    norm_num
    rw [Real.rpow_neg_one]
    field_simp
    try norm_num
    try ring
  · rw [mul_pow, Real.sq_sqrt km, ← Real.rpow_natCast, ← Real.rpow_mul ht.le]
    unfold Noise.frequency_psd_from_qd mvarCoeff
    rw [h]
    norm_num
    rw [Real.rpow_neg_one]
    field_simp
    try norm_num
    try ring

theorem ratio_cancel {q t a d2 : ℝ} (hq : 0 < q) (ht : 0 < t) (hd : d2 = q / t ^ 2 * a) (x : ℝ) : q / t ^ 2 * x / d2 = x / a := by
  rw [hd, mul_div_mul_left _ _ (by positivity)]

theorem log3_lt_log2 : 27 * Real.log 3 < 214 / 5 * Real.log 2 := by
  have h : Real.log ((3 : ℝ) ^ 135) < Real.log ((2 : ℝ) ^ 214) := Real.log_lt_log (by positivity) (by norm_num)
  rw [Real.log_pow, Real.log_pow] at h
  push_cast at h
  linarith

theorem fpm_mcoeff_pos : 0 < 24 * Real.log 2 - 9 * Real.log 3 := by
  have := log3_lt_log2
  have := Real.log_pos (show (1 : ℝ) < 2 by norm_num)
  linarith

/-- flicker phase noise: the simulated and the predicted Allan variance differ by a constant over `m²` -/
theorem fpm_gap : Tendsto (fun m : ℕ => Real.pi * m ^ 2 * simAvar (-1) m - 3 * Real.log m) atTop
    (nhds (3 * Real.eulerMascheroniConstant + 5 * Real.log 2)) := by
  have c := (oddSum_log.const_mul 6).sub ((oddSum_ratio (k := 2) (by norm_num)).const_mul 2)
  have e : 6 * (Real.eulerMascheroniConstant / 2 + Real.log 2) - 2 * (Real.log (2 : ℕ) / 2)
      = 3 * Real.eulerMascheroniConstant + 5 * Real.log 2 := by push_cast; ring
  rw [e] at c
  refine c.congr' ?_
  filter_upwards [eventually_gt_atTop 0] with m hm
  have hm' : (m : ℝ) ≠ 0 := by positivity
  have hpi := Real.pi_ne_zero
  have ea : simAvar (-1) m = (8 * oddSum m - 2 * oddSum (2 * m)) / (Real.pi * m ^ 2) := by norm_num [simAvar]
  rw [ea]
  field_simp
  ring

theorem fpm_ratio {C : ℝ} : Tendsto (fun m : ℕ => simAvar (-1) m / ((C + 3 * Real.log (Real.pi * m)) / (Real.pi * m ^ 2))) atTop (nhds 1) := by
  have hl : Tendsto (fun m : ℕ => 3 * Real.log m) atTop atTop :=
    (Real.tendsto_log_atTop.comp tendsto_natCast_atTop_atTop).const_mul_atTop (by norm_num)
  have hinv := hl.inv_tendsto_atTop
  have num := (fpm_gap.mul hinv).const_add 1
  have den := (hinv.const_mul (C + 3 * Real.log Real.pi)).const_add 1
  rw [mul_zero, add_zero] at num den
  have key := num.div den one_ne_zero
  rw [div_one] at key
  refine key.congr' ?_
  filter_upwards [eventually_gt_atTop 1] with m hm
  have hm' : (0 : ℝ) < m := by positivity
  have hpi := Real.pi_pos
  have hlog : 0 < Real.log m := Real.log_pos (by exact_mod_cast hm)
  simp only [Pi.inv_apply, Pi.div_apply]
  rw [Real.log_mul hpi.ne' hm'.ne']
  have e1 : 1 + (Real.pi * m ^ 2 * simAvar (-1) m - 3 * Real.log m) * (3 * Real.log m)⁻¹ = Real.pi * m ^ 2 * simAvar (-1) m / (3 * Real.log m) := by
    field_simp; ring
  have e2 : 1 + (C + 3 * Real.log Real.pi) * (3 * Real.log m)⁻¹ = (C + 3 * (Real.log Real.pi + Real.log m)) / (3 * Real.log m) := by
    field_simp; ring
  rw [e1, e2, div_div_div_cancel_right₀ (by positivity)]
  rw [div_div_eq_mul_div]
  ring

/-- **C84, comparison.** The Allan variance at which long simulated noise settles, over the square of the
deviation that `adev` of the same object predicts, tends to 1 as the averaging factor grows, for all five types.
So it does for the modified Allan variance, except for flicker frequency noise, where it tends to
`5 (27 ln 3 - 32 ln 2) / (54 ln 2) < 1`, because the code has the coefficient `27/20 ln 2` for
`(27 ln 3 - 32 ln 2) / 8`. -/
theorem kasdin_limits (s : Noise) (hb : KasdinType s.b) (hq : 0 < s.qd) {tau0 : ℝ} (h0 : 0 < tau0) :
    ∃ d dm : ℕ → ℝ,
      (∀ m : ℕ, 0 < m → s.adev tau0 (m * tau0) = .ok (some (d m)) ∧ s.mdev tau0 (m * tau0) = .ok (some (dm m))) ∧
      Tendsto (fun m => s.qd / tau0 ^ 2 * simAvar s.b m / d m ^ 2) atTop (nhds 1) ∧
      (s.b ≠ -3 → Tendsto (fun m => s.qd / tau0 ^ 2 * simMvar s.b m / dm m ^ 2) atTop (nhds 1)) ∧
      (s.b = -3 → ∃ r < 1, Tendsto (fun m => s.qd / tau0 ^ 2 * simMvar s.b m / dm m ^ 2) atTop (nhds r) ∧
        r = 5 * (27 * Real.log 3 - 32 * Real.log 2) / (54 * Real.log 2)) := by
  have hl2 := Real.log_pos (show (1 : ℝ) < 2 by norm_num)
  have hpi := Real.pi_pos
  by_cases hf : s.b = -1 ∨ s.b = -3
  · have hd : ∀ m : ℕ, ∃ d dm : ℝ, 0 < m → s.adev tau0 (m * tau0) = .ok (some d) ∧ s.mdev tau0 (m * tau0) = .ok (some dm) ∧
      (s.b = -1 → d ^ 2 = s.qd / tau0 ^ 2 * ((3 * 0.57721566490153286060651209 - Real.log 2 + 3 * Real.log (Real.pi * m))
        / (Real.pi * m ^ 2)) ∧ dm ^ 2 = s.qd / tau0 ^ 2 * ((24 * Real.log 2 - 9 * Real.log 3) / (2 * Real.pi * m ^ 2))) ∧
      (s.b = -3 → d ^ 2 = s.qd / tau0 ^ 2 * (2 * Real.log 2 / Real.pi) ∧
        dm ^ 2 = s.qd / tau0 ^ 2 * (27 / 20 * Real.log 2 / Real.pi)) := by
      intro m
      by_cases hm : 0 < m
      · obtain ⟨d, dm, h⟩ := kasdin_flicker_sq s hq.le h0 hf hm
        exact ⟨d, dm, fun _ => h⟩
      · exact ⟨0, 0, fun h => absurd h hm⟩
    choose d dm hd using hd
    refine ⟨d, dm, fun m hm => ⟨(hd m hm).1, (hd m hm).2.1⟩, ?_, fun h3 => ?_, fun h3 => ?_⟩
    · rcases hf with hf | hf
      · refine (fpm_ratio (C := 3 * 0.57721566490153286060651209 - Real.log 2)).congr' ?_
        filter_upwards [eventually_gt_atTop 0] with m hm
        rw [ratio_cancel hq h0 ((hd m hm).2.2.1 hf).1, hf]
      · have c := (oddG_two.const_mul (2 / Real.pi)).div_const (2 * Real.log 2 / Real.pi)
        have e : 2 / Real.pi * Real.log 2 / (2 * Real.log 2 / Real.pi) = 1 := by field_simp
        rw [e] at c
        refine c.congr' ?_
        filter_upwards [eventually_gt_atTop 0] with m hm
        have hm' : (0 : ℝ) < m := by positivity
        have ea : simAvar (-3) m = 2 * (oddG (2 * m) - 4 * oddG m) / (Real.pi * m ^ 2) := by norm_num [simAvar]
        rw [ratio_cancel hq h0 ((hd m hm).2.2.2 hf).1, hf, ea]
        field_simp
    · have hf : s.b = -1 := by tauto
      have hp := fpm_mcoeff_pos
      have c := (oddG_three.const_mul (2 / Real.pi)).div_const ((24 * Real.log 2 - 9 * Real.log 3) / (2 * Real.pi))
      have e : 2 / Real.pi * (6 * Real.log 2 - 9 / 4 * Real.log 3) / ((24 * Real.log 2 - 9 * Real.log 3) / (2 * Real.pi)) = 1 := by
        rw [div_eq_one_iff_eq (by positivity)]
        field_simp
        ring
      rw [e] at c
      refine c.congr' ?_
      filter_upwards [eventually_gt_atTop 0] with m hm
      have hm' : (0 : ℝ) < m := by positivity
      have em : simMvar (-1) m = 2 * (6 * oddG (2 * m) - 15 * oddG m - oddG (3 * m)) / (Real.pi * m ^ 4) := by norm_num [simMvar]
      rw [ratio_cancel hq h0 ((hd m hm).2.2.1 hf).2, hf, em]
      field_simp
    · refine ⟨_, ?_, ?_, rfl⟩
      · rw [div_lt_one (by positivity)]
        have := log3_lt_log2
        linarith
      · have c := (oddH_three.const_mul (2 / Real.pi)).div_const (27 / 20 * Real.log 2 / Real.pi)
        have e : 2 / Real.pi * ((27 * Real.log 3 - 32 * Real.log 2) / 16) / (27 / 20 * Real.log 2 / Real.pi)
            = 5 * (27 * Real.log 3 - 32 * Real.log 2) / (54 * Real.log 2) := by
          field_simp
          ring
        rw [e] at c
        refine c.congr' ?_
        filter_upwards [eventually_gt_atTop 0] with m hm
        have hm' : (0 : ℝ) < m := by positivity
        have em : simMvar (-3) m = 2 * (oddH (3 * m) - 6 * oddH (2 * m) + 15 * oddH m) / (Real.pi * m ^ 4) := by norm_num [simMvar]
        rw [ratio_cancel hq h0 ((hd m hm).2.2.2 h3).2, h3, em]
        field_simp
  · have hb' : s.b = 0 ∨ s.b = -2 ∨ s.b = -4 := by unfold KasdinType at hb; tauto
    have hd : ∀ m : ℕ, ∃ d : ℝ, 0 < m → (s.b = 0 → d ^ 2 = 3 * s.qd / (m * tau0) ^ 2) ∧
        (s.b = -2 → d ^ 2 = s.qd / (tau0 ^ 2 * m)) ∧ (s.b = -4 → d ^ 2 = s.qd * m / (3 * tau0 ^ 2)) ∧
        (s.b = 0 ∨ s.b = -2 ∨ s.b = -4 → s.adev tau0 (m * tau0) = .ok (some d)) := by
      intro m
      by_cases hm : 0 < m
      · obtain ⟨d, hd⟩ := kasdin_adev_sq s hq.le h0 hm
        exact ⟨d, fun _ => hd⟩
      · exact ⟨0, fun h => absurd h hm⟩
    have hdm : ∀ m : ℕ, ∃ d : ℝ, 0 < m → (s.b = 0 → d ^ 2 = 3 * s.qd / (m * (m * tau0) ^ 2)) ∧
        (s.b = -2 → d ^ 2 = s.qd / (2 * tau0 ^ 2 * m)) ∧ (s.b = -4 → d ^ 2 = 11 * s.qd * m / (40 * tau0 ^ 2)) ∧
        (s.b = 0 ∨ s.b = -2 ∨ s.b = -4 → s.mdev tau0 (m * tau0) = .ok (some d)) := by
      intro m
      by_cases hm : 0 < m
      · obtain ⟨d, hd⟩ := kasdin_mdev_sq s hq.le h0 hm
        exact ⟨d, fun _ => hd⟩
      · exact ⟨0, fun h => absurd h hm⟩
    choose d hd using hd
    choose dm hdm using hdm
    refine ⟨d, dm, fun m hm => ⟨(hd m hm).2.2.2 hb', (hdm m hm).2.2.2 hb'⟩, ?_, fun _ => ?_, fun h3 => absurd (Or.inr h3) hf⟩
    · rcases hb' with hb | hb | hb
      · refine tendsto_const_nhds.congr' ?_
        filter_upwards [eventually_gt_atTop 0] with m hm
        have hm' : (0 : ℝ) < m := by positivity
        rw [(hd m hm).1 hb]
        simp only [simAvar, if_pos hb]
        field_simp
      · refine tendsto_const_nhds.congr' ?_
        filter_upwards [eventually_gt_atTop 0] with m hm
        have hm' : (0 : ℝ) < m := by positivity
        have ea : simAvar (-2) m = 1 / m := by norm_num [simAvar]
        rw [(hd m hm).2.1 hb, hb, ea]
        field_simp
      · have c := (inv_sq_lim.const_mul (1 / 2)).const_add 1
        rw [mul_zero, add_zero] at c
        refine c.congr' ?_
        filter_upwards [eventually_gt_atTop 0] with m hm
        have hm' : (0 : ℝ) < m := by positivity
        have ea : simAvar (-4) m = (2 * m ^ 2 + 1) / (6 * m) := by norm_num [simAvar]
        rw [(hd m hm).2.2.1 hb, hb, ea]
        field_simp
        try ring
    · rcases hb' with hb | hb | hb
      · refine tendsto_const_nhds.congr' ?_
        filter_upwards [eventually_gt_atTop 0] with m hm
        have hm' : (0 : ℝ) < m := by positivity
        rw [(hdm m hm).1 hb]
        simp only [simMvar, if_pos hb]
        field_simp
      · have c := inv_sq_lim.const_add 1
        rw [add_zero] at c
        refine c.congr' ?_
        filter_upwards [eventually_gt_atTop 0] with m hm
        have hm' : (0 : ℝ) < m := by positivity
        have em : simMvar (-2) m = (m ^ 2 + 1) / (2 * m ^ 3) := by norm_num [simMvar]
        rw [(hdm m hm).2.1 hb, hb, em]
        field_simp
      · have c := ((inv_sq_lim.const_mul (5 / 11)).add ((inv_sq_lim.mul inv_sq_lim).const_mul (4 / 11))).const_add 1
        rw [mul_zero, mul_zero, mul_zero, add_zero, add_zero] at c
        refine c.congr' ?_
        filter_upwards [eventually_gt_atTop 0] with m hm
        have hm' : (0 : ℝ) < m := by positivity
        have em : simMvar (-4) m = (11 * m ^ 4 + 5 * m ^ 2 + 4) / (40 * m ^ 3) := by norm_num [simMvar]
        rw [(hdm m hm).2.2.1 hb, hb, em]
        field_simp
        try ring

example := kasdin_limits (Noise.init 1000 2 (-3)) (by norm_num [Noise.init, KasdinType]) (by norm_num [Noise.init]) (tau0 := 1 / 10)
  (by norm_num)

end AT
