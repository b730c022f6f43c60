import Verif.Lemmas.FlickerNoisy
import Verif.Props.NoiseIdOk

/-!
# C85: which simulated noise is identified
-/

namespace AT

open Spec Finset MeasureTheory ProbabilityTheory Filter
open scoped NNReal ENNReal

/-- the exponent that `autocorr_noise_id` returns for long simulated noise with exponent `b` of the phase at averaging
factor `m`.  It is `b + 2`, except that flicker phase noise is taken for white phase noise from `m = 18` on -/
noncomputable def Spec.idAlpha (b : ℝ) (m : ℕ) : ℤ :=
  if b = 0 then 2
  else if b = -1 then (if m ≤ 17 then 1 else 2)
  else if b = -2 then 0
  else if b = -3 then -1
  else -2

/-- the number of differences taken from phase data -/
noncomputable def Spec.idOrder (b : ℝ) : ℕ := if b = 0 then 0 else if b = -1 ∨ b = -2 then 1 else 2

/-- what the estimate tends to before it is rounded -/
noncomputable def Spec.idLimit (b : ℝ) (m : ℕ) : ℝ :=
  if b = 0 then 2
  else if b = -1 then 4 * oddSum m / oddSum (2 * m) - 2
  else if b = -2 then 0
  else if b = -3 then 2 * (4 * oddG (2 * m) - 7 * oddG m - oddG (3 * m)) / (oddG (3 * m) - 2 * oddG (2 * m) - oddG m) - 2
  else -2 - 2 * ((m : ℝ) ^ 2 - 1) / (5 * (m : ℝ) ^ 2 + 1)

/-! ## Bounds -/

theorem oddSum_one_le {m : ℕ} (hm : 0 < m) : 1 ≤ oddSum m := by
  have := oddSum_mono (show 1 ≤ m from hm)
  rwa [show oddSum 1 = 1 by simp [oddSum]] at this

/-- the boundary between the exponents 1 and 2 lies between `m = 17` and `m = 18` -/
theorem fpm_switch (m : ℕ) : (0 < m → m ≤ 17 → 8 * oddSum m < 7 * oddSum (2 * m)) ∧ (18 ≤ m → 7 * oddSum (2 * m) < 8 * oddSum m) := by
  have hstep : ∀ m : ℕ, 0 < m → 8 * oddSum m - 7 * oddSum (2 * m) < 8 * oddSum (m + 1) - 7 * oddSum (2 * (m + 1)) := fun m hm => by
    rw [show 2 * (m + 1) = 2 * m + 1 + 1 by ring, oddSum_succ, oddSum_succ, oddSum_succ]
    push_cast
    have hm' : (1 : ℝ) ≤ m := by exact_mod_cast hm
    have : 7 * (1 / (2 * (2 * (m : ℝ)) + 1) + 1 / (2 * (2 * m + 1) + 1)) < 8 * (1 / (2 * m + 1)) := by
      rw [div_add_div _ _ (by positivity) (by positivity), ← mul_div_assoc, ← mul_div_assoc, div_lt_div_iff₀ (by positivity) (by positivity)]
      nlinarith [mul_pos (show (0 : ℝ) < m by linarith) (show (0 : ℝ) < m by linarith), mul_pos (mul_pos (show (0 : ℝ) < m by linarith) (show (0 : ℝ) < m by linarith)) (show (0 : ℝ) < m by linarith)]
    linarith
  have hmono : ∀ a b : ℕ, 0 < a → a ≤ b → 8 * oddSum a - 7 * oddSum (2 * a) ≤ 8 * oddSum b - 7 * oddSum (2 * b) := fun a b ha hab => by
    induction b, hab using Nat.le_induction with
    | base => exact le_rfl
    | succ n hn ih => exact ih.trans (hstep n (by omega)).le
  have h17 : 8 * oddSum 17 < 7 * oddSum (2 * 17) := by norm_num [oddSum, sum_range_succ]
  have h18 : 7 * oddSum (2 * 18) < 8 * oddSum 18 := by norm_num [oddSum, sum_range_succ]
  exact ⟨fun h0 h => by have := hmono m 17 h0 h; linarith, fun h => by have := hmono 18 m (by norm_num) h; linarith⟩

section ffm

/-- sums over the second and third block of `m` odd denominators -/
theorem odd_steps (m : ℕ) :
    oddSum (2 * (m + 1)) - oddSum (m + 1) = oddSum (2 * m) - oddSum m + 1 / ((4 * (m : ℝ) + 1) * (4 * m + 3) * (2 * m + 1)) ∧
    oddSum (3 * (m + 1)) - oddSum (m + 1) = oddSum (3 * m) - oddSum m + 8 / (3 * ((6 * (m : ℝ) + 1) * (2 * m + 1) * (6 * m + 5))) := by
  constructor
  · rw [show 2 * (m + 1) = 2 * m + 1 + 1 by ring, oddSum_succ, oddSum_succ, oddSum_succ]
    push_cast
    have h1 : (4 * (m : ℝ) + 1) ≠ 0 := by positivity
    have h2 : (4 * (m : ℝ) + 3) ≠ 0 := by positivity
    have h3 : (2 * (m : ℝ) + 1) ≠ 0 := by positivity
    rw [show 2 * (2 * (m : ℝ)) + 1 = 4 * m + 1 by ring, show 2 * (2 * (m : ℝ) + 1) + 1 = 4 * m + 3 by ring]
    field_simp
    ring
  · rw [show 3 * (m + 1) = 3 * m + 1 + 1 + 1 by ring, oddSum_succ, oddSum_succ, oddSum_succ, oddSum_succ]
    push_cast
    have h1 : (6 * (m : ℝ) + 1) ≠ 0 := by positivity
    have h2 : (6 * (m : ℝ) + 5) ≠ 0 := by positivity
    have h3 : (2 * (m : ℝ) + 1) ≠ 0 := by positivity
    rw [show 2 * (3 * (m : ℝ)) + 1 = 6 * m + 1 by ring, show 2 * (3 * (m : ℝ) + 1) + 1 = 3 * (2 * m + 1) by ring,
      show 2 * (3 * (m : ℝ) + 2) + 1 = 6 * m + 5 by ring]
    field_simp
    ring

theorem ffm_low (m : ℕ) : 45 * (oddSum (3 * m) - oddSum m) ≤ 72 * (oddSum (2 * m) - oddSum m) := by
  induction m with
  | zero => simp
  | succ m ih =>
    obtain ⟨h1, h2⟩ := odd_steps m
    rw [h1, h2]
    have : 45 * (8 / (3 * ((6 * (m : ℝ) + 1) * (2 * m + 1) * (6 * m + 5)))) ≤ 72 * (1 / ((4 * (m : ℝ) + 1) * (4 * m + 3) * (2 * m + 1))) := by
      rw [← mul_div_assoc, ← mul_div_assoc, div_le_div_iff₀ (by positivity) (by positivity)]
      have hm : (0 : ℝ) ≤ m := by positivity
      have : 0 ≤ (2 * (m : ℝ) + 1) * (m ^ 2 + m) := by positivity
      nlinarith
    linarith

theorem ffm_high {m : ℕ} (hm : 0 < m) : 2 ≤ 63 / 2 * (oddSum (3 * m) - oddSum m) - 44 * (oddSum (2 * m) - oddSum m) := by
  set g : ℕ → ℝ := fun m => 63 / 2 * (oddSum (3 * m) - oddSum m) - 44 * (oddSum (2 * m) - oddSum m) with hg
  have hanti : Antitone (fun n => g (n + 1)) := antitone_nat_of_succ_le fun n => by
    obtain ⟨h1, h2⟩ := odd_steps (n + 1)
    simp only [hg]
    rw [h1, h2]
    have : 63 / 2 * (8 / (3 * ((6 * ((n + 1 : ℕ) : ℝ) + 1) * (2 * ((n + 1 : ℕ) : ℝ) + 1) * (6 * ((n + 1 : ℕ) : ℝ) + 5))))
        ≤ 44 * (1 / ((4 * ((n + 1 : ℕ) : ℝ) + 1) * (4 * ((n + 1 : ℕ) : ℝ) + 3) * (2 * ((n + 1 : ℕ) : ℝ) + 1))) := by
      rw [← mul_div_assoc, ← mul_div_assoc, div_le_div_iff₀ (by positivity) (by positivity)]
      have hm : (1 : ℝ) ≤ ((n + 1 : ℕ) : ℝ) := by exact_mod_cast Nat.succ_pos n
      generalize ((n + 1 : ℕ) : ℝ) = x at hm ⊢
      have : 0 ≤ (2 * x + 1) * (240 * (x ^ 2 + x) - 32) := mul_nonneg (by linarith) (by nlinarith)
      nlinarith
    linarith
  have hlim : Tendsto (fun n => g (n + 1)) atTop (nhds (63 / 2 * (Real.log (3 : ℕ) / 2) - 44 * (Real.log (2 : ℕ) / 2))) :=
    (((oddSum_ratio (k := 3) (by norm_num)).const_mul (63 / 2)).sub ((oddSum_ratio (k := 2) (by norm_num)).const_mul 44)).comp
      (tendsto_add_atTop_nat 1)
  have h1 := hanti.le_of_tendsto hlim (m - 1)
  rw [show m - 1 + 1 = m by omega] at h1
  refine le_trans ?_ h1
  have h2 := Real.log_two_gt_d9
  have h3 : 19 * Real.log 2 < 12 * Real.log 3 := by
    rw [← Real.log_rpow (by norm_num), ← Real.log_rpow (by norm_num)]
    exact Real.log_lt_log (by norm_num) (by norm_num)
  push_cast
  linarith

theorem ffm_parts {m : ℕ} (hm : 0 < m) : 0 ≤ oddSum (2 * m) - oddSum m ∧ oddSum (2 * m) - oddSum m ≤ 1 / 2 ∧
    oddSum (2 * m) - oddSum m ≤ oddSum (3 * m) - oddSum m ∧ oddSum (3 * m) - oddSum m ≤ 2 * (oddSum (2 * m) - oddSum m) := by
  have hm' : (0 : ℝ) < m := by exact_mod_cast hm
  refine ⟨sub_nonneg.2 (oddSum_mono (by omega)), ?_, sub_le_sub_right (oddSum_mono (by omega)) _, ?_⟩
  · have := oddSum_add_le m m
    rw [← two_mul] at this
    have h2 : (m : ℝ) / (2 * m + 1) ≤ 1 / 2 := by
      rw [div_le_div_iff₀ (by positivity) (by norm_num)]
      linarith
    linarith
  · have e : ∀ k, oddSum (k * m + m) - oddSum (k * m) = ∑ j ∈ range m, 1 / (2 * ((k * m + j : ℕ) : ℝ) + 1) := fun k => by
      unfold oddSum
      rw [sum_range_add]
      ring
    have h1 := e 1
    have h2 := e 2
    rw [one_mul, ← two_mul] at h1
    rw [show 2 * m + m = 3 * m by ring] at h2
    have h3 : ∑ j ∈ range m, 1 / (2 * ((2 * m + j : ℕ) : ℝ) + 1) ≤ ∑ j ∈ range m, 1 / (2 * ((m + j : ℕ) : ℝ) + 1) :=
      sum_le_sum fun j _ => one_div_le_one_div_of_le (by positivity) (by push_cast; linarith)
    linarith

theorem ffm_bounds {m : ℕ} (hm : 0 < m) : 0 < oddG (2 * m) - 4 * oddG m ∧ 0 < oddG (3 * m) - 2 * oddG (2 * m) - oddG m ∧
    27 * oddG m - 18 * oddG (2 * m) + 5 * oddG (3 * m) < 0 ∧ 0 < 25 * oddG m - 22 * oddG (2 * m) + 7 * oddG (3 * m) := by
  have hm1 : (1 : ℝ) ≤ m := by exact_mod_cast hm
  obtain ⟨p1, p2, p3, p4⟩ := ffm_parts hm
  have p5 := ffm_low m
  have p6 := ffm_high hm
  have p7 := oddSum_one_le hm
  have p8 := oddSum_le m
  simp only [oddG]
  push_cast
  generalize ho : oddSum m = o at *
  obtain ⟨a2, ha2⟩ : ∃ a, oddSum (2 * m) = o + a := ⟨oddSum (2 * m) - o, by ring⟩
  obtain ⟨a3, ha3⟩ : ∃ a, oddSum (3 * m) = o + a := ⟨oddSum (3 * m) - o, by ring⟩
  rw [ha2] at p1 p2 p3 p4 p5 p6 ⊢
  rw [ha3] at p3 p4 p5 p6 ⊢
  generalize (m : ℝ) = x at *
  rw [add_sub_cancel_left] at p1 p2 p3 p4 p5 p6
  rw [add_sub_cancel_left] at p3 p4 p5 p6
  have hx2 : 1 ≤ x ^ 2 := one_le_pow₀ hm1
  have q1 : 0 ≤ x ^ 2 * a2 := by positivity
  refine ⟨?_, ?_, ?_, ?_⟩
  · have : (4 * (2 * x) ^ 2 - 1) / 8 * (o + a2) - 3 / 8 * (2 * x) ^ 2 - 4 * ((4 * x ^ 2 - 1) / 8 * o - 3 / 8 * x ^ 2)
        = 2 * (x ^ 2 * a2) - a2 / 8 + 3 / 8 * o := by ring
    rw [this]
    linarith
  · have : (4 * (3 * x) ^ 2 - 1) / 8 * (o + a3) - 3 / 8 * (3 * x) ^ 2 - 2 * ((4 * (2 * x) ^ 2 - 1) / 8 * (o + a2) - 3 / 8 * (2 * x) ^ 2)
          - ((4 * x ^ 2 - 1) / 8 * o - 3 / 8 * x ^ 2)
        = 9 / 2 * (x ^ 2 * (a3 - a2)) + 1 / 2 * (x ^ 2 * a2) + (2 * a2 - a3) / 8 + o / 4 := by ring
    rw [this]
    have : 0 ≤ x ^ 2 * (a3 - a2) := mul_nonneg (by positivity) (by linarith)
    linarith
  · have : 27 * ((4 * x ^ 2 - 1) / 8 * o - 3 / 8 * x ^ 2) - 18 * ((4 * (2 * x) ^ 2 - 1) / 8 * (o + a2) - 3 / 8 * (2 * x) ^ 2)
          + 5 * ((4 * (3 * x) ^ 2 - 1) / 8 * (o + a3) - 3 / 8 * (3 * x) ^ 2)
        = -(1 / 2 * (x ^ 2 * (72 * a2 - 45 * a3))) - (14 * o - 18 * a2 + 5 * a3) / 8 := by ring
    rw [this]
    have : 0 ≤ x ^ 2 * (72 * a2 - 45 * a3) := mul_nonneg (by positivity) (by linarith)
    linarith
  · have : 25 * ((4 * x ^ 2 - 1) / 8 * o - 3 / 8 * x ^ 2) - 22 * ((4 * (2 * x) ^ 2 - 1) / 8 * (o + a2) - 3 / 8 * (2 * x) ^ 2)
          + 7 * ((4 * (3 * x) ^ 2 - 1) / 8 * (o + a3) - 3 / 8 * (3 * x) ^ 2)
        = x ^ 2 * (63 / 2 * a3 - 44 * a2) + (22 * a2 - 7 * a3) / 8 - 5 / 4 * o := by ring
    rw [this]
    have h1 : x ^ 2 * 2 ≤ x ^ 2 * (63 / 2 * a3 - 44 * a2) := mul_le_mul_of_nonneg_left p6 (by positivity)
    nlinarith

end ffm

/-! ## The series -/

section series

variable {Ω : Type} [MeasurableSpace Ω] {P : Measure Ω} [IsProbabilityMeasure P] {W : ℕ → Ω → ℝ} {s2 : ℝ≥0}

omit [IsProbabilityMeasure P] in
theorem Noisy.smul {w : ℕ → Ω → ℝ} {γ η : ℝ} (hw : Noisy P w γ η) {r : ℝ} (hr : r ≠ 0) :
    Noisy P (fun i ω => r * w i ω) (r ^ 2 * γ) (r ^ 2 * η) where
  allLp := fun i => AllLp.const_mul (hw.allLp i) r
  sq := fun {ε} hε => by
    have hr2 : 0 < r ^ 2 := by positivity
    refine (hw.sq (div_pos hε hr2)).mono (Eventually.of_forall fun n ω hω => ?_)
    have e : ∑ i ∈ range n, (r * w i ω) ^ 2 - n * (r ^ 2 * γ) = r ^ 2 * (∑ i ∈ range n, w i ω ^ 2 - n * γ) := by
      rw [mul_sub, mul_sum]
      congr 1
      · exact sum_congr rfl fun i _ => by ring
      · ring
    rw [e, abs_mul, abs_of_pos hr2]
    calc r ^ 2 * |∑ i ∈ range n, w i ω ^ 2 - n * γ| ≤ r ^ 2 * (ε / r ^ 2 * n) := mul_le_mul_of_nonneg_left hω hr2.le
      _ = ε * n := by field_simp
  diff := fun {ε} hε => by
    have hr2 : 0 < r ^ 2 := by positivity
    refine (hw.diff (div_pos hε hr2)).mono (Eventually.of_forall fun n ω hω => ?_)
    have e : ∑ i ∈ range n, (r * w (i + 1) ω - r * w i ω) ^ 2 - n * (r ^ 2 * η)
        = r ^ 2 * (∑ i ∈ range n, (w (i + 1) ω - w i ω) ^ 2 - n * η) := by
      rw [mul_sub, mul_sum]
      congr 1
      · exact sum_congr rfl fun i _ => by ring
      · ring
    rw [e, abs_mul, abs_of_pos hr2]
    calc r ^ 2 * |∑ i ∈ range n, (w (i + 1) ω - w i ω) ^ 2 - n * η| ≤ r ^ 2 * (ε / r ^ 2 * n) := mul_le_mul_of_nonneg_left hω hr2.le
      _ = ε * n := by field_simp
  sums := by
    obtain ⟨V, hV, hs⟩ := hw.sums
    refine ⟨r ^ 2 * V, by positivity, fun n => ?_⟩
    have e : ∀ ω, (∑ i ∈ range n, r * w i ω) ^ 2 = r ^ 2 * (∑ i ∈ range n, w i ω) ^ 2 := fun ω => by rw [← mul_sum]; ring
    simp only [e]
    rw [integral_const_mul, mul_assoc]
    exact mul_le_mul_of_nonneg_left (hs n) (by positivity)
  bound := by
    obtain ⟨v, hv⟩ := hw.bound
    refine ⟨r ^ 2 * v, fun i => ?_⟩
    simp only [mul_pow]
    rw [integral_const_mul]
    exact mul_le_mul_of_nonneg_left (hv i) (by positivity)

omit [IsProbabilityMeasure P] in
theorem Identified.affine {fit : List ℝ → ℕ → ℕ → ℝ} {k : ℕ} {κ r : ℝ} {E E' : ℕ → Ω → ℝ} (hI : Identified P fit k κ r E)
    (h : ∀ ω, ∃ A B : ℝ, ∀ j : ℕ, E' j ω = A + B * j + E j ω) : Identified P fit k κ r E' := by
  refine hI.mono (Eventually.of_forall fun n ω hω deg a b c hd => ?_)
  obtain ⟨A, B, hAB⟩ := h ω
  obtain ⟨x, h1, h2⟩ := hω deg (a + A) (b + B) c hd
  refine ⟨x, ?_, h2⟩
  rw [← h1]
  congr 1
  refine tab_congr fun i _ => ?_
  rw [hAB]
  ring

theorem rho_of {t g e : ℝ} (ht : 0 < t) (hg : 0 < g) (he : e < 4 * g) :
    0 < t * g ∧ t * e < 4 * (t * g) ∧ (t * g - t * e / 2) / (2 * (t * g) - t * e / 2) = (g - e / 2) / (2 * g - e / 2) := by
  refine ⟨by positivity, by nlinarith, ?_⟩
  rw [show t * g - t * e / 2 = t * (g - e / 2) by ring, show 2 * (t * g) - t * e / 2 = t * (2 * g - e / 2) by ring,
    mul_div_mul_left _ _ ht.ne']

theorem blockO_one (z : ℤ) : blockO 1 z = zO z := by simp [blockO]

theorem fpm_forms (m r : ℕ) : -∑ x ∈ range 2 ×ˢ range 1, ∑ y ∈ range 2 ×ˢ range 1,
      w1 x.1 * w1 y.1 * zO (((x.1 * m + x.2 + r : ℕ) : ℤ) - ((y.1 * m + y.2 + r : ℕ) : ℤ)) = 2 * oddSum m ∧
    -∑ x ∈ range 3 ×ˢ range 1, ∑ y ∈ range 3 ×ˢ range 1,
      w2 x.1 * w2 y.1 * zO (((x.1 * m + x.2 + r : ℕ) : ℤ) - ((y.1 * m + y.2 + r : ℕ) : ℤ)) = 8 * oddSum m - 2 * oddSum (2 * m) := by
  constructor
  · rw [form_blocks, form_w1 (blockO 1) (blockO_neg 1), blockO_one, blockO_one, zO_zero, zO_nat]
    ring
  · rw [form_blocks, form_w2 (blockO 1) (blockO_neg 1), blockO_one, blockO_one, blockO_one, zO_zero, zO_nat, ← zO_mul]
    push_cast
    ring

variable (h : NormalNoise P W s2)
include h

theorem fpm_noisy {m : ℕ} (hm : 0 < m) : Noisy P (fun i ω => Bl W 1 m 0 (i + 1) ω - Bl W 1 m 0 i ω)
    (s2 * (2 / Real.pi) * (2 * oddSum m)) (s2 * (2 / Real.pi) * (8 * oddSum m - 2 * oddSum (2 * m))) :=
  bl_noisy h hm (by rw [(fpm_forms m 0).1]; ring) (by rw [(fpm_forms m 0).2]; ring)

theorem ffm_noisy {m : ℕ} (hm : 0 < m) : Noisy P (fun i ω => Bl W m m 1 (i + 1) ω - Bl W m m 1 i ω)
    (s2 * (2 / Real.pi) * (2 * oddG (2 * m) - 8 * oddG m))
    (s2 * (2 / Real.pi) * (12 * oddG (2 * m) - 30 * oddG m - 2 * oddG (3 * m))) :=
  bl_noisy h hm (by rw [quad_a3]; ring) (by rw [quad_m1]; ring)

omit h [IsProbabilityMeasure P] [MeasurableSpace Ω] in
theorem bl_fpm (m j : ℕ) (ω : Ω) : Bl W 1 m 0 j ω = kasdinNoise (-1) (fun k => W k ω) (j * m) := by simp [Bl, Fl]

omit h [IsProbabilityMeasure P] [MeasurableSpace Ω] in
theorem bl_ffm (m j : ℕ) (ω : Ω) : Bl W m m 1 j ω
    = kasdinNoise (-3) (fun k => W k ω) ((j + 1) * m) - kasdinNoise (-3) (fun k => W k ω) (j * m) := by
  have := block_diff (x := kasdinNoise (-3) (fun k => W k ω)) (y := kasdinNoise (-1) (fun k => W k ω)) (fun i => by
    rw [kasdinNoise_diff, show (-3 + 2 : ℝ) = -1 by norm_num]) (j * m) m
  rw [add_mul, one_mul, this]
  simp only [Bl, Fl, add_assoc]

/-- the limit of `rho` -/
noncomputable def rhoK (b : ℝ) (m : ℕ) : ℝ :=
  if b = 0 then 0
  else if b = -1 then (oddSum (2 * m) - 2 * oddSum m) / oddSum (2 * m)
  else if b = -2 then 0
  else if b = -3 then (7 * oddG m - 4 * oddG (2 * m) + oddG (3 * m)) / (oddG (3 * m) - 2 * oddG (2 * m) - oddG m)
  else ((m : ℝ) ^ 2 - 1) / (5 * (m : ℝ) ^ 2 + 1)

omit h in
theorem fpm_rho {m : ℕ} (hm : 0 < m) {t : ℝ} (ht : 0 < t) : 0 < t * (2 * oddSum m) ∧
    t * (8 * oddSum m - 2 * oddSum (2 * m)) < 4 * (t * (2 * oddSum m)) ∧
    (t * (2 * oddSum m) - t * (8 * oddSum m - 2 * oddSum (2 * m)) / 2) / (2 * (t * (2 * oddSum m)) - t * (8 * oddSum m - 2 * oddSum (2 * m)) / 2)
      = rhoK (-1) m := by
  have h1 := oddSum_one_le hm
  have h2 := oddSum_one_le (show 0 < 2 * m by omega)
  obtain ⟨g1, g2, g3⟩ := rho_of ht (g := 2 * oddSum m) (e := 8 * oddSum m - 2 * oddSum (2 * m)) (by linarith) (by linarith)
  refine ⟨g1, g2, ?_⟩
  rw [g3, rhoK, if_neg (by norm_num), if_pos rfl]
  congr 1 <;> ring

omit h in
theorem ffm_rho {m : ℕ} (hm : 0 < m) {t : ℝ} (ht : 0 < t) : 0 < t * (2 * oddG (2 * m) - 8 * oddG m) ∧
    t * (12 * oddG (2 * m) - 30 * oddG m - 2 * oddG (3 * m)) < 4 * (t * (2 * oddG (2 * m) - 8 * oddG m)) ∧
    (t * (2 * oddG (2 * m) - 8 * oddG m) - t * (12 * oddG (2 * m) - 30 * oddG m - 2 * oddG (3 * m)) / 2)
      / (2 * (t * (2 * oddG (2 * m) - 8 * oddG m)) - t * (12 * oddG (2 * m) - 30 * oddG m - 2 * oddG (3 * m)) / 2) = rhoK (-3) m := by
  obtain ⟨h1, h2, -, -⟩ := ffm_bounds hm
  obtain ⟨g1, g2, g3⟩ := rho_of ht (g := 2 * oddG (2 * m) - 8 * oddG m) (e := 12 * oddG (2 * m) - 30 * oddG m - 2 * oddG (3 * m))
    (by linarith) (by linarith)
  refine ⟨g1, g2, ?_⟩
  rw [g3, rhoK, if_neg (by norm_num), if_neg (by norm_num), if_neg (by norm_num), if_pos rfl]
  congr 1 <;> ring

theorem far_smul (hs : 0 < s2) {c m : ℕ} (hc : 0 < c) (hm : 0 < m) (r : ℕ) {q : ℝ} (hq : q ≠ 0) (R : ℝ) : ∃ L : ℕ, ∃ v, R ≤ v ∧
    ∀ ε > 0, Whp P (fun n ω => |(∑ i ∈ range n, d3 (fun j => q * Bl W c m r j ω) L i ^ 2) - n * v| ≤ ε * n) := by
  have hq2 : 0 < q ^ 2 := by positivity
  obtain ⟨L, v, hv, hL⟩ := bl_far h hs hc hm r (R / q ^ 2)
  refine ⟨L, q ^ 2 * v, by rwa [div_le_iff₀' hq2] at hv, fun ε hε => ?_⟩
  refine (hL (ε / q ^ 2) (by positivity)).mono (Eventually.of_forall fun n ω hω => ?_)
  have e : ∑ i ∈ range n, d3 (fun j => q * Bl W c m r j ω) L i ^ 2 - n * (q ^ 2 * v)
      = q ^ 2 * (∑ i ∈ range n, d3 (fun j => Bl W c m r j ω) L i ^ 2 - n * v) := by
    rw [mul_sub, mul_sum]
    congr 1
    · exact sum_congr rfl fun i _ => by simp only [d3]; ring
    · ring
  rw [e, abs_mul, abs_of_pos hq2]
  calc q ^ 2 * _ ≤ q ^ 2 * (ε / q ^ 2 * n) := mul_le_mul_of_nonneg_left hω hq2.le
    _ = ε * n := by field_simp

omit [IsProbabilityMeasure P] in
theorem window_normal' (r : ℕ) : NormalNoise P (fun k => W (k + r)) s2 := by
  have := window_normal h r
  simp only [add_comm r] at this
  exact this

/-- phase data -/
theorem kasdin_phase_ident {fit : List ℝ → ℕ → ℕ → ℝ} (hfit : IsLSFit fit) (hs : 0 < s2) {m : ℕ} (hm : 0 < m) {b : ℝ} (hb : KasdinType b)
    {κ : ℝ} (hκ : 0 < κ) :
    Identified P fit (idOrder b) κ (rhoK b m) (fun j ω => kasdinNoise b (fun k => W k ω) (j * m)) := by
  have hs' : (0 : ℝ) < s2 := hs
  have hpi := Real.pi_pos
  have ht : 0 < (s2 : ℝ) * (2 / Real.pi) := by positivity
  rcases hb with rfl | rfl | rfl | rfl | rfl
  · have := phase_ident h hfit hs hm .wpm hκ
    rw [show idOrder 0 = order .wpm by simp [idOrder, order], show rhoK 0 m = rhoPhase m .wpm by simp [rhoK, rhoPhase]]
    refine this.affine fun ω => ⟨0, 0, fun j => ?_⟩
    rw [kasdinNoise_white]
    simp [deci, noise]
  · obtain ⟨g1, g2, g3⟩ := fpm_rho hm ht
    have h1 := fpm_noisy h hm
    have h2 := bl_far h hs one_pos hm 0
    simp only [bl_fpm] at h1 h2
    have := ident1 hfit (E := fun j ω => kasdinNoise (-1) (fun k => W k ω) (j * m)) h1 g1 g2 h2 hκ
    rw [g3] at this
    rwa [show idOrder (-1) = 1 by norm_num [idOrder]]
  · have := phase_ident (window_normal' h 1) hfit hs hm .wfm hκ
    rw [show idOrder (-2) = order .wfm by norm_num [idOrder, order], show rhoK (-2) m = rhoPhase m .wfm by norm_num [rhoK, rhoPhase]]
    refine this.affine fun ω => ⟨kasdinNoise (-2) (fun k => W k ω) 0, 0, fun j => ?_⟩
    rw [kasdin_walk]
    simp [deci, noise]
  · obtain ⟨g1, g2, g3⟩ := ffm_rho hm ht
    have h1 := ffm_noisy h hm
    have h2 := bl_far h hs hm hm 1
    have e : (fun i ω => Bl W m m 1 (i + 1) ω - Bl W m m 1 i ω)
        = fun i ω => d2 (fun j => kasdinNoise (-3) (fun k => W k ω) (j * m)) 1 i := by
      funext i ω
      rw [bl_ffm, bl_ffm]
      simp only [d2, mul_one, show i + 1 + 1 = i + 2 from rfl]
      ring
    rw [e] at h1
    have h3 := den_of_points (P := P) (e := fun j ω => kasdinNoise (-3) (fun k => W k ω) (j * m)) (v := Bl W m m 1)
      (fun i ω => bl_ffm m i ω) h2
    have := ident2 hfit (E := fun j ω => kasdinNoise (-3) (fun k => W k ω) (j * m)) h1 g1 g2 h3 hκ
    rw [g3] at this
    rwa [show idOrder (-3) = 2 by norm_num [idOrder]]
  · have := phase_ident (window_normal' h 2) hfit hs hm .rwfm hκ
    rw [show idOrder (-4) = order .rwfm by norm_num [idOrder, order], show rhoK (-4) m = rhoPhase m .rwfm by norm_num [rhoK, rhoPhase]]
    refine this.affine fun ω => ?_
    obtain ⟨B, hB⟩ := kasdin_run (fun k => W k ω)
    refine ⟨kasdinNoise (-4) (fun k => W k ω) 0, B * m, fun j => ?_⟩
    rw [hB]
    simp only [deci, noise]
    push_cast
    ring

/-- frequency data -/
theorem kasdin_freq_ident {fit : List ℝ → ℕ → ℕ → ℝ} (hfit : IsLSFit fit) (hs : 0 < s2) {m : ℕ} (hm : 0 < m) {b : ℝ} (hb : KasdinType b)
    {κ : ℝ} (hκ : 0 < κ) :
    Identified P fit (idOrder b - 1) κ (if b = 0 then -1 else rhoK b m) (fun j ω =>
      (kasdinNoise b (fun k => W k ω) ((j + 1) * m) - kasdinNoise b (fun k => W k ω) (j * m)) / m) := by
  have hs' : (0 : ℝ) < s2 := hs
  have hm0 : (0 : ℝ) < m := by exact_mod_cast hm
  have hpi := Real.pi_pos
  have hmi : (m : ℝ)⁻¹ ≠ 0 := by positivity
  have ht : 0 < (m : ℝ)⁻¹ ^ 2 * (s2 * (2 / Real.pi)) := by positivity
  rcases hb with rfl | rfl | rfl | rfl | rfl
  · have := freq_ident h hfit hs hm .wpm hκ
    rw [show idOrder 0 - 1 = order .wpm - 1 by simp [idOrder, order], if_pos rfl]
    refine this.affine fun ω => ⟨0, 0, fun j => ?_⟩
    simp [deci, noise, kasdinNoise_white]
  · obtain ⟨g1, g2, g3⟩ := fpm_rho hm ht
    have h1 := (fpm_noisy h hm).smul hmi
    rw [← mul_assoc ((m : ℝ)⁻¹ ^ 2) (s2 * (2 / Real.pi)) (2 * oddSum m), ← mul_assoc ((m : ℝ)⁻¹ ^ 2) (s2 * (2 / Real.pi)) (8 * oddSum m - 2 * oddSum (2 * m))] at h1
    simp only [bl_fpm] at h1
    have := ident0 hfit h1 g1 g2 hκ
    rw [g3] at this
    rw [show idOrder (-1) - 1 = 0 by norm_num [idOrder], if_neg (by norm_num)]
    refine this.affine fun ω => ⟨0, 0, fun j => ?_⟩
    rw [div_eq_inv_mul]
    ring
  · have := freq_ident (window_normal' h 1) hfit hs hm .wfm hκ
    rw [show idOrder (-2) - 1 = order .wfm - 1 by norm_num [idOrder, order], if_neg (by norm_num),
      show rhoK (-2) m = rhoFreq m .wfm by norm_num [rhoK, rhoFreq]]
    refine this.affine fun ω => ⟨0, 0, fun j => ?_⟩
    rw [kasdin_walk _ ((j + 1) * m), kasdin_walk _ (j * m)]
    simp [deci, noise]
  · obtain ⟨g1, g2, g3⟩ := ffm_rho hm ht
    have h1 := (ffm_noisy h hm).smul hmi
    rw [← mul_assoc ((m : ℝ)⁻¹ ^ 2) (s2 * (2 / Real.pi)) (2 * oddG (2 * m) - 8 * oddG m), ← mul_assoc ((m : ℝ)⁻¹ ^ 2) (s2 * (2 / Real.pi)) (12 * oddG (2 * m) - 30 * oddG m - 2 * oddG (3 * m))] at h1
    have h2 := far_smul h hs hm hm 1 hmi
    have e : (fun i ω => (m : ℝ)⁻¹ * (Bl W m m 1 (i + 1) ω - Bl W m m 1 i ω))
        = fun i ω => (m : ℝ)⁻¹ * Bl W m m 1 (i + 1) ω - (m : ℝ)⁻¹ * Bl W m m 1 i ω := by
      funext i ω
      ring
    rw [e] at h1
    have := ident1 hfit (E := fun j ω => (m : ℝ)⁻¹ * Bl W m m 1 j ω) h1 g1 g2 h2 hκ
    rw [g3] at this
    rw [show idOrder (-3) - 1 = 1 by norm_num [idOrder], if_neg (by norm_num)]
    refine this.affine fun ω => ⟨0, 0, fun j => ?_⟩
    rw [bl_ffm, div_eq_inv_mul]
    ring
  · have := freq_ident (window_normal' h 2) hfit hs hm .rwfm hκ
    rw [show idOrder (-4) - 1 = order .rwfm - 1 by norm_num [idOrder, order], if_neg (by norm_num),
      show rhoK (-4) m = rhoFreq m .rwfm by norm_num [rhoK, rhoFreq]]
    refine this.affine fun ω => ?_
    obtain ⟨B, hB⟩ := kasdin_run (fun k => W k ω)
    refine ⟨B, 0, fun j => ?_⟩
    rw [hB ((j + 1) * m), hB (j * m)]
    simp only [deci, noise]
    push_cast
    field_simp
    ring

/-! ## The results -/

/-- the rounded value of twice the limit of `rho` -/
noncomputable def zK (b : ℝ) (m : ℕ) : ℤ :=
  if b = -1 then (if m ≤ 17 then -1 else -2) else if b = -3 then -1 else 0

omit h in
theorem rhoK_bounds {m : ℕ} (hm : 0 < m) {b : ℝ} (hb : KasdinType b) : |2 * rhoK b m - zK b m| < 1 / 2 ∧ rhoK b m ≤ 1 / 5 := by
  rcases hb with rfl | rfl | rfl | rfl | rfl
  · norm_num [rhoK, zK]
  · have h1 := oddSum_one_le hm
    have h2 := oddSum_one_le (show 0 < 2 * m by omega)
    have h3 := oddSum_mono (show m ≤ 2 * m by omega)
    have h4 := oddSum_add_le m m
    rw [← two_mul] at h4
    have h5 : (m : ℝ) / (2 * m + 1) < 1 / 2 := by
      rw [div_lt_div_iff₀ (by positivity) (by norm_num)]
      linarith
    obtain ⟨s1, s2⟩ := fpm_switch m
    have e : rhoK (-1) m = (oddSum (2 * m) - 2 * oddSum m) / oddSum (2 * m) := by norm_num [rhoK]
    have hO : 0 < oddSum (2 * m) := by linarith
    have l1 : rhoK (-1) m ≤ 0 := by
      rw [e]
      exact div_nonpos_of_nonpos_of_nonneg (by linarith) hO.le
    refine ⟨?_, by linarith⟩
    by_cases h17 : m ≤ 17
    · have := s1 hm h17
      rw [show zK (-1) m = -1 by simp [zK, h17], e, abs_lt]
      push_cast
      constructor
      · rw [lt_sub_iff_add_lt, ← mul_div_assoc, lt_div_iff₀ hO]
        linarith
      · rw [sub_lt_iff_lt_add, ← mul_div_assoc, div_lt_iff₀ hO]
        linarith
    · have := s2 (by omega)
      rw [show zK (-1) m = -2 by simp [zK, h17], e, abs_lt]
      push_cast
      constructor
      · rw [lt_sub_iff_add_lt, ← mul_div_assoc, lt_div_iff₀ hO]
        linarith
      · rw [sub_lt_iff_lt_add, ← mul_div_assoc, div_lt_iff₀ hO]
        linarith
  · norm_num [rhoK, zK]
  · obtain ⟨h1, h2, h3, h4⟩ := ffm_bounds hm
    have e : rhoK (-3) m = (7 * oddG m - 4 * oddG (2 * m) + oddG (3 * m)) / (oddG (3 * m) - 2 * oddG (2 * m) - oddG m) := by
      norm_num [rhoK]
    rw [show zK (-3) m = -1 by norm_num [zK], e, abs_lt]
    push_cast
    refine ⟨⟨?_, ?_⟩, ?_⟩
    · rw [lt_sub_iff_add_lt, ← mul_div_assoc, lt_div_iff₀ h2]
      linarith
    · rw [sub_lt_iff_lt_add, ← mul_div_assoc, div_lt_iff₀ h2]
      linarith
    · rw [div_le_iff₀ h2]
      linarith
  · obtain ⟨h1, h2⟩ := rho_bounds m hm
    rw [show rhoK (-4) m = ((m : ℝ) ^ 2 - 1) / (5 * (m : ℝ) ^ 2 + 1) by norm_num [rhoK], show zK (-4) m = 0 by norm_num [zK], abs_lt]
    push_cast
    refine ⟨⟨by linarith, by linarith⟩, h2⟩

omit h in
/-- exponents and limits in terms of `rho` -/
theorem id_values {m : ℕ} (hm : 0 < m) {b : ℝ} (hb : KasdinType b) :
    idAlpha b m = -zK b m - 2 * idOrder b + 2 ∧ idLimit b m = -2 * (rhoK b m + idOrder b) + 2 ∧
    idAlpha b m = -(if b = 0 then -2 else zK b m) - 2 * (idOrder b - 1 : ℕ) ∧
    idLimit b m = -2 * ((if b = 0 then -1 else rhoK b m) + (idOrder b - 1 : ℕ)) := by
  rcases hb with rfl | rfl | rfl | rfl | rfl
  · norm_num [idAlpha, zK, idOrder, idLimit, rhoK]
  · have h2 : oddSum (2 * m) ≠ 0 := by
      have := oddSum_one_le (show 0 < 2 * m by omega)
      linarith
    have e : 4 * oddSum m / oddSum (2 * m) - 2 = -2 * ((oddSum (2 * m) - 2 * oddSum m) / oddSum (2 * m)) := by
      field_simp
      ring
    by_cases h17 : m ≤ 17 <;> norm_num [idAlpha, zK, idOrder, idLimit, rhoK, h17, e] <;> ring
  · norm_num [idAlpha, zK, idOrder, idLimit, rhoK]
  · norm_num [idAlpha, zK, idOrder, idLimit, rhoK]
    constructor <;> ring
  · norm_num [idAlpha, zK, idOrder, idLimit, rhoK]
    constructor <;> ring

omit h in
theorem id_const {m : ℕ} (hm : 0 < m) {b : ℝ} (hb : KasdinType b) {ε : ℝ} (hε : 0 < ε) :
    ∃ κ, 0 < κ ∧ κ ≤ 1 / 20 ∧ 2 * κ ≤ ε ∧ |2 * rhoK b m - zK b m| + 2 * κ ≤ 1 / 2 := by
  obtain ⟨h1, -⟩ := rhoK_bounds hm hb
  refine ⟨min (1 / 20) (min (ε / 2) ((1 / 2 - |2 * rhoK b m - zK b m|) / 2)),
    lt_min (by norm_num) (lt_min (by linarith) (by linarith)), min_le_left _ _, ?_, ?_⟩
  · have := (min_le_right (1 / 20) (min (ε / 2) ((1 / 2 - |2 * rhoK b m - zK b m|) / 2))).trans (min_le_left _ _)
    linarith
  · have := (min_le_right (1 / 20) (min (ε / 2) ((1 / 2 - |2 * rhoK b m - zK b m|) / 2))).trans (min_le_right _ _)
    linarith

/-- C85: phase data.  Noise of the five types made by Kasdin's filter from normal numbers, with any quadratic trend -/
theorem kasdin_id_phase {fit : List ℝ → ℕ → ℕ → ℝ} (hfit : IsLSFit fit) (hs : 0 < s2) {b : ℝ} (hb : KasdinType b) (a₀ a₁ a₂ : ℝ)
    {af : ℕ} (haf : 0 < af) {dmax : ℤ} (hd : idOrder b ≤ dmax) {ε δ : ℝ} (hε : 0 < ε) (hδ : 0 < δ) :
    ∀ᶠ N in atTop, P {ω | ¬ ∃ α ρ, autocorr_noise_id fit
        (tab N (fun i => a₀ + a₁ * i + a₂ * (i : ℝ) ^ 2 + kasdinNoise b (fun j => W j ω) i)) af "phase" 0 dmax
          = .ok (idAlpha b af, α, idOrder b, ρ) ∧ |α - idLimit b af| < ε} ≤ ENNReal.ofReal δ := by
  obtain ⟨κ, k0, k1, k2, k3⟩ := id_const haf hb hε
  obtain ⟨v1, v2, -, -⟩ := id_values haf hb
  have hu : Tendsto (fun N : ℕ => (N + af - 1) / af) atTop atTop :=
    tendsto_atTop_atTop.2 fun q => ⟨q * af, fun N hN => (Nat.le_div_iff_mul_le haf).2 (by omega)⟩
  have h1 := ((kasdin_phase_ident h hfit hs haf hb k0).comp hu).mono (F := fun N ω => ∃ α ρ, autocorr_noise_id fit
        (tab N (fun i => a₀ + a₁ * i + a₂ * (i : ℝ) ^ 2 + kasdinNoise b (fun j => W j ω) i)) af "phase" 0 dmax
          = .ok (idAlpha b af, α, idOrder b, ρ) ∧ |α - idLimit b af| < ε) ?_
  · exact h1 δ hδ
  filter_upwards [hu.eventually (eventually_ge_atTop 30), hu.eventually (eventually_gt_atTop dmax.toNat)] with N hN hN2 ω hω
  obtain ⟨x, g1, g2, g3⟩ := hω 2 a₀ (a₁ * af) (a₂ * (af : ℝ) ^ 2) (Or.inl rfl)
  have hx : noise_id_prepare fit (tab N (fun i => a₀ + a₁ * i + a₂ * (i : ℝ) ^ 2 + kasdinNoise b (fun j => W j ω) i)) af "phase"
      = .ok x := by
    rw [prepare_phase_tab fit N _ haf, ← g1]
    congr 1
    refine tab_congr fun j _ => ?_
    push_cast
    ring
  obtain ⟨α, ρ, e1, e2⟩ := ident_det fit _ x af "phase" hx (by omega) (by omega) hd g3 k1 k3 (rhoK_bounds haf hb).2
  rw [if_pos rfl] at e1 e2
  refine ⟨α, ρ, by rw [e1, v1], ?_⟩
  rw [v2]
  exact e2.trans_le k2

/-- C85: frequency data, with any linear trend -/
theorem kasdin_id_freq {fit : List ℝ → ℕ → ℕ → ℝ} (hfit : IsLSFit fit) (hs : 0 < s2) {b : ℝ} (hb : KasdinType b) (a₀ a₁ : ℝ)
    {af : ℕ} (haf : 0 < af) {dmax : ℤ} (hd : (idOrder b - 1 : ℕ) ≤ dmax) {ε δ : ℝ} (hε : 0 < ε) (hδ : 0 < δ) :
    ∀ᶠ N in atTop, P {ω | ¬ ∃ α ρ, autocorr_noise_id fit
        (tab N (fun i => a₀ + a₁ * i + (kasdinNoise b (fun j => W j ω) (i + 1) - kasdinNoise b (fun j => W j ω) i))) af "freq" 0 dmax
          = .ok (idAlpha b af, α, (idOrder b - 1 : ℕ), ρ) ∧ |α - idLimit b af| < ε} ≤ ENNReal.ofReal δ := by
  have haf0 : (0 : ℝ) < af := by exact_mod_cast haf
  obtain ⟨κ, k0, k1, k2, k3⟩ := id_const haf hb hε
  obtain ⟨-, -, v1, v2⟩ := id_values haf hb
  have k4 : |2 * (if b = 0 then -1 else rhoK b af) - ((if b = 0 then -2 else zK b af : ℤ) : ℝ)| + 2 * κ ≤ 1 / 2 := by
    split_ifs
    · norm_num
      linarith
    · exact k3
  have k5 : (if b = 0 then -1 else rhoK b af) ≤ 1 / 5 := by
    split_ifs
    · norm_num
    · exact (rhoK_bounds haf hb).2
  have hu : Tendsto (fun N : ℕ => N / af) atTop atTop :=
    tendsto_atTop_atTop.2 fun q => ⟨q * af, fun N hN => (Nat.le_div_iff_mul_le haf).2 (by omega)⟩
  have h1 := ((kasdin_freq_ident h hfit hs haf hb k0).comp hu).mono (F := fun N ω => ∃ α ρ, autocorr_noise_id fit
        (tab N (fun i => a₀ + a₁ * i + (kasdinNoise b (fun j => W j ω) (i + 1) - kasdinNoise b (fun j => W j ω) i))) af "freq" 0 dmax
          = .ok (idAlpha b af, α, (idOrder b - 1 : ℕ), ρ) ∧ |α - idLimit b af| < ε) ?_
  · exact h1 δ hδ
  filter_upwards [hu.eventually (eventually_ge_atTop 30), hu.eventually (eventually_gt_atTop dmax.toNat)] with N hN hN2 ω hω
  obtain ⟨x, g1, g2, g3⟩ := hω 1 (a₀ + a₁ * (∑ u ∈ range af, (u : ℝ)) / af) (a₁ * af) 0 (Or.inr ⟨rfl, rfl⟩)
  have hx : noise_id_prepare fit (tab N (fun i => a₀ + a₁ * i
      + (kasdinNoise b (fun j => W j ω) (i + 1) - kasdinNoise b (fun j => W j ω) i))) af "freq" = .ok x := by
    rw [prepare_freq_tab fit N _ haf, ← g1]
    congr 1
    refine tab_congr fun j _ => ?_
    have e1 := sum_range_sub (fun u => kasdinNoise b (fun j => W j ω) (j * af + u)) af
    simp only [add_zero, ← add_assoc] at e1
    rw [sum_add_distrib, e1, add_mul, one_mul]
    have e2 : ∑ u ∈ range af, (a₀ + a₁ * ((j * af + u : ℕ) : ℝ)) = af * (a₀ + a₁ * (j * af)) + a₁ * ∑ u ∈ range af, (u : ℝ) := by
      rw [mul_sum]
      have : ∀ u ∈ range af, a₀ + a₁ * ((j * af + u : ℕ) : ℝ) = (a₀ + a₁ * (j * af)) + a₁ * u := fun u _ => by push_cast; ring
      rw [sum_congr rfl this, sum_add_distrib, sum_const, card_range, nsmul_eq_mul]
    rw [e2]
    field_simp
    ring
  obtain ⟨α, ρ, e1, e2⟩ := ident_det fit _ x af "freq" hx (by omega) (by omega) hd g3 k1 k4 k5
  rw [if_neg (show ¬ "freq" = "phase" by decide), add_zero] at e1 e2
  refine ⟨α, ρ, by rw [e1, v1], ?_⟩
  rw [v2]
  exact e2.trans_le k2

omit [IsProbabilityMeasure P] in
theorem normal_smul (r : ℝ) : NormalNoise P (fun i ω => r * W i ω) (NNReal.mk (r ^ 2) (sq_nonneg r) * s2) where
  indep := h.indep.comp (fun _ x => r * x) (fun _ => by fun_prop)
  law := fun i => by simpa using gaussianReal_const_mul (h.law i) r

end series

/-- C85: the noise that `generateNoise` makes from standard normal numbers, given to `autocorr_noise_id` as phase data and,
through `phase2frequency`, as frequency data -/
theorem generateNoise_id {Ω : Type} [MeasurableSpace Ω] {P : Measure Ω} [IsProbabilityMeasure P] {Z : ℕ → Ω → ℝ}
    (hZ : NormalNoise P Z 1) (s : Noise) (hb : KasdinType s.b) (hq : 0 < s.qd)
    {fit : List ℝ → ℕ → ℕ → ℝ} (hfit : IsLSFit fit) {af : ℕ} (haf : 0 < af) {dmax : ℤ} (hd : idOrder s.b ≤ dmax) {rate : ℝ} (hr : 0 < rate) :
    ∃ X : ℕ → Ω → List ℝ,
      (∀ N > 0, ∀ ω, { s with nr := N }.generateNoise (tab N (fun i => Z i ω)) = .ok { s with nr := N, time_series := X N ω }) ∧
      ∀ ε > 0, ∀ δ > 0, ∀ᶠ N in atTop,
        P {ω | ¬ ∃ α ρ, autocorr_noise_id fit (X N ω) af "phase" 0 dmax = .ok (idAlpha s.b af, α, idOrder s.b, ρ) ∧
          |α - idLimit s.b af| < ε} ≤ ENNReal.ofReal δ ∧
        P {ω | ¬ ∃ α ρ, autocorr_noise_id fit (phase2frequency (X N ω) rate) af "freq" 0 dmax
            = .ok (idAlpha s.b af, α, (idOrder s.b - 1 : ℕ), ρ) ∧
          |α - idLimit s.b af| < ε} ≤ ENNReal.ofReal δ := by
  refine ⟨fun N ω => tab N (kasdinNoise s.b (fun i => √s.qd * Z i ω)),
    fun N hN ω => generateNoise_random { s with nr := N } Z hN ω, fun ε hε δ hδ => ?_⟩
  have h0 : √s.qd ≠ 0 := (Real.sqrt_pos.2 hq).ne'
  have h1 : rate * √s.qd ≠ 0 := mul_ne_zero hr.ne' h0
  have p : ∀ {r : ℝ}, r ≠ 0 → 0 < NNReal.mk (r ^ 2) (sq_nonneg r) * 1 := fun {r} hr => by
    rw [mul_one]
    exact (show (0 : ℝ) < r ^ 2 by positivity)
  have k1 := kasdin_id_phase (normal_smul hZ (√s.qd)) hfit (p h0) hb 0 0 0 haf hd hε hδ
  have k2 := kasdin_id_freq (normal_smul hZ (rate * √s.qd)) hfit (p h1) hb 0 0 haf (dmax := dmax) (by omega) hε hδ
  filter_upwards [k1, (tendsto_sub_atTop 1).eventually k2, eventually_ge_atTop 1] with N h2 h3 hN
  refine ⟨?_, ?_⟩
  · simpa using h2
  · have e : ∀ ω, phase2frequency (tab N (kasdinNoise s.b (fun i => √s.qd * Z i ω))) rate = tab (N - 1) (fun i => 0 + 0 * (i : ℝ)
        + (kasdinNoise s.b (fun j => rate * √s.qd * Z j ω) (i + 1) - kasdinNoise s.b (fun j => rate * √s.qd * Z j ω) i)) := fun ω => by
      unfold phase2frequency
      rw [npDiff_tab, vscale_tab]
      refine tab_congr fun i _ => ?_
      have e2 : ∀ n, kasdinNoise s.b (fun j => rate * √s.qd * Z j ω) n = rate * kasdinNoise s.b (fun j => √s.qd * Z j ω) n := fun n => by
        rw [← kasdinNoise_smul]
        simp only [mul_assoc]
      rw [e2, e2]
      ring
    simp only [e]
    exact h3

/-- C85: the exponent is the one of the noise, unless the noise is flicker phase noise and the averaging factor is 18 or more -/
theorem id_right {b : ℝ} (hb : KasdinType b) (m : ℕ) : (idAlpha b m : ℝ) = b + 2 ↔ ¬(b = -1 ∧ 18 ≤ m) := by
  rcases hb with rfl | rfl | rfl | rfl | rfl
  · norm_num [idAlpha]
  · by_cases h : m ≤ 17
    · norm_num [idAlpha, h]
      omega
    · norm_num [idAlpha, h]
      omega
  · norm_num [idAlpha]
  · norm_num [idAlpha]
  · norm_num [idAlpha]

/-- C85: with flicker phase noise and an averaging factor of 18 or more, the confidence interval is therefore the one of white
phase noise -/
theorem ci_flicker_wrong {Ω : Type} [MeasurableSpace Ω] {P : Measure Ω} [IsProbabilityMeasure P] {W : ℕ → Ω → ℝ} {s2 : ℝ≥0}
    (h : NormalNoise P W s2) (hs : 0 < s2) {fit : List ℝ → ℕ → ℕ → ℝ} (hfit : IsLSFit fit)
    {af : ℕ} (haf : 18 ≤ af) (ppf : ℝ → ℝ → NV) (dev : ℕ → Ω → ℝ) (ci : ℝ) {dev_type : String} {d : ℕ} {ov md : Bool}
    (hf : ciFlags dev_type = some (d, ov, md)) {δ : ℝ} (hδ : 0 < δ) :
    ∀ᶠ N in atTop, P {ω | ¬ ∀ edf, edf_greenhall 2 d af N ov md = .ok (some edf) →
      confidence_interval_noiseID ppf fit (tab N (kasdinNoise (-1) (fun j => W j ω))) (dev N ω) af
        dev_type "phase" ci = .ok (confidence_interval ppf (dev N ω) edf ci)} ≤ ENNReal.ofReal δ := by
  have hd : ((idOrder (-1) : ℕ) : ℤ) ≤ d := by
    have h2 : 2 ≤ d := by
      unfold ciFlags at hf
      split_ifs at hf <;> simp only [Option.some.injEq, Prod.mk.injEq] at hf <;> omega
    rw [show idOrder (-1) = 1 by norm_num [idOrder]]
    omega
  have h1 := kasdin_id_phase h hfit hs (b := -1) (by norm_num [KasdinType]) 0 0 0 (af := af) (by omega) hd one_pos hδ
  filter_upwards [h1] with N hN
  refine (measure_mono fun ω hω => ?_).trans hN
  simp only [Set.mem_ofPred_eq] at hω ⊢
  rintro ⟨α, ρ, e1, -⟩
  refine hω fun edf he => ?_
  rw [show idAlpha (-1) af = 2 by simp [idAlpha, show ¬ af ≤ 17 by omega]] at e1
  simp only [zero_mul, zero_add] at e1
  exact confidence_interval_noiseID_eq ppf fit _ _ _ _ _ _ d ov md hf _ _ e1 edf (by rw [tab_length]; exact he)

/-- flicker frequency noise of a `Noise` object, averaging factor 4 -/
example {fit : List ℝ → ℕ → ℕ → ℝ} (hfit : IsLSFit fit) :=
  generateNoise_id normal_gauss (Noise.init 1000 2 (-3)) (by norm_num [Noise.init, KasdinType]) (by norm_num [Noise.init]) hfit
    (af := 4) (by norm_num) (dmax := 2) (by norm_num [Noise.init, idOrder]) (rate := 10) (by norm_num)

example : ∃ fit, IsLSFit fit := exists_isLSFit

/-- flicker phase noise without averaging: the estimate is 1 -/
example {fit : List ℝ → ℕ → ℕ → ℝ} (hfit : IsLSFit fit) :
    ∀ᶠ N in atTop, gaussNoise {ω | ¬ ∃ α ρ, autocorr_noise_id fit
        (tab N (fun i => 1 + 2 * i + 3 * (i : ℝ) ^ 2 + kasdinNoise (-1) (fun j => ω j) i)) 1 "phase" 0 2
          = .ok (1, α, 1, ρ) ∧ |α - 1| < 0.01} ≤ ENNReal.ofReal 0.001 := by
  have := kasdin_id_phase normal_gauss hfit one_pos (b := -1) (by norm_num [KasdinType]) 1 2 3 (af := 1) (by norm_num) (dmax := 2)
    (by norm_num [idOrder]) (ε := 0.01) (δ := 0.001) (by norm_num) (by norm_num)
  have e1 : idAlpha (-1) 1 = 1 := by norm_num [idAlpha]
  have e2 : idLimit (-1) 1 = 1 := by norm_num [idLimit, oddSum, sum_range_succ]
  have e3 : idOrder (-1) = 1 := by norm_num [idOrder]
  simpa only [e1, e2, e3, Nat.cast_one] using this

/-- the same noise with averaging factor 100 is taken for white phase noise -/
example {fit : List ℝ → ℕ → ℕ → ℝ} (hfit : IsLSFit fit) :
    ∀ᶠ N in atTop, gaussNoise {ω | ¬ ∃ α ρ, autocorr_noise_id fit
        (tab N (fun i => 1 + 2 * i + (kasdinNoise (-1) (fun j => ω j) (i + 1) - kasdinNoise (-1) (fun j => ω j) i))) 100 "freq" 0 2
          = .ok (2, α, 0, ρ) ∧ |α - idLimit (-1) 100| < 0.01} ≤ ENNReal.ofReal 0.001 := by
  have := kasdin_id_freq normal_gauss hfit one_pos (b := -1) (by norm_num [KasdinType]) 1 2 (af := 100) (by norm_num) (dmax := 2)
    (by norm_num [idOrder]) (ε := 0.01) (δ := 0.001) (by norm_num) (by norm_num)
  have e1 : idAlpha (-1) 100 = 2 := by norm_num [idAlpha]
  have e3 : idOrder (-1) - 1 = 0 := by norm_num [idOrder]
  simpa only [e1, e3, Nat.cast_zero] using this

example {fit : List ℝ → ℕ → ℕ → ℝ} (hfit : IsLSFit fit) := ci_flicker_wrong normal_gauss one_pos hfit (af := 20) (by norm_num) (dev_type := "oadev") (d := 2) (ov := true) (md := false)
  (fun _ _ => none) (fun _ => 1) 0.9 (by decide) (δ := 0.01) (by norm_num)

end AT
