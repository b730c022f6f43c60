import Verif.Props.WhiteMean
import Verif.Props.Kasdin
import Verif.Props.KasdinDev
import Verif.Props.KasdinInt
import Mathlib.Analysis.Complex.ExponentialBounds
import Mathlib.Analysis.Real.Pi.Bounds

/-!
# C71: the simulated power law noise has the deviation that the class predicts
-/

namespace AT

open Spec Finset MeasureTheory ProbabilityTheory

variable {Ω : Type} [MeasurableSpace Ω] {P : Measure Ω}

/-! ## Differences of the generated series -/

/-- differencing the impulse response raises the exponent by 2 -/
theorem kasdinH_diff (b : ℝ) (k : ℕ) : kasdinH b (k + 1) - kasdinH b k = kasdinH (b + 2) (k + 1) := by
  have h1 : kasdinH b (k + 1) = kasdinH b k * (((k : ℝ) - b / 2) / (k + 1)) := by
    unfold kasdinH; rw [prod_range_succ]
  have h2 : ∀ k : ℕ, kasdinH (b + 2) (k + 1) = kasdinH b k * ((-1 - b / 2) / (k + 1)) := by
    intro k
    induction k with
    | zero => simp [kasdinH]; ring
    | succ k ih =>
      have : kasdinH (b + 2) (k + 1 + 1) = kasdinH (b + 2) (k + 1) * ((((k + 1 : ℕ) : ℝ) - (b + 2) / 2) / ((k + 1 : ℕ) + 1)) := by
        unfold kasdinH; rw [prod_range_succ]
      have h1 : kasdinH b (k + 1) = kasdinH b k * (((k : ℝ) - b / 2) / (k + 1)) := by
        unfold kasdinH; rw [prod_range_succ]
      rw [this, ih, h1]
      have : (k : ℝ) + 1 ≠ 0 := by positivity
      have : (k : ℝ) + 1 + 1 ≠ 0 := by positivity
      push_cast
      field_simp
      ring
  rw [h1, h2]
  have : (k : ℝ) + 1 ≠ 0 := by positivity
  field_simp
  ring

/-- an increment of noise of type `b` is noise of type `b + 2` -/
theorem kasdinNoise_diff (b : ℝ) (w : ℕ → ℝ) (n : ℕ) :
    kasdinNoise b w (n + 1) - kasdinNoise b w n = kasdinNoise (b + 2) w (n + 1) := by
  unfold kasdinNoise
  rw [sum_range_succ' _ (n + 1), sum_range_succ' (fun k => kasdinH (b + 2) k * w (n + 1 - k)) (n + 1)]
  have e : ∀ b : ℝ, kasdinH b 0 = 1 := fun b => by simp [kasdinH]
  rw [e, e, add_sub_right_comm, ← sum_sub_distrib]
  congr 1
  refine sum_congr rfl (fun k _ => ?_)
  rw [← kasdinH_diff, show n + 1 - (k + 1) = n - k by omega]
  ring

theorem sum_increments {x u : ℕ → ℝ} (hx : ∀ i, x (i + 1) - x i = u i) (i k : ℕ) :
    x (i + k) = x i + ∑ s ∈ range k, u (i + s) := by
  induction k with
  | zero => simp
  | succ k ih => rw [sum_range_succ, ← add_assoc i k 1, ← hx (i + k), ← add_assoc (x i), ← ih]; ring

/-! ## Noise that is white after two differences -/

theorem sum_parts {v w : ℕ → ℝ} (hv : ∀ i k, v (i + k) = v i + ∑ s ∈ range k, w (i + s)) (a : ℕ → ℝ)
    (i m : ℕ) : ∑ k ∈ range m, a k * v (i + k) = (∑ k ∈ range m, a k) * v i
      + ∑ s ∈ range m, (∑ k ∈ range m, a k - ∑ k ∈ range (s + 1), a k) * w (i + s) := by
  induction m with
  | zero => simp
  | succ m ih =>
    rw [sum_range_succ, ih, hv i m, sum_range_succ a m, sum_range_succ _ m, sum_range_succ a m, sub_self, zero_mul, add_zero]
    have : ∑ s ∈ range m, (∑ k ∈ range m, a k + a m - ∑ k ∈ range (s + 1), a k) * w (i + s)
        = ∑ s ∈ range m, (∑ k ∈ range m, a k - ∑ k ∈ range (s + 1), a k) * w (i + s)
          + a m * ∑ s ∈ range m, w (i + s) := by
      rw [mul_sum, ← sum_add_distrib]
      exact sum_congr rfl (fun s _ => by ring)
    rw [this]; ring

/-- triangular weights -/
noncomputable def triWeight (m b k : ℕ) : ℝ := if b = 0 then k + 1 else m - 1 - k

section rw

variable {x v w : ℕ → ℝ} (hx : ∀ i k, x (i + k) = x i + ∑ s ∈ range k, v (i + s))
  (hv : ∀ i k, v (i + k) = v i + ∑ s ∈ range k, w (i + s))

include hx hv

theorem d2_rw (m i : ℕ) :
    d2 x m i = ∑ b ∈ range 2, ∑ k ∈ range m, triWeight m b k * w (i + b * m + k) := by
  rw [d2_step hx]
  simp only [sum_range_succ, sum_range_zero, ← mul_sum, triWeight]
  simp only [zero_mul, one_mul, if_true, one_ne_zero, if_false, add_zero, zero_add]
  rw [block_step hv, block_step hv, hv i m]
  have : ∑ s ∈ range m, ((s : ℝ) + 1) * w (i + s) = m * ∑ s ∈ range m, w (i + s)
      - ∑ s ∈ range m, ((m : ℝ) - 1 - s) * w (i + s) := by
    rw [mul_sum, ← sum_sub_distrib]
    exact sum_congr rfl (fun s _ => by ring)
  rw [this]; ring

theorem d3_rw (m i : ℕ) :
    d3 x m i = ∑ b ∈ range 3, ∑ k ∈ range m, mdevWeight m b k * w (i + b * m + k) := by
  have e : d3 x m i = d2 x m (i + m) - d2 x m i := by
    unfold d3 d2
    rw [show i + m + 2 * m = i + 3 * m by ring, show i + m + m = i + 2 * m by ring]
    ring
  rw [e, d2_rw hx hv, d2_rw hx hv]
  simp only [sum_range_succ, sum_range_zero, triWeight, mdevWeight]
  simp only [zero_mul, one_mul, if_true, one_ne_zero, OfNat.ofNat_ne_zero, OfNat.ofNat_ne_one, if_false,
    add_zero, zero_add]
  rw [show i + m + m = i + 2 * m by ring]
  have h0 : ∑ k ∈ range m, -((k : ℝ) + 1) * w (i + k) = - ∑ k ∈ range m, ((k : ℝ) + 1) * w (i + k) := by
    rw [← sum_neg_distrib]; exact sum_congr rfl (fun s _ => by ring)
  have h1 : ∑ k ∈ range m, (2 * (k : ℝ) + 2 - m) * w (i + m + k)
      = ∑ k ∈ range m, ((k : ℝ) + 1) * w (i + m + k) - ∑ k ∈ range m, ((m : ℝ) - 1 - k) * w (i + m + k) := by
    rw [← sum_sub_distrib]; exact sum_congr rfl (fun s _ => by ring)
  rw [h0, h1]; ring

end rw

/-- weights of the second differences in a term of the modified Allan variance -/
noncomputable def quadWeight (m b k : ℕ) : ℝ :=
  if b = 0 then (k + 1) * (k + 2) / 2
  else if b = 1 then m * (m + 1) / 2 + (k + 1) * (m - k - 2) else (m - 1 - k) * (m - 2 - k) / 2

theorem sum_mdevWeight (m b n : ℕ) : ∑ k ∈ range n, mdevWeight m b k =
    if b = 0 then -(n * (n + 1) / 2 : ℝ) else if b = 1 then (n : ℝ) * (n + 1 - m) else n * (2 * m - 1 - n) / 2 := by
  induction n with
  | zero => simp
  | succ n ih =>
    rw [sum_range_succ, ih]
    unfold mdevWeight
    split_ifs <;> push_cast <;> ring

theorem mdev_rw {x v w : ℕ → ℝ} (hx : ∀ i k, x (i + k) = x i + ∑ s ∈ range k, v (i + s))
    (hv : ∀ i k, v (i + k) = v i + ∑ s ∈ range k, w (i + s)) (m j : ℕ) :
    ∑ i ∈ range m, d2 x m (j + i) =
      ∑ b ∈ range 3, ∑ k ∈ range m, quadWeight m b k * w (j + b * m + k) := by
  rw [mdev_step hx]
  simp only [sum_range_succ, sum_range_zero]
  rw [sum_parts hv, sum_parts hv, sum_parts hv]
  simp only [sum_mdevWeight, quadWeight]
  simp only [zero_mul, one_mul, if_true, one_ne_zero, OfNat.ofNat_ne_zero, OfNat.ofNat_ne_one, if_false,
    add_zero, zero_add]
  have e : v (j + 2 * m) = v (j + m) + ∑ s ∈ range m, w (j + m + s) := by
    rw [show j + 2 * m = j + m + m by ring, hv (j + m) m]
  rw [e, hv j m]
  have h0 : ∑ k ∈ range m, ((k : ℝ) + 1) * (k + 2) / 2 * w (j + k)
      = ∑ s ∈ range m, (-((m : ℝ) * (m + 1) / 2) - -(((s + 1 : ℕ) : ℝ) * ((s + 1 : ℕ) + 1) / 2)) * w (j + s)
        + (m * (m + 1) / 2) * ∑ s ∈ range m, w (j + s) := by
    rw [mul_sum, ← sum_add_distrib]
    exact sum_congr rfl (fun s _ => by push_cast; ring)
  have h1 : ∑ k ∈ range m, ((m : ℝ) * (m + 1) / 2 + (k + 1) * (m - k - 2)) * w (j + m + k)
      = ∑ s ∈ range m, ((m : ℝ) * (m + 1 - m) - ((s + 1 : ℕ) : ℝ) * ((s + 1 : ℕ) + 1 - m)) * w (j + m + s)
        + (m * (m - 1) / 2) * ∑ s ∈ range m, w (j + m + s) := by
    rw [mul_sum, ← sum_add_distrib]
    exact sum_congr rfl (fun s _ => by push_cast; ring)
  have h2 : ∑ k ∈ range m, ((m : ℝ) - 1 - k) * (m - 2 - k) / 2 * w (j + 2 * m + k)
      = ∑ s ∈ range m, ((m : ℝ) * (2 * m - 1 - m) / 2 - ((s + 1 : ℕ) : ℝ) * (2 * m - 1 - (s + 1 : ℕ)) / 2)
        * w (j + 2 * m + s) :=
    sum_congr rfl (fun s _ => by push_cast; ring)
  rw [h0, h1, h2]; ring

theorem triWeight_sq (m : ℕ) :
    ∑ b ∈ range 2, ∑ k ∈ range m, triWeight m b k ^ 2 = (m : ℝ) * (2 * m ^ 2 + 1) / 3 := by
  simp only [sum_range_succ, sum_range_zero, triWeight]
  simp only [if_true, one_ne_zero, if_false, zero_add]
  rw [← sum_add_distrib]
  have h : ∀ (a : ℝ) (n : ℕ), ∑ k ∈ range n, (((k : ℝ) + 1) ^ 2 + (a - 1 - k) ^ 2)
      = (n : ℝ) * (n + 1) * (2 * n + 1) / 6 + (n * (a - 1) ^ 2 - (a - 1) * n * (n - 1) + n * (n - 1) * (2 * n - 1) / 6) := by
    intro a n
    induction n with
    | zero => simp
    | succ n ih => rw [sum_range_succ, ih]; push_cast; ring
  rw [h]; ring

theorem quadWeight_sq (m : ℕ) : ∑ b ∈ range 3, ∑ k ∈ range m, quadWeight m b k ^ 2
    = (m : ℝ) * (11 * m ^ 4 + 5 * m ^ 2 + 4) / 20 := by
  have h1 : ∀ n : ℕ, ∑ k ∈ range n, (k : ℝ) = n * (n - 1) / 2 := by
    intro n; induction n with
    | zero => simp
    | succ n ih => rw [sum_range_succ, ih]; push_cast; ring
  have h2 : ∀ n : ℕ, ∑ k ∈ range n, (k : ℝ) ^ 2 = n * (n - 1) * (2 * n - 1) / 6 := by
    intro n; induction n with
    | zero => simp
    | succ n ih => rw [sum_range_succ, ih]; push_cast; ring
  have h3 : ∀ n : ℕ, ∑ k ∈ range n, (k : ℝ) ^ 3 = (n * (n - 1) / 2) ^ 2 := by
    intro n; induction n with
    | zero => simp
    | succ n ih => rw [sum_range_succ, ih]; push_cast; ring
  have h4 : ∀ n : ℕ, ∑ k ∈ range n, (k : ℝ) ^ 4 = n * (n - 1) * (2 * n - 1) * (3 * n ^ 2 - 3 * n - 1) / 30 := by
    intro n; induction n with
    | zero => simp
    | succ n ih => rw [sum_range_succ, ih]; push_cast; ring
  have hs : ∀ c0 c1 c2 c3 c4 : ℝ, ∑ k ∈ range m, (c0 + c1 * k + c2 * (k : ℝ) ^ 2 + c3 * (k : ℝ) ^ 3 + c4 * (k : ℝ) ^ 4)
      = c0 * m + c1 * (m * (m - 1) / 2) + c2 * (m * (m - 1) * (2 * m - 1) / 6) + c3 * (m * (m - 1) / 2) ^ 2
        + c4 * (m * (m - 1) * (2 * m - 1) * (3 * m ^ 2 - 3 * m - 1) / 30) := by
    intro c0 c1 c2 c3 c4
    simp only [sum_add_distrib, ← mul_sum, h1, h2, h3, h4, sum_const, card_range, nsmul_eq_mul]
    ring
  simp only [sum_range_succ, sum_range_zero, quadWeight]
  simp only [if_true, one_ne_zero, OfNat.ofNat_ne_zero, OfNat.ofNat_ne_one, if_false, zero_add]
  rw [← sum_add_distrib, ← sum_add_distrib]
  set M : ℝ := (m : ℝ) with hM
  have e : ∀ k ∈ range m, (((k : ℝ) + 1) * (k + 2) / 2) ^ 2 + (M * (M + 1) / 2 + (k + 1) * (M - k - 2)) ^ 2
      + ((M - 1 - k) * (M - 2 - k) / 2) ^ 2
      = (1 + (M * (M + 1) / 2 + M - 2) ^ 2 + ((M - 1) * (M - 2) / 2) ^ 2)
        + (3 + 2 * (M * (M + 1) / 2 + M - 2) * (M - 3) - (M - 1) * (M - 2) * (2 * M - 3) / 2) * k
        + (13 / 4 + (M - 3) ^ 2 - 2 * (M * (M + 1) / 2 + M - 2) + (2 * M - 3) ^ 2 / 4 + (M - 1) * (M - 2) / 2) * (k : ℝ) ^ 2
        + (3 / 2 - 2 * (M - 3) - (2 * M - 3) / 2) * (k : ℝ) ^ 3 + (3 / 2) * (k : ℝ) ^ 4 := by
    intro k _; ring
  rw [sum_congr rfl e, hs]
  ring

/-! ## From the mean squares of the differences to those of the statistics -/

section terms

variable {X : Ω → ℕ → ℝ} {N : ℕ} {v rate : ℝ} {m : ℕ} (hr : 0 < rate)

include hr

theorem oadev_of_d2 (hu : Usable .oadev N m) (h : ∀ i, i + 2 * m < N → MeanSq P (fun ω => d2 (X ω) m i) v) :
    MeanSq P (fun ω => value .oadev (X ω) N rate m) (v / (2 * (m / rate) ^ 2)) := by
  obtain ⟨hm, -, -, -, hc⟩ := hu
  have hc' : 1 < (N : ℤ) - 2 * m := hc
  have hm' : (0 : ℝ) < m := by exact_mod_cast hm
  exact meanSq_rms' (P := P) (n := N - 2 * m) (f := fun i ω => d2 (X ω) m i)
    (norm := 2 * (m / rate) ^ 2 * (N - 2 * m)) (by omega)
    (by positivity) (by rw [Nat.cast_sub (by omega)]; push_cast; ring) (fun i hi => h i (by omega))

theorem adev_of_d2 (hu : Usable .adev N m) (h : ∀ i, i + 2 * m < N → MeanSq P (fun ω => d2 (X ω) m i) v) :
    MeanSq P (fun ω => value .adev (X ω) N rate m) (v / (2 * (m / rate) ^ 2)) := by
  have hN := hu.pos
  obtain ⟨hm, -, -, -, hc⟩ := hu
  have hc' : 1 < (decimated N m : ℤ) - 2 := hc
  have hm' : (0 : ℝ) < m := by exact_mod_cast hm
  exact meanSq_rms' (P := P) (n := decimated N m - 2) (f := fun i ω => d2 (fun k => X ω (k * m)) 1 i)
    (norm := 2 * (m / rate) ^ 2 * (decimated N m - 2)) (by omega)
    (by positivity) (by rw [Nat.cast_sub (by omega)]; push_cast; ring)
    (fun i hi => by
      have : (i + 2) * m < N := decimated_lt hm hN (by omega)
      have h2 := h (i * m) (by rw [add_mul] at this; omega)
      exact meanSq_congr (fun ω => by rw [d2_decimated]) h2)

theorem ohdev_of_d3 (hu : Usable .ohdev N m) (h : ∀ i, i + 3 * m < N → MeanSq P (fun ω => d3 (X ω) m i) v) :
    MeanSq P (fun ω => value .ohdev (X ω) N rate m) (v / (6 * (m / rate) ^ 2)) := by
  obtain ⟨hm, -, -, -, hc⟩ := hu
  have hc' : 1 < (N : ℤ) - 3 * m := hc
  have hm' : (0 : ℝ) < m := by exact_mod_cast hm
  exact meanSq_rms' (P := P) (n := N - 3 * m) (f := fun i ω => d3 (X ω) m i)
    (norm := 6 * (m / rate) ^ 2 * (N - 3 * m)) (by omega)
    (by positivity) (by rw [Nat.cast_sub (by omega)]; push_cast; ring) (fun i hi => h i (by omega))

theorem hdev_of_d3 (hu : Usable .hdev N m) (h : ∀ i, i + 3 * m < N → MeanSq P (fun ω => d3 (X ω) m i) v) :
    MeanSq P (fun ω => value .hdev (X ω) N rate m) (v / (6 * (m / rate) ^ 2)) := by
  have hN := hu.pos
  obtain ⟨hm, -, -, -, hc⟩ := hu
  have hc' : 1 < (decimated N m : ℤ) - 3 := hc
  have hm' : (0 : ℝ) < m := by exact_mod_cast hm
  exact meanSq_rms' (P := P) (n := decimated N m - 3) (f := fun i ω => d3 (fun k => X ω (k * m)) 1 i)
    (norm := 6 * (m / rate) ^ 2 * (decimated N m - 3)) (by omega)
    (by positivity) (by rw [Nat.cast_sub (by omega)]; push_cast; ring)
    (fun i hi => by
      have : (i + 3) * m < N := decimated_lt hm hN (by omega)
      have h2 := h (i * m) (by rw [add_mul] at this; omega)
      exact meanSq_congr (fun ω => by rw [d3_decimated]) h2)

theorem mdev_of_sums (hm : 0 < m) (hc : 1 < (N : ℤ) - 3 * m + 1)
    (h : ∀ j, j + 3 * m ≤ N → MeanSq P (fun ω => ∑ i ∈ range m, d2 (X ω) m (j + i)) v) :
    MeanSq P (fun ω => Spec.mdev (X ω) N m (m / rate)) (v / (2 * m ^ 2 * (m / rate) ^ 2)) := by
  have hm' : (0 : ℝ) < m := by exact_mod_cast hm
  exact meanSq_rms' (P := P) (n := N - 3 * m + 1)
    (f := fun j ω => ∑ i ∈ range m, d2 (X ω) m (j + i))
    (norm := 2 * m ^ 2 * (m / rate) ^ 2 * (N - 3 * m + 1))
    (by omega) (by positivity) (by
      rw [Nat.cast_add (N - 3 * m), Nat.cast_sub (show 3 * m ≤ N by omega)]; push_cast; ring)
    (fun i hi => h i (by omega))

end terms

theorem meanSq_tdev {X : Ω → ℕ → ℝ} {N m : ℕ} {v rate : ℝ} 
    (h : MeanSq P (fun ω => Spec.mdev (X ω) N m (m / rate)) v) :
    MeanSq P (fun ω => value .tdev (X ω) N rate m) ((m / rate) ^ 2 / 3 * v) := by
  have h1 := meanSq_const_mul ((m : ℝ) / rate / √3) h
  rw [div_pow, Real.sq_sqrt (by norm_num)] at h1
  exact h1

/-! ## Phases with white increments -/

section walk

variable [IsProbabilityMeasure P]
variable {X : Ω → ℕ → ℝ} {U : ℕ → Ω → ℝ} {N : ℕ} {c s2 rate : ℝ} (hX : ∀ ω i, X ω (i + 1) - X ω i = U i ω)
  (hU : White P U (N - 1) c s2) (hr : 0 < rate)

omit [IsProbabilityMeasure P] in
theorem Spec.White.const_mul {W : ℕ → Ω → ℝ} {N : ℕ} {c s2 : ℝ} (h : White P W N c s2) (k : ℝ) :
    White P (fun i ω => k * W i ω) N (k * c) (k ^ 2 * s2) where
  memLp := fun i hi => (h.memLp i hi).const_mul k
  mean := fun i hi => by rw [integral_const_mul, h.mean i hi]
  cov := fun i hi j hj => by
    rw [covariance_const_mul_left, covariance_const_mul_right, h.cov i hi j hj]
    split_ifs <;> ring

omit [IsProbabilityMeasure P] in
theorem Spec.White.shift {W : ℕ → Ω → ℝ} {N : ℕ} {c s2 : ℝ} (h : White P W N c s2) (r : ℕ) :
    White P (fun i => W (i + r)) (N - r) c s2 where
  memLp := fun i hi => h.memLp _ (by omega)
  mean := fun i hi => h.mean _ (by omega)
  cov := fun i hi j hj => by rw [h.cov _ (by omega) _ (by omega)]; simp

include hX hU hr

omit [IsProbabilityMeasure P] in
/-- a phase with white increments of variance `s2` is what white frequency noise of variance
`s2 rate²` gives, up to a constant phase and frequency -/
theorem walk_value (fn : DevName) (h1 : fn ≠ .tierms) (h2 : fn ≠ .mtie) (hN : 0 < N) (m : ℕ) (hu : Usable fn N m) :
    (∀ ω, value fn (X ω) N rate m
      = value fn (phaseOf (fun i => rate * U i ω) (N - 1) rate) (N - 1 + 1) rate m) ∧
    Usable fn (N - 1 + 1) m ∧ White P (fun i ω => rate * U i ω) (N - 1) (rate * c) (rate ^ 2 * s2) := by
  have hN1 : N - 1 + 1 = N := by omega
  refine ⟨fun ω => ?_, by rw [hN1]; exact hu, hU.const_mul rate⟩
  rw [hN1]
  set M : ℝ := (∑ k ∈ range (N - 1), rate * U k ω) / (N - 1 : ℕ) with hM
  rw [← value_affine fn h1 h2 (phaseOf (fun i => rate * U i ω) (N - 1) rate) (X ω 0) (M / rate) rate hu]
  congr 1
  funext i
  have h3 := sum_increments (hX ω) 0 i
  simp only [zero_add] at h3
  rw [h3]
  unfold phaseOf
  rw [← hM, sum_sub_distrib, ← mul_sum]
  simp
  field_simp
  ring

/-- what the deviations of a phase with white increments are on average -/
theorem walk_phase_mean :
    Expects P .adev (fun ω => tab N (X ω)) rate "phase" (fun m => s2 * rate ^ 2 / m) ∧
    Expects P .oadev (fun ω => tab N (X ω)) rate "phase" (fun m => s2 * rate ^ 2 / m) ∧
    Expects P .hdev (fun ω => tab N (X ω)) rate "phase" (fun m => s2 * rate ^ 2 / m) ∧
    Expects P .ohdev (fun ω => tab N (X ω)) rate "phase" (fun m => s2 * rate ^ 2 / m) ∧
    Expects P .mdev (fun ω => tab N (X ω)) rate "phase" (fun m => (m ^ 2 + 1) / (2 * m ^ 3) * (s2 * rate ^ 2)) ∧
    Expects P .tdev (fun ω => tab N (X ω)) rate "phase" (fun m => (m ^ 2 + 1) / (6 * m) * s2) ∧
    Expects P .pdev (fun ω => tab N (X ω)) rate "phase"
      (fun m => if m = 1 then s2 * rate ^ 2 else 6 / 5 * (1 - 1 / m ^ 4) * (s2 * rate ^ 2) / m) ∧
    Expects P .theo1 (fun ω => tab N (X ω)) rate "phase" (fun m => s2 * rate ^ 2 / (3 / 4 * m)) := by
  have key : ∀ (fn : DevName) (v : ℕ → ℝ), fn ≠ .tierms → fn ≠ .mtie →
      (∀ (N : ℕ) (Y : ℕ → Ω → ℝ) (c s2' : ℝ), White P Y N c s2' → s2' = s2 * rate ^ 2 → ∀ m, Usable fn (N + 1) m →
        MeanSq P (fun ω => value fn (phaseOf (fun i => Y i ω) N rate) (N + 1) rate m) (v m)) →
      Expects P fn (fun ω => tab N (X ω)) rate "phase" v := by
    intro fn v h1 h2 hv
    refine expects_phase fn (fun i ω => X ω i) N rate hr v (fun m hu => ?_)
    obtain ⟨h3, h4, h5⟩ := walk_value hX hU hr fn h1 h2 hu.pos m hu
    exact meanSq_congr (fun ω => by rw [h3]) (hv _ _ _ _ h5 (by ring) m h4)
  refine ⟨key _ _ (by simp) (by simp) fun N Y c s2' hY e m hu => e ▸ adev_value_fm hY rate hr m hu,
    key _ _ (by simp) (by simp) fun N Y c s2' hY e m hu => e ▸ oadev_value_fm hY rate hr m hu,
    key _ _ (by simp) (by simp) fun N Y c s2' hY e m hu => e ▸ hdev_value_fm hY rate hr m hu,
    key _ _ (by simp) (by simp) fun N Y c s2' hY e m hu => e ▸ ohdev_value_fm hY rate hr m hu,
    key _ _ (by simp) (by simp) fun N Y c s2' hY e m hu => e ▸ mdev_value_fm hY rate hr m hu.1 hu.2.2.2.2,
    key _ _ (by simp) (by simp) fun N Y c s2' hY e m hu => ?_,
    key _ _ (by simp) (by simp) fun N Y c s2' hY e m hu => e ▸ pdev_value_fm hY rate hr m hu,
    key _ _ (by simp) (by simp) fun N Y c s2' hY e m hu => e ▸ theo1_value_fm hY rate hr m hu⟩
  have h1 := meanSq_tdev (mdev_value_fm hY rate hr m hu.1 hu.2.2.2.2)
  have hm : (0 : ℝ) < m := by exact_mod_cast hu.1
  have e2 : ((m : ℝ) / rate) ^ 2 / 3 * ((m ^ 2 + 1) / (2 * m ^ 3) * s2') = (m ^ 2 + 1) / (6 * m) * s2 := by
    rw [e]; field_simp; ring
  rw [e2] at h1
  exact h1

end walk

/-! ## Phases with white second differences -/

section run

variable [IsProbabilityMeasure P]
variable {X : Ω → ℕ → ℝ} {U : ℕ → Ω → ℝ} {N : ℕ} {c s2 rate : ℝ}
  (hX : ∀ ω i, X ω (i + 2) - 2 * X ω (i + 1) + X ω i = U i ω)

omit [MeasurableSpace Ω] in
include hX in
theorem run_steps (ω : Ω) : (∀ i k, X ω (i + k) = X ω i + ∑ s ∈ range k, (X ω (i + s + 1) - X ω (i + s))) ∧
    (∀ i k, X ω (i + k + 1) - X ω (i + k) = (X ω (i + 1) - X ω i) + ∑ s ∈ range k, U (i + s) ω) := by
  refine ⟨fun i k => sum_increments (u := fun i => X ω (i + 1) - X ω i) (fun i => rfl) i k,
    fun i k => sum_increments (x := fun i => X ω (i + 1) - X ω i) (u := fun i => U i ω) (fun i => ?_) i k⟩
  rw [← hX]; ring

include hX

theorem d2_run (hU : White P U (N - 2) 0 s2) (m i : ℕ) (hi : i + 2 * m < N) :
    MeanSq P (fun ω => d2 (X ω) m i) (m * (2 * m ^ 2 + 1) / 3 * s2) := by
  have h1 := blocks_white hU (le_refl m) (j := i) 2 (triWeight m)
    (fun b hb k hk ha => by
      by_cases hlast : b = 1 ∧ k = m - 1
      · obtain ⟨rfl, rfl⟩ := hlast
        exfalso
        apply ha
        simp only [triWeight, one_ne_zero, if_false]
        rw [Nat.cast_sub (by omega)]
        push_cast; ring
      · have h3 : b = 0 ∨ b = 1 := by omega
        rcases h3 with rfl | rfl <;> omega)
  rw [triWeight_sq] at h1
  have e : s2 * ((m : ℝ) * (2 * m ^ 2 + 1) / 3) + 0 ^ 2 * (∑ b ∈ range 2, ∑ k ∈ range m, triWeight m b k) ^ 2
      = m * (2 * m ^ 2 + 1) / 3 * s2 := by ring
  rw [e] at h1
  exact meanSq_congr (fun ω => by
    rw [d2_rw (v := fun i => X ω (i + 1) - X ω i) (w := fun i => U i ω) (run_steps hX ω).1 (run_steps hX ω).2]) h1

theorem d3_run (hU : White P U (N - 2) c s2) (m i : ℕ) (hi : i + 3 * m < N) :
    MeanSq P (fun ω => d3 (X ω) m i) (m * (m ^ 2 + 1) * s2) := by
  have h1 := blocks_white hU (le_refl m) (j := i) 3 (mdevWeight m)
    (fun b hb k hk ha => by
      by_cases hlast : b = 2 ∧ k = m - 1
      · obtain ⟨rfl, rfl⟩ := hlast
        exfalso
        apply ha
        simp only [mdevWeight, OfNat.ofNat_ne_zero, OfNat.ofNat_ne_one, if_false]
        rw [Nat.cast_sub (by omega)]
        push_cast; ring
      · have h3 : b = 0 ∨ b = 1 ∨ b = 2 := by omega
        rcases h3 with rfl | rfl | rfl <;> omega)
  rw [mdevWeight_sq, mdevWeight_sum] at h1
  have e : s2 * ((m : ℝ) * (m ^ 2 + 1)) + c ^ 2 * 0 ^ 2 = m * (m ^ 2 + 1) * s2 := by ring
  rw [e] at h1
  exact meanSq_congr (fun ω => by
    rw [d3_rw (v := fun i => X ω (i + 1) - X ω i) (w := fun i => U i ω) (run_steps hX ω).1 (run_steps hX ω).2]) h1

theorem mdev_run (hU : White P U (N - 2) 0 s2) (m j : ℕ) (hj : j + 3 * m ≤ N) :
    MeanSq P (fun ω => ∑ i ∈ range m, d2 (X ω) m (j + i)) (m * (11 * m ^ 4 + 5 * m ^ 2 + 4) / 20 * s2) := by
  have h1 := blocks_white hU (le_refl m) (j := j) 3 (quadWeight m)
    (fun b hb k hk ha => by
      by_cases hlast : b = 2 ∧ m ≤ k + 2
      · obtain ⟨rfl, h2⟩ := hlast
        exfalso
        apply ha
        simp only [quadWeight, OfNat.ofNat_ne_zero, OfNat.ofNat_ne_one, if_false]
        have h3 : m = k + 1 ∨ m = k + 2 := by omega
        rcases h3 with h3 | h3 <;> rw [h3] <;> push_cast <;> ring
      · have h3 : b = 0 ∨ b = 1 ∨ b = 2 := by omega
        by_cases h4 : m = 1
        · subst h4
          rcases h3 with rfl | rfl | rfl
          · omega
          · exfalso
            apply ha
            have : k = 0 := by omega
            subst this
            norm_num [quadWeight]
          · omega
        rcases h3 with rfl | rfl | rfl <;> omega)
  rw [quadWeight_sq] at h1
  have e : s2 * ((m : ℝ) * (11 * m ^ 4 + 5 * m ^ 2 + 4) / 20)
      + 0 ^ 2 * (∑ b ∈ range 3, ∑ k ∈ range m, quadWeight m b k) ^ 2
      = m * (11 * m ^ 4 + 5 * m ^ 2 + 4) / 20 * s2 := by ring
  rw [e] at h1
  exact meanSq_congr (fun ω => by
    rw [mdev_rw (v := fun i => X ω (i + 1) - X ω i) (w := fun i => U i ω) (run_steps hX ω).1 (run_steps hX ω).2]) h1

/-- what the deviations of a phase with white second differences are on average -/
theorem run_phase_mean (hU : White P U (N - 2) 0 s2) (hr : 0 < rate) :
    Expects P .adev (fun ω => tab N (X ω)) rate "phase" (fun m => (2 * m ^ 2 + 1) / (6 * m) * (s2 * rate ^ 2)) ∧
    Expects P .oadev (fun ω => tab N (X ω)) rate "phase" (fun m => (2 * m ^ 2 + 1) / (6 * m) * (s2 * rate ^ 2)) ∧
    Expects P .hdev (fun ω => tab N (X ω)) rate "phase" (fun m => (m ^ 2 + 1) / (6 * m) * (s2 * rate ^ 2)) ∧
    Expects P .ohdev (fun ω => tab N (X ω)) rate "phase" (fun m => (m ^ 2 + 1) / (6 * m) * (s2 * rate ^ 2)) ∧
    Expects P .mdev (fun ω => tab N (X ω)) rate "phase"
      (fun m => (11 * m ^ 4 + 5 * m ^ 2 + 4) / (40 * m ^ 3) * (s2 * rate ^ 2)) ∧
    Expects P .tdev (fun ω => tab N (X ω)) rate "phase"
      (fun m => (11 * m ^ 4 + 5 * m ^ 2 + 4) / (120 * m) * s2) := by
  have hm' : ∀ {m : ℕ}, 0 < m → (0 : ℝ) < m := fun h => by exact_mod_cast h
  refine ⟨expects_phase _ (fun i ω => X ω i) _ _ hr _ (fun m hu => ?_),
    expects_phase _ (fun i ω => X ω i) _ _ hr _ (fun m hu => ?_),
    expects_phase _ (fun i ω => X ω i) _ _ hr _ (fun m hu => ?_),
    expects_phase _ (fun i ω => X ω i) _ _ hr _ (fun m hu => ?_),
    expects_phase _ (fun i ω => X ω i) _ _ hr _ (fun m hu => ?_),
    expects_phase _ (fun i ω => X ω i) _ _ hr _ (fun m hu => ?_)⟩
  · have h1 := adev_of_d2 hr hu (d2_run hX hU m)
    have := hm' hu.1
    have e : (m : ℝ) * (2 * m ^ 2 + 1) / 3 * s2 / (2 * (m / rate) ^ 2)
        = (2 * m ^ 2 + 1) / (6 * m) * (s2 * rate ^ 2) := by field_simp; ring
    exact e ▸ h1
  · have h1 := oadev_of_d2 hr hu (d2_run hX hU m)
    have := hm' hu.1
    have e : (m : ℝ) * (2 * m ^ 2 + 1) / 3 * s2 / (2 * (m / rate) ^ 2)
        = (2 * m ^ 2 + 1) / (6 * m) * (s2 * rate ^ 2) := by field_simp; ring
    exact e ▸ h1
  · have h1 := hdev_of_d3 hr hu (d3_run hX hU m)
    have := hm' hu.1
    have e : (m : ℝ) * (m ^ 2 + 1) * s2 / (6 * (m / rate) ^ 2)
        = (m ^ 2 + 1) / (6 * m) * (s2 * rate ^ 2) := by field_simp
    exact e ▸ h1
  · have h1 := ohdev_of_d3 hr hu (d3_run hX hU m)
    have := hm' hu.1
    have e : (m : ℝ) * (m ^ 2 + 1) * s2 / (6 * (m / rate) ^ 2)
        = (m ^ 2 + 1) / (6 * m) * (s2 * rate ^ 2) := by field_simp
    exact e ▸ h1
  · have h1 := mdev_of_sums hr hu.1 hu.2.2.2.2 (mdev_run hX hU m)
    have := hm' hu.1
    have e : (m : ℝ) * (11 * m ^ 4 + 5 * m ^ 2 + 4) / 20 * s2 / (2 * m ^ 2 * (m / rate) ^ 2)
        = (11 * m ^ 4 + 5 * m ^ 2 + 4) / (40 * m ^ 3) * (s2 * rate ^ 2) := by field_simp; ring
    exact e ▸ h1
  · have h1 := meanSq_tdev (mdev_of_sums hr hu.1 hu.2.2.2.2 (mdev_run hX hU m))
    have := hm' hu.1
    have e : ((m : ℝ) / rate) ^ 2 / 3 * ((m : ℝ) * (11 * m ^ 4 + 5 * m ^ 2 + 4) / 20 * s2 / (2 * m ^ 2 * (m / rate) ^ 2))
        = (11 * m ^ 4 + 5 * m ^ 2 + 4) / (120 * m) * s2 := by field_simp; ring
    exact e ▸ h1

end run

/-- **C70, random walk frequency noise**: frequencies whose increments are white with mean 0 and
variance `s2`.  The Allan variance is `s2 (2m² + 1)/(6m)`, the Hadamard variance `s2 (m² + 1)/(6m)`, the
modified Allan variance `s2 (11m⁴ + 5m² + 4)/(40m³)`. -/
theorem walk_freq_mean [IsProbabilityMeasure P] {N : ℕ} {s2 rate : ℝ} {Y W : ℕ → Ω → ℝ} (hY : ∀ i ω, Y (i + 1) ω - Y i ω = W i ω)
    (hW : White P W (N - 1) 0 s2) (hr : 0 < rate) :
    Expects P .adev (fun ω => tab N (fun i => Y i ω)) rate "freq" (fun m => (2 * m ^ 2 + 1) / (6 * m) * s2) ∧
    Expects P .oadev (fun ω => tab N (fun i => Y i ω)) rate "freq" (fun m => (2 * m ^ 2 + 1) / (6 * m) * s2) ∧
    Expects P .hdev (fun ω => tab N (fun i => Y i ω)) rate "freq" (fun m => (m ^ 2 + 1) / (6 * m) * s2) ∧
    Expects P .ohdev (fun ω => tab N (fun i => Y i ω)) rate "freq" (fun m => (m ^ 2 + 1) / (6 * m) * s2) ∧
    Expects P .mdev (fun ω => tab N (fun i => Y i ω)) rate "freq"
      (fun m => (11 * m ^ 4 + 5 * m ^ 2 + 4) / (40 * m ^ 3) * s2) ∧
    Expects P .tdev (fun ω => tab N (fun i => Y i ω)) rate "freq"
      (fun m => (11 * m ^ 4 + 5 * m ^ 2 + 4) / (120 * m) * s2 / rate ^ 2) := by
  have hX : ∀ ω i, phaseOf (fun i => Y i ω) N rate (i + 2) - 2 * phaseOf (fun i => Y i ω) N rate (i + 1)
      + phaseOf (fun i => Y i ω) N rate i = 1 / rate * W i ω := by
    intro ω i
    have h1 := phaseOf_add (fun i => Y i ω) N rate (i + 1) 1
    have h2 := phaseOf_add (fun i => Y i ω) N rate i 1
    simp only [sum_range_one, add_zero, incr] at h1 h2
    rw [show i + 2 = i + 1 + 1 by ring, h1, h2, ← hY]
    ring
  have hU : White P (fun i ω => 1 / rate * W i ω) (N + 1 - 2) 0 (s2 / rate ^ 2) := by
    have h := hW.const_mul (1 / rate)
    rw [mul_zero, show (1 / rate) ^ 2 * s2 = s2 / rate ^ 2 by ring] at h
    rwa [show N + 1 - 2 = N - 1 by omega]
  have hm' : ∀ {m : ℕ}, 0 < m → (0 : ℝ) < m := fun h => by exact_mod_cast h
  have e1 : s2 / rate ^ 2 * rate ^ 2 = s2 := by field_simp
  refine ⟨expects_freq _ _ _ _ hr _ (fun m hu => ?_), expects_freq _ _ _ _ hr _ (fun m hu => ?_),
    expects_freq _ _ _ _ hr _ (fun m hu => ?_), expects_freq _ _ _ _ hr _ (fun m hu => ?_),
    expects_freq _ _ _ _ hr _ (fun m hu => ?_), expects_freq _ _ _ _ hr _ (fun m hu => ?_)⟩
  · have h1 := adev_of_d2 hr hu (d2_run hX hU m)
    have := hm' hu.1
    have e : (m : ℝ) * (2 * m ^ 2 + 1) / 3 * (s2 / rate ^ 2) / (2 * (m / rate) ^ 2)
        = (2 * m ^ 2 + 1) / (6 * m) * s2 := by field_simp; ring
    exact e ▸ h1
  · have h1 := oadev_of_d2 hr hu (d2_run hX hU m)
    have := hm' hu.1
    have e : (m : ℝ) * (2 * m ^ 2 + 1) / 3 * (s2 / rate ^ 2) / (2 * (m / rate) ^ 2)
        = (2 * m ^ 2 + 1) / (6 * m) * s2 := by field_simp; ring
    exact e ▸ h1
  · have h1 := hdev_of_d3 hr hu (d3_run hX hU m)
    have := hm' hu.1
    have e : (m : ℝ) * (m ^ 2 + 1) * (s2 / rate ^ 2) / (6 * (m / rate) ^ 2)
        = (m ^ 2 + 1) / (6 * m) * s2 := by field_simp
    exact e ▸ h1
  · have h1 := ohdev_of_d3 hr hu (d3_run hX hU m)
    have := hm' hu.1
    have e : (m : ℝ) * (m ^ 2 + 1) * (s2 / rate ^ 2) / (6 * (m / rate) ^ 2)
        = (m ^ 2 + 1) / (6 * m) * s2 := by field_simp
    exact e ▸ h1
  · have h1 := mdev_of_sums hr hu.1 hu.2.2.2.2 (mdev_run hX hU m)
    have := hm' hu.1
    have e : (m : ℝ) * (11 * m ^ 4 + 5 * m ^ 2 + 4) / 20 * (s2 / rate ^ 2) / (2 * m ^ 2 * (m / rate) ^ 2)
        = (11 * m ^ 4 + 5 * m ^ 2 + 4) / (40 * m ^ 3) * s2 := by field_simp; ring
    exact e ▸ h1
  · have h1 := meanSq_tdev (mdev_of_sums hr hu.1 hu.2.2.2.2 (mdev_run hX hU m))
    have := hm' hu.1
    have e : ((m : ℝ) / rate) ^ 2 / 3 * ((m : ℝ) * (11 * m ^ 4 + 5 * m ^ 2 + 4) / 20 * (s2 / rate ^ 2)
        / (2 * m ^ 2 * (m / rate) ^ 2))
        = (11 * m ^ 4 + 5 * m ^ 2 + 4) / (120 * m) * s2 / rate ^ 2 := by field_simp; ring
    exact e ▸ h1

example := walk_freq_mean (P := gaussNoise) (N := 6) (s2 := 1) (rate := 10)
  (Y := fun i ω => ∑ j ∈ range i, ω j) (W := fun i ω => ω i) (fun i ω => by rw [sum_range_succ]; ring)
  (white_gauss 5) (by norm_num)


/-! ## The generated noise -/

omit [MeasurableSpace Ω] in
/-- the generated series as a function of the draws -/
theorem generateNoise_random (s : Noise) (Z : ℕ → Ω → ℝ) (h0 : 0 < s.nr) (ω : Ω) :
    s.generateNoise (tab s.nr (fun i => Z i ω)) = .ok { s with
      time_series := tab s.nr (kasdinNoise s.b (fun i => √s.qd * Z i ω)) } := by
  rw [generateNoise_eq s _ h0]
  congr 2
  apply tab_congr
  intro n hn
  unfold kasdinNoise
  refine sum_congr rfl (fun k _ => ?_)
  simp only
  rw [tab_getD, if_pos (by omega)]

/-- the square of the predicted Allan deviation for the even types -/
theorem kasdin_adev_sq (s : Noise) (hq : 0 ≤ s.qd) {tau0 : ℝ} (h0 : 0 < tau0) {m : ℕ} (hm : 0 < m) :
    ∃ d : ℝ, (s.b = 0 → d ^ 2 = 3 * s.qd / (m * tau0) ^ 2) ∧ (s.b = -2 → d ^ 2 = s.qd / (tau0 ^ 2 * m)) ∧
      (s.b = -4 → d ^ 2 = s.qd * m / (3 * tau0 ^ 2)) ∧
      (s.b = 0 ∨ s.b = -2 ∨ s.b = -4 → s.adev tau0 (m * tau0) = .ok (some d)) := by
  have hmr : (0 : ℝ) < m := by exact_mod_cast hm
  have ht : 0 < m * tau0 := by positivity
  have hpi := Real.pi_pos
  have hn := frequency_psd_nonneg s tau0 hq h0
  have key : s.b = 0 ∨ s.b = -2 ∨ s.b = -4 → 0 ≤ avarCoeff s.b tau0 (m * tau0) * s.frequency_psd_from_qd tau0 :=
    fun h => mul_nonneg (avarCoeff_pos s.b tau0 (m * tau0) h0 (by rcases h with h | h | h <;> rw [h] <;> norm_num)).le hn
  refine ⟨√(avarCoeff s.b tau0 (m * tau0) * s.frequency_psd_from_qd tau0) * (m * tau0) ^ (avarExp s.b / 2), ?_, ?_, ?_, ?_⟩
  · intro h
    rw [mul_pow, Real.sq_sqrt (key (Or.inl h)), ← Real.rpow_natCast, ← Real.rpow_mul ht.le]
    unfold Noise.frequency_psd_from_qd avarCoeff avarExp
    rw [h]
    norm_num
    field_simp
    try norm_num
    try ring
  · intro h
    rw [mul_pow, Real.sq_sqrt (key (Or.inr (Or.inl h))), ← Real.rpow_natCast, ← Real.rpow_mul ht.le]
    unfold Noise.frequency_psd_from_qd avarCoeff avarExp
    rw [h]
    norm_num
    rw [Real.rpow_neg_one, Real.rpow_neg_one]
    field_simp
    try norm_num
    try ring
  · intro h
    rw [mul_pow, Real.sq_sqrt (key (Or.inr (Or.inr h))), ← Real.rpow_natCast, ← Real.rpow_mul ht.le]
    unfold Noise.frequency_psd_from_qd avarCoeff avarExp
    rw [h]
    norm_num
    field_simp
    try norm_num
    try ring
  · intro h
    have hk : KasdinType s.b := by unfold KasdinType; tauto
    rw [kasdin_adev_eq s tau0 _ hk ht, if_neg (not_lt.2 (key h))]

/-- the square of the predicted modified Allan deviation for the even types -/
theorem kasdin_mdev_sq (s : Noise) (hq : 0 ≤ s.qd) {tau0 : ℝ} (h0 : 0 < tau0) {m : ℕ} (hm : 0 < m) :
    ∃ d : ℝ, (s.b = 0 → d ^ 2 = 3 * s.qd / (m * (m * tau0) ^ 2)) ∧ (s.b = -2 → d ^ 2 = s.qd / (2 * tau0 ^ 2 * m)) ∧
      (s.b = -4 → d ^ 2 = 11 * s.qd * m / (40 * tau0 ^ 2)) ∧
      (s.b = 0 ∨ s.b = -2 ∨ s.b = -4 → s.mdev tau0 (m * tau0) = .ok (some d)) := by
  have hmr : (0 : ℝ) < m := by exact_mod_cast hm
  have ht : 0 < m * tau0 := by positivity
  have hpi := Real.pi_pos
  have hn := frequency_psd_nonneg s tau0 hq h0
  have key : 0 ≤ mvarCoeff s.b * s.frequency_psd_from_qd tau0 := mul_nonneg (mvarCoeff_pos _).le hn
  refine ⟨√(mvarCoeff s.b * s.frequency_psd_from_qd tau0) * (m * tau0) ^ ((-s.b - 3) / 2), ?_, ?_, ?_, ?_⟩
  · intro h
    rw [mul_pow, Real.sq_sqrt key, ← Real.rpow_natCast, ← Real.rpow_mul ht.le]
    unfold Noise.frequency_psd_from_qd mvarCoeff
    rw [h]
    norm_num
    field_simp
    try norm_num
    try ring
  · intro h
    rw [mul_pow, Real.sq_sqrt key, ← Real.rpow_natCast, ← Real.rpow_mul ht.le]
    unfold Noise.frequency_psd_from_qd mvarCoeff
    rw [h]
    norm_num
    rw [Real.rpow_neg_one, Real.rpow_neg_one]
    field_simp
    try norm_num
    try ring
  · intro h
    rw [mul_pow, Real.sq_sqrt key, ← Real.rpow_natCast, ← Real.rpow_mul ht.le]
    unfold Noise.frequency_psd_from_qd mvarCoeff
    rw [h]
    norm_num
    field_simp
    try norm_num
    try ring
  · intro h
    have hk : KasdinType s.b := by unfold KasdinType; tauto
    rw [kasdin_mdev_eq s tau0 _ hk hq h0 ht]


theorem expects_congr {fn : DevName} {data : Ω → List ℝ} {rate : ℝ} {dt : String} {v v' : ℕ → ℝ}
    (h : Expects P fn data rate dt v) (hv : ∀ m, 0 < m → v m = v' m) : Expects P fn data rate dt v' := by
  intro taus ω₀ o₀ ho
  obtain ⟨ms, D, h1, h2, h3⟩ := h taus ω₀ o₀ ho
  refine ⟨ms, D, h1, h2, fun m hm => ⟨(h3 m hm).1, ?_⟩⟩
  have h4 := (h3 m hm).2
  simp only at h4 ⊢
  rwa [← hv m (h3 m hm).1]

/-- how much larger the Allan variance of the generated series is than that of the continuous
noise, for random walk frequency noise -/
noncomputable def Spec.adevExcess (b : ℝ) (m : ℕ) : ℝ := if b = -4 then 1 + 1 / (2 * m ^ 2) else 1

/-- the same for the modified Allan variance -/
noncomputable def Spec.mdevExcess (b : ℝ) (m : ℕ) : ℝ :=
  if b = -4 then 1 + 5 / (11 * m ^ 2) + 4 / (11 * m ^ 4) else if b = -2 then 1 + 1 / m ^ 2 else 1

/-- C71: `b = 0, -2, -4`.  Let the `nr` draws be uncorrelated with mean 0 and variance 1.  The expected
squared Allan and modified Allan deviation of the series that `generateNoise` makes of them are the
squares of what `adev` and `mdev` of the same object predict, times the factors `adevExcess` and
`mdevExcess`, which tend to 1 as `1/m²`. -/
theorem kasdin_simulated [IsProbabilityMeasure P] (s : Noise) (hb : s.b = 0 ∨ s.b = -2 ∨ s.b = -4)
    (hn : 0 < s.nr) (hq : 0 ≤ s.qd) {tau0 : ℝ} (h0 : 0 < tau0) (Z : ℕ → Ω → ℝ) (hZ : White P Z s.nr 0 1) :
    ∃ (X : Ω → List ℝ) (d dm : ℕ → ℝ),
      (∀ ω, s.generateNoise (tab s.nr (fun i => Z i ω)) = .ok { s with time_series := X ω }) ∧
      (∀ m : ℕ, 0 < m → s.adev tau0 (m * tau0) = .ok (some (d m)) ∧ s.mdev tau0 (m * tau0) = .ok (some (dm m))) ∧
      Expects P .adev X (1 / tau0) "phase" (fun m => adevExcess s.b m * d m ^ 2) ∧
      Expects P .oadev X (1 / tau0) "phase" (fun m => adevExcess s.b m * d m ^ 2) ∧
      Expects P .mdev X (1 / tau0) "phase" (fun m => mdevExcess s.b m * dm m ^ 2) := by
  have hd : ∀ m : ℕ, ∃ d : ℝ, 0 < m → (s.b = 0 → d ^ 2 = 3 * s.qd / (m * tau0) ^ 2) ∧
      (s.b = -2 → d ^ 2 = s.qd / (tau0 ^ 2 * m)) ∧ (s.b = -4 → d ^ 2 = s.qd * m / (3 * tau0 ^ 2)) ∧
      (s.b = 0 ∨ s.b = -2 ∨ s.b = -4 → s.adev tau0 (m * tau0) = .ok (some d)) := by
    intro m
    by_cases hm : 0 < m
    · obtain ⟨d, hd⟩ := kasdin_adev_sq s hq h0 hm
      exact ⟨d, fun _ => hd⟩
    · exact ⟨0, fun h => absurd h hm⟩
  have hdm : ∀ m : ℕ, ∃ d : ℝ, 0 < m → (s.b = 0 → d ^ 2 = 3 * s.qd / (m * (m * tau0) ^ 2)) ∧
      (s.b = -2 → d ^ 2 = s.qd / (2 * tau0 ^ 2 * m)) ∧ (s.b = -4 → d ^ 2 = 11 * s.qd * m / (40 * tau0 ^ 2)) ∧
      (s.b = 0 ∨ s.b = -2 ∨ s.b = -4 → s.mdev tau0 (m * tau0) = .ok (some d)) := by
    intro m
    by_cases hm : 0 < m
    · obtain ⟨d, hd⟩ := kasdin_mdev_sq s hq h0 hm
      exact ⟨d, fun _ => hd⟩
    · exact ⟨0, fun h => absurd h hm⟩
  choose d hd using hd
  choose dm hdm using hdm
  have hr : 0 < 1 / tau0 := by positivity
  have hW : White P (fun i ω => √s.qd * Z i ω) s.nr 0 s.qd := by
    have h := hZ.const_mul √s.qd
    rwa [mul_zero, mul_one, Real.sq_sqrt hq] at h
  refine ⟨fun ω => tab s.nr (kasdinNoise s.b (fun i => √s.qd * Z i ω)), d, dm, generateNoise_random s Z hn,
    fun m hm => ⟨(hd m hm).2.2.2 hb, (hdm m hm).2.2.2 hb⟩, ?_⟩
  rcases hb with hb | hb | hb
  · -- white phase noise
    obtain ⟨a1, a2, -, -, a3, -⟩ := white_phase_mean hW hr
    have e : (fun ω => tab s.nr (kasdinNoise s.b (fun i => √s.qd * Z i ω)))
        = fun ω => tab s.nr (fun i => √s.qd * Z i ω) := by
      funext ω
      apply tab_congr
      intro i _
      rw [hb, kasdinNoise_white]
    have f1 : ∀ m, adevExcess s.b m = 1 := fun m => by unfold adevExcess; rw [hb]; norm_num
    have f2 : ∀ m, mdevExcess s.b m = 1 := fun m => by unfold mdevExcess; rw [hb]; norm_num
    simp only [e, f1, f2, one_mul]
    refine ⟨expects_congr a1 fun m hm => ?_, expects_congr a2 fun m hm => ?_, expects_congr a3 fun m hm => ?_⟩
    · rw [(hd m hm).1 hb]; field_simp
    · rw [(hd m hm).1 hb]; field_simp
    · rw [(hdm m hm).1 hb]; field_simp
  · -- white frequency noise
    have hX : ∀ ω i, kasdinNoise s.b (fun i => √s.qd * Z i ω) (i + 1) - kasdinNoise s.b (fun i => √s.qd * Z i ω) i
        = √s.qd * Z (i + 1) ω := by
      intro ω i
      rw [kasdinNoise_diff, hb, show (-2 + 2 : ℝ) = 0 by norm_num, kasdinNoise_white]
    obtain ⟨a1, a2, -, -, a3, -⟩ := walk_phase_mean hX (hW.shift 1) hr
    have f1 : ∀ m, adevExcess s.b m = 1 := fun m => by unfold adevExcess; rw [hb]; norm_num
    have f2 : ∀ m, mdevExcess s.b m = 1 + 1 / m ^ 2 := fun m => by unfold mdevExcess; rw [hb]; norm_num
    simp only [f1, f2, one_mul]
    refine ⟨expects_congr a1 fun m hm => ?_, expects_congr a2 fun m hm => ?_, expects_congr a3 fun m hm => ?_⟩
    · rw [(hd m hm).2.1 hb]; field_simp
    · rw [(hd m hm).2.1 hb]; field_simp
    · have hm' : (0 : ℝ) < m := by exact_mod_cast hm
      rw [(hdm m hm).2.1 hb]; field_simp
  · -- random walk frequency noise
    have hX : ∀ ω i, kasdinNoise s.b (fun i => √s.qd * Z i ω) (i + 2)
        - 2 * kasdinNoise s.b (fun i => √s.qd * Z i ω) (i + 1) + kasdinNoise s.b (fun i => √s.qd * Z i ω) i
        = √s.qd * Z (i + 2) ω := by
      intro ω i
      have h1 := kasdinNoise_diff s.b (fun i => √s.qd * Z i ω) i
      have h2 := kasdinNoise_diff s.b (fun i => √s.qd * Z i ω) (i + 1)
      have h3 := kasdinNoise_diff (s.b + 2) (fun i => √s.qd * Z i ω) (i + 1)
      rw [hb, show (-4 + 2 + 2 : ℝ) = 0 by norm_num, kasdinNoise_white] at h3
      rw [hb] at h1 h2 ⊢
      rw [show i + 1 + 1 = i + 2 by ring] at h2 h3
      linarith
    obtain ⟨a1, a2, -, -, a3, -⟩ := run_phase_mean hX (hW.shift 2) hr
    have f1 : ∀ m, adevExcess s.b m = 1 + 1 / (2 * m ^ 2) := fun m => by unfold adevExcess; rw [if_pos hb]
    have f2 : ∀ m, mdevExcess s.b m = 1 + 5 / (11 * m ^ 2) + 4 / (11 * m ^ 4) := fun m => by
      unfold mdevExcess; rw [if_pos hb]
    simp only [f1, f2]
    refine ⟨expects_congr a1 fun m hm => ?_, expects_congr a2 fun m hm => ?_, expects_congr a3 fun m hm => ?_⟩
    · have hm' : (0 : ℝ) < m := by exact_mod_cast hm
      rw [(hd m hm).2.2.1 hb]; field_simp; ring
    · have hm' : (0 : ℝ) < m := by exact_mod_cast hm
      rw [(hd m hm).2.2.1 hb]; field_simp; ring
    · have hm' : (0 : ℝ) < m := by exact_mod_cast hm
      rw [(hdm m hm).2.2.1 hb]; field_simp

/-- 100 standard normal draws made into random walk frequency noise -/
example := kasdin_simulated (Noise.init 100 2 (-4)) (by norm_num [Noise.init]) (by norm_num [Noise.init])
  (by norm_num [Noise.init]) (tau0 := 1 / 10) (by norm_num) (fun i (ω : ℕ → ℝ) => ω i) (white_gauss 100)

/-! ## Any exponent -/

/-- the second difference of the impulse response at distance `m` -/
noncomputable def Spec.kasdinD (b : ℝ) (m j : ℕ) : ℝ :=
  kasdinH b j - (if m ≤ j then 2 * kasdinH b (j - m) else 0) + (if 2 * m ≤ j then kasdinH b (j - 2 * m) else 0)

theorem delayed_sum (h w : ℕ → ℝ) (i r : ℕ) :
    ∑ k ∈ range (i + 1), h k * w (i - k) =
      ∑ j ∈ range (i + r + 1), (if r ≤ j then h (j - r) else 0) * w (i + r - j) := by
  rw [show i + r + 1 = r + (i + 1) by ring, sum_range_add _ r (i + 1)]
  have h0 : ∑ j ∈ range r, (if r ≤ j then h (j - r) else 0) * w (i + r - j) = 0 :=
    sum_eq_zero (fun j hj => by rw [if_neg (by have := mem_range.1 hj; omega), zero_mul])
  rw [h0, zero_add]
  refine sum_congr rfl (fun k _ => ?_)
  rw [if_pos (by omega), show r + k - r = k by omega, show i + r - (r + k) = i - k by omega]

theorem d2_kasdinNoise (b : ℝ) (w : ℕ → ℝ) (m i : ℕ) :
    d2 (kasdinNoise b w) m i = ∑ j ∈ range (i + 2 * m + 1), kasdinD b m j * w (i + 2 * m - j) := by
  unfold d2 kasdinNoise
  have h1 := delayed_sum (kasdinH b) w (i + m) m
  have h2 := delayed_sum (kasdinH b) w i (2 * m)
  rw [show i + m + m = i + 2 * m by ring] at h1
  rw [h1, h2, mul_sum, ← sum_sub_distrib, ← sum_add_distrib]
  refine sum_congr rfl (fun j _ => ?_)
  unfold kasdinD
  split_ifs <;> ring

theorem meanSq_rms_var {n : ℕ} {f : ℕ → Ω → ℝ} {norm : ℝ} {v : ℕ → ℝ} (hn : 0 < norm)
    (hf : ∀ i < n, MeanSq P (f i) (v i)) :
    MeanSq P (fun ω => rms n (fun i => f i ω) norm) ((∑ i ∈ range n, v i) / norm) := by
  have he : ∀ ω, rms n (fun i => f i ω) norm ^ 2 = (∑ i ∈ range n, f i ω ^ 2) / norm := by
    intro ω
    unfold rms
    rw [Real.sq_sqrt (div_nonneg (sum_nonneg (fun i _ => sq_nonneg _)) hn.le)]
  unfold MeanSq
  simp only [he]
  constructor
  · exact (integrable_finsetSum _ (fun i hi => (hf i (mem_range.1 hi)).1)).div_const _
  · rw [integral_div, integral_finsetSum _ (fun i hi => (hf i (mem_range.1 hi)).1),
      sum_congr rfl (fun i hi => (hf i (mem_range.1 hi)).2)]

/-- C71, any exponent `b`: the expected squared overlapping Allan deviation of the generated series
is a finite sum over the impulse response -/
theorem kasdin_simulated_any [IsProbabilityMeasure P] (s : Noise)
    (hn : 0 < s.nr) (hq : 0 ≤ s.qd) {tau0 : ℝ} (h0 : 0 < tau0) (Z : ℕ → Ω → ℝ) (hZ : White P Z s.nr 0 1) :
    ∃ X : Ω → List ℝ,
      (∀ ω, s.generateNoise (tab s.nr (fun i => Z i ω)) = .ok { s with time_series := X ω }) ∧
      Expects P .oadev X (1 / tau0) "phase" (fun m => s.qd *
        (∑ i ∈ range (s.nr - 2 * m), ∑ j ∈ range (i + 2 * m + 1), kasdinD s.b m j ^ 2)
          / (2 * (m * tau0) ^ 2 * (s.nr - 2 * m))) := by
  have hW : White P (fun i ω => √s.qd * Z i ω) s.nr 0 s.qd := by
    have h := hZ.const_mul √s.qd
    rwa [mul_zero, mul_one, Real.sq_sqrt hq] at h
  refine ⟨fun ω => tab s.nr (kasdinNoise s.b (fun i => √s.qd * Z i ω)), generateNoise_random s Z hn, ?_⟩
  refine expects_phase .oadev (fun i ω => kasdinNoise s.b (fun i => √s.qd * Z i ω) i) s.nr (1 / tau0)
    (by positivity) _ (fun m hu => ?_)
  obtain ⟨hm, -, -, -, hc⟩ := hu
  have hc' : 1 < (s.nr : ℤ) - 2 * m := hc
  have hc2 : (0 : ℝ) < (s.nr : ℝ) - 2 * m := by
    have : (0 : ℤ) < (s.nr : ℤ) - 2 * m := by omega
    exact_mod_cast this
  have hm' : (0 : ℝ) < m := by exact_mod_cast hm
  have h1 := meanSq_rms_var (P := P) (n := s.nr - 2 * m)
    (f := fun i ω => d2 (kasdinNoise s.b (fun i => √s.qd * Z i ω)) m i)
    (norm := 2 * (m / (1 / tau0)) ^ 2 * (s.nr - 2 * m))
    (v := fun i => s.qd * ∑ j ∈ range (i + 2 * m + 1), kasdinD s.b m j ^ 2) (by positivity)
    (fun i hi => by
      have h2 := hW.meanSq_sum (range (i + 2 * m + 1)) (fun j => i + 2 * m - j) (kasdinD s.b m)
        (by
          intro a ha b hb h
          simp only [mem_coe, mem_range] at ha hb
          simp only at h
          omega)
        (fun k hk => by omega)
      have e : s.qd * ∑ j ∈ range (i + 2 * m + 1), kasdinD s.b m j ^ 2
          + 0 ^ 2 * (∑ k ∈ range (i + 2 * m + 1), kasdinD s.b m k) ^ 2
          = s.qd * ∑ j ∈ range (i + 2 * m + 1), kasdinD s.b m j ^ 2 := by ring
      rw [e] at h2
      exact meanSq_congr (fun ω => by rw [d2_kasdinNoise]) h2)
  rw [← mul_sum] at h1
  have e : (m : ℝ) / (1 / tau0) = m * tau0 := by field_simp
  rw [e] at h1
  have : (fun ω => value .oadev (fun i => kasdinNoise s.b (fun i => √s.qd * Z i ω) i) s.nr (1 / tau0) m) =
      fun ω => rms (s.nr - 2 * m) (fun i => d2 (kasdinNoise s.b (fun i => √s.qd * Z i ω)) m i)
        (2 * (m * tau0) ^ 2 * (s.nr - 2 * m)) := by
    funext ω
    simp only [value, Spec.oadev, e]
  rw [this]
  exact h1

example := kasdin_simulated_any (Noise.init 100 2 (1 / 3)) (by norm_num [Noise.init])
  (by norm_num [Noise.init]) (tau0 := 1 / 10) (by norm_num) (fun i (ω : ℕ → ℝ) => ω i) (white_gauss 100)


/-- C71: for flicker noise, `b = -1` and `b = -3`, the expected squared Allan deviation of the generated
series at `τ = τ₀` exceeds the prediction by more than 10 % -/
theorem kasdin_simulated_flicker_wrong [IsProbabilityMeasure P] (s : Noise) (hb : s.b = -1 ∨ s.b = -3)
    (hn : 4 ≤ s.nr) (hq : 0 < s.qd) {tau0 : ℝ} (h0 : 0 < tau0) (Z : ℕ → Ω → ℝ) (hZ : White P Z s.nr 0 1) :
    ∃ (X : Ω → List ℝ) (d : ℝ) (v : ℕ → ℝ),
      (∀ ω, s.generateNoise (tab s.nr (fun i => Z i ω)) = .ok { s with time_series := X ω }) ∧
      s.adev tau0 tau0 = .ok (some d) ∧ Expects P .oadev X (1 / tau0) "phase" v ∧ 11 / 10 * d ^ 2 < v 1 := by
  obtain ⟨X, h1, h2⟩ := kasdin_simulated_any s (by omega) hq.le h0 Z hZ
  have hk : KasdinType s.b := by unfold KasdinType; tauto
  have hpi := Real.pi_gt_three
  have hpi' := Real.pi_gt_d2
  have hpi2 := Real.pi_lt_d4
  have hl2 := Real.log_two_lt_d9
  have hl2' := Real.log_two_gt_d9
  have hl3 := log_three_lt
  have hfn := frequency_psd_nonneg s tau0 hq.le h0
  have hnn : 0 ≤ avarCoeff s.b tau0 tau0 * s.frequency_psd_from_qd tau0 :=
    mul_nonneg (avarCoeff_pos_fpm s.b tau0 tau0 h0 le_rfl).le hfn
  have hd := kasdin_adev_eq s tau0 tau0 hk h0
  rw [if_neg (not_lt.2 hnn)] at hd
  refine ⟨X, _, _, h1, hd, h2, ?_⟩
  have hnr : (0 : ℝ) < (s.nr : ℝ) - 2 * (1 : ℕ) := by
    have : (4 : ℝ) ≤ s.nr := by exact_mod_cast hn
    push_cast; linarith
  -- the first three terms of each inner sum
  have hlow : ((s.nr : ℝ) - 2 * (1 : ℕ)) * (kasdinD s.b 1 0 ^ 2 + kasdinD s.b 1 1 ^ 2 + kasdinD s.b 1 2 ^ 2)
      ≤ ∑ i ∈ range (s.nr - 2 * 1), ∑ j ∈ range (i + 2 * 1 + 1), kasdinD s.b 1 j ^ 2 := by
    have h3 : ∀ i ∈ range (s.nr - 2 * 1), kasdinD s.b 1 0 ^ 2 + kasdinD s.b 1 1 ^ 2 + kasdinD s.b 1 2 ^ 2
        ≤ ∑ j ∈ range (i + 2 * 1 + 1), kasdinD s.b 1 j ^ 2 := by
      intro i _
      have : ∑ j ∈ range 3, kasdinD s.b 1 j ^ 2 ≤ ∑ j ∈ range (i + 2 * 1 + 1), kasdinD s.b 1 j ^ 2 :=
        sum_le_sum_of_subset_of_nonneg (range_mono (by omega)) (fun j _ _ => sq_nonneg _)
      simpa [sum_range_succ] using this
    have h4 := sum_le_sum h3
    rw [sum_const, card_range, nsmul_eq_mul, Nat.cast_sub (by omega)] at h4
    push_cast at h4 ⊢
    rw [mul_one]
    exact h4
  have hv : s.qd * (kasdinD s.b 1 0 ^ 2 + kasdinD s.b 1 1 ^ 2 + kasdinD s.b 1 2 ^ 2) / (2 * tau0 ^ 2)
      ≤ s.qd * (∑ i ∈ range (s.nr - 2 * 1), ∑ j ∈ range (i + 2 * 1 + 1), kasdinD s.b 1 j ^ 2)
          / (2 * ((1 : ℕ) * tau0) ^ 2 * (s.nr - 2 * (1 : ℕ))) := by
    rw [div_le_div_iff₀ (by positivity) (by push_cast at hnr ⊢; positivity)]
    have := mul_le_mul_of_nonneg_left hlow (show 0 ≤ s.qd * (2 * tau0 ^ 2) by positivity)
    push_cast at this ⊢
    linarith
  refine lt_of_lt_of_le ?_ hv
  rw [mul_pow, Real.sq_sqrt hnn, ← Real.rpow_natCast, ← Real.rpow_mul h0.le]
  unfold Noise.frequency_psd_from_qd avarCoeff avarExp kasdinD kasdinH
  rcases hb with hb | hb
  · have hlpi : Real.log Real.pi < 1.147 := by
      have h5 : Real.log Real.pi = Real.log 3 + Real.log (Real.pi / 3) := by
        rw [← Real.log_mul (by norm_num) (by positivity)]; congr 1; field_simp
      have h6 := Real.log_le_sub_one_of_pos (show 0 < Real.pi / 3 by positivity)
      rw [h5]; norm_num at *; linarith
    rw [hb]
    norm_num [prod_range_succ]
    rw [mul_div_assoc, div_self h0.ne', mul_one]
    set L : ℝ := 173164699470459858181953627 / 100000000000000000000000000 - Real.log 2 + 3 * Real.log Real.pi with hL
    have hLb : L < 4.48 := by rw [hL]; norm_num at *; linarith
    have e : 11 / 10 * (L / (4 * Real.pi ^ 2) * (s.qd * 2 * (2 * Real.pi)) * (tau0 ^ 2)⁻¹)
        = (11 / 10 * L / Real.pi) * (s.qd / tau0 ^ 2) := by field_simp; norm_num
    have e2 : s.qd * (217 / 64) / (2 * tau0 ^ 2) = 217 / 128 * (s.qd / tau0 ^ 2) := by field_simp; norm_num
    rw [e, e2]
    refine mul_lt_mul_of_pos_right ?_ (by positivity)
    rw [div_lt_iff₀ (by positivity)]
    norm_num at *
    linarith
  · rw [hb]
    norm_num [prod_range_succ]
    rw [Real.rpow_neg_one]
    have e : 11 / 10 * (2 * Real.log 2 * (s.qd * 2 * (2 * Real.pi)⁻¹ * (tau0 ^ 2)⁻¹))
        = (11 / 5 * Real.log 2 / Real.pi) * (s.qd / tau0 ^ 2) := by field_simp; norm_num
    have e2 : s.qd * (81 / 64) / (2 * tau0 ^ 2) = 81 / 128 * (s.qd / tau0 ^ 2) := by field_simp; norm_num
    rw [e, e2]
    refine mul_lt_mul_of_pos_right ?_ (by positivity)
    rw [div_lt_iff₀ (by positivity)]
    norm_num at *
    linarith

example := kasdin_simulated_flicker_wrong (Noise.init 100 2 (-3)) (by norm_num [Noise.init])
  (by norm_num [Noise.init]) (by norm_num [Noise.init]) (tau0 := 1 / 10) (by norm_num)
  (fun i (ω : ℕ → ℝ) => ω i) (white_gauss 100)

end AT
