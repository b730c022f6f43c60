import Verif.Lemmas.Stoch
import Mathlib.Probability.Distributions.Gaussian.Real
import Mathlib.Probability.Independence.InfinitePi

/-!
# C70: expected squares of the deviations of white noise
-/

namespace AT

open Spec Finset MeasureTheory ProbabilityTheory

variable {Ω : Type} [MeasurableSpace Ω] {P : Measure Ω} [IsProbabilityMeasure P]

/-! ## Differences of white phase noise -/

theorem mul_add_inj {m : ℕ} (hm : 0 < m) (i : ℕ) (S : Set ℕ) : Set.InjOn (fun k => i + k * m) S := by
  intro a _ b _ h
  simp only [add_right_inj] at h
  exact Nat.eq_of_mul_eq_mul_right hm h

theorem d2_white {W : ℕ → Ω → ℝ} {N : ℕ} {c s2 : ℝ} (h : White P W N c s2) {m i : ℕ} (hm : 0 < m)
    (hi : i + 2 * m < N) : MeanSq P (fun ω => d2 (fun i => W i ω) m i) (6 * s2) := by
  have h1 := h.meanSq_sum (range 3) (fun k => i + k * m) (fun k => if k = 1 then -2 else 1)
    (mul_add_inj hm i _) (fun k hk => by
      have : k ≤ 2 := by rw [mem_range] at hk; omega
      have := Nat.mul_le_mul_right m this
      omega)
  have hv : s2 * ∑ k ∈ range 3, (if k = 1 then (-2 : ℝ) else 1) ^ 2
      + c ^ 2 * (∑ k ∈ range 3, (if k = 1 then (-2 : ℝ) else 1)) ^ 2 = 6 * s2 := by
    simp [sum_range_succ]; ring
  rw [hv] at h1
  refine meanSq_congr (fun ω => ?_) h1
  congr 1
  simp [sum_range_succ, d2]
  ring

theorem d3_white {W : ℕ → Ω → ℝ} {N : ℕ} {c s2 : ℝ} (h : White P W N c s2) {m i : ℕ} (hm : 0 < m)
    (hi : i + 3 * m < N) : MeanSq P (fun ω => d3 (fun i => W i ω) m i) (20 * s2) := by
  have h1 := h.meanSq_sum (range 4) (fun k => i + k * m)
    (fun k => if k = 0 then -1 else if k = 1 then 3 else if k = 2 then -3 else 1)
    (mul_add_inj hm i _) (fun k hk => by
      have : k ≤ 3 := by rw [mem_range] at hk; omega
      have := Nat.mul_le_mul_right m this
      omega)
  have hv : s2 * ∑ k ∈ range 4, (if k = 0 then (-1 : ℝ) else if k = 1 then 3 else if k = 2 then -3 else 1) ^ 2
      + c ^ 2 * (∑ k ∈ range 4, (if k = 0 then (-1 : ℝ) else if k = 1 then 3 else if k = 2 then -3 else 1)) ^ 2
      = 20 * s2 := by
    simp [sum_range_succ]; ring
  rw [hv] at h1
  refine meanSq_congr (fun ω => ?_) h1
  congr 1
  simp [sum_range_succ, d3]
  ring

omit [IsProbabilityMeasure P] in
/-- every `m`-th sample of white noise is white noise -/
theorem Spec.White.decimate {W : ℕ → Ω → ℝ} {N : ℕ} {c s2 : ℝ} (h : White P W N c s2) {m : ℕ} (hm : 0 < m)
    (hN : 0 < N) : White P (fun k => W (k * m)) (decimated N m) c s2 where
  memLp := fun i hi => h.memLp _ (decimated_lt hm hN hi)
  mean := fun i hi => h.mean _ (decimated_lt hm hN hi)
  cov := fun i hi j hj => by
    rw [h.cov _ (decimated_lt hm hN hi) _ (decimated_lt hm hN hj)]
    have : i * m = j * m ↔ i = j := ⟨fun e => Nat.eq_of_mul_eq_mul_right hm e, fun e => by rw [e]⟩
    simp only [this]

/-- indices of `q` blocks of `m` samples that start `w` samples apart -/
theorem block_inj {q m w : ℕ} (hw : m ≤ w) (j : ℕ) :
    Set.InjOn (fun p : ℕ × ℕ => j + p.1 * w + p.2) (range q ×ˢ range m : Finset (ℕ × ℕ)) := by
  rintro ⟨a, b⟩ h1 ⟨a', b'⟩ h2 h
  simp only [coe_product, Set.mem_prod, mem_coe, mem_range] at h1 h2
  simp only at h
  have hm : 0 < w := by omega
  have e1 : (a * w + b) / w = a := by
    rw [mul_comm, Nat.mul_add_div hm, Nat.div_eq_of_lt (by omega), add_zero]
  have e2 : (a' * w + b') / w = a' := by
    rw [mul_comm, Nat.mul_add_div hm, Nat.div_eq_of_lt (by omega), add_zero]
  have e : a * w + b = a' * w + b' := by omega
  have ha : a = a' := by rw [← e1, ← e2, e]
  subst ha
  have : b = b' := by omega
  rw [this]

/-- the mean square of a weighted sum over blocks -/
theorem blocks_white {W : ℕ → Ω → ℝ} {N : ℕ} {c s2 : ℝ} (h : White P W N c s2) {m w j : ℕ}
    (hw : m ≤ w) (q : ℕ) (a : ℕ → ℕ → ℝ)
    (hj : ∀ b < q, ∀ k < m, a b k ≠ 0 → j + b * w + k < N) :
    MeanSq P (fun ω => ∑ b ∈ range q, ∑ k ∈ range m, a b k * W (j + b * w + k) ω)
      (s2 * ∑ b ∈ range q, ∑ k ∈ range m, a b k ^ 2
        + c ^ 2 * (∑ b ∈ range q, ∑ k ∈ range m, a b k) ^ 2) := by
  have h1 := h.meanSq_sum' (range q ×ˢ range m) (fun p => j + p.1 * w + p.2) (fun p => a p.1 p.2)
    (block_inj hw j) (fun p hp ha => by
      rw [mem_product, mem_range, mem_range] at hp
      exact hj p.1 hp.1 p.2 hp.2 ha)
  simp only [sum_product] at h1
  exact h1

theorem block_lt {j w m q N b k : ℕ} (hj : j + (q - 1) * w + m ≤ N) (hb : b < q) (hk : k < m) :
    j + b * w + k < N := by
  have : b * w ≤ (q - 1) * w := Nat.mul_le_mul_right w (by omega)
  omega

theorem mdev_white {W : ℕ → Ω → ℝ} {N : ℕ} {c s2 : ℝ} (h : White P W N c s2) {m j : ℕ}
    (hj : j + 3 * m ≤ N) :
    MeanSq P (fun ω => ∑ i ∈ range m, d2 (fun i => W i ω) m (j + i)) (6 * m * s2) := by
  have h1 := blocks_white h (le_refl m) (j := j) 3 (fun b _ => if b = 1 then -2 else 1)
    (fun b hb k hk _ => block_lt (show j + (3 - 1) * m + m ≤ N by omega) hb hk)
  have hv : s2 * ∑ b ∈ range 3, ∑ _k ∈ range m, (if b = 1 then (-2 : ℝ) else 1) ^ 2
      + c ^ 2 * (∑ b ∈ range 3, ∑ _k ∈ range m, (if b = 1 then (-2 : ℝ) else 1)) ^ 2 = 6 * m * s2 := by
    simp [sum_range_succ]; ring
  rw [hv] at h1
  refine meanSq_congr (fun ω => ?_) h1
  congr 1
  simp only [sum_range_succ, sum_range_zero, d2]
  rw [zero_add, ← sum_add_distrib, ← sum_add_distrib]
  apply sum_congr rfl
  intro k _
  have e1 : j + k + 2 * m = j + 2 * m + k := by ring
  have e2 : j + k + m = j + 1 * m + k := by ring
  rw [e1, e2]
  simp
  ring

theorem tierms_white {W : ℕ → Ω → ℝ} {N : ℕ} {c s2 : ℝ} (h : White P W N c s2) {m i : ℕ} (hm : 0 < m)
    (hi : i + m < N) : MeanSq P (fun ω => W (i + m) ω - W i ω) (2 * s2) := by
  have h1 := h.meanSq_sum (range 2) (fun k => i + k * m) (fun k => if k = 0 then -1 else 1)
    (mul_add_inj hm i _) (fun k hk => by
      have : k ≤ 1 := by rw [mem_range] at hk; omega
      have := Nat.mul_le_mul_right m this
      omega)
  have hv : s2 * ∑ k ∈ range 2, (if k = 0 then (-1 : ℝ) else 1) ^ 2
      + c ^ 2 * (∑ k ∈ range 2, (if k = 0 then (-1 : ℝ) else 1)) ^ 2 = 2 * s2 := by
    simp [sum_range_succ]; ring
  rw [hv] at h1
  refine meanSq_congr (fun ω => ?_) h1
  congr 1
  simp [sum_range_succ]
  ring

theorem sum_centred (m : ℕ) : ∑ k ∈ range m, (((m : ℝ) - 1) / 2 - k) = 0 := by
  rw [sum_sub_distrib, sum_const, card_range, nsmul_eq_mul]
  have : ∀ n : ℕ, ∑ k ∈ range n, (k : ℝ) = n * (n - 1) / 2 := by
    intro n
    induction n with
    | zero => simp
    | succ n ih => rw [sum_range_succ, ih]; push_cast; ring
  rw [this]; ring

theorem sum_centred_sq (m : ℕ) :
    ∑ k ∈ range m, (((m : ℝ) - 1) / 2 - k) ^ 2 = (m : ℝ) * ((m : ℝ) ^ 2 - 1) / 12 := by
  have h : ∀ (a : ℝ) (n : ℕ), ∑ k ∈ range n, (a - k) ^ 2
      = n * a ^ 2 - a * (n * (n - 1)) + n * (n - 1) * (2 * n - 1) / 6 := by
    intro a n
    induction n with
    | zero => simp
    | succ n ih => rw [sum_range_succ, ih]; push_cast; ring
  rw [h]; ring

theorem pdev_white {W : ℕ → Ω → ℝ} {N : ℕ} {c s2 : ℝ} (h : White P W N c s2) {m i : ℕ}
    (hi : i + 2 * m ≤ N) :
    MeanSq P (fun ω => ∑ k ∈ range m, (((m : ℝ) - 1) / 2 - (k : ℝ)) * (W (i + k) ω - W (i + m + k) ω))
      (m * (m ^ 2 - 1) / 6 * s2) := by
  have h1 := blocks_white h (le_refl m) (j := i) 2
    (fun b k => (if b = 0 then 1 else -1) * (((m : ℝ) - 1) / 2 - k))
    (fun b hb k hk _ => block_lt (show i + (2 - 1) * m + m ≤ N by omega) hb hk)
  have hv : s2 * ∑ b ∈ range 2, ∑ k ∈ range m, ((if b = 0 then (1 : ℝ) else -1) * (((m : ℝ) - 1) / 2 - k)) ^ 2
      + c ^ 2 * (∑ b ∈ range 2, ∑ k ∈ range m, (if b = 0 then (1 : ℝ) else -1) * (((m : ℝ) - 1) / 2 - k)) ^ 2
      = m * (m ^ 2 - 1) / 6 * s2 := by
    simp only [mul_pow, ← mul_sum, sum_centred, sum_centred_sq, sum_range_succ, sum_range_zero]
    simp
    ring
  rw [hv] at h1
  refine meanSq_congr (fun ω => ?_) h1
  congr 1
  simp only [sum_range_succ, sum_range_zero]
  rw [zero_add, ← sum_add_distrib]
  apply sum_congr rfl
  intro k _
  simp
  ring

/-- the two samples of a THEO1 term coincide in the middle for `d = 0` -/
theorem theo1_white {W : ℕ → Ω → ℝ} {N : ℕ} {c s2 : ℝ} (h : White P W N c s2) {m i d : ℕ}
    (he : Even m) (hi : i + m < N) (hd : d < m / 2) :
    MeanSq P (fun ω => (W i ω - W (i + m / 2 - d) ω) + (W (i + m) ω - W (i + m / 2 + d) ω))
      ((if d = 0 then 6 else 4) * s2) := by
  obtain ⟨p, rfl⟩ := he
  have hp : (p + p) / 2 = p := by omega
  rw [hp] at hd ⊢
  by_cases hd0 : d = 0
  · subst hd0
    rw [if_pos rfl]
    refine meanSq_congr (fun ω => ?_) (d2_white h (m := p) (i := i) (by omega) (by omega))
    simp only [d2, Nat.sub_zero, add_zero]
    rw [show i + (p + p) = i + 2 * p by ring]
    ring
  · rw [if_neg hd0]
    have h1 := h.meanSq_sum (range 4)
      (fun k => if k = 0 then i else if k = 1 then i + p - d else if k = 2 then i + p + d else i + (p + p))
      (fun k => if k = 0 ∨ k = 3 then 1 else -1)
      (by
        intro a ha b hb hab
        rw [mem_coe, mem_range] at ha hb
        interval_cases a <;> interval_cases b <;>
          first | rfl | (exfalso; norm_num at hab; done) | (exfalso; norm_num at hab; omega))
      (fun k hk => by
        rw [mem_range] at hk
        interval_cases k <;> simp <;> omega)
    have hv : s2 * ∑ k ∈ range 4, (if k = 0 ∨ k = 3 then (1 : ℝ) else -1) ^ 2
        + c ^ 2 * (∑ k ∈ range 4, (if k = 0 ∨ k = 3 then (1 : ℝ) else -1)) ^ 2 = 4 * s2 := by
      simp [sum_range_succ]; ring
    rw [hv] at h1
    refine meanSq_congr (fun ω => ?_) h1
    congr 1
    simp [sum_range_succ]
    ring

/-! ## White phase noise -/

omit [IsProbabilityMeasure P] in
/-- `n` terms of the mean square `v`, normalised by `norm = n k` -/
theorem meanSq_rms' {n : ℕ} {f : ℕ → Ω → ℝ} {norm v k : ℝ} (hn : 0 < n) (hk : 0 < k)
    (hnorm : norm = k * n) (hf : ∀ i < n, MeanSq P (f i) v) :
    MeanSq P (fun ω => rms n (fun i => f i ω) norm) (v / k) := by
  have hn' : (0 : ℝ) < n := by exact_mod_cast hn
  have h1 := meanSq_rms (P := P) (n := n) (f := f) (norm := norm) (v := v) (by rw [hnorm]; positivity) hf
  have e : (n : ℝ) * v / norm = v / k := by rw [hnorm]; field_simp
  rwa [e] at h1

omit [IsProbabilityMeasure P] in
theorem meanSq_theo1 {n q : ℕ} {f : ℕ → ℕ → Ω → ℝ} {v : ℕ → ℝ} {norm k : ℝ} (hn : 0 < n) (hk : 0 < k)
    (hnorm : norm = k * n) (hf : ∀ i < n, ∀ d < q, MeanSq P (f i d) (v d)) :
    MeanSq P (fun ω => √((∑ i ∈ range n, ∑ d ∈ range q, f i d ω ^ 2 / ((q : ℝ) - d)) / norm))
      ((∑ d ∈ range q, v d / ((q : ℝ) - d)) / k) := by
  have hn' : (0 : ℝ) < n := by exact_mod_cast hn
  have hq : ∀ d ∈ range q, (0 : ℝ) ≤ (q : ℝ) - d := by
    intro d hd
    have : (d : ℝ) < q := by exact_mod_cast mem_range.1 hd
    linarith
  have he : ∀ ω, √((∑ i ∈ range n, ∑ d ∈ range q, f i d ω ^ 2 / ((q : ℝ) - d)) / norm) ^ 2
      = (∑ i ∈ range n, ∑ d ∈ range q, f i d ω ^ 2 / ((q : ℝ) - d)) / norm := by
    intro ω
    rw [Real.sq_sqrt]
    refine div_nonneg (sum_nonneg (fun i _ => sum_nonneg (fun d hd => ?_))) ?_
    · exact div_nonneg (sq_nonneg _) (hq d hd)
    · rw [hnorm]; positivity
  have hI : ∀ i ∈ range n, ∀ d ∈ range q, Integrable (fun ω => f i d ω ^ 2 / ((q : ℝ) - d)) P :=
    fun i hi d hd => (hf i (mem_range.1 hi) d (mem_range.1 hd)).1.div_const _
  unfold MeanSq
  simp only [he]
  refine ⟨(integrable_finsetSum _ (fun i hi => integrable_finsetSum _ (fun d hd => hI i hi d hd))).div_const _, ?_⟩
  rw [integral_div, integral_finsetSum _ (fun i hi => integrable_finsetSum _ (fun d hd => hI i hi d hd))]
  have h1 : ∀ i ∈ range n, ∫ ω, ∑ d ∈ range q, f i d ω ^ 2 / ((q : ℝ) - d) ∂P
      = ∑ d ∈ range q, v d / ((q : ℝ) - d) := by
    intro i hi
    rw [integral_finsetSum _ (fun d hd => hI i hi d hd)]
    refine sum_congr rfl (fun d hd => ?_)
    rw [integral_div, (hf i (mem_range.1 hi) d (mem_range.1 hd)).2]
  rw [sum_congr rfl h1, sum_const, card_range, nsmul_eq_mul, hnorm]
  field_simp

/-- `Σ_{d<q} (if d = 0 then 6 else 4) / (q - d) = 4 H_q + 2/q` -/
theorem theo1_harmonic (q : ℕ) (hq : 0 < q) (s2 : ℝ) :
    ∑ d ∈ range q, (if d = 0 then 6 else 4) * s2 / ((q : ℝ) - d)
      = 4 * s2 * (∑ k ∈ range q, 1 / ((k : ℝ) + 1) + 1 / (2 * q)) := by
  have hq' : (0 : ℝ) < q := by exact_mod_cast hq
  have h1 : ∑ d ∈ range q, (if d = 0 then 6 else 4) * s2 / ((q : ℝ) - d)
      = ∑ d ∈ range q, (4 * s2 * (1 / ((q : ℝ) - d)) + if d = 0 then 2 * s2 / q else 0) := by
    refine sum_congr rfl (fun d _ => ?_)
    by_cases hd : d = 0
    · subst hd; simp; ring
    · simp [hd]; ring
  have h2 : ∑ d ∈ range q, 1 / ((q : ℝ) - d) = ∑ k ∈ range q, 1 / ((k : ℝ) + 1) := by
    rw [← sum_range_reflect]
    refine sum_congr rfl (fun d hd => ?_)
    have := mem_range.1 hd
    rw [Nat.cast_sub (by omega), Nat.cast_sub (by omega)]
    congr 1
    push_cast; ring
  rw [h1, sum_add_distrib, ← mul_sum, h2, sum_ite_eq' (range q), if_pos (mem_range.2 hq)]
  field_simp
  ring

section phase

variable {W : ℕ → Ω → ℝ} {N : ℕ} {c s2 : ℝ} (h : White P W N c s2) {rate : ℝ} (hr : 0 < rate)

include h hr

theorem oadev_value_white (m : ℕ) (hu : Usable .oadev N m) :
    MeanSq P (fun ω => value .oadev (fun i => W i ω) N rate m) (3 * s2 / (m / rate) ^ 2) := by
  obtain ⟨hm, -, -, -, hc⟩ := hu
  have hc' : 1 < (N : ℤ) - 2 * m := hc
  have hm' : (0 : ℝ) < m := by exact_mod_cast hm
  have h1 := meanSq_rms' (P := P) (n := N - 2 * m) (f := fun i ω => d2 (fun i => W i ω) m i)
    (norm := 2 * (m / rate) ^ 2 * (N - 2 * m)) (v := 6 * s2) (k := 2 * (m / rate) ^ 2) (by omega)
    (by positivity) (by rw [Nat.cast_sub (by omega)]; push_cast; ring) (fun i hi => d2_white h hm (by omega))
  have e : 6 * s2 / (2 * (m / rate) ^ 2) = 3 * s2 / ((m : ℝ) / rate) ^ 2 := by field_simp; ring
  rw [e] at h1
  exact h1

theorem adev_value_white (m : ℕ) (hu : Usable .adev N m) :
    MeanSq P (fun ω => value .adev (fun i => W i ω) N rate m) (3 * s2 / (m / rate) ^ 2) := by
  have hN := hu.pos
  obtain ⟨hm, -, -, -, hc⟩ := hu
  have hc' : 1 < (decimated N m : ℤ) - 2 := hc
  have hm' : (0 : ℝ) < m := by exact_mod_cast hm
  have h1 := meanSq_rms' (P := P) (n := decimated N m - 2) (f := fun i ω => d2 (fun k => W (k * m) ω) 1 i)
    (norm := 2 * (m / rate) ^ 2 * (decimated N m - 2)) (v := 6 * s2) (k := 2 * (m / rate) ^ 2) (by omega)
    (by positivity) (by rw [Nat.cast_sub (by omega)]; push_cast; ring)
    (fun i hi => d2_white (h.decimate hm hN) one_pos (by omega))
  have e : 6 * s2 / (2 * (m / rate) ^ 2) = 3 * s2 / ((m : ℝ) / rate) ^ 2 := by field_simp; ring
  rw [e] at h1
  exact h1

theorem ohdev_value_white (m : ℕ) (hu : Usable .ohdev N m) :
    MeanSq P (fun ω => value .ohdev (fun i => W i ω) N rate m) (10 / 3 * s2 / (m / rate) ^ 2) := by
  obtain ⟨hm, -, -, -, hc⟩ := hu
  have hc' : 1 < (N : ℤ) - 3 * m := hc
  have hm' : (0 : ℝ) < m := by exact_mod_cast hm
  have h1 := meanSq_rms' (P := P) (n := N - 3 * m) (f := fun i ω => d3 (fun i => W i ω) m i)
    (norm := 6 * (m / rate) ^ 2 * (N - 3 * m)) (v := 20 * s2) (k := 6 * (m / rate) ^ 2) (by omega)
    (by positivity) (by rw [Nat.cast_sub (by omega)]; push_cast; ring) (fun i hi => d3_white h hm (by omega))
  have e : 20 * s2 / (6 * (m / rate) ^ 2) = 10 / 3 * s2 / ((m : ℝ) / rate) ^ 2 := by field_simp; ring
  rw [e] at h1
  exact h1

theorem hdev_value_white (m : ℕ) (hu : Usable .hdev N m) :
    MeanSq P (fun ω => value .hdev (fun i => W i ω) N rate m) (10 / 3 * s2 / (m / rate) ^ 2) := by
  have hN := hu.pos
  obtain ⟨hm, -, -, -, hc⟩ := hu
  have hc' : 1 < (decimated N m : ℤ) - 3 := hc
  have hm' : (0 : ℝ) < m := by exact_mod_cast hm
  have h1 := meanSq_rms' (P := P) (n := decimated N m - 3) (f := fun i ω => d3 (fun k => W (k * m) ω) 1 i)
    (norm := 6 * (m / rate) ^ 2 * (decimated N m - 3)) (v := 20 * s2) (k := 6 * (m / rate) ^ 2) (by omega)
    (by positivity) (by rw [Nat.cast_sub (by omega)]; push_cast; ring)
    (fun i hi => d3_white (h.decimate hm hN) one_pos (by omega))
  have e : 20 * s2 / (6 * (m / rate) ^ 2) = 10 / 3 * s2 / ((m : ℝ) / rate) ^ 2 := by field_simp; ring
  rw [e] at h1
  exact h1

theorem mdev_value_white (m : ℕ) (hm : 0 < m) (hc : 1 < (N : ℤ) - 3 * m + 1) :
    MeanSq P (fun ω => Spec.mdev (fun i => W i ω) N m (m / rate)) (3 * s2 / (m * (m / rate) ^ 2)) := by
  have hm' : (0 : ℝ) < m := by exact_mod_cast hm
  have h1 := meanSq_rms' (P := P) (n := N - 3 * m + 1)
    (f := fun j ω => ∑ i ∈ range m, d2 (fun i => W i ω) m (j + i))
    (norm := 2 * m ^ 2 * (m / rate) ^ 2 * (N - 3 * m + 1)) (v := 6 * m * s2) (k := 2 * m ^ 2 * (m / rate) ^ 2)
    (by omega) (by positivity) (by push_cast [Nat.cast_sub (show 3 * m ≤ N by omega)]; ring)
    (fun i hi => mdev_white h (by omega))
  have e : 6 * m * s2 / (2 * m ^ 2 * (m / rate) ^ 2) = 3 * s2 / (m * ((m : ℝ) / rate) ^ 2) := by
    field_simp; ring
  rw [e] at h1
  exact h1

omit hr in
theorem tierms_value_white (m : ℕ) (hu : Usable .tierms N m) :
    MeanSq P (fun ω => value .tierms (fun i => W i ω) N rate m) (2 * s2) := by
  obtain ⟨hm, -, -, -, hc⟩ := hu
  have hc' : 1 < (N : ℤ) - m := hc
  have h1 := meanSq_rms' (P := P) (n := N - m) (f := fun i ω => W (i + m) ω - W i ω)
    (norm := N - m) (v := 2 * s2) (k := 1) (by omega) one_pos (by rw [Nat.cast_sub (by omega)]; ring)
    (fun i hi => tierms_white h hm (by omega))
  rw [div_one] at h1
  exact h1

theorem pdev_value_white (m : ℕ) (hu : Usable .pdev N m) :
    MeanSq P (fun ω => value .pdev (fun i => W i ω) N rate m)
      (if m = 1 then 3 * s2 / (m / rate) ^ 2
        else 12 * (m ^ 2 - 1) / m ^ 3 * s2 / (m / rate) ^ 2) := by
  obtain ⟨hm, hl, hx, -, hc⟩ := hu
  have hc' : 1 < (N : ℤ) - 2 * m := hc
  by_cases h1 : m = 1
  · subst h1
    rw [if_pos rfl]
    refine meanSq_congr (fun ω => ?_) (oadev_value_white h hr 1 ⟨hm, hl, hx, by simp, hc⟩)
    simp [value, Spec.pdev]
  rw [if_neg h1]
  have hm' : (0 : ℝ) < m := by exact_mod_cast hm
  have h2 := meanSq_rms' (P := P) (n := N - 2 * m)
    (f := fun i ω => ∑ k ∈ range m, (((m : ℝ) - 1) / 2 - (k : ℝ)) * (W (i + k) ω - W (i + m + k) ω))
    (norm := (N - 2 * m) * (m : ℝ) ^ 4 * (m / rate) ^ 2 / 72) (v := m * (m ^ 2 - 1) / 6 * s2)
    (k := (m : ℝ) ^ 4 * (m / rate) ^ 2 / 72)
    (by omega) (by positivity) (by rw [Nat.cast_sub (by omega)]; push_cast; ring)
    (fun i hi => pdev_white h (by omega))
  have e : (m : ℝ) * (m ^ 2 - 1) / 6 * s2 / ((m : ℝ) ^ 4 * (m / rate) ^ 2 / 72)
      = 12 * (m ^ 2 - 1) / m ^ 3 * s2 / ((m : ℝ) / rate) ^ 2 := by field_simp; ring
  rw [e] at h2
  refine meanSq_congr (fun ω => ?_) h2
  simp only [value, Spec.pdev, if_neg h1, rms]
  congr 2
  rw [mul_comm (72 : ℝ), div_div_eq_mul_div]

theorem theo1_value_white (m : ℕ) (hu : Usable .theo1 N m) :
    MeanSq P (fun ω => value .theo1 (fun i => W i ω) N rate m)
      (16 / 3 * (∑ k ∈ range (m / 2), 1 / ((k : ℝ) + 1) + 1 / m) * s2 / (m / rate) ^ 2) := by
  obtain ⟨hm, hl, -, he, hc⟩ := hu
  have he := he rfl
  have hl' : m < N := hl
  have hm' : (0 : ℝ) < m := by exact_mod_cast hm
  have hq : 0 < m / 2 := by obtain ⟨p, rfl⟩ := he; omega
  have h1 := meanSq_theo1 (P := P) (n := N - m) (q := m / 2)
    (f := fun i d ω => (W i ω - W (i + m / 2 - d) ω) + (W (i + m) ω - W (i + m / 2 + d) ω))
    (norm := 3 / 4 * (N - m) * (m / rate) ^ 2) (v := fun d => (if d = 0 then 6 else 4) * s2)
    (k := 3 / 4 * (m / rate) ^ 2)
    (by omega) (by positivity) (by rw [Nat.cast_sub (by omega)]; ring)
    (fun i hi d hd => theo1_white h he (by omega) hd)
  rw [theo1_harmonic _ hq] at h1
  have hmq : (2 * ((m / 2 : ℕ) : ℝ)) = m := by
    obtain ⟨p, rfl⟩ := he
    have : (p + p) / 2 = p := by omega
    rw [this]; push_cast; ring
  have e : 4 * s2 * (∑ k ∈ range (m / 2), 1 / ((k : ℝ) + 1) + 1 / (2 * ((m / 2 : ℕ) : ℝ)))
      / (3 / 4 * (m / rate) ^ 2)
      = 16 / 3 * (∑ k ∈ range (m / 2), 1 / ((k : ℝ) + 1) + 1 / m) * s2 / (m / rate) ^ 2 := by
    rw [hmq]; field_simp; ring
  rw [e] at h1
  exact h1

end phase

end AT
