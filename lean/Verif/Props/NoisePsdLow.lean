import Verif.Props.NoisePsd

/-!
# C73: `scipy_psd` of brown and violet noise at the two lowest frequencies
-/

namespace AT

open Finset Real Spec MeasureTheory

variable {Ω : Type} [MeasurableSpace Ω] {P : Measure Ω} [IsProbabilityMeasure P]

theorem low_chars {n : ℕ} (hn : 3 ≤ n) :
    ((∀ i j, (n : ℤ) ∣ ![(1 : ℤ), -1] i - ![(1 : ℤ), -1] j → i = j) ∧ (∀ i, ¬ (n : ℤ) ∣ ![(1 : ℤ), -1] i) ∧
      ∀ j, segWeight n 0 j = ∑ i, ![(-1 / 4 : ℂ), -1 / 4] i * expRoot n (![(1 : ℤ), -1] i * j)) ∧
    ((∀ i j, (n : ℤ) ∣ ![(-1 : ℤ), -2] i - ![(-1 : ℤ), -2] j → i = j) ∧ (∀ i, ¬ (n : ℤ) ∣ ![(-1 : ℤ), -2] i) ∧
      ∀ j, segWeight n 1 j = ∑ i, ![(1 / 2 : ℂ), -1 / 4] i * expRoot n (![(-1 : ℤ), -2] i * j)) := by
  refine ⟨⟨?_, ?_, ?_⟩, ?_, ?_, ?_⟩
  · intro i j hd
    fin_cases i <;> fin_cases j <;> simp_all <;>
      exact absurd hd (not_dvd (by norm_num) (by norm_num; omega))
  · intro i
    fin_cases i <;> exact not_dvd (by simp) (by rw [abs_lt]; simp; omega)
  · intro j
    rw [segWeight_zero n hn, Fin.sum_univ_two]
    rfl
  · intro i j hd
    fin_cases i <;> fin_cases j <;> simp_all <;>
      exact absurd hd (not_dvd (by norm_num) (by norm_num; omega))
  · intro i
    fin_cases i <;> exact not_dvd (by simp) (by rw [abs_lt]; simp; omega)
  · intro j
    rw [segWeight_one n hn, Fin.sum_univ_two]
    rfl

theorem low_sum {n k : ℕ} (hn : 3 ≤ n) (hk : k < 2) : ∑ j ∈ range n, segWeight n k j = 0 := by
  obtain ⟨⟨-, a2, a3⟩, -, b2, b3⟩ := low_chars hn
  obtain rfl | rfl : k = 0 ∨ k = 1 := by omega
  · simp only [a3]
    rw [sum_comm]
    refine sum_eq_zero fun i _ => ?_
    rw [← mul_sum, sum_expRoot n (by omega), if_neg (a2 i), mul_zero]
  · simp only [b3]
    rw [sum_comm]
    refine sum_eq_zero fun i _ => ?_
    rw [← mul_sum, sum_expRoot n (by omega), if_neg (b2 i), mul_zero]

theorem sin2_int (n k : ℕ) : sin2 n k = sin (π * ((k : ℤ) : ℝ) / n) ^ 2 := by unfold sin2; push_cast; rfl

theorem ctg_int (n k : ℕ) : ctg n k = cos (π * ((k : ℤ) : ℝ) / n) / sin (π * ((k : ℤ) : ℝ) / n) := by
  unfold ctg; push_cast; rfl

theorem norm_div_sq (z w : ℂ) : ‖z * w⁻¹‖ ^ 2 = ‖z‖ ^ 2 / ‖w‖ ^ 2 := by
  rw [norm_mul, norm_inv, mul_pow, inv_pow, div_eq_mul_inv]

theorem norm_one_sub_pos (n : ℕ) (k : ℕ) : ‖1 - expRoot n k‖ ^ 2 = 4 * sin2 n k := by
  have h := norm_one_sub_expRoot n (-(k : ℤ))
  rw [neg_neg] at h
  rw [h, sin2_int]
  congr 1
  push_cast
  rw [show π * -(k : ℝ) / n = -(π * k / n) by ring, sin_neg, neg_sq]

theorem norm_one_sub_neg (n : ℕ) (k : ℕ) : ‖1 - expRoot n (-(k : ℤ))‖ ^ 2 = 4 * sin2 n k := by
  rw [norm_one_sub_expRoot, sin2_int]

theorem inv_one_sub_neg {n k : ℕ} (h0 : 0 < k) (h : k < n) :
    (1 - expRoot n (-(k : ℤ)))⁻¹ = ⟨1 / 2, -ctg n k / 2⟩ := by
  rw [inv_one_sub_expRoot n k (sin_ne (by omega) (by omega)).ne', ctg_int]

theorem inv_one_sub_pos {n k : ℕ} (h0 : 0 < k) (h : k < n) :
    (1 - expRoot n (k : ℤ))⁻¹ = ⟨1 / 2, ctg n k / 2⟩ := by
  have e : (1 - expRoot n (k : ℤ))⁻¹ = (starRingEnd ℂ) ((1 - expRoot n (-(k : ℤ)))⁻¹) := by
    rw [map_inv₀, map_sub, map_one, expRoot_conj, neg_neg]
  rw [e, inv_one_sub_neg h0 h]
  apply Complex.ext
  · simp
  · simp
    ring

theorem tails_zero {n : ℕ} (hn : 3 ≤ n) : ∑ l ∈ range n, ‖∑ j ∈ range l, segWeight n 0 j‖ ^ 2 =
    n / 32 * (2 + 1 / sin2 n 1) := by
  obtain ⟨⟨h1, h2, h3⟩, -⟩ := low_chars hn
  simp only [h3]
  rw [tails_sq n (by omega) ![(-1 / 4 : ℂ), -1 / 4] ![1, -1] h1 h2, Fin.sum_univ_two, Fin.sum_univ_two]
  simp only [Matrix.cons_val_zero, Matrix.cons_val_one]
  have p := norm_one_sub_pos n 1
  have q := norm_one_sub_neg n 1
  have p' := inv_one_sub_pos (n := n) (k := 1) (by omega) (by omega)
  have q' := inv_one_sub_neg (n := n) (k := 1) (by omega) (by omega)
  rw [Nat.cast_one] at p q p' q'
  rw [norm_div_sq, norm_div_sq, p, q, p', q']
  have es : (-1 / 4 : ℂ) * (⟨1 / 2, ctg n 1 / 2⟩ : ℂ) + -1 / 4 * (⟨1 / 2, -ctg n 1 / 2⟩ : ℂ) = ((-1 / 4 : ℝ) : ℂ) := by
    apply Complex.ext
    · simp
      norm_num
    · simp
      ring
  rw [es, Complex.norm_real, norm_eq_abs, sq_abs]
  norm_num
  ring

theorem tails_one {n : ℕ} (hn : 3 ≤ n) : ∑ l ∈ range n, ‖∑ j ∈ range l, segWeight n 1 j‖ ^ 2 =
    n / 64 * (1 + 4 / sin2 n 1 + 1 / sin2 n 2 + (2 * ctg n 1 - ctg n 2) ^ 2) := by
  obtain ⟨-, h1, h2, h3⟩ := low_chars hn
  simp only [h3]
  rw [tails_sq n (by omega) ![(1 / 2 : ℂ), -1 / 4] ![-1, -2] h1 h2, Fin.sum_univ_two, Fin.sum_univ_two]
  simp only [Matrix.cons_val_zero, Matrix.cons_val_one]
  have p := norm_one_sub_neg n 1
  have q := norm_one_sub_neg n 2
  have p' := inv_one_sub_neg (n := n) (k := 1) (by omega) (by omega)
  have q' := inv_one_sub_neg (n := n) (k := 2) (by omega) (by omega)
  rw [Nat.cast_one] at p p'
  rw [Nat.cast_ofNat] at q q'
  rw [norm_div_sq, norm_div_sq, p, q, p', q']
  have es : (1 / 2 : ℂ) * (⟨1 / 2, -ctg n 1 / 2⟩ : ℂ) + -1 / 4 * (⟨1 / 2, -ctg n 2 / 2⟩ : ℂ)
      = (⟨1 / 8, -(2 * ctg n 1 - ctg n 2) / 8⟩ : ℂ) := by
    apply Complex.ext
    · simp
      norm_num
    · simp
      ring
  rw [es, Complex.sq_norm, Complex.normSq_mk]
  norm_num
  ring

/-- C73: `scipy_psd` of brown noise at the frequencies 0 and `fs/n` -/
theorem brown_scipy_low (Z : ℕ → Ω → ℝ) (n r : ℕ) (hr : 0 < r) (hn : 3 ≤ n / r) (hZ : White P Z n 0 1)
    {b fs : ℝ} (hb : 0 ≤ b) (hf : 0 < fs) :
    ExpectsPsd P (fun ω => brown (fun i => Z i ω) n b fs) (fun x => scipy_psd x fs r) (n / r / 2 + 1)
      (fun k => k * fs / (n / r : ℕ)) (fun k => k < 2)
      (fun k => π ^ 2 * b / (6 * fs ^ 2) * (if k = 0 then 2 + 1 / sin2 (n / r) 1
        else 1 + 4 / sin2 (n / r) 1 + 1 / sin2 (n / r) 2 + (2 * ctg (n / r) 1 - ctg (n / r) 2) ^ 2)) := by
  have hW := hZ.const_mul (√b * (2 * π / √(2 * fs)))
  rw [mul_zero, mul_one, brown_step b fs hb hf] at hW
  refine expectsPsd_scipy hr hn hf (fun ω => brown_draws _ n b fs hb hf) fun k hk h0 s hs => ?_
  refine (hW.normSq_sum s (n / r) hs (fun l => -∑ j ∈ range l, segWeight (n / r) k j)).congr (fun ω => ?_) ?_
  · rw [seg_lin _ _ _ _ _ hs]
    congr 2
    exact brown_form _ (fun i => Z i ω) _ s (n / r) (low_sum hn h0)
  · have hn' : ((n / r : ℕ) : ℝ) ≠ 0 := by exact_mod_cast (by omega : n / r ≠ 0)
    simp only [norm_neg]
    obtain rfl | rfl : k = 0 ∨ k = 1 := by omega
    · rw [tails_zero hn]
      simp only [true_or, if_true]
      field_simp
      ring
    · rw [tails_one hn]
      have : ¬ 2 * 1 = n / r := by omega
      simp only [one_ne_zero, this, or_self, if_false]
      field_simp
      ring

/-- the squared differences of periodic weights that are cut off -/
theorem diffs_cut (n : ℕ) (hn : 0 < n) (w : ℕ → ℂ) (hw : w n = w 0) :
    ∑ l ∈ range (n + 1), ‖(if 0 < l then w (l - 1) else 0) - (if l < n then w l else 0)‖ ^ 2
      = ∑ l ∈ range n, ‖w l - w (l + 1)‖ ^ 2 + 2 * (w 0 * (starRingEnd ℂ) (w (n - 1))).re := by
  obtain ⟨m, rfl⟩ : ∃ m, n = m + 1 := ⟨n - 1, by omega⟩
  rw [sum_range_succ, sum_range_succ', sum_range_succ (fun l => ‖w l - w (l + 1)‖ ^ 2), hw]
  have e : ∀ l ∈ range m, ‖(if 0 < l + 1 then w (l + 1 - 1) else 0) - (if l + 1 < m + 1 then w (l + 1) else 0)‖ ^ 2
      = ‖w l - w (l + 1)‖ ^ 2 := by
    intro l hl
    rw [if_pos (by omega), if_pos (by have := mem_range.1 hl; omega), Nat.add_sub_cancel]
  rw [sum_congr rfl e]
  simp only [lt_irrefl, if_false, Nat.add_sub_cancel, Nat.succ_pos, if_true, zero_sub, sub_zero, norm_neg]
  have h := Complex.normSq_sub (w m) (w 0)
  simp only [Complex.sq_norm]
  rw [h]
  have : (w m * (starRingEnd ℂ) (w 0)).re = (w 0 * (starRingEnd ℂ) (w m)).re := by
    simp only [Complex.mul_re, Complex.conj_re, Complex.conj_im]
    ring
  rw [this]
  ring

theorem diffs_char (n : ℕ) (hn : 0 < n) {ι : Type} [Fintype ι] [DecidableEq ι] (c : ι → ℂ) (q : ι → ℤ)
    (hq : ∀ i j, (n : ℤ) ∣ q i - q j → i = j) (w : ℕ → ℂ) (h3 : ∀ j : ℕ, w j = ∑ i, c i * expRoot n (q i * j)) :
    w n = w 0 ∧ ∑ l ∈ range n, ‖w l - w (l + 1)‖ ^ 2 = n * ∑ i, ‖c i‖ ^ 2 * ‖1 - expRoot n (q i)‖ ^ 2 := by
  constructor
  · rw [h3, h3]
    refine sum_congr rfl fun i _ => ?_
    have := expRoot_period n (by omega) 0 (q i)
    rw [zero_add] at this
    rw [mul_comm (q i), this]
    simp
  · have e : ∀ l ∈ range n, ‖w l - w (l + 1)‖ ^ 2
        = ‖∑ i, (c i * (1 - expRoot n (q i))) * expRoot n (q i * l)‖ ^ 2 := by
      intro l _
      rw [h3, h3, ← sum_sub_distrib]
      congr 2
      refine sum_congr rfl fun i _ => ?_
      rw [Nat.cast_add, Nat.cast_one, mul_add, mul_one, expRoot_add]
      ring
    rw [sum_congr rfl e, char_parseval n (by omega) _ _ hq]
    simp only [norm_mul, mul_pow]

theorem cos_two (n : ℕ) (k : ℕ) : cos (2 * (π * ((k : ℤ) : ℝ) / n)) = 1 - 2 * sin2 n k := by
  rw [cos_two_mul, sin2_int, sin_sq]
  ring

theorem diffs_zero {n : ℕ} (hn : 3 ≤ n) :
    ∑ l ∈ range (n + 1), ‖(if 0 < l then segWeight n 0 (l - 1) else 0) - (if l < n then segWeight n 0 l else 0)‖ ^ 2
      = 1 / 2 * (n * sin2 n 1 + (1 - 2 * sin2 n 1)) := by
  obtain ⟨⟨h1, -, h3⟩, -⟩ := low_chars hn
  obtain ⟨hp, hd⟩ := diffs_char n (by omega) _ _ h1 _ h3
  rw [diffs_cut n (by omega) _ hp, hd, Fin.sum_univ_two]
  simp only [Matrix.cons_val_zero, Matrix.cons_val_one]
  have p := norm_one_sub_pos n 1
  have q := norm_one_sub_neg n 1
  rw [Nat.cast_one] at p q
  have hc := cos_two n 1
  have e : (segWeight n 0 (n - 1)).re = -1 / 2 * (1 - 2 * sin2 n 1) := by
    have e1 : ((n - 1 : ℕ) : ℤ) = n - 1 := by omega
    rw [segWeight_zero n hn, e1]
    have a1 : expRoot n (1 * ((n : ℤ) - 1)) = expRoot n (-1) := by
      have := expRoot_period n (by omega) (-1) 1
      rw [← this]; congr 1; ring
    have a2 : expRoot n (-1 * ((n : ℤ) - 1)) = expRoot n 1 := by
      have := expRoot_period n (by omega) 1 (-1)
      rw [← this]; congr 1; ring
    rw [a1, a2, ← hc]
    have b1 := expRoot_re n 1
    have b3 := expRoot_re n (-1)
    rw [pi_neg, cos_neg] at b3
    simp [b1, b3]
    ring
  have e0 : segWeight n 0 0 = ((-1 / 2 : ℝ) : ℂ) := by
    rw [segWeight_zero n hn]
    simp [expRoot_zero]
    norm_num
  rw [p, q, e0, Complex.re_ofReal_mul, Complex.conj_re, e]
  norm_num
  ring

theorem diffs_one {n : ℕ} (hn : 3 ≤ n) :
    ∑ l ∈ range (n + 1), ‖(if 0 < l then segWeight n 1 (l - 1) else 0) - (if l < n then segWeight n 1 l else 0)‖ ^ 2
      = 1 / 4 * (n * (4 * sin2 n 1 + sin2 n 2) + (1 / 2 - 2 * sin2 n 1 + sin2 n 2)) := by
  obtain ⟨-, h1, -, h3⟩ := low_chars hn
  obtain ⟨hp, hd⟩ := diffs_char n (by omega) _ _ h1 _ h3
  rw [diffs_cut n (by omega) _ hp, hd, Fin.sum_univ_two]
  simp only [Matrix.cons_val_zero, Matrix.cons_val_one]
  have p := norm_one_sub_neg n 1
  have q := norm_one_sub_neg n 2
  rw [Nat.cast_one] at p
  rw [Nat.cast_ofNat] at q
  have hc := cos_two n 1
  have hc2 := cos_two n 2
  have e : (segWeight n 1 (n - 1)).re = 1 / 2 * (1 - 2 * sin2 n 1) - 1 / 4 * (1 - 2 * sin2 n 2) := by
    have e1 : ((n - 1 : ℕ) : ℤ) = n - 1 := by omega
    rw [segWeight_one n hn, e1]
    have a1 : expRoot n (-1 * ((n : ℤ) - 1)) = expRoot n 1 := by
      have := expRoot_period n (by omega) 1 (-1)
      rw [← this]; congr 1; ring
    have a2 : expRoot n (-2 * ((n : ℤ) - 1)) = expRoot n 2 := by
      have := expRoot_period n (by omega) 2 (-2)
      rw [← this]; congr 1; ring
    rw [a1, a2, ← hc, ← hc2]
    have b1 := expRoot_re n 1
    have b2 := expRoot_re n 2
    simp [b1, b2]
    ring
  have e0 : segWeight n 1 0 = ((1 / 4 : ℝ) : ℂ) := by
    rw [segWeight_one n hn]
    simp [expRoot_zero]
    norm_num
  rw [p, q, e0, Complex.re_ofReal_mul, Complex.conj_re, e]
  norm_num
  ring

/-- C73: `scipy_psd` of violet noise at the frequencies 0 and `fs/n` -/
theorem violet_scipy_low (Z : ℕ → Ω → ℝ) (n r : ℕ) (hr : 0 < r) (hn : 3 ≤ n / r) (hZ : White P Z (n + 1) 0 1)
    {b fs : ℝ} (hb : 0 ≤ b) (hf : 0 < fs) :
    ExpectsPsd P (fun ω => violet (fun i => Z i ω) n b fs) (fun x => scipy_psd x fs r) (n / r / 2 + 1)
      (fun k => k * fs / (n / r : ℕ)) (fun k => k < 2)
      (fun k => b * fs ^ 2 / (6 * π ^ 2) * (if k = 0 then sin2 (n / r) 1 + (1 - 2 * sin2 (n / r) 1) / (n / r : ℕ)
        else 4 * sin2 (n / r) 1 + sin2 (n / r) 2
          + (1 / 2 - 2 * sin2 (n / r) 1 + sin2 (n / r) 2) / (n / r : ℕ))) := by
  have hW := hZ.const_mul (√b * (fs * √(fs / 2) / (2 * π)))
  rw [mul_zero, mul_one, violet_step b fs hb hf] at hW
  have hpi := pi_pos
  refine expectsPsd_scipy hr hn hf (fun ω => violet_draws _ n b fs hb hf.le) fun k hk h0 s hs => ?_
  refine (hW.normSq_sum s (n / r + 1) (by omega) (fun l => (if 0 < l then segWeight (n / r) k (l - 1) else 0)
    - (if l < n / r then segWeight (n / r) k l else 0))).congr (fun ω => ?_) ?_
  · rw [seg_lin _ _ _ _ _ hs]
    congr 2
    exact violet_form _ (fun i => Z i ω) _ s (n / r)
  · have hn' : ((n / r : ℕ) : ℝ) ≠ 0 := by exact_mod_cast (by omega : n / r ≠ 0)
    obtain rfl | rfl : k = 0 ∨ k = 1 := by omega
    · rw [diffs_zero hn]
      simp only [true_or, if_true]
      field_simp
      ring
    · rw [diffs_one hn]
      have : ¬ 2 * 1 = n / r := by omega
      simp only [one_ne_zero, this, or_self, if_false]
      field_simp
      ring

example := brown_scipy_low (P := gaussNoise) (fun i ω => ω i) 100 4 (by norm_num) (by norm_num) (white_gauss 100)
  (b := 2) (fs := 10) (by norm_num) (by norm_num)
example := violet_scipy_low (P := gaussNoise) (fun i ω => ω i) 100 4 (by norm_num) (by norm_num) (white_gauss 101)
  (b := 2) (fs := 10) (by norm_num) (by norm_num)

end AT
