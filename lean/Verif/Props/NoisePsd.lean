import Verif.Props.NoiseMean
import Verif.Props.Welch

/-!
# C73: the power spectral densities estimated from the coloured noises

`numpy_psd` is a periodogram without a window, `scipy_psd` is Welch's method with a Hann window.
-/

namespace AT

open Spec Finset MeasureTheory ProbabilityTheory Real

variable {Ω : Type} [MeasurableSpace Ω] {P : Measure Ω}

/-- `f` has the expected value `v` -/
def Spec.HasMean (P : Measure Ω) (f : Ω → ℝ) (v : ℝ) : Prop := Integrable f P ∧ ∫ ω, f ω ∂P = v

theorem Spec.HasMean.const_mul {f : Ω → ℝ} {v : ℝ} (h : HasMean P f v) (a : ℝ) :
    HasMean P (fun ω => a * f ω) (a * v) :=
  ⟨h.1.const_mul a, by rw [integral_const_mul, h.2]⟩

theorem Spec.HasMean.congr {f g : Ω → ℝ} {v w : ℝ} (h : HasMean P f v) (hf : ∀ ω, g ω = f ω) (hv : w = v) :
    HasMean P g w := by
  rw [hv, show g = f from funext hf]; exact h

theorem Spec.HasMean.sum {n : ℕ} {f : ℕ → Ω → ℝ} {v : ℝ} (h : ∀ i < n, HasMean P (f i) v) :
    HasMean P (fun ω => ∑ i ∈ range n, f i ω) (n * v) := by
  constructor
  · exact integrable_finsetSum _ (fun i hi => (h i (mem_range.1 hi)).1)
  · rw [integral_finsetSum _ (fun i hi => (h i (mem_range.1 hi)).1),
      sum_congr rfl (fun i hi => (h i (mem_range.1 hi)).2)]
    simp

/-- the mean square modulus of a complex linear form in white noise of mean 0 -/
theorem Spec.White.normSq_sum [IsProbabilityMeasure P] {W : ℕ → Ω → ℝ} {N : ℕ} {s2 : ℝ}
    (h : White P W N 0 s2) (s M : ℕ) (hM : s + M ≤ N) (a : ℕ → ℂ) :
    HasMean P (fun ω => ‖∑ l ∈ range M, a l * (W (s + l) ω : ℂ)‖ ^ 2) (s2 * ∑ l ∈ range M, ‖a l‖ ^ 2) := by
  have inj : Set.InjOn (fun l => s + l) (range M : Set ℕ) := fun x _ y _ e => by simpa using e
  have lt : ∀ l ∈ range M, s + l < N := fun l hl => by have := mem_range.1 hl; omega
  have hr := h.meanSq_sum (range M) (fun l => s + l) (fun l => (a l).re) inj lt
  have hi := h.meanSq_sum (range M) (fun l => s + l) (fun l => (a l).im) inj lt
  have e : ∀ ω, ‖∑ l ∈ range M, a l * (W (s + l) ω : ℂ)‖ ^ 2 =
      (∑ l ∈ range M, (a l).re * W (s + l) ω) ^ 2 + (∑ l ∈ range M, (a l).im * W (s + l) ω) ^ 2 := by
    intro ω
    rw [Complex.sq_norm, Complex.normSq_apply, Complex.re_sum, Complex.im_sum]
    simp [sq]
  have e2 : ∀ l, ‖a l‖ ^ 2 = (a l).re ^ 2 + (a l).im ^ 2 := by
    intro l
    rw [Complex.sq_norm, Complex.normSq_apply]; ring
  simp only [e, e2]
  constructor
  · exact hr.1.add hi.1
  · rw [integral_add hr.1 hi.1, hr.2, hi.2, sum_add_distrib]
    ring

/-- different characters of `ℤ/n` are orthogonal -/
theorem char_parseval (n : ℕ) (hn : n ≠ 0) {ι : Type} [Fintype ι] [DecidableEq ι] (c : ι → ℂ) (q : ι → ℤ)
    (hq : ∀ i j, (n : ℤ) ∣ q i - q j → i = j) :
    ∑ l ∈ range n, ‖∑ i, c i * expRoot n (q i * l)‖ ^ 2 = n * ∑ i, ‖c i‖ ^ 2 := by
  have key : ∑ l ∈ range n, ((∑ i, c i * expRoot n (q i * l)) * (starRingEnd ℂ) (∑ i, c i * expRoot n (q i * l)))
      = n * ∑ i, c i * (starRingEnd ℂ) (c i) := by
    have e : ∀ l : ℕ, (∑ i, c i * expRoot n (q i * l)) * (starRingEnd ℂ) (∑ i, c i * expRoot n (q i * l))
        = ∑ i, ∑ j, c i * (starRingEnd ℂ) (c j) * expRoot n ((q i - q j) * l) := by
      intro l
      rw [map_sum, sum_mul_sum]
      refine sum_congr rfl fun i _ => sum_congr rfl fun j _ => ?_
      rw [map_mul, expRoot_conj, show (q i - q j) * (l : ℤ) = q i * l + -(q j * l) by ring, expRoot_add]
      ring
    simp only [e]
    rw [sum_comm, mul_sum]
    refine sum_congr rfl fun i _ => ?_
    rw [sum_comm]
    have e2 : ∀ j, ∑ l ∈ range n, c i * (starRingEnd ℂ) (c j) * expRoot n ((q i - q j) * l)
        = if i = j then c i * (starRingEnd ℂ) (c j) * n else 0 := by
      intro j
      rw [← mul_sum, sum_expRoot n hn]
      by_cases hij : i = j
      · subst hij; simp
      · rw [if_neg hij, if_neg (fun h => hij (hq i j h)), mul_zero]
    simp only [e2, sum_ite_eq, mem_univ, if_true]
    ring
  have h1 : ∀ z : ℂ, z * (starRingEnd ℂ) z = ((‖z‖ ^ 2 : ℝ) : ℂ) := by
    intro z
    rw [Complex.mul_conj, Complex.sq_norm]
  simp only [h1] at key
  exact_mod_cast key

theorem norm_expRoot (n : ℕ) (a : ℤ) : ‖expRoot n a‖ = 1 := by
  unfold expRoot
  rw [show 2 * (π : ℂ) * Complex.I * a / n = ((2 * π * a / n : ℝ) : ℂ) * Complex.I by push_cast; ring]
  exact Complex.norm_exp_ofReal_mul_I _

theorem expRoot_re (n : ℕ) (a : ℤ) : (expRoot n a).re = cos (2 * (π * a / n)) := by
  unfold expRoot
  rw [show 2 * (π : ℂ) * Complex.I * a / n = ((2 * (π * a / n) : ℝ) : ℂ) * Complex.I by push_cast; ring,
    Complex.exp_ofReal_mul_I_re]

theorem expRoot_im (n : ℕ) (a : ℤ) : (expRoot n a).im = sin (2 * (π * a / n)) := by
  unfold expRoot
  rw [show 2 * (π : ℂ) * Complex.I * a / n = ((2 * (π * a / n) : ℝ) : ℂ) * Complex.I by push_cast; ring,
    Complex.exp_ofReal_mul_I_im]

theorem pi_neg (n : ℕ) (a : ℤ) : 2 * (π * ((-a : ℤ) : ℝ) / n) = -(2 * (π * a / n)) := by push_cast; ring

/-- the squared distance of a root of unity from 1 -/
theorem norm_one_sub_expRoot (n : ℕ) (a : ℤ) : ‖1 - expRoot n (-a)‖ ^ 2 = 4 * sin (π * a / n) ^ 2 := by
  rw [Complex.sq_norm, Complex.normSq_apply, Complex.sub_re, Complex.sub_im, expRoot_re, expRoot_im, pi_neg,
    cos_neg, sin_neg, cos_two_mul, sin_two_mul]
  simp only [Complex.one_re, Complex.one_im]
  linear_combination (4 * cos (π * a / n) ^ 2 - 4) * sin_sq_add_cos_sq (π * a / n)

theorem inv_one_sub_expRoot (n : ℕ) (a : ℤ) (h : sin (π * a / n) ≠ 0) :
    (1 - expRoot n (-a))⁻¹ = ⟨1 / 2, -(cos (π * a / n) / sin (π * a / n)) / 2⟩ := by
  apply inv_eq_of_mul_eq_one_right
  have := sin_sq_add_cos_sq (π * a / n)
  apply Complex.ext
  · rw [Complex.mul_re, Complex.sub_re, Complex.sub_im, expRoot_re, expRoot_im, pi_neg, cos_neg, sin_neg,
      cos_two_mul, sin_two_mul]
    simp only [Complex.one_re, Complex.one_im]
    field_simp
    linarith
  · rw [Complex.mul_im, Complex.sub_re, Complex.sub_im, expRoot_re, expRoot_im, pi_neg, cos_neg, sin_neg,
      cos_two_mul, sin_two_mul]
    simp only [Complex.one_re, Complex.one_im]
    field_simp
    linear_combination 2 * cos (π * a / n) * this

/-- the window times a character is a sum of three characters -/
theorem hann_char (n : ℕ) (hn : n ≠ 1) (k j : ℕ) :
    (hann n j : ℂ) * expRoot n (-(j * k : ℕ)) = 1 / 2 * expRoot n (-(k : ℤ) * j)
      + (-1 / 4) * expRoot n ((1 - k : ℤ) * j) + (-1 / 4) * expRoot n ((-1 - k : ℤ) * j) := by
  have e : (hann n j : ℂ) = 1 / 2 - 1 / 4 * (expRoot n j + expRoot n (-j)) := by
    unfold hann
    rw [if_neg hn, sin_sq_eq_half_sub]
    apply Complex.ext
    · rw [Complex.ofReal_re, Complex.sub_re, Complex.mul_re, Complex.add_re, Complex.add_im, expRoot_re, expRoot_re, expRoot_im,
        expRoot_im, pi_neg, cos_neg, sin_neg]
      simp
      ring
    · rw [Complex.ofReal_im, Complex.sub_im, Complex.mul_im, Complex.add_re, Complex.add_im, expRoot_re, expRoot_re, expRoot_im,
        expRoot_im, pi_neg, cos_neg, sin_neg]
      simp
  rw [e, show ((1 - k : ℤ) * j) = j + (-(j * k : ℕ)) by push_cast; ring,
    show ((-1 - k : ℤ) * j) = -j + (-(j * k : ℕ)) by push_cast; ring,
    show (-(k : ℤ) * j) = (-(j * k : ℕ)) by push_cast; ring, expRoot_add, expRoot_add]
  ring

/-- the weight of the `j`-th value of a segment in its windowed Fourier sum -/
noncomputable def segWeight (n k j : ℕ) : ℂ :=
  (hann n j : ℂ) * expRoot n (-(j * k : ℕ)) - (∑ i ∈ range n, (hann n i : ℂ) * expRoot n (-(i * k : ℕ))) / n

theorem seg_lin (X : ℕ → ℝ) (N s n k : ℕ) (h : s + n ≤ N) :
    segDft (tab N X) s n k = ∑ j ∈ range n, segWeight n k j * (X (s + j) : ℂ) := by
  have hg : ∀ j ∈ range n, (tab N X).getD (s + j) 0 = X (s + j) := by
    intro j hj
    rw [tab_getD, if_pos (by have := mem_range.1 hj; omega)]
  rw [segDft_eq]
  unfold dft segMean segWeight
  rw [sum_congr rfl hg]
  set A := ∑ i ∈ range n, (hann n i : ℂ) * expRoot n (-(i * k : ℕ)) with hA
  have e : ∀ j ∈ range n, ((hann n j * ((tab N X).getD (s + j) 0 - (∑ i ∈ range n, X (s + i)) / n) : ℝ) : ℂ)
      * expRoot n (-(j * k : ℕ)) = (hann n j : ℂ) * expRoot n (-(j * k : ℕ)) * X (s + j)
        - (hann n j : ℂ) * expRoot n (-(j * k : ℕ)) * ((∑ i ∈ range n, (X (s + i) : ℂ)) / n) := by
    intro j hj
    rw [hg j hj]
    push_cast
    ring
  rw [sum_congr rfl e, sum_sub_distrib, ← sum_mul, ← hA]
  simp only [sub_mul]
  rw [sum_sub_distrib, ← mul_sum]
  ring

theorem hann_dft (n : ℕ) (hn : n ≠ 1) (h0 : n ≠ 0) (k : ℕ) :
    ∑ i ∈ range n, (hann n i : ℂ) * expRoot n (-(i * k : ℕ)) =
      1 / 2 * (if (n : ℤ) ∣ -(k : ℤ) then (n : ℂ) else 0) + (-1 / 4) * (if (n : ℤ) ∣ 1 - k then (n : ℂ) else 0)
        + (-1 / 4) * (if (n : ℤ) ∣ -1 - k then (n : ℂ) else 0) := by
  simp only [hann_char n hn]
  rw [sum_add_distrib, sum_add_distrib, ← mul_sum, ← mul_sum, ← mul_sum, sum_expRoot n h0, sum_expRoot n h0,
    sum_expRoot n h0]

theorem not_dvd {n : ℕ} {a : ℤ} (h0 : a ≠ 0) (h : |a| < n) : ¬ (n : ℤ) ∣ a := fun hd =>
  h0 (Int.eq_zero_of_abs_lt_dvd hd h)

/-- from the third frequency on the removed mean does not matter -/
theorem segWeight_ge (n k : ℕ) (hk : 2 ≤ k) (hn : 2 * k ≤ n) (j : ℕ) :
    segWeight n k j = 1 / 2 * expRoot n (-(k : ℤ) * j)
      + (-1 / 4) * expRoot n ((1 - k : ℤ) * j) + (-1 / 4) * expRoot n ((-1 - k : ℤ) * j) := by
  unfold segWeight
  rw [hann_dft n (by omega) (by omega), hann_char n (by omega),
    if_neg (not_dvd (by omega) (by rw [abs_lt]; omega)), if_neg (not_dvd (by omega) (by rw [abs_lt]; omega)),
    if_neg (not_dvd (by omega) (by rw [abs_lt]; omega))]
  simp

theorem segWeight_one (n : ℕ) (hn : 3 ≤ n) (j : ℕ) :
    segWeight n 1 j = 1 / 2 * expRoot n (-1 * j) + (-1 / 4) * expRoot n (-2 * j) := by
  have h0 : (n : ℂ) ≠ 0 := by exact_mod_cast (by omega : n ≠ 0)
  unfold segWeight
  rw [hann_dft n (by omega) (by omega), hann_char n (by omega),
    if_neg (not_dvd (by simp) (by simp; omega)), if_pos (by simp),
    if_neg (not_dvd (by simp) (by rw [abs_lt]; simp; omega))]
  simp [expRoot_zero, h0]
  ring

theorem segWeight_zero (n : ℕ) (hn : 3 ≤ n) (j : ℕ) :
    segWeight n 0 j = (-1 / 4) * expRoot n (1 * j) + (-1 / 4) * expRoot n (-1 * j) := by
  have h0 : (n : ℂ) ≠ 0 := by exact_mod_cast (by omega : n ≠ 0)
  unfold segWeight
  rw [hann_dft n (by omega) (by omega), hann_char n (by omega),
    if_pos (by simp), if_neg (not_dvd (by simp) (by simp; omega)),
    if_neg (not_dvd (by simp) (by simp; omega))]
  simp [expRoot_zero, h0]
  ring

/-- the sum of the squared weights -/
theorem segWeight_sq (n k : ℕ) (hn : 3 ≤ n) (hk : 2 * k ≤ n) : ∑ j ∈ range n, ‖segWeight n k j‖ ^ 2
    = n * (if k = 0 then 1 / 8 else if k = 1 then 5 / 16 else 3 / 8) := by
  split_ifs with h0 h1
  · subst h0
    have h := char_parseval n (by omega) ![(-1 / 4 : ℂ), -1 / 4] ![1, -1] (by
      intro i j hd
      fin_cases i <;> fin_cases j <;> simp_all <;>
        exact absurd hd (not_dvd (by norm_num) (by norm_num; omega)))
    simp only [Fin.sum_univ_two, Matrix.cons_val_zero, Matrix.cons_val_one] at h
    simp only [segWeight_zero n hn, h]
    norm_num
  · subst h1
    have h := char_parseval n (by omega) ![(1 / 2 : ℂ), -1 / 4] ![-1, -2] (by
      intro i j hd
      fin_cases i <;> fin_cases j <;> simp_all <;>
        exact absurd hd (not_dvd (by norm_num) (by norm_num; omega)))
    simp only [Fin.sum_univ_two, Matrix.cons_val_zero, Matrix.cons_val_one] at h
    simp only [segWeight_one n hn, h]
    norm_num
  · have h := char_parseval n (by omega) ![(1 / 2 : ℂ), -1 / 4, -1 / 4] ![-(k : ℤ), 1 - k, -1 - k] (by
      intro i j hd
      fin_cases i <;> fin_cases j <;> simp_all <;>
        exact absurd hd (not_dvd (by omega) (by rw [abs_lt]; omega)))
    simp only [Fin.sum_univ_three, Matrix.cons_val_zero, Matrix.cons_val_one, Matrix.cons_val_two] at h
    simp only [segWeight_ge n k (by omega) hk]
    refine h.trans ?_
    norm_num

/-- the mean of the estimate, when all segments have the same mean square modulus -/
theorem welch_mean {X : Ω → ℕ → ℝ} {N n k : ℕ} (hn : 3 ≤ n) (hN : n ≤ N) {fs v : ℝ}
    (h : ∀ s, s + n ≤ N → HasMean P (fun ω => ‖segDft (tab N (X ω)) s n k‖ ^ 2) v) :
    HasMean P (fun ω => welchPsd (tab N (X ω)) fs n k)
      ((if k = 0 ∨ 2 * k = n then 1 else 2) * v / (fs * (3 * n / 8))) := by
  have hS : (segments N n : ℝ) ≠ 0 := by unfold segments; positivity
  have hsum := Spec.HasMean.sum (n := segments N n)
    (fun i hi => h (i * (n - n / 2)) ((segments_fit N n (by omega) hN).1 i hi))
  refine (hsum.const_mul ((if k = 0 ∨ 2 * k = n then 1 else 2) / (segments N n) / (fs * (3 * n / 8)))).congr
    (fun ω => ?_) ?_
  · unfold welchPsd
    rw [tab_length, hann_sum n hn]
    generalize (∑ i ∈ range (segments N n), ‖segDft (tab N (X ω)) (i * (n - n / 2)) n k‖ ^ 2) = A
    generalize (if k = 0 ∨ 2 * k = n then (1 : ℝ) else 2) = B
    simp only [div_eq_mul_inv]
    ring
  · generalize (if k = 0 ∨ 2 * k = n then (1 : ℝ) else 2) = B
    field_simp

/-- a weighted sum of a random walk is a weighted sum of its steps -/
theorem walk_lin (b : ℕ → ℂ) (u : ℕ → ℂ) (n : ℕ) :
    ∑ j ∈ range n, b j * ∑ i ∈ range (j + 1), u i
      = ∑ l ∈ range n, (∑ j ∈ range n, b j - ∑ j ∈ range l, b j) * u l := by
  induction n with
  | zero => simp
  | succ n ih =>
    rw [sum_range_succ, ih, sum_range_succ (fun l => (∑ j ∈ range (n + 1), b j - ∑ j ∈ range l, b j) * u l),
      sum_range_succ b n, sum_range_succ u n]
    have : ∀ l, (∑ j ∈ range n, b j + b n - ∑ j ∈ range l, b j) * u l
        = (∑ j ∈ range n, b j - ∑ j ∈ range l, b j) * u l + b n * u l := fun l => by ring
    simp only [this]
    rw [sum_add_distrib, ← mul_sum]
    ring

/-- a weighted sum of differences -/
theorem diff_lin (b : ℕ → ℂ) (u : ℕ → ℂ) (n : ℕ) :
    ∑ j ∈ range n, b j * (u (j + 1) - u j)
      = ∑ l ∈ range (n + 1), ((if 0 < l then b (l - 1) else 0) - (if l < n then b l else 0)) * u l := by
  simp only [mul_sub, sub_mul]
  rw [sum_sub_distrib, sum_sub_distrib]
  congr 1
  · rw [sum_range_succ']
    simp
  · rw [sum_range_succ]
    simp only [lt_irrefl, if_false, zero_mul, add_zero]
    exact sum_congr rfl fun l hl => by rw [if_pos (mem_range.1 hl)]

theorem sum_char (n : ℕ) (q : ℤ) (h : expRoot n q ≠ 1) (l : ℕ) :
    ∑ j ∈ range l, expRoot n (q * j) = (1 - expRoot n q)⁻¹ * (1 - expRoot n (q * l)) := by
  have h' : 1 - expRoot n q ≠ 0 := sub_ne_zero.2 (Ne.symm h)
  simp only [expRoot_mul_nat]
  rw [geom_sum_eq h, inv_mul_eq_div, ← neg_sub (expRoot n q ^ l) 1, ← neg_sub (expRoot n q) 1, neg_div_neg_eq]

/-- the squared partial sums of a sum of characters -/
theorem tails_sq (n : ℕ) (hn : n ≠ 0) {ι : Type} [Fintype ι] [DecidableEq ι] (c : ι → ℂ) (q : ι → ℤ)
    (hq : ∀ i j, (n : ℤ) ∣ q i - q j → i = j) (h0 : ∀ i, ¬ (n : ℤ) ∣ q i) :
    ∑ l ∈ range n, ‖∑ j ∈ range l, ∑ i, c i * expRoot n (q i * j)‖ ^ 2
      = n * (‖∑ i, c i * (1 - expRoot n (q i))⁻¹‖ ^ 2 + ∑ i, ‖c i * (1 - expRoot n (q i))⁻¹‖ ^ 2) := by
  have h := char_parseval n hn (ι := Option ι)
    (fun o => o.elim (∑ i, c i * (1 - expRoot n (q i))⁻¹) (fun i => -(c i * (1 - expRoot n (q i))⁻¹)))
    (fun o => o.elim 0 q) (by
      intro a b hd
      rcases a with _ | a <;> rcases b with _ | b <;> simp at hd ⊢
      · exact absurd hd (h0 b)
      · exact absurd hd (h0 a)
      · exact hq a b hd)
  simp only [Fintype.sum_option, Option.elim, norm_neg, zero_mul, expRoot_zero, mul_one] at h
  rw [← h]
  refine sum_congr rfl fun l _ => ?_
  congr 2
  rw [sum_comm, ← sum_add_distrib]
  refine sum_congr rfl fun i _ => ?_
  rw [← mul_sum, sum_char n (q i) (fun e => h0 i ((expRoot_eq_one_iff n hn _).1 e))]
  ring

/-- For data from `gen`, which always succeeds, the spectral estimator `psd` reports the density at the `K`
frequencies `f 0 .. f (K-1)`; at those with `good k` its expected value is `v k`. -/
def Spec.ExpectsPsd (P : Measure Ω) (gen : Ω → Py (List ℝ)) (psd : List ℝ → Py (List ℝ × List ℝ)) (K : ℕ)
    (f : ℕ → ℝ) (good : ℕ → Prop) (v : ℕ → ℝ) : Prop :=
  ∃ (X : Ω → List ℝ) (S : ℕ → Ω → ℝ), (∀ ω, gen ω = .ok (X ω)) ∧
    (∀ ω, psd (X ω) = .ok (tab K f, tab K (fun k => S k ω))) ∧ ∀ k < K, good k → HasMean P (S k) (v k)

theorem expectsPsd_numpy {gen : Ω → Py (List ℝ)} {X : Ω → ℕ → ℝ} {n : ℕ} (hn : 0 < n) {fs : ℝ} (hf : 0 < fs)
    (hg : ∀ ω, gen ω = .ok (tab n (X ω))) {good : ℕ → Prop} {v : ℕ → ℝ}
    (h : ∀ k, 2 * k ≤ n → good k → HasMean P (fun ω => ‖dft n (X ω) k‖ ^ 2) (n * fs / 2 * v k)) :
    ExpectsPsd P gen (fun x => numpy_psd x fs) (n / 2 + 1) (fun k => k * (fs / 2) / (n / 2 : ℕ)) good v := by
  have hn' : (0 : ℝ) < n := by exact_mod_cast hn
  have hax : npLinspace 0 (fs / 2) (n / 2 + 1) = tab (n / 2 + 1) (fun k => k * (fs / 2) / (n / 2 : ℕ)) := by
    unfold npLinspace
    split_ifs with h1
    · rw [h1]; simp [tab]
    · apply tab_congr
      intro k _
      push_cast
      ring
  refine ⟨fun ω => tab n (X ω), fun k ω => 2 / (n * fs) * ‖dft n (X ω) k‖ ^ 2, hg, fun ω => ?_, fun k hk hgk => ?_⟩
  · simp only
    rw [numpy_psd_form _ fs (by intro e; have := congrArg List.length e; rw [tab_length] at this; simp at this; omega)
      hf, tab_length, hax]
    congr 2
    apply tab_congr
    intro k _
    rw [dftSum_eq, tab_length]
    congr 3
    unfold dft
    refine sum_congr rfl fun j hj => ?_
    simp only
    rw [tab_getD, if_pos (mem_range.1 hj)]
  · refine ((h k (by omega) hgk).const_mul (2 / (n * fs))).congr (fun ω => rfl) ?_
    field_simp

theorem expectsPsd_scipy {gen : Ω → Py (List ℝ)} {X : Ω → ℕ → ℝ} {N r : ℕ} (hr : 0 < r) (hn : 3 ≤ N / r)
    {fs : ℝ} (hf : 0 < fs) (hg : ∀ ω, gen ω = .ok (tab N (X ω))) {good : ℕ → Prop} {v : ℕ → ℝ}
    (h : ∀ k, 2 * k ≤ N / r → good k → ∀ s, s + N / r ≤ N →
      HasMean P (fun ω => ‖segDft (tab N (X ω)) s (N / r) k‖ ^ 2)
        (3 * (N / r : ℕ) / 8 * fs * v k / (if k = 0 ∨ 2 * k = N / r then 1 else 2))) :
    ExpectsPsd P gen (fun x => scipy_psd x fs r) (N / r / 2 + 1) (fun k => k * fs / (N / r : ℕ)) good v := by
  have hl : r ≤ N := by
    by_contra hc
    rw [Nat.div_eq_of_lt (by omega)] at hn
    omega
  refine ⟨fun ω => tab N (X ω), fun k ω => welchPsd (tab N (X ω)) fs (N / r) k, hg, fun ω => ?_,
    fun k hk hgk => ?_⟩
  · have := scipy_psd_eq (tab N (X ω)) fs hf.ne' r hr (by rwa [tab_length])
    rw [tab_length] at this
    exact this
  · have hn' : (0 : ℝ) < (N / r : ℕ) := by exact_mod_cast (by omega : 0 < N / r)
    refine (welch_mean hn (Nat.div_le_self _ _) (h k (by omega) hgk)).congr (fun ω => rfl) ?_
    have : (if k = 0 ∨ 2 * k = N / r then (1 : ℝ) else 2) ≠ 0 := by split_ifs <;> norm_num
    field_simp

variable [IsProbabilityMeasure P]

/-- C73: the density of white noise is `b0` at every frequency of `numpy_psd` -/
theorem white_numpy_psd (Z : ℕ → Ω → ℝ) (n : ℕ) (hn : 0 < n) (hZ : White P Z n 0 1) {b0 fs : ℝ} (hb : 0 ≤ b0)
    (hf : 0 < fs) :
    ExpectsPsd P (fun ω => white (fun i => Z i ω) n b0 fs) (fun x => numpy_psd x fs) (n / 2 + 1)
      (fun k => k * (fs / 2) / (n / 2 : ℕ)) (fun _ => True) (fun _ => b0) := by
  have hW : White P (fun i ω => √(b0 * fs / 2) * Z i ω) n 0 (b0 * fs / 2) := by
    have h := hZ.const_mul √(b0 * fs / 2)
    rwa [mul_zero, mul_one, Real.sq_sqrt (by positivity)] at h
  refine expectsPsd_numpy hn hf (fun ω => white_eq _ n b0 fs (by positivity)) fun k _ _ => ?_
  refine (hW.normSq_sum 0 n (by omega) (fun j => expRoot n (-(j * k : ℕ)))).congr (fun ω => ?_) ?_
  · unfold dft
    congr 2
    refine sum_congr rfl fun j _ => ?_
    rw [zero_add, mul_comm]
  · simp only [norm_expRoot]
    simp
    ring

/-- C73: `scipy_psd` of white noise; the mean removed from every segment takes 5/6 of the density at
zero frequency and 1/6 at the next one, and the Nyquist frequency is not doubled -/
theorem white_scipy_psd (Z : ℕ → Ω → ℝ) (n r : ℕ) (hr : 0 < r) (hn : 3 ≤ n / r) (hZ : White P Z n 0 1)
    {b0 fs : ℝ} (hb : 0 ≤ b0) (hf : 0 < fs) :
    ExpectsPsd P (fun ω => white (fun i => Z i ω) n b0 fs) (fun x => scipy_psd x fs r) (n / r / 2 + 1)
      (fun k => k * fs / (n / r : ℕ)) (fun _ => True)
      (fun k => if k = 0 then b0 / 6 else if k = 1 then 5 / 6 * b0 else if 2 * k = n / r then b0 / 2 else b0) := by
  have hW : White P (fun i ω => √(b0 * fs / 2) * Z i ω) n 0 (b0 * fs / 2) := by
    have h := hZ.const_mul √(b0 * fs / 2)
    rwa [mul_zero, mul_one, Real.sq_sqrt (by positivity)] at h
  refine expectsPsd_scipy hr hn hf (fun ω => white_eq _ n b0 fs (by positivity)) fun k hk _ s hs => ?_
  refine (hW.normSq_sum s (n / r) hs (segWeight (n / r) k)).congr (fun ω => by rw [seg_lin _ _ _ _ _ hs]) ?_
  rw [segWeight_sq _ k hn hk]
  by_cases h0 : k = 0
  · rw [if_pos h0, if_pos h0, if_pos (Or.inl h0)]; ring
  by_cases h1 : k = 1
  · rw [if_neg h0, if_neg h0, if_pos h1, if_pos h1, if_neg (by omega)]; ring
  rw [if_neg h0, if_neg h0, if_neg h1, if_neg h1]
  by_cases h2 : 2 * k = n / r
  · rw [if_pos h2, if_pos (Or.inr h2)]; ring
  · rw [if_neg h2, if_neg (by omega)]; ring

theorem sin_ne {n : ℕ} {a : ℤ} (h0 : 0 < a) (h : a < n) : 0 < sin (π * a / n) := by
  have h0' : (0 : ℝ) < a := by exact_mod_cast h0
  have h' : (a : ℝ) < n := by exact_mod_cast h
  apply sin_pos_of_pos_of_lt_pi
  · have := pi_pos
    have : (0 : ℝ) < n := by linarith
    positivity
  · rw [div_lt_iff₀ (by linarith)]
    nlinarith [pi_pos]

theorem brown_step (b fs : ℝ) (hb : 0 ≤ b) (hf : 0 < fs) :
    (√b * (2 * π / √(2 * fs))) ^ 2 = 2 * π ^ 2 * b / fs := by
  rw [mul_pow, div_pow, Real.sq_sqrt hb, Real.sq_sqrt (by positivity)]
  field_simp
  try ring

/-- weighted sums of brown noise, for weights of sum 0 -/
theorem brown_form (κ : ℝ) (z : ℕ → ℝ) (w : ℕ → ℂ) (s n : ℕ) (hw : ∑ j ∈ range n, w j = 0) :
    ∑ j ∈ range n, w j * ((κ * ∑ i ∈ range (s + j + 1), z i : ℝ) : ℂ)
      = ∑ l ∈ range n, (-∑ j ∈ range l, w j) * ((κ * z (s + l) : ℝ) : ℂ) := by
  have h := walk_lin w (fun l => ((κ * z (s + l) : ℝ) : ℂ)) n
  rw [hw] at h
  simp only [zero_sub] at h
  rw [← h]
  have e : ∀ j, w j * ((κ * ∑ i ∈ range (s + j + 1), z i : ℝ) : ℂ)
      = w j * ((κ * ∑ i ∈ range s, z i : ℝ) : ℂ) + w j * ∑ i ∈ range (j + 1), ((κ * z (s + i) : ℝ) : ℂ) := by
    intro j
    rw [add_assoc, sum_range_add]
    push_cast
    rw [← mul_sum]
    ring
  simp only [e]
  rw [sum_add_distrib, ← sum_mul, hw, zero_mul, zero_add]

/-- C73: `numpy_psd` of brown noise, at all frequencies but 0 -/
theorem brown_numpy_psd (Z : ℕ → Ω → ℝ) (n : ℕ) (hn : 0 < n) (hZ : White P Z n 0 1) {b fs : ℝ} (hb : 0 ≤ b)
    (hf : 0 < fs) :
    ExpectsPsd P (fun ω => brown (fun i => Z i ω) n b fs) (fun x => numpy_psd x fs) (n / 2 + 1)
      (fun k => k * (fs / 2) / (n / 2 : ℕ)) (fun k => 0 < k) (fun k => 2 * π ^ 2 * b / (fs ^ 2 * sin (π * k / n) ^ 2)) := by
  have hW := hZ.const_mul (√b * (2 * π / √(2 * fs)))
  rw [mul_zero, mul_one, brown_step b fs hb hf] at hW
  refine expectsPsd_numpy hn hf (fun ω => brown_draws _ n b fs hb hf) fun k hk h0 => ?_
  have hnd : ¬ (n : ℤ) ∣ -(k : ℤ) := not_dvd (by omega) (by rw [abs_lt]; omega)
  have hs := sin_ne (n := n) (a := k) (by exact_mod_cast h0) (by exact_mod_cast (by omega : k < n))
  have hsum : ∑ j ∈ range n, expRoot n (-(k : ℤ) * j) = 0 := by rw [sum_expRoot n hn.ne', if_neg hnd]
  refine (hW.normSq_sum 0 n (by omega) (fun l => -∑ j ∈ range l, expRoot n (-(k : ℤ) * j))).congr (fun ω => ?_) ?_
  · unfold dft
    congr 2
    have h := brown_form (√b * (2 * π / √(2 * fs))) (fun i => Z i ω) (fun j => expRoot n (-(k : ℤ) * j)) 0 n hsum
    simp only [zero_add] at h ⊢
    rw [← h]
    refine sum_congr rfl fun j _ => ?_
    rw [mul_comm, show -((j * k : ℕ) : ℤ) = -(k : ℤ) * j by push_cast; ring]
  · have ht := tails_sq n hn.ne' (ι := Unit) (fun _ => 1) (fun _ => -(k : ℤ)) (fun _ _ _ => rfl) (fun _ => hnd)
    simp only [univ_unique, sum_singleton, one_mul, norm_inv, inv_pow, norm_one_sub_expRoot] at ht
    simp only [norm_neg]
    rw [ht]
    push_cast at hs ⊢
    have := hs.ne'
    field_simp
    ring

/-- C73: the estimate for brown noise is at least twice the density `b f⁻²`, and at most `π²/2` times -/
theorem brown_numpy_double (n k : ℕ) (h0 : 0 < k) (hk : 2 * k ≤ n) (b fs : ℝ) (hb : 0 < b) (hf : 0 < fs) :
    2 * (b / (k * fs / n) ^ 2) < 2 * π ^ 2 * b / (fs ^ 2 * sin (π * k / n) ^ 2) ∧
    2 * π ^ 2 * b / (fs ^ 2 * sin (π * k / n) ^ 2) ≤ π ^ 2 / 2 * (b / (k * fs / n) ^ 2) := by
  have hs := sin_ne (n := n) (a := k) (by exact_mod_cast h0) (by exact_mod_cast (by omega : k < n))
  push_cast at hs
  have hk' : (0 : ℝ) < k := by exact_mod_cast h0
  have hn' : (0 : ℝ) < n := by exact_mod_cast (by omega : 0 < n)
  have hkn : 2 * (k : ℝ) ≤ n := by exact_mod_cast hk
  have hpi := pi_pos
  set t : ℝ := π * k / n with ht
  have ht0 : 0 < t := by positivity
  have e : (k : ℝ) / n = t / π := by rw [ht]; field_simp
  have e1 : b / (k * fs / n) ^ 2 = b * π ^ 2 / (fs ^ 2 * t ^ 2) := by
    rw [show (k * fs / n : ℝ) = fs * (k / n) by ring, e]
    field_simp
  rw [e1]
  have h1 : sin t < t := sin_lt ht0
  have h2 : 2 / π * t ≤ sin t := by
    apply mul_le_sin ht0.le
    rw [ht, div_le_div_iff₀ hn' two_pos]
    nlinarith
  constructor
  · rw [← mul_div_assoc, div_lt_div_iff₀ (by positivity) (by positivity)]
    have : sin t ^ 2 < t ^ 2 := by nlinarith
    have hp : 0 < 2 * (b * π ^ 2) * fs ^ 2 := by positivity
    nlinarith
  · rw [div_mul_div_comm, div_le_div_iff₀ (by positivity) (by positivity)]
    have h3 : 4 * t ^ 2 ≤ π ^ 2 * sin t ^ 2 := by
      have h4 : 2 * t ≤ π * sin t := by
        have := mul_le_mul_of_nonneg_left h2 hpi.le
        rwa [← mul_assoc, mul_div_cancel₀ _ hpi.ne'] at this
      nlinarith
    have hp : 0 < π ^ 2 * b * fs ^ 2 := by positivity
    nlinarith

/-- the three characters in the weights of a segment -/
theorem seg_chars {n k : ℕ} (hk : 2 ≤ k) (hn : 2 * k ≤ n) :
    (∀ i j, (n : ℤ) ∣ ![-(k : ℤ), -(k - 1 : ℤ), -(k + 1 : ℤ)] i - ![-(k : ℤ), -(k - 1 : ℤ), -(k + 1 : ℤ)] j → i = j) ∧
    (∀ i, ¬ (n : ℤ) ∣ ![-(k : ℤ), -(k - 1 : ℤ), -(k + 1 : ℤ)] i) ∧
    ∀ j, segWeight n k j = ∑ i, ![(1 / 2 : ℂ), -1 / 4, -1 / 4] i
      * expRoot n (![-(k : ℤ), -(k - 1 : ℤ), -(k + 1 : ℤ)] i * j) := by
  refine ⟨?_, ?_, ?_⟩
  · intro i j hd
    fin_cases i <;> fin_cases j <;> simp_all <;>
      exact absurd hd (not_dvd (by omega) (by rw [abs_lt]; omega))
  · intro i
    fin_cases i <;> exact not_dvd (by simp; omega) (by rw [abs_lt]; simp; omega)
  · intro j
    rw [segWeight_ge n k hk hn, Fin.sum_univ_three]
    simp only [Matrix.cons_val_zero, Matrix.cons_val_one, Matrix.cons_val_two]
    rw [show (1 - k : ℤ) = -(k - 1 : ℤ) by ring, show (-1 - k : ℤ) = -(k + 1 : ℤ) by ring]
    rfl

theorem segWeight_sum {n k : ℕ} (hk : 2 ≤ k) (hn : 2 * k ≤ n) : ∑ j ∈ range n, segWeight n k j = 0 := by
  obtain ⟨-, h2, h3⟩ := seg_chars hk hn
  simp only [h3]
  rw [sum_comm]
  refine sum_eq_zero fun i _ => ?_
  rw [← mul_sum, sum_expRoot n (by omega), if_neg (h2 i), mul_zero]

/-- the squared sine of a frequency -/
noncomputable def Spec.sin2 (n k : ℕ) : ℝ := sin (π * k / n) ^ 2

/-- the cotangent of a frequency -/
noncomputable def Spec.ctg (n k : ℕ) : ℝ := cos (π * k / n) / sin (π * k / n)

/-- the sum of the squared partial sums of the weights -/
theorem segWeight_tails {n k : ℕ} (hk : 2 ≤ k) (hn : 2 * k ≤ n) :
    ∑ l ∈ range n, ‖∑ j ∈ range l, segWeight n k j‖ ^ 2 =
      n / 64 * (1 / sin2 n (k - 1) + 4 / sin2 n k + 1 / sin2 n (k + 1)
        + (ctg n (k - 1) - 2 * ctg n k + ctg n (k + 1)) ^ 2) := by
  obtain ⟨h1, h2, h3⟩ := seg_chars hk hn
  have ht := tails_sq n (by omega) ![(1 / 2 : ℂ), -1 / 4, -1 / 4] ![-(k : ℤ), -(k - 1 : ℤ), -(k + 1 : ℤ)] h1 h2
  simp only [h3]
  rw [ht, Fin.sum_univ_three, Fin.sum_univ_three]
  have s1 := sin_ne (n := n) (a := (k : ℤ)) (by omega) (by omega)
  have s2 := sin_ne (n := n) (a := (k - 1 : ℤ)) (by omega) (by omega)
  have s3 := sin_ne (n := n) (a := (k + 1 : ℤ)) (by omega) (by omega)
  have e1 : sin2 n k = sin (π * ((k : ℤ) : ℝ) / n) ^ 2 := by unfold sin2; push_cast; rfl
  have e2 : sin2 n (k - 1) = sin (π * ((k - 1 : ℤ) : ℝ) / n) ^ 2 := by
    unfold sin2; rw [Nat.cast_sub (by omega)]; push_cast; rfl
  have e3 : sin2 n (k + 1) = sin (π * ((k + 1 : ℤ) : ℝ) / n) ^ 2 := by unfold sin2; push_cast; rfl
  have c1 : ctg n k = cos (π * ((k : ℤ) : ℝ) / n) / sin (π * ((k : ℤ) : ℝ) / n) := by unfold ctg; push_cast; rfl
  have c2 : ctg n (k - 1) = cos (π * ((k - 1 : ℤ) : ℝ) / n) / sin (π * ((k - 1 : ℤ) : ℝ) / n) := by
    unfold ctg; rw [Nat.cast_sub (by omega)]; push_cast; rfl
  have c3 : ctg n (k + 1) = cos (π * ((k + 1 : ℤ) : ℝ) / n) / sin (π * ((k + 1 : ℤ) : ℝ) / n) := by
    unfold ctg; push_cast; rfl
  simp only [Matrix.cons_val_zero, Matrix.cons_val_one, Matrix.cons_val_two, Matrix.tail_cons, Matrix.head_cons]
  have en : ∀ z w : ℂ, ‖z * w⁻¹‖ ^ 2 = ‖z‖ ^ 2 / ‖w‖ ^ 2 := by
    intro z w
    rw [norm_mul, norm_inv, mul_pow, inv_pow, div_eq_mul_inv]
  rw [en, en, en, norm_one_sub_expRoot, norm_one_sub_expRoot, norm_one_sub_expRoot, ← e1, ← e2, ← e3,
    inv_one_sub_expRoot _ _ s1.ne', inv_one_sub_expRoot _ _ s2.ne', inv_one_sub_expRoot _ _ s3.ne', ← c1, ← c2, ← c3]
  have es : (1 / 2 : ℂ) * (⟨1 / 2, -ctg n k / 2⟩ : ℂ) + -1 / 4 * (⟨1 / 2, -ctg n (k - 1) / 2⟩ : ℂ)
      + -1 / 4 * (⟨1 / 2, -ctg n (k + 1) / 2⟩ : ℂ)
      = (((ctg n (k - 1) - 2 * ctg n k + ctg n (k + 1)) / 8 : ℝ) : ℂ) * Complex.I := by
    apply Complex.ext
    · simp
      norm_num
    · simp
      ring
  rw [es, norm_mul, Complex.norm_I, mul_one, Complex.norm_real, norm_eq_abs, sq_abs]
  norm_num
  ring

/-- C73: `scipy_psd` of brown noise, from the third frequency on -/
theorem brown_scipy_psd (Z : ℕ → Ω → ℝ) (n r : ℕ) (hr : 0 < r) (hn : 3 ≤ n / r) (hZ : White P Z n 0 1)
    {b fs : ℝ} (hb : 0 ≤ b) (hf : 0 < fs) :
    ExpectsPsd P (fun ω => brown (fun i => Z i ω) n b fs) (fun x => scipy_psd x fs r) (n / r / 2 + 1)
      (fun k => k * fs / (n / r : ℕ)) (fun k => 2 ≤ k)
      (fun k => (if 2 * k = n / r then 1 / 2 else 1) * (π ^ 2 * b / (6 * fs ^ 2)) *
        (1 / sin2 (n / r) (k - 1) + 4 / sin2 (n / r) k + 1 / sin2 (n / r) (k + 1)
          + (ctg (n / r) (k - 1) - 2 * ctg (n / r) k + ctg (n / r) (k + 1)) ^ 2)) := by
  have hW := hZ.const_mul (√b * (2 * π / √(2 * fs)))
  rw [mul_zero, mul_one, brown_step b fs hb hf] at hW
  refine expectsPsd_scipy hr hn hf (fun ω => brown_draws _ n b fs hb hf) fun k hk h0 s hs => ?_
  refine (hW.normSq_sum s (n / r) hs (fun l => -∑ j ∈ range l, segWeight (n / r) k j)).congr (fun ω => ?_) ?_
  · rw [seg_lin _ _ _ _ _ hs]
    congr 2
    exact brown_form _ (fun i => Z i ω) _ s (n / r) (segWeight_sum h0 hk)
  · simp only [norm_neg]
    rw [segWeight_tails h0 hk]
    have hk0 : k ≠ 0 := by omega
    simp only [hk0, false_or]
    split_ifs <;> · field_simp; ring

/-- C73: Welch's estimate of brown noise is not below the density `b f⁻²` -/
theorem brown_scipy_ge (n k : ℕ) (hk : 2 ≤ k) (hn : 2 * k ≤ n) (b fs : ℝ) (hb : 0 ≤ b) (hf : 0 < fs) :
    b / (k * fs / n) ^ 2 ≤ π ^ 2 * b / (6 * fs ^ 2) *
        (1 / sin2 n (k - 1) + 4 / sin2 n k + 1 / sin2 n (k + 1)
          + (ctg n (k - 1) - 2 * ctg n k + ctg n (k + 1)) ^ 2) := by
  have s1 := sin_ne (n := n) (a := (k : ℤ)) (by omega) (by omega)
  have s2 := sin_ne (n := n) (a := (k - 1 : ℤ)) (by omega) (by omega)
  have s3 := sin_ne (n := n) (a := (k + 1 : ℤ)) (by omega) (by omega)
  push_cast at s1 s2 s3
  have hk' : (0 : ℝ) < k := by exact_mod_cast (by omega : 0 < k)
  have hn' : (0 : ℝ) < n := by exact_mod_cast (by omega : 0 < n)
  have hpi := pi_pos
  unfold sin2
  rw [Nat.cast_sub (by omega)]
  push_cast
  have hsq := sq_nonneg (ctg n (k - 1) - 2 * ctg n k + ctg n (k + 1))
  set t : ℝ := π * k / n with ht
  set d : ℝ := π / n with hd
  have e2 : π * (k - 1) / n = t - d := by rw [ht, hd]; ring
  have e3 : π * (k + 1) / n = t + d := by rw [ht, hd]; ring
  rw [e2] at s2 ⊢
  rw [e3] at s3 ⊢
  have ht0 : 0 < t := by positivity
  have hprod : sin (t - d) * sin (t + d) ≤ sin t ^ 2 := by
    rw [sin_sub, sin_add]
    nlinarith [sin_sq_add_cos_sq t, sin_sq_add_cos_sq d, sq_nonneg (sin d), sq_nonneg (cos t), sq_nonneg (sin t)]
  have hsum : 2 / sin t ^ 2 ≤ 1 / sin (t - d) ^ 2 + 1 / sin (t + d) ^ 2 := by
    have h1 : 2 / sin t ^ 2 ≤ 2 / (sin (t - d) * sin (t + d)) := by
      apply div_le_div_of_nonneg_left (by norm_num) (by positivity) hprod
    have h2 : 2 / (sin (t - d) * sin (t + d)) ≤ 1 / sin (t - d) ^ 2 + 1 / sin (t + d) ^ 2 := by
      have := sq_nonneg (1 / sin (t - d) - 1 / sin (t + d))
      have e : (1 / sin (t - d) - 1 / sin (t + d)) ^ 2
          = 1 / sin (t - d) ^ 2 + 1 / sin (t + d) ^ 2 - 2 / (sin (t - d) * sin (t + d)) := by
        field_simp
        ring
      linarith
    linarith
  have e1 : b / (k * fs / n) ^ 2 = b * π ^ 2 / (fs ^ 2 * t ^ 2) := by
    rw [ht]; field_simp
  have hlt : 1 / t ^ 2 ≤ 1 / sin t ^ 2 := by
    apply one_div_le_one_div_of_le (by positivity)
    exact pow_le_pow_left₀ s1.le (sin_lt ht0).le 2
  have hc : 0 ≤ π ^ 2 * b / (6 * fs ^ 2) := by positivity
  have e4 : 4 / sin t ^ 2 = 4 * (1 / sin t ^ 2) := by ring
  have e5 : 2 / sin t ^ 2 = 2 * (1 / sin t ^ 2) := by ring
  calc b / (k * fs / n) ^ 2 = π ^ 2 * b / (6 * fs ^ 2) * (6 * (1 / t ^ 2)) := by rw [e1]; field_simp
    _ ≤ _ := by
      apply mul_le_mul_of_nonneg_left _ hc
      linarith

theorem violet_step (b fs : ℝ) (hb : 0 ≤ b) (hf : 0 < fs) :
    (√b * (fs * √(fs / 2) / (2 * π))) ^ 2 = b * fs ^ 3 / (8 * π ^ 2) := by
  have := pi_pos
  rw [mul_pow, div_pow, mul_pow, Real.sq_sqrt hb, Real.sq_sqrt (by positivity)]
  field_simp
  norm_num

theorem violet_form (κ : ℝ) (z : ℕ → ℝ) (w : ℕ → ℂ) (s n : ℕ) :
    ∑ j ∈ range n, w j * ((κ * (z (s + j + 1) - z (s + j)) : ℝ) : ℂ)
      = ∑ l ∈ range (n + 1), ((if 0 < l then w (l - 1) else 0) - (if l < n then w l else 0))
        * ((κ * z (s + l) : ℝ) : ℂ) := by
  rw [← diff_lin w (fun l => ((κ * z (s + l) : ℝ) : ℂ)) n]
  refine sum_congr rfl fun j _ => ?_
  push_cast
  rw [add_assoc]
  ring

/-- C73: `numpy_psd` of violet noise -/
theorem violet_numpy_psd (Z : ℕ → Ω → ℝ) (n : ℕ) (hn : 0 < n) (hZ : White P Z (n + 1) 0 1) {b fs : ℝ} (hb : 0 ≤ b)
    (hf : 0 < fs) :
    ExpectsPsd P (fun ω => violet (fun i => Z i ω) n b fs) (fun x => numpy_psd x fs) (n / 2 + 1)
      (fun k => k * (fs / 2) / (n / 2 : ℕ)) (fun _ => True)
      (fun k => b * fs ^ 2 / π ^ 2 * ((1 - 1 / n) * sin (π * k / n) ^ 2 + 1 / (2 * n))) := by
  have hW := hZ.const_mul (√b * (fs * √(fs / 2) / (2 * π)))
  rw [mul_zero, mul_one, violet_step b fs hb hf] at hW
  have hn' : (0 : ℝ) < n := by exact_mod_cast hn
  have hpi := pi_pos
  refine expectsPsd_numpy hn hf (fun ω => violet_draws _ n b fs hb hf.le) fun k hk h0 => ?_
  refine (hW.normSq_sum 0 (n + 1) (by omega) (fun l => (if 0 < l then expRoot n (-(k : ℤ) * (l - 1 : ℕ)) else 0)
    - (if l < n then expRoot n (-(k : ℤ) * l) else 0))).congr (fun ω => ?_) ?_
  · unfold dft
    congr 2
    have h := violet_form (√b * (fs * √(fs / 2) / (2 * π))) (fun i => Z i ω) (fun j => expRoot n (-(k : ℤ) * j)) 0 n
    simp only [zero_add] at h ⊢
    rw [← h]
    refine sum_congr rfl fun j _ => ?_
    rw [mul_comm, show -((j * k : ℕ) : ℤ) = -(k : ℤ) * j by push_cast; ring]
  · have hsum : ∑ l ∈ range (n + 1), ‖(if 0 < l then expRoot n (-(k : ℤ) * (l - 1 : ℕ)) else 0)
        - (if l < n then expRoot n (-(k : ℤ) * l) else 0)‖ ^ 2 = 2 + (n - 1) * (4 * sin (π * k / n) ^ 2) := by
      obtain ⟨m, rfl⟩ : ∃ m, n = m + 1 := ⟨n - 1, by omega⟩
      rw [sum_range_succ, sum_range_succ']
      have e : ∀ l ∈ range m, ‖(if 0 < l + 1 then expRoot (m + 1) (-(k : ℤ) * (l + 1 - 1 : ℕ)) else 0)
          - (if l + 1 < m + 1 then expRoot (m + 1) (-(k : ℤ) * (l + 1 : ℕ)) else 0)‖ ^ 2
          = 4 * sin (π * k / (m + 1 : ℕ)) ^ 2 := by
        intro l hl
        rw [if_pos (by omega), if_pos (by have := mem_range.1 hl; omega), Nat.add_sub_cancel,
          show (-(k : ℤ) * (l + 1 : ℕ)) = -(k : ℤ) * l + -(k : ℤ) by push_cast; ring, expRoot_add,
          show ∀ z w : ℂ, z - z * w = z * (1 - w) from fun z w => by ring, norm_mul, norm_expRoot, one_mul,
          norm_one_sub_expRoot]
        norm_cast
      rw [sum_congr rfl e]
      simp [norm_expRoot]
      ring
    rw [hsum]
    field_simp
    ring

/-- the sum of the squared differences of the weights; the window starts at 0 -/
theorem segWeight_diffs {n k : ℕ} (hk : 2 ≤ k) (hn : 2 * k ≤ n) :
    ∑ l ∈ range (n + 1), ‖(if 0 < l then segWeight n k (l - 1) else 0) - (if l < n then segWeight n k l else 0)‖ ^ 2
      = n / 4 * (sin2 n (k - 1) + 4 * sin2 n k + sin2 n (k + 1)) := by
  obtain ⟨h1, h2, h3⟩ := seg_chars hk hn
  have hw0 : segWeight n k 0 = 0 := by
    rw [segWeight_ge n k hk hn]
    simp [expRoot_zero]
    norm_num
  have hwn : segWeight n k n = 0 := by
    rw [← hw0, h3, h3]
    refine sum_congr rfl fun i _ => ?_
    have := expRoot_period n (by omega) 0 (![-(k : ℤ), -(k - 1 : ℤ), -(k + 1 : ℤ)] i)
    rw [zero_add] at this
    rw [mul_comm (![-(k : ℤ), -(k - 1 : ℤ), -(k + 1 : ℤ)] i), this]
    simp
  rw [sum_range_succ']
  have e : ∀ l ∈ range n, ‖(if 0 < l + 1 then segWeight n k (l + 1 - 1) else 0)
      - (if l + 1 < n then segWeight n k (l + 1) else 0)‖ ^ 2
      = ‖∑ i, (![(1 / 2 : ℂ), -1 / 4, -1 / 4] i * (1 - expRoot n (![-(k : ℤ), -(k - 1 : ℤ), -(k + 1 : ℤ)] i)))
          * expRoot n (![-(k : ℤ), -(k - 1 : ℤ), -(k + 1 : ℤ)] i * l)‖ ^ 2 := by
    intro l hl
    have hl := mem_range.1 hl
    have : (if l + 1 < n then segWeight n k (l + 1) else 0) = segWeight n k (l + 1) := by
      split_ifs with h
      · rfl
      · rw [show l + 1 = n by omega, hwn]
    rw [if_pos (by omega), this, Nat.add_sub_cancel, h3, h3, ← sum_sub_distrib]
    congr 2
    refine sum_congr rfl fun i _ => ?_
    rw [Nat.cast_add, Nat.cast_one, mul_add, mul_one, expRoot_add]
    ring
  rw [sum_congr rfl e, char_parseval n (by omega) _ _ h1, Fin.sum_univ_three]
  have e1 : sin2 n k = sin (π * ((k : ℤ) : ℝ) / n) ^ 2 := by unfold sin2; push_cast; rfl
  have e2 : sin2 n (k - 1) = sin (π * ((k - 1 : ℤ) : ℝ) / n) ^ 2 := by
    unfold sin2; rw [Nat.cast_sub (by omega)]; push_cast; rfl
  have e3 : sin2 n (k + 1) = sin (π * ((k + 1 : ℤ) : ℝ) / n) ^ 2 := by unfold sin2; push_cast; rfl
  simp only [Matrix.cons_val_zero, Matrix.cons_val_one, Matrix.cons_val_two, Matrix.tail_cons, Matrix.head_cons,
    norm_mul, mul_pow]
  rw [norm_one_sub_expRoot, norm_one_sub_expRoot, norm_one_sub_expRoot, ← e1, ← e2, ← e3, hw0]
  simp
  norm_num
  ring

/-- C73: `scipy_psd` of violet noise, from the third frequency on -/
theorem violet_scipy_psd (Z : ℕ → Ω → ℝ) (n r : ℕ) (hr : 0 < r) (hn : 3 ≤ n / r) (hZ : White P Z (n + 1) 0 1)
    {b fs : ℝ} (hb : 0 ≤ b) (hf : 0 < fs) :
    ExpectsPsd P (fun ω => violet (fun i => Z i ω) n b fs) (fun x => scipy_psd x fs r) (n / r / 2 + 1)
      (fun k => k * fs / (n / r : ℕ)) (fun k => 2 ≤ k)
      (fun k => (if 2 * k = n / r then 1 / 2 else 1) * (b * fs ^ 2 / (6 * π ^ 2)) *
        (sin2 (n / r) (k - 1) + 4 * sin2 (n / r) k + sin2 (n / r) (k + 1))) := by
  have hW := hZ.const_mul (√b * (fs * √(fs / 2) / (2 * π)))
  rw [mul_zero, mul_one, violet_step b fs hb hf] at hW
  have hpi := pi_pos
  refine expectsPsd_scipy hr hn hf (fun ω => violet_draws _ n b fs hb hf.le) fun k hk h0 s hs => ?_
  refine (hW.normSq_sum s (n / r + 1) (by omega) (fun l => (if 0 < l then segWeight (n / r) k (l - 1) else 0)
    - (if l < n / r then segWeight (n / r) k l else 0))).congr (fun ω => ?_) ?_
  · rw [seg_lin _ _ _ _ _ hs]
    congr 2
    exact violet_form _ (fun i => Z i ω) _ s (n / r)
  · rw [segWeight_diffs h0 hk]
    have hk0 : k ≠ 0 := by omega
    simp only [hk0, false_or]
    split_ifs <;> · field_simp; ring

/-- C73: Welch's estimate of violet noise is not above the density `b f²` smeared over the three
frequencies under the main lobe of the window -/
theorem violet_scipy_le (n k : ℕ) (hk : 2 ≤ k) (hn : 2 * k ≤ n) (b fs : ℝ) (hb : 0 ≤ b) :
    b * fs ^ 2 / (6 * π ^ 2) * (sin2 n (k - 1) + 4 * sin2 n k + sin2 n (k + 1))
      ≤ (b * ((k - 1) * fs / n) ^ 2 + 4 * (b * (k * fs / n) ^ 2) + b * ((k + 1) * fs / n) ^ 2) / 6 := by
  have hn' : (0 : ℝ) < n := by exact_mod_cast (by omega : 0 < n)
  have hpi := pi_pos
  have key : ∀ m : ℝ, sin (π * m / n) ^ 2 ≤ (π * m / n) ^ 2 := fun m => by
    have := abs_sin_le_abs (x := π * m / n)
    exact sq_le_sq.2 this
  unfold sin2
  rw [Nat.cast_sub (by omega)]
  push_cast
  have h1 := key k
  have h2 := key (k - 1)
  have h3 := key (k + 1)
  have hc : 0 ≤ b * fs ^ 2 / (6 * π ^ 2) := by positivity
  calc _ ≤ b * fs ^ 2 / (6 * π ^ 2) * ((π * (k - 1) / n) ^ 2 + 4 * (π * k / n) ^ 2 + (π * (k + 1) / n) ^ 2) := by
        apply mul_le_mul_of_nonneg_left _ hc
        linarith
    _ = _ := by field_simp

example := white_numpy_psd (P := gaussNoise) (fun i ω => ω i) 100 (by norm_num) (white_gauss 100) (b0 := 2) (fs := 10)
  (by norm_num) (by norm_num)
example := white_scipy_psd (P := gaussNoise) (fun i ω => ω i) 100 4 (by norm_num) (by norm_num) (white_gauss 100)
  (b0 := 2) (fs := 10) (by norm_num) (by norm_num)
example := brown_numpy_psd (P := gaussNoise) (fun i ω => ω i) 100 (by norm_num) (white_gauss 100) (b := 2) (fs := 10)
  (by norm_num) (by norm_num)
example := brown_scipy_psd (P := gaussNoise) (fun i ω => ω i) 100 4 (by norm_num) (by norm_num) (white_gauss 100)
  (b := 2) (fs := 10) (by norm_num) (by norm_num)
example := violet_numpy_psd (P := gaussNoise) (fun i ω => ω i) 100 (by norm_num) (white_gauss 101) (b := 2) (fs := 10)
  (by norm_num) (by norm_num)
example := violet_scipy_psd (P := gaussNoise) (fun i ω => ω i) 100 4 (by norm_num) (by norm_num) (white_gauss 101)
  (b := 2) (fs := 10) (by norm_num) (by norm_num)

end AT
