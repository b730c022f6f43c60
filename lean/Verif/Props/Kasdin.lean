import Verif.Model.Kasdin
import Verif.Lemmas.Tab
import Mathlib.Algebra.Field.GeomSum
import Mathlib.Tactic.FieldSimp
import Mathlib.Tactic.Ring
import Mathlib.Tactic.Linarith

/-!
# C50: the FFT in `generateNoise` computes the linear convolution with the power-law filter
-/

namespace AT

open Finset Real

/-- impulse response of the fractional integrator `(1 - z⁻¹)^(b/2)`:
`h_k = ∏_{i<k} (i - b/2)/(i + 1)` -/
noncomputable def Spec.kasdinH (b : ℝ) (k : ℕ) : ℝ := ∏ i ∈ range k, ((i : ℝ) - b / 2) / (i + 1)

/-- the causal filter: `x_n = Σ_{k≤n} h_k w_{n-k}` -/
noncomputable def Spec.kasdinNoise (b : ℝ) (w : ℕ → ℝ) (n : ℕ) : ℝ :=
  ∑ k ∈ range (n + 1), kasdinH b k * w (n - k)

open Spec

/-! ## roots of unity -/

theorem expRoot_zero (n : ℕ) : expRoot n 0 = 1 := by simp [expRoot]

theorem expRoot_add (n : ℕ) (a b : ℤ) : expRoot n (a + b) = expRoot n a * expRoot n b := by
  unfold expRoot
  rw [← Complex.exp_add]
  congr 1
  push_cast
  ring

theorem expRoot_mul_nat (n : ℕ) (a : ℤ) (k : ℕ) : expRoot n (a * k) = expRoot n a ^ k := by
  unfold expRoot
  rw [← Complex.exp_nat_mul]
  congr 1
  push_cast
  ring

theorem expRoot_eq_one_iff (n : ℕ) (hn : n ≠ 0) (a : ℤ) : expRoot n a = 1 ↔ (n : ℤ) ∣ a := by
  unfold expRoot
  rw [Complex.exp_eq_one_iff]
  have hn' : (n : ℂ) ≠ 0 := by exact_mod_cast hn
  have hpi : (2 * (π : ℂ) * Complex.I) ≠ 0 := Complex.two_pi_I_ne_zero
  constructor
  · rintro ⟨m, hm⟩
    refine ⟨m, ?_⟩
    have : (2 * (π : ℂ) * Complex.I) * a = (2 * (π : ℂ) * Complex.I) * (n * m) := by
      field_simp at hm
      linear_combination (2 * (π : ℂ) * Complex.I) * hm
    exact_mod_cast mul_left_cancel₀ hpi this
  · rintro ⟨m, rfl⟩
    refine ⟨m, ?_⟩
    push_cast
    field_simp

theorem expRoot_period (n : ℕ) (hn : n ≠ 0) (a m : ℤ) : expRoot n (a + n * m) = expRoot n a := by
  rw [expRoot_add, (expRoot_eq_one_iff n hn _).2 ⟨m, rfl⟩, mul_one]

theorem expRoot_conj (n : ℕ) (a : ℤ) : (starRingEnd ℂ) (expRoot n a) = expRoot n (-a) := by
  unfold expRoot
  rw [← Complex.exp_conj]
  congr 1
  have h2 : (starRingEnd ℂ) 2 = 2 := Complex.conj_ofNat 2
  simp [h2]

theorem sum_expRoot (n : ℕ) (hn : n ≠ 0) (a : ℤ) :
    ∑ k ∈ range n, expRoot n (a * k) = if (n : ℤ) ∣ a then (n : ℂ) else 0 := by
  split_ifs with h
  · rw [sum_congr rfl (fun k _ => (expRoot_eq_one_iff n hn _).2 (Dvd.dvd.mul_right h _))]
    simp
  · simp only [expRoot_mul_nat]
    have h1 : expRoot n a ≠ 1 := fun h' => h ((expRoot_eq_one_iff n hn a).1 h')
    rw [geom_sum_eq h1, ← expRoot_mul_nat, (expRoot_eq_one_iff n hn _).2 (Dvd.intro_left a rfl)]
    simp

/-! ## the transforms -/

/-- the full discrete Fourier transform of `n` real values -/
noncomputable def dft (n : ℕ) (w : ℕ → ℝ) (k : ℕ) : ℂ :=
  ∑ j ∈ range n, (w j : ℂ) * expRoot n (-(j * k : ℕ))

theorem npRfft_tab (n : ℕ) (w : ℕ → ℝ) : npRfft (tab n w) = tab (n / 2 + 1) (dft n w) := by
  unfold npRfft
  rw [tab_length]
  apply tab_congr
  intro k _
  apply sum_congr rfl
  intro j hj
  rw [tab_getD, if_pos (mem_range.1 hj)]

theorem dft_conj (n : ℕ) (hn : n ≠ 0) (w : ℕ → ℝ) (k : ℕ) (hk : k ≤ n) :
    (starRingEnd ℂ) (dft n w (n - k)) = dft n w k := by
  unfold dft
  rw [map_sum]
  apply sum_congr rfl
  intro j _
  rw [map_mul, Complex.conj_ofReal, expRoot_conj, neg_neg]
  congr 1
  rw [← expRoot_period n hn (-(j * k : ℕ)) j]
  congr 1
  push_cast [Nat.cast_sub hk]
  ring

/-- circular convolution -/
theorem dft_mul (n : ℕ) (hn : n ≠ 0) (w h : ℕ → ℝ) (j : ℕ) :
    (∑ k ∈ range n, dft n w k * dft n h k * expRoot n ((j * k : ℕ) : ℤ)) / n =
      ∑ a ∈ range n, ∑ b ∈ range n, if (n : ℤ) ∣ (j : ℤ) - a - b then (w a * h b : ℂ) else 0 := by
  have hn' : (n : ℂ) ≠ 0 := by exact_mod_cast hn
  rw [div_eq_iff hn', sum_mul]
  have : ∀ k, dft n w k * dft n h k * expRoot n ((j * k : ℕ) : ℤ) =
      ∑ a ∈ range n, ∑ b ∈ range n, (w a * h b : ℂ) * expRoot n (((j : ℤ) - a - b) * k) := fun k => by
    unfold dft
    rw [sum_mul_sum, sum_mul]
    apply sum_congr rfl
    intro a _
    rw [sum_mul]
    apply sum_congr rfl
    intro b _
    have e : (((j : ℤ) - a - b) * k : ℤ) = -(a * k : ℕ) + (-(b * k : ℕ) + (j * k : ℕ)) := by
      push_cast; ring
    rw [e, expRoot_add, expRoot_add]
    ring
  simp only [this]
  rw [sum_comm]
  apply sum_congr rfl
  intro a _
  rw [sum_comm, sum_mul]
  apply sum_congr rfl
  intro b _
  rw [← mul_sum, sum_expRoot n hn]
  split_ifs <;> ring

theorem scanl_mul_tail (l : List ℝ) (a : ℝ) :
    (l.scanl (· * ·) a).tail = (npCumprod l).map (fun y => a * y) := by
  induction l generalizing a with
  | nil => simp [npCumprod]
  | cons x xs ih =>
    have h1 : ∀ b : ℝ, (xs.scanl (· * ·) b) = b :: (xs.scanl (· * ·) b).tail := by
      intro b; cases xs <;> simp [List.scanl]
    simp only [npCumprod, List.scanl_cons, List.tail_cons]
    rw [h1 (a * x), h1 (1 * x), ih, ih]
    simp [Function.comp_def, mul_assoc]

theorem npCumprod_tab (n : ℕ) (g : ℕ → ℝ) :
    npCumprod (tab n g) = tab n (fun i => ∏ j ∈ range (i + 1), g j) := by
  induction n generalizing g with
  | zero => simp [npCumprod]
  | succ n ih =>
    rw [tab_succ', tab_succ']
    have h1 : ∀ b : ℝ, ∀ xs : List ℝ, (xs.scanl (· * ·) b) = b :: (xs.scanl (· * ·) b).tail := by
      intro b xs; cases xs <;> simp [List.scanl]
    simp only [npCumprod, List.scanl_cons, List.tail_cons]
    rw [h1 (1 * g 0), scanl_mul_tail, ih, map_tab]
    congr 1
    · simp
    · apply tab_congr
      intro i _
      rw [Finset.prod_range_succ' _ (i+1)]
      ring

/-- the coefficients in `hfb[:nr]` -/
theorem hfb_eq (b : ℝ) (nr : ℕ) (h0 : 0 < nr) :
    npCumprod (1 :: (tab (nr - 1) (fun i => (i : ℝ))).map (fun v => (-b / 2 + v) / (v + 1))) =
      tab nr (kasdinH b) := by
  obtain ⟨n, rfl⟩ : ∃ n, nr = n + 1 := ⟨nr - 1, by omega⟩
  have : (1 : ℝ) :: (tab (n + 1 - 1) (fun i => (i : ℝ))).map (fun v => (-b / 2 + v) / (v + 1)) =
      tab (n + 1) (fun i => match i with | 0 => 1 | i + 1 => ((i : ℝ) - b / 2) / (i + 1)) := by
    rw [tab_succ', map_tab, Nat.add_sub_cancel]
    congr 1
    apply tab_congr
    intro i _
    ring_nf
  rw [this, npCumprod_tab]
  apply tab_congr
  intro i _
  rw [prod_range_succ', mul_one]
  rfl

/-- C50: the generated series has `nr` samples; each is the causal filter of the white samples
`√qd z`, without wrap-around -/
theorem generateNoise_eq (s : Noise) (z : List ℝ) (h0 : 0 < s.nr) :
    s.generateNoise z = .ok { s with
      time_series := tab s.nr (kasdinNoise s.b (fun i => √s.qd * z.getD i 0)) } := by
  unfold Noise.generateNoise
  simp only
  rw [if_neg (by omega), hfb_eq _ _ h0, append_tab]
  congr 2
  set nr := s.nr
  have hn : nr * 2 ≠ 0 := by omega
  set w : ℕ → ℝ := fun i => if i < nr then √s.qd * z.getD i 0 else 0 with hw
  have hn2 : nr + nr = nr * 2 := by ring
  rw [hn2]
  set h : ℕ → ℝ := fun i => if i < nr then kasdinH s.b i else 0 with hh
  rw [npRfft_tab, npRfft_tab, Nat.mul_div_cancel _ two_pos]
  have hz : List.zipWith (· * ·) (tab (nr + 1) (dft (nr * 2) w)) (tab (nr + 1) (dft (nr * 2) h)) =
      tab (nr + 1) (fun k => dft (nr * 2) w k * dft (nr * 2) h k) := by
    apply tab_ext
    · simp
    · intro i hi
      rw [List.getElem?_zipWith, tab_getElem?, tab_getElem?, if_pos hi, if_pos hi]
  rw [hz, npIrfft, tab_length, sliceTo_nat]
  simp only [Nat.add_sub_cancel]
  rw [take_tab, min_eq_left (by omega), mul_comm 2 nr]
  apply tab_congr
  intro n hnr
  have hs : ∀ k ∈ range (nr * 2),
      (if k < nr + 1 then (tab (nr + 1) fun k => dft (nr * 2) w k * dft (nr * 2) h k).getD k 0
        else (starRingEnd ℂ) ((tab (nr + 1) fun k => dft (nr * 2) w k * dft (nr * 2) h k).getD (nr * 2 - k) 0)) *
        expRoot (nr * 2) ((n * k : ℕ) : ℤ) =
      dft (nr * 2) w k * dft (nr * 2) h k * expRoot (nr * 2) ((n * k : ℕ) : ℤ) := fun k hk => by
    have hk' := mem_range.1 hk
    congr 1
    by_cases hkn : k < nr + 1
    · rw [if_pos hkn, tab_getD, if_pos hkn]
    · rw [if_neg hkn, tab_getD, if_pos (by omega), map_mul, dft_conj _ hn _ _ hk'.le, dft_conj _ hn _ _ hk'.le]
  rw [sum_congr rfl hs, dft_mul _ hn]
  have hr : (∑ a ∈ range (nr * 2), ∑ b ∈ range (nr * 2),
      if ((nr * 2 : ℕ) : ℤ) ∣ (n : ℤ) - a - b then ((w a : ℂ) * h b) else 0) =
      ((∑ b ∈ range (nr * 2), ∑ a ∈ range (nr * 2),
        if ((nr * 2 : ℕ) : ℤ) ∣ (n : ℤ) - a - b then w a * h b else 0 : ℝ) : ℂ) := by
    rw [sum_comm]
    push_cast
    apply sum_congr rfl
    intro a _
    apply sum_congr rfl
    intro b _
    split_ifs <;> simp
  rw [hr, Complex.ofReal_re, kasdinNoise]
  have h1 : ∀ b ∈ range (nr * 2), (∑ a ∈ range (nr * 2),
      if ((nr * 2 : ℕ) : ℤ) ∣ (n : ℤ) - a - b then w a * h b else 0) =
      if b < n + 1 then kasdinH s.b b * (√s.qd * z.getD (n - b) 0) else 0 := fun b hb => by
    by_cases hbn : b < n + 1
    · rw [if_pos hbn, sum_eq_single (n - b)]
      · rw [if_pos (by rw [Nat.cast_sub (by omega)]; simp), hw, hh]
        simp only
        rw [if_pos (by omega), if_pos (by omega), mul_comm]
      · intro a ha hne
        have ha' := mem_range.1 ha
        by_cases han : a < nr
        · rw [if_neg]
          rintro ⟨c, hc⟩
          have hc0 : c = 0 := by
            push_cast at hc
            have h1 : (nr : ℤ) * 2 * c < nr * 2 * 1 := by rw [← hc]; omega
            have h2 : (nr : ℤ) * 2 * (-1) < nr * 2 * c := by rw [← hc]; omega
            have h3 := lt_of_mul_lt_mul_left h1 (by omega)
            have h4 := lt_of_mul_lt_mul_left h2 (by omega)
            omega
          rw [hc0] at hc
          omega
        · rw [hw]; simp only; rw [if_neg han]; simp
      · intro h'; exact absurd (mem_range.2 (by omega)) h'
    · rw [if_neg hbn]
      apply sum_eq_zero
      intro a ha
      by_cases han : a < nr
      · by_cases hbr : b < nr
        · rw [if_neg]
          rintro ⟨c, hc⟩
          have hc0 : c = 0 := by
            push_cast at hc
            have h1 : (nr : ℤ) * 2 * c < nr * 2 * 1 := by rw [← hc]; omega
            have h2 : (nr : ℤ) * 2 * (-1) < nr * 2 * c := by rw [← hc]; omega
            have h3 := lt_of_mul_lt_mul_left h1 (by omega)
            have h4 := lt_of_mul_lt_mul_left h2 (by omega)
            omega
          rw [hc0] at hc
          omega
        · rw [hh]; simp only; rw [if_neg hbr]; simp
      · rw [hw]; simp only; rw [if_neg han]; simp
  rw [sum_congr rfl h1, ← sum_filter]
  congr 1
  ext b
  simp only [mem_filter, mem_range]
  omega

/-- C50: an empty series raises IndexError -/
theorem generateNoise_zero (s : Noise) (z : List ℝ) (h0 : s.nr = 0) :
    s.generateNoise z = .error .indexError := by
  simp [Noise.generateNoise, h0]

/-- C50: `b = 0` returns the white samples -/
theorem kasdinNoise_white (w : ℕ → ℝ) (n : ℕ) : kasdinNoise 0 w n = w n := by
  unfold kasdinNoise
  rw [sum_eq_single 0]
  · simp [kasdinH]
  · intro k _ hk
    have : kasdinH 0 k = 0 := by
      unfold kasdinH
      exact prod_eq_zero (mem_range.2 (Nat.pos_of_ne_zero hk)) (by simp)
    rw [this, zero_mul]
  · simp

theorem kasdinH_walk (k : ℕ) : kasdinH (-2) k = 1 := by
  unfold kasdinH
  apply prod_eq_one
  intro i _
  have : (i : ℝ) + 1 ≠ 0 := by positivity
  rw [div_eq_one_iff_eq this]
  ring

theorem kasdinH_run (k : ℕ) : kasdinH (-4) k = k + 1 := by
  induction k with
  | zero => simp [kasdinH]
  | succ k ih =>
    have h : kasdinH (-4) (k + 1) = kasdinH (-4) k * (((k : ℝ) - (-4) / 2) / (k + 1)) := by
      unfold kasdinH; rw [prod_range_succ]
    have : (k : ℝ) + 1 ≠ 0 := by positivity
    rw [h, ih]
    push_cast
    field_simp
    ring

/-- C50: `b = -2` returns their running sum -/
theorem kasdinNoise_walk (w : ℕ → ℝ) (n : ℕ) : kasdinNoise (-2) w n = ∑ j ∈ range (n + 1), w j := by
  unfold kasdinNoise
  simp only [kasdinH_walk, one_mul]
  exact sum_range_reflect w (n + 1)

/-- C50: `b = -4` returns the running sum of the running sum -/
theorem kasdinNoise_run (w : ℕ → ℝ) (n : ℕ) :
    kasdinNoise (-4) w n = ∑ j ∈ range (n + 1), ∑ i ∈ range (j + 1), w i := by
  have h : ∀ n, kasdinNoise (-4) w n = ∑ i ∈ range (n + 1), ((n - i : ℕ) + 1 : ℝ) * w i := fun n => by
    unfold kasdinNoise
    rw [← sum_range_reflect]
    apply sum_congr rfl
    intro i hi
    have hi' := mem_range.1 hi
    rw [kasdinH_run, show n - (n + 1 - 1 - i) = i by omega, show n + 1 - 1 - i = n - i by omega]
  rw [h]
  clear h
  induction n with
  | zero => simp
  | succ n ih =>
    rw [sum_range_succ _ (n + 1), sum_range_succ (fun j => ∑ i ∈ range (j + 1), w i) (n + 1), ← ih,
      sum_range_succ w (n + 1)]
    have : ∀ i ∈ range (n + 1), ((n + 1 - i : ℕ) + 1 : ℝ) * w i = ((n - i : ℕ) + 1 : ℝ) * w i + w i :=
      fun i hi => by
        have hi' := mem_range.1 hi
        rw [show n + 1 - i = n - i + 1 by omega]
        push_cast
        ring
    rw [sum_congr rfl this, sum_add_distrib]
    simp
    ring

/-- the case `b = -2` with three draws: the running sum 1, 3, 6 -/
example : (Noise.init 3 1 (-2)).generateNoise [1, 2, 3] = .ok ⟨3, 1, -2, [1, 3, 6]⟩ := by
  rw [generateNoise_eq _ _ (by simp [Noise.init])]
  simp only [Noise.init, tab, List.range_succ, List.range_zero, List.nil_append, List.cons_append,
    List.map_cons, List.map_nil, kasdinNoise_walk, sum_range_succ]
  norm_num

end AT
