import Verif.Model.Noise
import Verif.Props.Kasdin

/-!
# C63: `numpy_psd`
-/

namespace AT

open Finset Real Spec

/-- the discrete Fourier transform of real data -/
noncomputable def Spec.dftSum (x : List ℝ) (k : ℕ) : ℂ :=
  ∑ j ∈ range x.length, (x.getD j 0 : ℂ) * Complex.exp (-2 * π * Complex.I * (j * k) / x.length)

theorem dftSum_eq (x : List ℝ) (k : ℕ) : dftSum x k = dft x.length (fun j => x.getD j 0) k := by
  unfold dftSum dft expRoot
  apply sum_congr rfl
  intro j _
  congr 2
  push_cast
  ring

theorem numpy_psd_form (x : List ℝ) (fs : ℝ) (hx : x ≠ []) (hf : 0 < fs) :
    numpy_psd x fs = .ok (npLinspace 0 (fs / 2) (x.length / 2 + 1),
      tab (x.length / 2 + 1) (fun k => 2 / (x.length * fs) * ‖dftSum x k‖ ^ 2)) := by
  have hl : (0 : ℝ) < x.length := by exact_mod_cast List.length_pos_of_ne_nil hx
  unfold numpy_psd
  rw [if_neg (by positivity)]
  have e : npRfft x = tab (x.length / 2 + 1) (dftSum x) := by
    conv_lhs => rw [eq_tab x 0, npRfft_tab]
    apply tab_congr
    intro k _
    exact (dftSum_eq x k).symm
  simp only [e, map_tab, tab_length]

/-- C63: the values are `2/(N f_s) |X_k|²` for `k = 0 … N/2` -/
theorem numpy_psd_eq (x : List ℝ) (fs : ℝ) (hx : x ≠ []) (hf : 0 < fs) :
    ∃ ax, numpy_psd x fs = .ok (ax, tab (x.length / 2 + 1) (fun k => 2 / (x.length * fs) * ‖dftSum x k‖ ^ 2)) ∧
      ax.length = x.length / 2 + 1 := by
  refine ⟨_, numpy_psd_form x fs hx hf, ?_⟩
  unfold npLinspace
  split_ifs with h
  · rw [h]; rfl
  · rw [tab_length]

/-- C63: for data of even length the frequency axis is `k f_s / N` -/
theorem numpy_psd_axis_even (x : List ℝ) (fs : ℝ) (hx : x ≠ []) (hf : 0 < fs) (he : Even x.length) :
    ∃ ps, numpy_psd x fs = .ok (tab (x.length / 2 + 1) (fun k => k * fs / x.length), ps) := by
  have hpos := List.length_pos_of_ne_nil hx
  have hl : (0 : ℝ) < x.length := by exact_mod_cast hpos
  refine ⟨tab (x.length / 2 + 1) (fun k => 2 / (x.length * fs) * ‖dftSum x k‖ ^ 2),
    (numpy_psd_form x fs hx hf).trans ?_⟩
  congr 2
  obtain ⟨h, hh⟩ := he
  have hh2 : x.length / 2 = h := by omega
  unfold npLinspace
  rw [hh2, if_neg (by omega)]
  apply tab_congr
  intro k _
  have : (x.length : ℝ) = 2 * h := by rw [hh]; push_cast; ring
  rw [this] at hl ⊢
  have : (0 : ℝ) < h := by linarith
  push_cast
  rw [add_sub_cancel_right]
  field_simp
  ring

example := numpy_psd_axis_even [1, 5, 2, 2] 10 (by simp) (by norm_num) ⟨2, rfl⟩

/-- C63: for data of odd length the axis is stretched: the frequency of the `k`-th value is
`k f_s / N` but the axis has `k f_s / (N - 1)` -/
theorem numpy_psd_axis_odd_wrong (x : List ℝ) (fs : ℝ) (hf : 0 < fs) (h3 : 3 ≤ x.length) (ho : Odd x.length) :
    ∃ ps, numpy_psd x fs = .ok (tab (x.length / 2 + 1) (fun k => k * fs / ((x.length : ℝ) - 1)), ps) ∧
      ∀ k : ℕ, 0 < k → k * fs / (x.length : ℝ) < k * fs / ((x.length : ℝ) - 1) := by
  have h3r : (3 : ℝ) ≤ x.length := by exact_mod_cast h3
  refine ⟨tab (x.length / 2 + 1) (fun k => 2 / (x.length * fs) * ‖dftSum x k‖ ^ 2),
    (numpy_psd_form x fs (by rintro rfl; simp at h3) hf).trans ?_, ?_⟩
  · congr 2
    obtain ⟨h, hh⟩ := ho
    have hh2 : x.length / 2 = h := by omega
    unfold npLinspace
    rw [hh2, if_neg (by omega)]
    apply tab_congr
    intro k _
    have e : (x.length : ℝ) = 2 * h + 1 := by rw [hh]; push_cast; ring
    rw [e] at h3r ⊢
    have : (0 : ℝ) < h := by linarith
    push_cast
    rw [add_sub_cancel_right, add_sub_cancel_right]
    field_simp
    ring
  · intro k hk
    have hkr : (0 : ℝ) < k := by exact_mod_cast hk
    apply div_lt_div_of_pos_left (by positivity) (by linarith) (by linarith)

/-- three samples at 6 Hz: the second value belongs to 2 Hz, the axis has 3 Hz -/
example : ∃ ps, numpy_psd [1, 5, 2] 6 = .ok ([0, 3], ps) := by
  obtain ⟨ps, h, -⟩ := numpy_psd_axis_odd_wrong [1, 5, 2] 6 (by norm_num) (by simp) ⟨1, rfl⟩
  refine ⟨ps, h.trans ?_⟩
  norm_num [tab, List.range_succ]

/-- Parseval's identity -/
theorem dft_parseval (n : ℕ) (w : ℕ → ℝ) : ∑ k ∈ range n, ‖dft n w k‖ ^ 2 = n * ∑ j ∈ range n, w j ^ 2 := by
  rcases Nat.eq_zero_or_pos n with rfl | hn
  · simp
  have hn0 : n ≠ 0 := hn.ne'
  have key : ∑ k ∈ range n, (dft n w k * (starRingEnd ℂ) (dft n w k)) = (n : ℂ) * ∑ j ∈ range n, (w j : ℂ) ^ 2 := by
    have e : ∀ k : ℕ, dft n w k * (starRingEnd ℂ) (dft n w k)
        = ∑ j ∈ range n, ∑ l ∈ range n, (w j * w l : ℂ) * expRoot n (((l : ℤ) - j) * k) := by
      intro k
      unfold dft
      rw [map_sum, sum_mul_sum]
      apply sum_congr rfl
      intro j _
      apply sum_congr rfl
      intro l _
      rw [map_mul, expRoot_conj, Complex.conj_ofReal]
      rw [show ((l : ℤ) - j) * k = -((j * k : ℕ) : ℤ) + - -((l * k : ℕ) : ℤ) by push_cast; ring, expRoot_add]
      ring
    simp only [e]
    rw [sum_comm]
    rw [mul_sum]
    apply sum_congr rfl
    intro j hj
    rw [sum_comm, sum_eq_single j]
    · rw [← mul_sum, sum_expRoot n hn0, if_pos (by simp)]
      ring
    · intro l hl hlj
      rw [← mul_sum, sum_expRoot n hn0, if_neg, mul_zero]
      rintro ⟨c, hc⟩
      have h1 := mem_range.1 hj
      have h2 := mem_range.1 hl
      have hc0 : c = 0 := by
        by_contra h
        have : (n : ℤ) ≤ |(l : ℤ) - j| := by
          rw [hc, abs_mul, Nat.abs_cast]
          exact le_mul_of_one_le_right (by positivity) (Int.one_le_abs h)
        have : |(l : ℤ) - j| < n := by rw [abs_lt]; constructor <;> omega
        omega
      rw [hc0] at hc
      omega
    · intro h; exact absurd hj h
  have h2 := congrArg Complex.re key
  rw [Complex.re_sum] at h2
  have e1 : ∀ k, (dft n w k * (starRingEnd ℂ) (dft n w k)).re = ‖dft n w k‖ ^ 2 := by
    intro k
    rw [Complex.mul_conj, Complex.ofReal_re, Complex.normSq_eq_norm_sq]
  simp only [e1] at h2
  rw [h2]
  norm_cast

/-- the full sum is twice the half, less the values counted twice -/
theorem half_sum (n : ℕ) (hn : 0 < n) (g : ℕ → ℝ) (hg : ∀ k, 0 < k → k < n → g (n - k) = g k) :
    2 * ∑ k ∈ range (n / 2 + 1), g k = ∑ k ∈ range n, g k + g 0 + if n % 2 = 0 then g (n / 2) else 0 := by
  rcases Nat.even_or_odd' n with ⟨h, rfl | rfl⟩
  · have hp : 0 < h := by omega
    rw [if_pos (by omega), show 2 * h / 2 = h by omega]
    have h1 : ∑ k ∈ range (2 * h), g k = ∑ k ∈ range (h + 1), g k + ∑ i ∈ range (h - 1), g (h + 1 + i) := by
      rw [show 2 * h = (h + 1) + (h - 1) by omega, sum_range_add]
    have h2 : ∑ i ∈ range (h - 1), g (h + 1 + i) = ∑ i ∈ range (h - 1), g (i + 1) := by
      rw [← sum_range_reflect]
      apply sum_congr rfl
      intro i hi
      have := mem_range.1 hi
      rw [show h + 1 + (h - 1 - 1 - i) = 2 * h - (i + 1) by omega, hg _ (by omega) (by omega)]
    have h3 : ∑ k ∈ range (h + 1), g k = g 0 + ∑ i ∈ range (h - 1), g (i + 1) + g h := by
      rw [sum_range_succ, show h = h - 1 + 1 by omega, sum_range_succ' (fun k => g k) (h - 1)]
      simp
      ring
    rw [h1, h2, h3]
    ring
  · rw [if_neg (by omega), show (2 * h + 1) / 2 = h by omega]
    have h1 : ∑ k ∈ range (2 * h + 1), g k = ∑ k ∈ range (h + 1), g k + ∑ i ∈ range h, g (h + 1 + i) := by
      rw [show 2 * h + 1 = (h + 1) + h by omega, sum_range_add]
    have h2 : ∑ i ∈ range h, g (h + 1 + i) = ∑ i ∈ range h, g (i + 1) := by
      rw [← sum_range_reflect]
      apply sum_congr rfl
      intro i hi
      have := mem_range.1 hi
      rw [show h + 1 + (h - 1 - i) = 2 * h + 1 - (i + 1) by omega, hg _ (by omega) (by omega)]
    have h3 : ∑ k ∈ range (h + 1), g k = g 0 + ∑ i ∈ range h, g (i + 1) := by
      rw [sum_range_succ']
      ring
    rw [h1, h2, h3]
    ring

/-- C63: the integral of the PSD, `Σ psd · f_s/N`, is the mean square of the data plus the square of
the mean plus, for even `N`, the square of the alternating mean: the values at zero and at half the
sampling frequency are doubled like the others -/
theorem numpy_psd_power (x : List ℝ) (fs : ℝ) (hx : x ≠ []) (hf : 0 < fs) :
    ∃ ax ps, numpy_psd x fs = .ok (ax, ps) ∧
      ps.sum * (fs / x.length) = (∑ j ∈ range x.length, x.getD j 0 ^ 2) / x.length
        + ((∑ j ∈ range x.length, x.getD j 0) / x.length) ^ 2
        + if x.length % 2 = 0 then ((∑ j ∈ range x.length, (-1) ^ j * x.getD j 0) / x.length) ^ 2 else 0 := by
  have hpos := List.length_pos_of_ne_nil hx
  have hl : (0 : ℝ) < x.length := by exact_mod_cast hpos
  obtain ⟨ax, h, -⟩ := numpy_psd_eq x fs hx hf
  refine ⟨ax, _, h, ?_⟩
  rw [sum_tab, ← mul_sum]
  have hs := half_sum x.length hpos (fun k => ‖dftSum x k‖ ^ 2) (by
    intro k hk hkn
    simp only [dftSum_eq]
    rw [← dft_conj x.length hpos.ne' _ k hkn.le, Complex.norm_conj])
  have hp : ∑ k ∈ range x.length, ‖dftSum x k‖ ^ 2 = x.length * ∑ j ∈ range x.length, x.getD j 0 ^ 2 := by
    simp only [dftSum_eq]
    exact dft_parseval _ _
  have h0 : ‖dftSum x 0‖ ^ 2 = (∑ j ∈ range x.length, x.getD j 0) ^ 2 := by
    have : dftSum x 0 = ((∑ j ∈ range x.length, x.getD j 0 : ℝ) : ℂ) := by
      unfold dftSum
      push_cast
      apply sum_congr rfl
      intro j _
      simp
    rw [this, Complex.norm_real, norm_eq_abs, sq_abs]
  rw [hp, h0] at hs
  by_cases he : x.length % 2 = 0
  · rw [if_pos he] at hs ⊢
    have hh : ‖dftSum x (x.length / 2)‖ ^ 2 = (∑ j ∈ range x.length, (-1) ^ j * x.getD j 0) ^ 2 := by
      have : dftSum x (x.length / 2) = ((∑ j ∈ range x.length, (-1) ^ j * x.getD j 0 : ℝ) : ℂ) := by
        unfold dftSum
        push_cast
        apply sum_congr rfl
        intro j _
        have e : -2 * (π : ℂ) * Complex.I * (j * ((x.length / 2 : ℕ) : ℂ)) / x.length = j * (-(π * Complex.I)) := by
          have : (x.length : ℂ) = 2 * ((x.length / 2 : ℕ) : ℂ) := by
            exact_mod_cast (by omega : x.length = 2 * (x.length / 2))
          have h2 : ((x.length / 2 : ℕ) : ℂ) ≠ 0 := by
            exact_mod_cast (by omega : x.length / 2 ≠ 0)
          rw [this]
          field_simp
        rw [e, Complex.exp_nat_mul, Complex.exp_neg, Complex.exp_pi_mul_I]
        norm_num
        ring
      rw [this, Complex.norm_real, norm_eq_abs, sq_abs]
    rw [hh] at hs
    field_simp
    linarith
  · rw [if_neg he] at hs ⊢
    field_simp
    linarith

/-- C63: data `c` times as large have a PSD `c²` times as large, on the same axis -/
theorem numpy_psd_scale (x : List ℝ) (fs c : ℝ) (ax ps : List ℝ) (h : numpy_psd x fs = .ok (ax, ps)) :
    numpy_psd (x.map (fun v => c * v)) fs = .ok (ax, ps.map (fun p => c ^ 2 * p)) := by
  unfold numpy_psd at h ⊢
  rw [List.length_map]
  split_ifs at h with h0
  rw [if_neg h0]
  simp only at h ⊢
  injection h with h
  obtain ⟨rfl, rfl⟩ := Prod.mk.inj h
  have e : npRfft (x.map (fun v => c * v)) = (npRfft x).map (fun X => (c : ℂ) * X) := by
    unfold npRfft
    rw [map_tab, List.length_map]
    apply tab_congr
    intro k _
    rw [mul_sum]
    apply sum_congr rfl
    intro j _
    rw [List.getD_eq_getElem?_getD, List.getD_eq_getElem?_getD, List.getElem?_map]
    rcases x[j]? with - | w
    · simp
    · simp [mul_assoc]
  rw [e]
  simp only [List.map_map, List.length_map]
  congr 3
  funext X
  simp only [Function.comp, norm_mul, Complex.norm_real, norm_eq_abs, mul_pow, sq_abs]
  ring

example (ax ps : List ℝ) (h : numpy_psd [1, 5, 2] 6 = .ok (ax, ps)) :
    numpy_psd [3, 15, 6] 6 = .ok (ax, ps.map (fun p => 9 * p)) := by
  have := numpy_psd_scale [1, 5, 2] 6 3 ax ps h
  norm_num at this
  exact this

/-- the power of the data `1, -1, 1, -1`, all at half the sampling frequency, comes out doubled -/
example : ∃ ax ps, numpy_psd [1, -1, 1, -1] 1 = .ok (ax, ps) ∧ ps.sum * (1 / 4) = 2 := by
  obtain ⟨ax, ps, h, hp⟩ := numpy_psd_power [1, -1, 1, -1] 1 (by simp) one_pos
  refine ⟨ax, ps, h, ?_⟩
  simp [sum_range_succ] at hp
  norm_num at hp ⊢
  exact hp

end AT
