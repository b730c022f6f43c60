import Verif.Model.Welch
import Verif.Props.NumpyPsd

/-!
# C69: `scipy_psd`
-/

namespace AT

open Finset Real Spec

/-- the Hann window of `n` points -/
noncomputable def Spec.hann (n j : ℕ) : ℝ := if n = 1 then 1 else sin (π * j / n) ^ 2

/-- the mean of the `n` values of `x` from `s` on -/
noncomputable def Spec.segMean (x : List ℝ) (s n : ℕ) : ℝ := (∑ j ∈ range n, x.getD (s + j) 0) / n

/-- the windowed Fourier sum of the `n` values of `x` from `s` on, their mean removed -/
noncomputable def Spec.segDft (x : List ℝ) (s n k : ℕ) : ℂ :=
  ∑ j ∈ range n, ((hann n j * (x.getD (s + j) 0 - segMean x s n) : ℝ) : ℂ)
    * Complex.exp (-2 * π * Complex.I * (j * k) / n)

/-- the number of segments of `n` of `N` values when each starts `n - n/2` after the one before -/
def Spec.segments (N n : ℕ) : ℕ := (N - n) / (n - n / 2) + 1

/-- Welch's estimate of the one-sided density at the frequency `k fs/n` -/
noncomputable def Spec.welchPsd (x : List ℝ) (fs : ℝ) (n k : ℕ) : ℝ :=
  (if k = 0 ∨ 2 * k = n then 1 else 2) *
    ((∑ i ∈ range (segments x.length n), ‖segDft x (i * (n - n / 2)) n k‖ ^ 2)
      / segments x.length n) / (fs * ∑ j ∈ range n, hann n j ^ 2)

theorem hannWindow_eq (n : ℕ) : hannWindow n = tab n (hann n) := by
  unfold hannWindow
  split_ifs with h
  · rw [h]; simp [tab, hann]
  · apply tab_congr
    intro j _
    unfold hann
    rw [if_neg h, sin_sq, show (2 * π * j / n : ℝ) = 2 * (π * j / n) by ring, cos_two_mul]
    ring

theorem hann_sum_pos (n : ℕ) (hn : 0 < n) : 0 < ∑ j ∈ range n, hann n j ^ 2 := by
  by_cases h1 : n = 1
  · subst h1; simp [hann]
  apply sum_pos' (fun j _ => sq_nonneg _)
  refine ⟨1, by simp; omega, ?_⟩
  unfold hann
  rw [if_neg h1]
  have hn' : (1 : ℝ) < n := by exact_mod_cast (by omega : 1 < n)
  have : 0 < sin (π * (1 : ℕ) / n) := by
    apply sin_pos_of_pos_of_lt_pi
    · simp; positivity
    · rw [div_lt_iff₀ (by linarith)]
      simp
      nlinarith [pi_pos]
  positivity

theorem welchSegment_tab (n : ℕ) (y w : ℕ → ℝ) (scale : ℝ) :
    welchSegment (tab n y) (tab n w) scale = tab (n / 2 + 1) (fun k =>
      (if k = 0 ∨ 2 * k = n then 1 else 2) *
        (scale * ‖dft n (fun j => w j * (y j - (∑ j ∈ range n, y j) / n)) k‖ ^ 2)) := by
  unfold welchSegment
  have h1 : List.zipWith (· * ·) ((tab n y).map (fun v => v - npMean (tab n y))) (tab n w)
      = tab n (fun j => w j * (y j - (∑ j ∈ range n, y j) / n)) := by
    rw [map_tab, npMean, sum_tab, tab_length]
    apply tab_ext
    · simp
    · intro j hj
      simp [hj, tab, mul_comm]
  simp only [h1]
  rw [npRfft_tab, map_tab, tab_length, tab_length]
  apply tab_congr
  intro k hk
  rw [tab_getD, if_pos hk]
  have : (k = 0 ∨ n % 2 = 0 ∧ k + 1 = n / 2 + 1) ↔ (k = 0 ∨ 2 * k = n) := by omega
  simp only [this]
  split_ifs <;> ring

theorem segDft_eq (x : List ℝ) (s n k : ℕ) :
    segDft x s n k = dft n (fun j => hann n j * (x.getD (s + j) 0 - segMean x s n)) k := by
  unfold segDft dft expRoot
  apply sum_congr rfl
  intro j _
  congr 2
  push_cast
  ring

/-- C69: every segment lies in the data, and fewer values than one step are left over -/
theorem segments_fit (N n : ℕ) (hn : 0 < n) (h : n ≤ N) :
    (∀ i < segments N n, i * (n - n / 2) + n ≤ N) ∧
    N < (segments N n - 1) * (n - n / 2) + n + (n - n / 2) := by
  have hs : 0 < n - n / 2 := by omega
  unfold segments
  constructor
  · intro i hi
    have h1 : i ≤ (N - n) / (n - n / 2) := by omega
    have h2 := Nat.div_mul_le_self (N - n) (n - n / 2)
    have h3 := Nat.mul_le_mul_right (n - n / 2) h1
    omega
  · rw [Nat.add_sub_cancel]
    have := Nat.lt_div_mul_add hs (a := N - n)
    omega

/-- C69: `r` segments of even length without overlap make `2r - 1` overlapping ones -/
theorem segments_whole (r h : ℕ) (hr : 0 < r) (hh : 0 < h) : segments (r * (2 * h)) (2 * h) = 2 * r - 1 := by
  unfold segments
  obtain ⟨r, rfl⟩ : ∃ r', r = r' + 1 := ⟨r - 1, by omega⟩
  rw [show 2 * h - 2 * h / 2 = h by omega, show (r + 1) * (2 * h) - 2 * h = 2 * r * h by
    rw [Nat.succ_mul, Nat.add_sub_cancel]; ring, Nat.mul_div_cancel _ hh]
  omega

theorem welch_eq (x : List ℝ) (fs : ℝ) (hf : fs ≠ 0) (nperseg : ℤ) (n : ℕ) (hn : 0 < n)
    (h1 : 1 ≤ nperseg) (h : n = min nperseg.toNat x.length) :
    welch x fs nperseg = .ok (tab (n / 2 + 1) (fun k => k * fs / n), tab (n / 2 + 1) (welchPsd x fs n)) := by
  have hl : n ≤ x.length := by omega
  unfold welch
  rw [if_neg (by omega), if_neg (by omega), if_neg hf]
  simp only [← h]
  have hs : tab ((x.length - n) / (n - n / 2) + 1) (fun i => welchSegment
        (slice x ((i * (n - n / 2) : ℕ) : ℤ) ((i * (n - n / 2) + n : ℕ) : ℤ)) (hannWindow n)
        (1 / (fs * ((hannWindow n).map (fun w => w * w)).sum)))
      = tab (segments x.length n) (fun i => tab (n / 2 + 1) (fun k => (if k = 0 ∨ 2 * k = n then 1 else 2) *
        (1 / (fs * ∑ j ∈ range n, hann n j ^ 2) * ‖segDft x (i * (n - n / 2)) n k‖ ^ 2))) := by
    apply tab_congr
    intro i hi
    have hle := (segments_fit x.length n hn hl).1 i hi
    have e : slice x ((i * (n - n / 2) : ℕ) : ℤ) ((i * (n - n / 2) + n : ℕ) : ℤ)
        = tab n (fun j => x.getD (i * (n - n / 2) + j) 0) := by
      conv_lhs => rw [eq_tab x 0]
      rw [slice_tab _ _ _ _ hle, Nat.add_sub_cancel_left]
    rw [e, hannWindow_eq, welchSegment_tab, map_tab, sum_tab]
    apply tab_congr
    intro k _
    rw [segDft_eq]
    simp only [segMean, sq]
  rw [hs]
  show Except.ok _ = .ok _
  congr 2
  · apply tab_congr
    intro k _
    have : (n : ℝ) ≠ 0 := by exact_mod_cast hn.ne'
    field_simp
  · apply tab_congr
    intro k hk
    rw [map_tab, npMean, sum_tab, tab_length]
    simp only [tab_getD, if_pos hk]
    rw [← mul_sum, ← mul_sum]
    unfold welchPsd
    generalize (∑ i ∈ range (segments x.length n), ‖segDft x (i * (n - n / 2)) n k‖ ^ 2) = A
    generalize (∑ j ∈ range n, hann n j ^ 2) = B
    rw [one_div]
    simp only [div_eq_mul_inv]
    ring

/-- **C69.** `scipy_psd` is Welch's estimate with segments of `N // nr_segments` values -/
theorem scipy_psd_eq (x : List ℝ) (fs : ℝ) (hf : fs ≠ 0) (r : ℕ) (hr : 0 < r) (hl : r ≤ x.length) :
    scipy_psd x fs r = .ok (tab (x.length / r / 2 + 1) (fun k => k * fs / (x.length / r : ℕ)),
      tab (x.length / r / 2 + 1) (welchPsd x fs (x.length / r))) := by
  have hn : 0 < x.length / r := Nat.div_pos hl hr
  unfold scipy_psd pyDiv
  rw [if_neg (by exact_mod_cast hr.ne'), ok_bind]
  have ht : truncInt ((x.length : ℝ) / r) = ((x.length / r : ℕ) : ℤ) := by
    unfold truncInt
    rw [if_pos (by positivity), Int.floor_div_natCast, Int.floor_natCast, Int.natCast_div]
  rw [ht]
  refine welch_eq x fs hf _ _ hn (by omega) ?_
  rw [Int.toNat_natCast, min_eq_left (Nat.div_le_self _ _)]

/-- C69: all other outcomes -/
theorem scipy_psd_outcomes (x : List ℝ) (fs r : ℝ) :
    (r = 0 → scipy_psd x fs r = .error .zeroDivisionError) ∧
    (r ≠ 0 → x = [] → scipy_psd x fs r = .ok ([], [])) ∧
    (r ≠ 0 → x ≠ [] → (r < 0 ∨ x.length < r) → scipy_psd x fs r = .error .valueError) ∧
    (0 < r → x ≠ [] → r ≤ x.length → fs = 0 → scipy_psd x fs r = .error .zeroDivisionError) := by
  refine ⟨?_, ?_, ?_, ?_⟩
  · intro h
    unfold scipy_psd pyDiv
    rw [if_pos h]
    rfl
  · intro h hx
    unfold scipy_psd pyDiv
    rw [if_neg h, ok_bind]
    unfold welch
    rw [if_pos (by rw [hx]; rfl)]
  · intro h hx hr
    have hpos := List.length_pos_of_ne_nil hx
    have hl : (0 : ℝ) < x.length := by exact_mod_cast hpos
    unfold scipy_psd pyDiv
    rw [if_neg h, ok_bind]
    unfold welch
    rw [if_neg hpos.ne', if_pos]
    unfold truncInt
    rcases hr with hr | hr
    · have : (x.length : ℝ) / r < 0 := div_neg_of_pos_of_neg hl hr
      rw [if_neg (by linarith)]
      have : ⌈(x.length : ℝ) / r⌉ ≤ 0 := Int.ceil_le.2 (by simp; linarith)
      omega
    · have h0 : 0 < r := by linarith
      rw [if_pos (by positivity), Int.floor_lt]
      simp
      rwa [div_lt_one h0]
  · intro h0 hx hr hf
    have hpos := List.length_pos_of_ne_nil hx
    unfold scipy_psd pyDiv
    rw [if_neg h0.ne', ok_bind]
    unfold welch
    rw [if_neg hpos.ne', if_neg, if_pos hf]
    unfold truncInt
    rw [if_pos (by positivity), not_lt, Int.le_floor]
    simp
    rwa [one_le_div h0]

/-- C69: the integral of the estimate over the frequency axis is the window-weighted variance of
the segments, averaged over the segments, for even and odd segment lengths -/
theorem welch_power (x : List ℝ) (fs : ℝ) (hf : fs ≠ 0) (n : ℕ) (hn : 0 < n) :
    (∑ k ∈ range (n / 2 + 1), welchPsd x fs n k) * (fs / n) =
      (∑ i ∈ range (segments x.length n),
        (∑ j ∈ range n, hann n j ^ 2 * (x.getD (i * (n - n / 2) + j) 0 - segMean x (i * (n - n / 2)) n) ^ 2)
          / ∑ j ∈ range n, hann n j ^ 2) / segments x.length n := by
  have hB := hann_sum_pos n hn
  have hS : (0 : ℝ) < segments x.length n := by unfold segments; positivity
  have hn' : (n : ℝ) ≠ 0 := by exact_mod_cast hn.ne'
  have key : ∀ s, ∑ k ∈ range (n / 2 + 1), (if k = 0 ∨ 2 * k = n then (1 : ℝ) else 2) * ‖segDft x s n k‖ ^ 2
      = n * ∑ j ∈ range n, hann n j ^ 2 * (x.getD (s + j) 0 - segMean x s n) ^ 2 := by
    intro s
    simp only [segDft_eq]
    set w : ℕ → ℝ := fun j => hann n j * (x.getD (s + j) 0 - segMean x s n) with hw
    have hp := dft_parseval n w
    have hs := half_sum n hn (fun k => ‖dft n w k‖ ^ 2) (by
      intro k hk hkn
      rw [← dft_conj n hn.ne' _ k hkn.le, Complex.norm_conj])
    rw [hp] at hs
    have hsplit : ∑ k ∈ range (n / 2 + 1), (if k = 0 ∨ 2 * k = n then (1 : ℝ) else 2) * ‖dft n w k‖ ^ 2
        = 2 * ∑ k ∈ range (n / 2 + 1), ‖dft n w k‖ ^ 2 - ‖dft n w 0‖ ^ 2
          - if n % 2 = 0 then ‖dft n w (n / 2)‖ ^ 2 else 0 := by
      have e : ∀ k ∈ range (n / 2 + 1), (if k = 0 ∨ 2 * k = n then (1 : ℝ) else 2) * ‖dft n w k‖ ^ 2
          = 2 * ‖dft n w k‖ ^ 2 - (if k = 0 then ‖dft n w 0‖ ^ 2 else 0)
            - (if k = n / 2 then (if n % 2 = 0 then ‖dft n w (n / 2)‖ ^ 2 else 0) else 0) := by
        intro k _
        rcases Nat.eq_zero_or_pos k with rfl | hk
        · by_cases h2 : 0 = n / 2
          · rw [if_pos (Or.inl rfl), if_pos rfl, if_pos h2, if_neg (by omega)]; ring
          · rw [if_pos (Or.inl rfl), if_pos rfl, if_neg h2]; ring
        · rw [if_neg (show ¬ k = 0 by omega)]
          by_cases h2 : 2 * k = n
          · rw [if_pos (Or.inr h2), if_pos (by omega), if_pos (by omega), show n / 2 = k by omega]; ring
          · rw [if_neg (by omega)]
            by_cases h3 : k = n / 2
            · rw [if_pos h3, if_neg (by omega)]; ring
            · rw [if_neg h3]; ring
      rw [sum_congr rfl e, sum_sub_distrib, sum_sub_distrib, ← mul_sum, sum_ite_eq', sum_ite_eq',
        if_pos (by simp), if_pos (by simp)]
    rw [hsplit, hs]
    have : ∀ j, w j ^ 2 = hann n j ^ 2 * (x.getD (s + j) 0 - segMean x s n) ^ 2 := fun j => by
      rw [hw]; ring
    simp only [this]
    ring
  unfold welchPsd
  have e : ∀ k, (if k = 0 ∨ 2 * k = n then (1 : ℝ) else 2) *
      ((∑ i ∈ range (segments x.length n), ‖segDft x (i * (n - n / 2)) n k‖ ^ 2) / segments x.length n)
        / (fs * ∑ j ∈ range n, hann n j ^ 2)
      = (∑ i ∈ range (segments x.length n), (if k = 0 ∨ 2 * k = n then (1 : ℝ) else 2) *
          ‖segDft x (i * (n - n / 2)) n k‖ ^ 2) / (segments x.length n * (fs * ∑ j ∈ range n, hann n j ^ 2)) := by
    intro k
    rw [← mul_sum]
    field_simp
  simp only [e]
  rw [← sum_div, sum_comm]
  simp only [key]
  rw [← mul_sum, ← sum_div]
  field_simp

/-- C69: the density is nonnegative for a positive sampling frequency -/
theorem welchPsd_nonneg (x : List ℝ) (fs : ℝ) (hf : 0 < fs) (n k : ℕ) : 0 ≤ welchPsd x fs n k := by
  unfold welchPsd
  apply div_nonneg
  · apply mul_nonneg
    · split_ifs <;> norm_num
    · exact div_nonneg (sum_nonneg (fun _ _ => sq_nonneg _)) (Nat.cast_nonneg _)
  · exact mul_nonneg hf.le (sum_nonneg (fun _ _ => sq_nonneg _))

theorem segDft_affine (x : List ℝ) (a b : ℝ) (s n k : ℕ) (h : s + n ≤ x.length) :
    segDft (x.map (fun v => a + b * v)) s n k = b * segDft x s n k := by
  rcases Nat.eq_zero_or_pos n with rfl | hn
  · simp [segDft]
  have hn' : (n : ℝ) ≠ 0 := by exact_mod_cast hn.ne'
  have hg : ∀ j ∈ range n, (x.map (fun v => a + b * v)).getD (s + j) 0 = a + b * x.getD (s + j) 0 := by
    intro j hj
    have hj := mem_range.1 hj
    rw [List.getD_eq_getElem?_getD, List.getD_eq_getElem?_getD, List.getElem?_map,
      List.getElem?_eq_getElem (by omega)]
    rfl
  have hm : segMean (x.map (fun v => a + b * v)) s n = a + b * segMean x s n := by
    unfold segMean
    rw [sum_congr rfl hg, sum_add_distrib, ← mul_sum]
    simp
    field_simp
  unfold segDft
  rw [mul_sum]
  apply sum_congr rfl
  intro j hj
  rw [hg j hj, hm]
  push_cast
  ring

/-- C69: a constant added to the data does not change the result; data `b` times as large have a
density `b²` times as large -/
theorem scipy_psd_affine (x : List ℝ) (fs : ℝ) (hf : fs ≠ 0) (r : ℕ) (hr : 0 < r) (hl : r ≤ x.length) (a b : ℝ)
    (ax ps : List ℝ) (h : scipy_psd x fs r = .ok (ax, ps)) :
    scipy_psd (x.map (fun v => a + b * v)) fs r = .ok (ax, ps.map (fun p => b ^ 2 * p)) := by
  rw [scipy_psd_eq x fs hf r hr hl] at h
  injection h with h
  obtain ⟨rfl, rfl⟩ := Prod.mk.inj h
  rw [scipy_psd_eq _ fs hf r hr (by rwa [List.length_map]), List.length_map, map_tab]
  congr 2
  apply tab_congr
  intro k _
  unfold welchPsd
  rw [List.length_map]
  have : ∀ i ∈ range (segments x.length (x.length / r)),
      ‖segDft (x.map (fun v => a + b * v)) (i * (x.length / r - x.length / r / 2)) (x.length / r) k‖ ^ 2
      = b ^ 2 * ‖segDft x (i * (x.length / r - x.length / r / 2)) (x.length / r) k‖ ^ 2 := by
    intro i hi
    rw [segDft_affine _ _ _ _ _ _ ((segments_fit _ _ (Nat.div_pos hl hr) (Nat.div_le_self _ _)).1 i (mem_range.1 hi)),
      norm_mul, mul_pow, Complex.norm_real, norm_eq_abs, sq_abs]
  rw [sum_congr rfl this, ← mul_sum]
  ring

/-- the sum of the squares of the Hann window -/
theorem hann_sum (n : ℕ) (hn : 3 ≤ n) : ∑ j ∈ range n, hann n j ^ 2 = 3 * n / 8 := by
  have hc : ∀ a : ℕ, 0 < a → a < n → ∑ j ∈ range n, cos (2 * π * (a * j) / n) = 0 := by
    intro a ha han
    have h := sum_expRoot n (by omega) a
    rw [if_neg (by intro hd; have := Nat.le_of_dvd ha (by exact_mod_cast hd); omega)] at h
    have h2 := congrArg Complex.re h
    rw [Complex.re_sum, Complex.zero_re] at h2
    rw [← h2]
    apply sum_congr rfl
    intro j _
    unfold expRoot
    have : 2 * (π : ℂ) * Complex.I * ((a * j : ℤ) : ℂ) / n = ((2 * π * (a * j) / n : ℝ) : ℂ) * Complex.I := by
      push_cast; ring
    rw [this, Complex.exp_ofReal_mul_I_re]
  have e : ∀ j ∈ range n, hann n j ^ 2 = 3 / 8 - 1 / 2 * cos (2 * π * ((1 : ℕ) * j) / n)
      + 1 / 8 * cos (2 * π * ((2 : ℕ) * j) / n) := by
    intro j _
    unfold hann
    rw [if_neg (by omega), sin_sq, show (2 * π * ((1 : ℕ) * j) / n : ℝ) = 2 * (π * j / n) by push_cast; ring,
      show (2 * π * ((2 : ℕ) * j) / n : ℝ) = 2 * (2 * (π * j / n)) by push_cast; ring, cos_two_mul (2 * _),
      cos_two_mul]
    ring
  rw [sum_congr rfl e, sum_add_distrib, sum_sub_distrib, ← mul_sum, ← mul_sum, hc 1 one_pos (by omega),
    hc 2 two_pos (by omega)]
  simp
  ring

/-- eight values in two parts: three segments of four values, three frequencies, and the power 1/4 -/
example : ∃ ax ps, scipy_psd [0, 1, 0, 1, 0, 1, 0, 1] 1 (2 : ℕ) = .ok (ax, ps) ∧ ps.length = 3 ∧
    segments 8 4 = 3 ∧ ps.sum * (1 / 4) = 1 / 4 := by
  refine ⟨_, _, scipy_psd_eq _ 1 one_ne_zero 2 two_pos (by simp), by simp, rfl, ?_⟩
  rw [sum_tab]
  have h := welch_power [0, 1, 0, 1, 0, 1, 0, 1] 1 one_ne_zero 4 (by norm_num)
  have hs := hann_sum 4 (by norm_num)
  have h3 : segments [(0 : ℝ), 1, 0, 1, 0, 1, 0, 1].length 4 = 3 := rfl
  rw [h3, hs] at h
  simp [sum_range_succ, segMean] at h
  simp only [sum_range_succ, range_zero, sum_empty] at hs
  simp [sum_range_succ]
  linarith

/-- the mean of the data does not matter -/
example (ax ps : List ℝ) (h : scipy_psd [1, 5, 2, 4, -3] 6 (2 : ℕ) = .ok (ax, ps)) :
    scipy_psd [8, 12, 9, 11, 4] 6 (2 : ℕ) = .ok (ax, ps) := by
  have := scipy_psd_affine [1, 5, 2, 4, -3] 6 (by norm_num) 2 two_pos (by simp) 7 1 ax ps h
  norm_num at this
  exact this

/-- three values in four parts -/
example : scipy_psd [1, 5, 2] 6 4 = .error .valueError :=
  (scipy_psd_outcomes _ _ _).2.2.1 (by norm_num) (by simp) (Or.inr (by norm_num))

end AT
