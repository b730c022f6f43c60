import Verif.Model.Psd2allan
import Verif.Lemmas.Run
import Verif.Props.Kasdin
import Verif.Props.Psd
import Verif.Props.TauReduction
import Verif.Lemmas.SinInt

/-!
# C62: `psd2allan`
-/

namespace AT

open Finset Real Spec

/-! ## specification -/

/-- composite Simpson rule with `2 N` steps of width `h` -/
noncomputable def Spec.simpsonSum (N : ℕ) (h : ℝ) (g : ℕ → ℝ) : ℝ :=
  h / 3 * ∑ j ∈ range N, (g (2 * j) + 4 * g (2 * j + 1) + g (2 * j + 2))

/-- what is assumed of the cubic spline: one value per point, and cubic polynomials are reproduced
between the first and the last node -/
structure Spec.CubicSpline (interp : Interp) : Prop where
  length : ∀ x y xs, (interp x y xs).length = xs.length
  cubic : ∀ (x xs : List ℝ) (a b c d : ℝ), 4 ≤ x.length → x.Pairwise (· < ·) →
    (∀ v ∈ xs, x.headD 0 ≤ v ∧ v ≤ x.getLastD 0) →
    interp x (x.map (fun v => a + b * v + c * v ^ 2 + d * v ^ 3)) xs
      = xs.map (fun v => a + b * v + c * v ^ 2 + d * v ^ 3)

/-- the integrand at the frequency `k df/4`; `v` are the interpolated values -/
noncomputable def Spec.psdSample (v : List ℝ) (df tau : ℝ) (e k : ℕ) : ℝ :=
  if k = 0 then 0 else
    v.getD (k - 1) 0 * (sin (π * (k * df / 4) * tau) ^ (e + 1) / (π * (k * df / 4) * tau) ^ e) ^ 2

/-! ## lemmas -/

theorem npArange_eq (start step : ℝ) (n : ℕ) (hs : 0 < step) (stop : ℝ) (h : stop = start + n * step) :
    npArange start stop step = tab n (fun i => start + i * step) := by
  unfold npArange
  have : (stop - start) / step = n := by rw [h]; field_simp; ring
  rw [this, Int.ceil_natCast, Int.toNat_natCast]

theorem npSimpson_uniform (N : ℕ) (h : ℝ) (hh : 0 < h) (g : ℕ → ℝ) :
    npSimpson (tab (2 * N + 1) g) (tab (2 * N + 1) (fun k => k * h)) = simpsonSum N h g := by
  unfold npSimpson simpsonSum
  rw [tab_length, show (2 * N + 1 - 1) / 2 = N by omega, npSum_tab, mul_sum]
  apply sum_congr rfl
  intro j hj
  have hj := mem_range.1 hj
  simp only [tab_getD, if_pos (show 2 * j < 2 * N + 1 by omega), if_pos (show 2 * j + 1 < 2 * N + 1 by omega),
    if_pos (show 2 * j + 2 < 2 * N + 1 by omega)]
  push_cast
  have e1 : (2 * (j : ℝ) + 1) * h - 2 * j * h = h := by ring
  have e2 : (2 * (j : ℝ) + 2) * h - (2 * j + 1) * h = h := by ring
  rw [e1, e2]
  field_simp
  ring

theorem foldl_max_le (l : List ℝ) (x b : ℝ) (hx : x ≤ b) (hl : ∀ v ∈ l, v ≤ b) : l.foldl max x ≤ b := by
  induction l generalizing x with
  | nil => exact hx
  | cons a l ih =>
    exact ih _ (max_le hx (hl a (by simp))) (fun v hv => hl v (by simp [hv]))

theorem le_foldl_max (l : List ℝ) (x v : ℝ) (h : v = x ∨ v ∈ l) : v ≤ l.foldl max x := by
  induction l generalizing x v with
  | nil => rcases h with h | h
           · exact h.le
           · simp at h
  | cons a l ih =>
    rcases h with h | h
    · exact (h.le.trans (le_max_left x a)).trans (ih (max x a) (max x a) (Or.inl rfl))
    · rcases List.mem_cons.1 h with h | h
      · exact (h.le.trans (le_max_right x a)).trans (ih (max x a) (max x a) (Or.inl rfl))
      · exact ih (max x a) v (Or.inr h)

theorem npMax_eq_of (l : List ℝ) (b : ℝ) (hb : b ∈ l) (hl : ∀ v ∈ l, v ≤ b) : npMax l = .ok b := by
  cases l with
  | nil => simp at hb
  | cons a l =>
    show Except.ok (l.foldl max a) = .ok b
    have : l.foldl max a = b := ?_
    · rw [this]
    apply le_antisymm
    · exact foldl_max_le l a b (hl a (by simp)) (fun v hv => hl v (by simp [hv]))
    · exact le_foldl_max l a b (by simpa using hb)

/-! ## the formula -/

/-- C62: the returned times are `m / (s df)` for a spectrum of `s + 1` values with step `df`, and the
deviation at each is the square root of twice Simpson's sum, over the steps `df/4`, of the interpolated
spectrum times the transfer function -/
theorem psd2allan_eq (interp : Interp) (hi : CubicSpline interp) (S_y : List ℝ) (df : ℝ) (kind : String)
    (base : ℝ) (s e : ℕ) (hdf : 0 < df) (hS : S_y.length = s + 1) (hs : 3 ≤ s) (he : psdExponent kind = .ok e) :
    psd2allan interp S_y (.step df) kind base =
      .ok ((psdFactors base (s / 2)).map (fun k : ℤ => (k : ℝ) / (s * df)),
        (psdFactors base (s / 2)).map (fun k : ℤ => nvSqrt (some (2 * simpsonSum (2 * s) (df / 4)
          (psdSample (interp (tab (s + 1) (fun j => j * (4 * df))) S_y (tab (4 * s) (fun i => (i + 1) * df)))
            df ((k : ℝ) / (s * df)) e))))) := by
  have hsr : (0 : ℝ) < s := by exact_mod_cast (by omega : 0 < s)
  have f0 : npArange 0 (S_y.length * (4 * df)) (4 * df) = tab (s + 1) (fun j => j * (4 * df)) := by
    rw [npArange_eq 0 (4 * df) (s + 1) (by positivity) _ (by rw [hS]; ring)]
    apply tab_congr
    intro i _
    ring
  have f1 : npArange df ((S_y.length - 1) * (4 * df) + df) df = tab (4 * s) (fun i => (i + 1) * df) := by
    rw [npArange_eq df df (4 * s) hdf _ (by rw [hS]; push_cast; ring)]
    apply tab_congr
    intro i _
    ring
  unfold psd2allan
  simp only [freqStep, ok_bind, f0, f1, if_neg (show ¬ S_y.length < 4 by omega), map_tab]
  set v := interp (tab (s + 1) (fun j => j * (4 * df))) S_y (tab (4 * s) (fun i => (i + 1) * df)) with hv
  have hvl : v.length = 4 * s := by rw [hv, hi.length, tab_length]
  have hmax : npMax (tab (4 * s) (fun i => ((i : ℝ) + 1) * df / 4)) = .ok (s * df) := by
    apply npMax_eq_of
    · rw [tab, List.mem_map]
      refine ⟨4 * s - 1, List.mem_range.2 (by omega), ?_⟩
      rw [Nat.cast_sub (by omega)]
      push_cast
      ring
    · intro w hw
      rw [tab, List.mem_map] at hw
      obtain ⟨i, hi', rfl⟩ := hw
      have : (i : ℝ) + 1 ≤ 4 * s := by exact_mod_cast List.mem_range.1 hi'
      have : ((i : ℝ) + 1) * df ≤ 4 * s * df := mul_le_mul_of_nonneg_right this hdf.le
      linarith
  have hn : 1 / df / (1 / (s * df)) / 2 = (s : ℝ) / 2 := by field_simp
  simp only [hmax, ok_bind, hn, he]
  rw [mapM_ok _ _ (fun tau => nvSqrt (some (2 * simpsonSum (2 * s) (df / 4) (psdSample v df tau e))))]
  · simp only [ok_bind, List.map_map]
    congr 2
    · apply List.map_congr_left
      intro k _
      simp [div_eq_mul_inv]
    · apply List.map_congr_left
      intro k _
      simp [div_eq_mul_inv]
  · intro tau _
    have hvm := vop_tab (fun a b : ℝ => a * b) (4 * s) (fun i => v.getD i 0) (fun i =>
      |sin (π * (((i : ℝ) + 1) * df / 4) * tau) ^ (e + 1) / (π * (((i : ℝ) + 1) * df / 4) * tau) ^ e| ^ 2)
    rw [← hvl, ← eq_tab v 0, hvl] at hvm
    rw [vmul, hvm, ok_bind]
    congr 3
    have e1 : (0 :: tab (4 * s) (fun i => v.getD i 0 *
        |sin (π * (((i : ℝ) + 1) * df / 4) * tau) ^ (e + 1) / (π * (((i : ℝ) + 1) * df / 4) * tau) ^ e| ^ 2))
        = tab (2 * (2 * s) + 1) (psdSample v df tau e) := by
      rw [show 2 * (2 * s) + 1 = 4 * s + 1 by ring, tab_succ']
      congr 1
      apply tab_congr
      intro i _
      simp [psdSample]
    have e2 : (0 :: tab (4 * s) (fun i => ((i : ℝ) + 1) * df / 4)) = tab (2 * (2 * s) + 1) (fun k => k * (df / 4)) := by
      rw [show 2 * (2 * s) + 1 = 4 * s + 1 by ring, tab_succ']
      congr 1
      · simp
      · apply tab_congr
        intro i _
        push_cast
        ring
    rw [e1, e2, npSimpson_uniform _ _ (by positivity)]

/-- C62: of a frequency array only the difference of the first two values is used -/
theorem psd2allan_array (interp : Interp) (S_y l : List ℝ) (kind : String) (base a b : ℝ) :
    psd2allan interp S_y (.array (a :: b :: l)) kind base = psd2allan interp S_y (.step (b - a)) kind base := by
  unfold psd2allan freqStep
  rfl

/-- C62: spectra of fewer than 4 values are rejected -/
theorem psd2allan_short (interp : Interp) (S_y : List ℝ) (df : ℝ) (kind : String) (base : ℝ)
    (hS : S_y.length < 4) : psd2allan interp S_y (.step df) kind base = .error .valueError := by
  unfold psd2allan
  simp only [freqStep, ok_bind, if_pos hS]

example (interp : Interp) : psd2allan interp [1, 2, 3] (.step 1) "adev" 2 = .error .valueError :=
  psd2allan_short interp _ _ _ _ (by simp)

/-- C62: the kind is decided by the first letter -/
theorem psdExponent_spec (kind : String) (c : Char) (cs : List Char) (hk : kind.toList = c :: cs) :
    psdExponent kind = if c.toLower = 'a' then .ok 1 else if c.toLower = 'm' then .ok 2
      else .error .unboundLocalError := by
  unfold psdExponent
  rw [hk]

example : psdExponent "Mdev" = .ok 2 ∧ psdExponent "hdev" = .error .unboundLocalError := by
  rw [psdExponent_spec "Mdev" 'M' ['d', 'e', 'v'] rfl, psdExponent_spec "hdev" 'h' ['d', 'e', 'v'] rfl]
  decide

/-! ## the averaging factors -/

/-- C62: for `base > 1` the factors are the rounded powers `base^i`, `i < ⌊log n / log base⌋`, and the
rounded `n`, in increasing order -/
theorem psdFactors_base (base n : ℝ) (hb : 1 < base) :
    (psdFactors base n).Pairwise (· < ·) ∧ ∀ k, k ∈ psdFactors base n ↔
      (∃ i : ℕ, (i : ℤ) < ⌊logb base n⌋ ∧ IsRound (base ^ i) k) ∨ IsRound n k := by
  unfold psdFactors
  rw [if_pos hb]
  refine ⟨npUnique_sorted _, fun k => ?_⟩
  rw [mem_npUnique, List.map_append, List.mem_append, ← npRound_eq_iff n k]
  apply or_congr
  · rw [map_tab, tab, List.mem_map]
    constructor
    · rintro ⟨i, hi, rfl⟩
      refine ⟨i, ?_, ?_⟩
      · have := List.mem_range.1 hi
        rw [show log n / log base = logb base n from rfl] at this
        omega
      · rw [rpow_natCast]
        exact npRound_isRound _
    · rintro ⟨i, hi, hk⟩
      refine ⟨i, List.mem_range.2 ?_, ?_⟩
      · rw [show log n / log base = logb base n from rfl]
        omega
      · rw [rpow_natCast]
        exact (npRound_eq_iff _ _).2 hk
  · simp [eq_comm]

/-- C62: for `base ≤ 1` the factors are all the positive integers below `n` -/
theorem psdFactors_all (base n : ℝ) (hb : base ≤ 1) :
    (psdFactors base n).Pairwise (· < ·) ∧ ∀ k : ℤ, k ∈ psdFactors base n ↔ 1 ≤ k ∧ (k : ℝ) < n := by
  unfold psdFactors
  rw [if_neg (not_lt.2 hb), npArange, map_tab]
  have e : ∀ i : ℕ, ⌊(1 : ℝ) + i * 1⌋ = 1 + (i : ℤ) := by
    intro i
    rw [show (1 : ℝ) + i * 1 = ((1 + i : ℤ) : ℝ) by push_cast; ring, Int.floor_intCast]
  simp only [e]
  constructor
  · rw [tab, List.pairwise_map]
    exact List.pairwise_lt_range.imp (fun h => by omega)
  · intro k
    rw [tab, List.mem_map]
    constructor
    · rintro ⟨i, hi, rfl⟩
      have h := List.mem_range.1 hi
      have h2 : (i : ℤ) < ⌈(n - 1) / 1⌉ := by omega
      rw [Int.lt_ceil] at h2
      push_cast at h2 ⊢
      refine ⟨by omega, by linarith⟩
    · rintro ⟨h1, h2⟩
      refine ⟨(k - 1).toNat, List.mem_range.2 ?_, by omega⟩
      have : k - 1 < ⌈(n - 1) / 1⌉ := by
        rw [Int.lt_ceil]
        push_cast
        linarith
      omega

example : (1 : ℤ) ∈ psdFactors 1 (7 / 2) ∧ (3 : ℤ) ∈ psdFactors 1 (7 / 2) ∧ (4 : ℤ) ∉ psdFactors 1 (7 / 2) := by
  simp only [(psdFactors_all 1 (7 / 2) le_rfl).2]
  norm_num

/-- C62: with base 2 (octave) the largest power of two not above `n` is left out, unless `n` rounds to it -/
theorem psdFactors_octave_wrong (n : ℝ) (K : ℕ) (hK : (2 : ℝ) ^ K ≤ n) (hK' : n < 2 ^ (K + 1)) :
    ((2 : ℤ) ^ K ∈ psdFactors 2 n ↔ npRound n = 2 ^ K) ∧
      ∀ i < K, (2 : ℤ) ^ i ∈ psdFactors 2 n := by
  have hfl : ⌊logb 2 n⌋ = K := by
    have hn : 0 < n := lt_of_lt_of_le (by positivity) hK
    rw [Int.floor_eq_iff]
    constructor
    · rw [le_logb_iff_rpow_le one_lt_two hn]
      exact_mod_cast hK
    · rw [logb_lt_iff_lt_rpow one_lt_two hn]
      exact_mod_cast hK'
  have hr : ∀ i j : ℕ, IsRound ((2 : ℝ) ^ i) (2 ^ j) ↔ i = j := by
    intro i j
    have h := isRound_intCast_iff (2 ^ i) (2 ^ j)
    push_cast at h
    rw [h]
    exact pow_right_inj₀ (by norm_num) (by norm_num)
  refine ⟨?_, fun i hi => ?_⟩
  · rw [(psdFactors_base 2 n one_lt_two).2, hfl, npRound_eq_iff]
    constructor
    · rintro (⟨i, hi, h⟩ | h)
      · have := (hr i K).1 h
        omega
      · exact h
    · exact Or.inr
  · rw [(psdFactors_base 2 n one_lt_two).2, hfl]
    exact Or.inl ⟨i, by exact_mod_cast hi, (hr i i).2 rfl⟩

/-- a spectrum of 16 values: the factor 4 is missing from the octaves -/
example : (4 : ℤ) ∉ psdFactors 2 (15 / 2) ∧ (2 : ℤ) ∈ psdFactors 2 (15 / 2) := by
  have h := psdFactors_octave_wrong (15 / 2) 2 (by norm_num) (by norm_num)
  refine ⟨fun h4 => ?_, by simpa using h.2 1 (by norm_num)⟩
  have h8 : npRound (15 / 2) = 2 ^ 2 := h.1.1 (by norm_num; exact h4)
  have := npRound_isRound (15 / 2)
  rw [h8] at this
  have := (abs_le.1 this.1).2
  norm_num at this

theorem psdFactors_bounds (base n : ℝ) (hn : 1 < n) (k : ℤ) (hk : k ∈ psdFactors base n) :
    1 ≤ k ∧ (k : ℝ) ≤ n + 1 / 2 := by
  have hn0 : 0 < n := by linarith
  by_cases hb : 1 < base
  · rcases ((psdFactors_base base n hb).2 k).1 hk with ⟨i, hi, h⟩ | h
    · have h1 : (1 : ℝ) ≤ base ^ i := one_le_pow₀ hb.le
      have h2 : base ^ i ≤ n := by
        have h3 : ((i : ℤ) : ℝ) ≤ logb base n := (Int.cast_le.2 hi.le).trans (Int.floor_le _)
        rw [le_logb_iff_rpow_le hb hn0] at h3
        exact_mod_cast h3
      have ha := abs_le.1 h.1
      refine ⟨?_, by linarith⟩
      by_contra hk'
      have : (k : ℝ) ≤ 0 := by exact_mod_cast (by omega : k ≤ 0)
      linarith
    · have ha := abs_le.1 h.1
      refine ⟨?_, by linarith⟩
      by_contra hk'
      have : (k : ℝ) ≤ 0 := by exact_mod_cast (by omega : k ≤ 0)
      linarith
  · have := ((psdFactors_all base n (not_lt.1 hb)).2 k).1 hk
    exact ⟨this.1, by linarith⟩

/-! ## exactness for white phase noise -/

theorem sum_cos_eq_zero (n : ℕ) (hn : n ≠ 0) (a : ℕ) (h : ¬ n ∣ a) :
    ∑ k ∈ range n, cos (2 * π * (a * k) / n) = 0 := by
  have h1 := sum_expRoot n hn (a : ℤ)
  rw [if_neg (by exact_mod_cast h)] at h1
  have h2 := congrArg Complex.re h1
  rw [Complex.re_sum, Complex.zero_re] at h2
  rw [← h2]
  apply sum_congr rfl
  intro k _
  unfold expRoot
  rw [show (2 * (π : ℂ) * Complex.I * ((a * k : ℤ) : ℂ) / n) = ((2 * π * (a * k) / n : ℝ) : ℂ) * Complex.I by
    push_cast; ring, Complex.exp_ofReal_mul_I_re]

theorem sum_even_odd (N : ℕ) (g : ℕ → ℝ) :
    ∑ k ∈ range (2 * N), g k = ∑ j ∈ range N, (g (2 * j) + g (2 * j + 1)) := by
  induction N with
  | zero => simp
  | succ N ih =>
    rw [show 2 * (N + 1) = 2 * N + 1 + 1 by ring, sum_range_succ, sum_range_succ, ih, sum_range_succ]
    ring

/-- Simpson's rule for a function with `g (2N) = g 0` -/
theorem simpsonSum_periodic (N : ℕ) (h : ℝ) (g : ℕ → ℝ) (hp : g (2 * N) = g 0) :
    simpsonSum N h g = h / 3 * (4 * ∑ k ∈ range (2 * N), g k - 2 * ∑ j ∈ range N, g (2 * j)) := by
  unfold simpsonSum
  congr 1
  have hshift : ∑ j ∈ range N, g (2 * j + 2) = ∑ j ∈ range N, g (2 * j) := by
    have h1 := sum_range_succ (fun j => g (2 * j)) N
    have h2 := sum_range_succ' (fun j => g (2 * j)) N
    rw [h2] at h1
    simp only [mul_add, mul_one, mul_zero] at h1
    linarith
  rw [sum_even_odd, sum_add_distrib, sum_add_distrib, hshift, sum_add_distrib, ← mul_sum]
  ring

theorem sum_sin4 (n m : ℕ) (hn : n ≠ 0) (h1 : ¬ n ∣ m) (h2 : ¬ n ∣ 2 * m) :
    ∑ k ∈ range n, sin (π * (m * k) / n) ^ 4 = 3 * n / 8 := by
  have e : ∀ k : ℕ, sin (π * (m * k) / n) ^ 4 = 3 / 8 - cos (2 * π * (m * k) / n) / 2
      + cos (2 * π * ((2 * m : ℕ) * k) / n) / 8 := by
    intro k
    rw [sin_pow_four]
    rw [show 2 * (π * (m * k) / n) = 2 * π * (m * k) / n by ring,
      show 4 * (π * (m * k) / n) = 2 * π * ((2 * m : ℕ) * k) / n by push_cast; ring]
  simp only [e]
  rw [sum_add_distrib, sum_sub_distrib, ← sum_div (s := range n) (f := fun k : ℕ => cos (2 * π * (m * k) / n)),
    ← sum_div (s := range n) (f := fun k : ℕ => cos (2 * π * ((2 * m : ℕ) * k) / n)), sum_cos_eq_zero n hn m h1,
    sum_cos_eq_zero n hn (2 * m) h2]
  simp
  ring

/-- C62: for white phase noise, `S_y = h f²` up to the frequency `f_h = s df`, the Allan deviation
returned is exactly the textbook value `√(3 h f_h / (4 π² τ²))` -/
theorem psd2allan_white_pm (interp : Interp) (hi : CubicSpline interp) (h df : ℝ) (kind : String) (base : ℝ)
    (s : ℕ) (hh : 0 ≤ h) (hdf : 0 < df) (hs : 3 ≤ s) (he : psdExponent kind = .ok 1) :
    psd2allan interp (tab (s + 1) (fun j => h * (j * df) ^ 2)) (.step df) kind base =
      .ok ((psdFactors base (s / 2)).map (fun k : ℤ => (k : ℝ) / (s * df)),
        (psdFactors base (s / 2)).map (fun k : ℤ =>
          some √(3 * h * (s * df) / (4 * π ^ 2 * ((k : ℝ) / (s * df)) ^ 2)))) := by
  have hsr : (0 : ℝ) < s := by exact_mod_cast (by omega : 0 < s)
  have hs3 : (3 : ℝ) ≤ s := by exact_mod_cast hs
  rw [psd2allan_eq interp hi _ df kind base s 1 hdf (by simp) hs he]
  have hint : interp (tab (s + 1) (fun j => (j : ℝ) * (4 * df))) (tab (s + 1) (fun j => h * (j * df) ^ 2))
      (tab (4 * s) (fun i => ((i : ℝ) + 1) * df)) = tab (4 * s) (fun i => h * (((i : ℝ) + 1) * df / 4) ^ 2) := by
    have hc := hi.cubic (tab (s + 1) (fun j => (j : ℝ) * (4 * df))) (tab (4 * s) (fun i => ((i : ℝ) + 1) * df))
      0 0 (h / 16) 0 (by rw [tab_length]; omega) ?_ ?_
    · rw [map_tab, map_tab] at hc
      convert hc using 1
      · congr 1
        apply tab_congr
        intro j _
        ring
      · apply tab_congr
        intro j _
        ring
    · rw [tab, List.pairwise_map]
      refine List.pairwise_lt_range.imp (fun {a b} hab => ?_)
      have : (a : ℝ) < b := by exact_mod_cast hab
      exact mul_lt_mul_of_pos_right this (by positivity)
    · intro v hv
      rw [tab, List.mem_map] at hv
      obtain ⟨i, hi', rfl⟩ := hv
      have hlast : (tab (s + 1) (fun j => (j : ℝ) * (4 * df))).getLastD 0 = s * (4 * df) := by
        rw [tab_succ]; simp
      have hhead : (tab (s + 1) (fun j => (j : ℝ) * (4 * df))).headD 0 = 0 := by
        rw [tab_succ']; simp
      rw [hlast, hhead]
      have : (i : ℝ) + 1 ≤ 4 * s := by exact_mod_cast List.mem_range.1 hi'
      have h2 : ((i : ℝ) + 1) * df ≤ 4 * s * df := mul_le_mul_of_nonneg_right this hdf.le
      exact ⟨by positivity, by linarith⟩
  rw [hint]
  congr 2
  apply List.map_congr_left
  intro k hk
  obtain ⟨hk1, hk2⟩ := psdFactors_bounds base (s / 2) (by linarith) k hk
  obtain ⟨m, rfl⟩ : ∃ m : ℕ, k = m := ⟨k.toNat, by omega⟩
  have hm1 : 1 ≤ m := by exact_mod_cast hk1
  have hm2 : 2 * m ≤ s + 1 := by
    have : (2 * m : ℝ) ≤ s + 1 := by push_cast at hk2; linarith
    exact_mod_cast this
  have hmr : (0 : ℝ) < m := by exact_mod_cast hm1
  set tau := ((m : ℤ) : ℝ) / (s * df) with htau
  have htau' : tau = m / (s * df) := by rw [htau]; push_cast; rfl
  have htp : 0 < tau := by rw [htau']; positivity
  have hsample : ∀ k ≤ 4 * s, psdSample (tab (4 * s) (fun i => h * (((i : ℝ) + 1) * df / 4) ^ 2)) df tau 1 k
      = h / (π * tau) ^ 2 * sin (π * (m * k) / (4 * s : ℕ)) ^ 4 := by
    intro k hk4
    unfold psdSample
    split_ifs with h0
    · simp [h0]
    · obtain ⟨i, rfl⟩ : ∃ i, k = i + 1 := ⟨k - 1, by omega⟩
      rw [tab_getD, if_pos (by omega)]
      have hir : (0 : ℝ) < (i : ℝ) + 1 := by positivity
      have harg : π * (((i + 1 : ℕ) : ℝ) * df / 4) * tau = π * (m * ((i + 1 : ℕ) : ℝ)) / (4 * s : ℕ) := by
        rw [htau']
        push_cast
        field_simp
      rw [← harg, pow_one]
      simp only [Nat.add_sub_cancel]
      push_cast
      field_simp
  have hsum : simpsonSum (2 * s) (df / 4)
      (psdSample (tab (4 * s) (fun i => h * (((i : ℝ) + 1) * df / 4) ^ 2)) df tau 1)
      = 3 * h * (s * df) / (8 * (π * tau) ^ 2) := by
    have e0 : simpsonSum (2 * s) (df / 4)
      (psdSample (tab (4 * s) (fun i => h * (((i : ℝ) + 1) * df / 4) ^ 2)) df tau 1)
      = simpsonSum (2 * s) (df / 4) (fun k => h / (π * tau) ^ 2 * sin (π * (m * k) / (4 * s : ℕ)) ^ 4) := by
      unfold simpsonSum
      congr 1
      apply sum_congr rfl
      intro j hj
      have := mem_range.1 hj
      rw [hsample _ (by omega), hsample _ (by omega), hsample _ (by omega)]
    rw [e0, simpsonSum_periodic]
    · rw [← mul_sum, ← mul_sum, show 2 * (2 * s) = 4 * s by ring,
        sum_sin4 (4 * s) m (by omega) (Nat.not_dvd_of_pos_of_lt (by omega) (by omega))
          (Nat.not_dvd_of_pos_of_lt (by omega) (by omega))]
      have e2 : ∀ j : ℕ, sin (π * (m * ((2 * j : ℕ) : ℝ)) / (4 * s : ℕ)) ^ 4 = sin (π * (m * j) / (2 * s : ℕ)) ^ 4 := by
        intro j
        congr 2
        push_cast
        field_simp
        ring
      simp only [e2]
      rw [sum_sin4 (2 * s) m (by omega) (Nat.not_dvd_of_pos_of_lt (by omega) (by omega))
        (Nat.not_dvd_of_pos_of_lt (by omega) (by omega))]
      push_cast
      field_simp
      ring
    · simp only [Nat.cast_zero, mul_zero, zero_div, sin_zero]
      have : π * (m * ((2 * (2 * s) : ℕ) : ℝ)) / (4 * s : ℕ) = m * π := by
        push_cast
        field_simp
        ring
      rw [this, sin_nat_mul_pi]
  rw [hsum, nvSqrt, if_neg (not_lt.2 (by positivity))]
  congr 2
  field_simp
  ring

/-! ## sign and scale -/

theorem mapM_mem {α β : Type} (l : List α) (f : α → Py β) (r : List β) (h : l.mapM f = .ok r) :
    ∀ y ∈ r, ∃ x ∈ l, f x = .ok y := by
  induction l generalizing r with
  | nil =>
    obtain rfl : [] = r := by injection h
    simp
  | cons a l ih =>
    rw [List.mapM_cons] at h
    rcases ha : f a with e | b
    · rw [ha] at h; cases h
    · rcases hl : l.mapM f with e | t
      · rw [ha, hl] at h; cases h
      · rw [ha, hl] at h
        obtain rfl : b :: t = r := by injection h
        intro y hy
        rcases List.mem_cons.1 hy with rfl | hy
        · exact ⟨a, by simp, ha⟩
        · obtain ⟨x, hx, hxy⟩ := ih t hl y hy
          exact ⟨x, by simp [hx], hxy⟩

theorem nvSqrt_nonneg (v : NV) (d : ℝ) (h : nvSqrt v = some d) : 0 ≤ d := by
  unfold nvSqrt at h
  rcases v with - | v
  · simp at h
  · simp only at h
    split_ifs at h
    obtain rfl : √v = d := by injection h
    exact sqrt_nonneg _

/-- C62: no returned number is negative -/
theorem psd2allan_nonneg (interp : Interp) (S_y : List ℝ) (f : FreqArg) (kind : String) (base : ℝ)
    (taus : List ℝ) (ad : List NV) (hr : psd2allan interp S_y f kind base = .ok (taus, ad)) :
    ∀ d, some d ∈ ad → 0 ≤ d := by
  intro d hd
  unfold psd2allan at hr
  rcases hf : freqStep f with e | df
  · rw [hf] at hr; cases hr
  simp only [hf, ok_bind] at hr
  split_ifs at hr with h4
  set fs := (npArange df ((S_y.length - 1) * (4 * df) + df) df).map (fun v => v / 4)
  rcases hm : npMax fs with e | fmax
  · rw [hm] at hr; cases hr
  rw [hm, ok_bind] at hr
  rcases he : psdExponent kind with e | ex
  · rw [he] at hr; cases hr
  rw [he, ok_bind] at hr
  set L := (psdFactors base (1 / df / (1 / fmax) / 2)).map (fun k : ℤ => (k : ℝ) * (1 / fmax))
  set F : ℝ → Py NV := fun tau => do
      let integrand ← vmul (interp (npArange 0 (S_y.length * (4 * df)) (4 * df)) S_y
        (npArange df ((S_y.length - 1) * (4 * df) + df) df)) (fs.map (fun v =>
        |sin (π * v * tau) ^ (ex + 1) / (π * v * tau) ^ ex| ^ 2))
      .ok (nvSqrt (some (2 * npSimpson (0 :: integrand) (0 :: fs)))) with hF
  rcases ha : L.mapM F with e | ad'
  · rw [ha] at hr; cases hr
  rw [ha, ok_bind] at hr
  injection hr with hr
  obtain ⟨-, rfl⟩ := Prod.mk.inj hr
  obtain ⟨tau, -, htau⟩ := mapM_mem L F ad' ha _ hd
  simp only [hF] at htau
  rcases hv : vmul (interp (npArange 0 (S_y.length * (4 * df)) (4 * df)) S_y
        (npArange df ((S_y.length - 1) * (4 * df) + df) df)) (fs.map (fun v =>
        |sin (π * v * tau) ^ (ex + 1) / (π * v * tau) ^ ex| ^ 2)) with e | w
  · rw [hv] at htau; cases htau
  rw [hv, ok_bind] at htau
  injection htau with htau
  exact nvSqrt_nonneg _ _ htau

/-- C62: for an interpolation that scales with its values, a spectrum `c` times as large gives
deviations `√c` times as large -/
theorem psd2allan_scale (interp : Interp) (hi : CubicSpline interp) (S_y : List ℝ) (df : ℝ) (kind : String)
    (base c : ℝ) (s e : ℕ) (hdf : 0 < df) (hS : S_y.length = s + 1) (hs : 3 ≤ s) (he : psdExponent kind = .ok e)
    (hc : 0 < c) (hlin : ∀ x y xs, interp x (y.map (fun v => c * v)) xs = (interp x y xs).map (fun v => c * v))
    (taus : List ℝ) (ad : List NV) (hr : psd2allan interp S_y (.step df) kind base = .ok (taus, ad)) :
    psd2allan interp (S_y.map (fun v => c * v)) (.step df) kind base
      = .ok (taus, ad.map (fun d => d.map (fun v => √c * v))) := by
  rw [psd2allan_eq interp hi S_y df kind base s e hdf hS hs he] at hr
  injection hr with hr
  obtain ⟨rfl, rfl⟩ := Prod.mk.inj hr
  rw [psd2allan_eq interp hi _ df kind base s e hdf (by simpa using hS) hs he, hlin, List.map_map]
  congr 2
  apply List.map_congr_left
  intro k _
  have hs : ∀ v : List ℝ, ∀ tau j, psdSample (v.map (fun v => c * v)) df tau e j = c * psdSample v df tau e j := by
    intro v tau j
    unfold psdSample
    split_ifs
    · simp
    · rw [List.getD_eq_getElem?_getD, List.getD_eq_getElem?_getD, List.getElem?_map]
      rcases v[j - 1]? with - | w
      · simp
      · simp [mul_assoc]
  have hsum : ∀ (N : ℕ) (h : ℝ) (g : ℕ → ℝ), simpsonSum N h (fun j => c * g j) = c * simpsonSum N h g := by
    intro N h g
    unfold simpsonSum
    rw [mul_left_comm, mul_sum (a := c)]
    congr 1
    apply sum_congr rfl
    intro j _
    ring
  simp only [Function.comp]
  set v := interp (tab (s + 1) (fun j => (j : ℝ) * (4 * df))) S_y (tab (4 * s) (fun i => ((i : ℝ) + 1) * df))
  rw [show psdSample (v.map (fun v => c * v)) df ((k : ℝ) / (s * df)) e
    = fun j => c * psdSample v df ((k : ℝ) / (s * df)) e j from funext (hs v _), hsum]
  set q := simpsonSum (2 * s) (df / 4) (psdSample v df ((k : ℝ) / (s * df)) e)
  unfold nvSqrt
  by_cases hq : 2 * q < 0
  · simp only [if_pos hq, Option.map_none]
    rw [if_pos (by nlinarith)]
  · simp only [if_neg hq, Option.map_some]
    rw [if_neg (by nlinarith), show 2 * (c * q) = c * (2 * q) by ring, sqrt_mul hc.le]

/-- such an interpolation exists -/
theorem exists_cubicSpline : ∃ interp : Interp, CubicSpline interp := by
  classical
  let P : ℝ × ℝ × ℝ × ℝ → ℝ → ℝ := fun p v => p.1 + p.2.1 * v + p.2.2.1 * v ^ 2 + p.2.2.2 * v ^ 3
  refine ⟨fun x y xs => if h : ∃ p, y = x.map (P p) then xs.map (P h.choose) else xs.map (fun _ => 0), ?_, ?_⟩
  · intro x y xs
    split_ifs <;> simp
  · intro x xs a b c d hx hs _
    have hex : ∃ p, x.map (fun v => a + b * v + c * v ^ 2 + d * v ^ 3) = x.map (P p) := ⟨(a, b, c, d), rfl⟩
    simp only [dif_pos hex]
    obtain ⟨p, hp⟩ : ∃ p, p = hex.choose := ⟨_, rfl⟩
    have hspec := hex.choose_spec
    rw [← hp] at hspec ⊢
    match x, hx, hs with
    | x0 :: x1 :: x2 :: x3 :: l, _, hs =>
      obtain ⟨a', b', c', d'⟩ := p
      simp only [List.map_cons, List.cons.injEq] at hspec
      obtain ⟨h0, h1, h2, h3, -⟩ := hspec
      simp only [List.pairwise_cons, List.mem_cons] at hs
      have h01 : x0 - x1 ≠ 0 := by have := hs.1 x1 (by simp); intro h; linarith
      have h02 : x0 - x2 ≠ 0 := by have := hs.1 x2 (by simp); intro h; linarith
      have h03 : x0 - x3 ≠ 0 := by have := hs.1 x3 (by simp); intro h; linarith
      have h12 : x1 - x2 ≠ 0 := by have := hs.2.1 x2 (by simp); intro h; linarith
      have h13 : x1 - x3 ≠ 0 := by have := hs.2.1 x3 (by simp); intro h; linarith
      have h23 : x2 - x3 ≠ 0 := by have := hs.2.2.1 x3 (by simp); intro h; linarith
      simp only [P] at h0 h1 h2 h3
      have e1 : (b - b') + (c - c') * (x0 + x1) + (d - d') * (x0 ^ 2 + x0 * x1 + x1 ^ 2) = 0 :=
        (mul_eq_zero.1 (show (x0 - x1) * _ = 0 by linear_combination h0 - h1)).resolve_left h01
      have e2 : (b - b') + (c - c') * (x0 + x2) + (d - d') * (x0 ^ 2 + x0 * x2 + x2 ^ 2) = 0 :=
        (mul_eq_zero.1 (show (x0 - x2) * _ = 0 by linear_combination h0 - h2)).resolve_left h02
      have e3 : (b - b') + (c - c') * (x0 + x3) + (d - d') * (x0 ^ 2 + x0 * x3 + x3 ^ 2) = 0 :=
        (mul_eq_zero.1 (show (x0 - x3) * _ = 0 by linear_combination h0 - h3)).resolve_left h03
      have g1 : (c - c') + (d - d') * (x0 + x1 + x2) = 0 :=
        (mul_eq_zero.1 (show (x1 - x2) * _ = 0 by linear_combination e1 - e2)).resolve_left h12
      have g2 : (c - c') + (d - d') * (x0 + x1 + x3) = 0 :=
        (mul_eq_zero.1 (show (x1 - x3) * _ = 0 by linear_combination e1 - e3)).resolve_left h13
      have hd : d - d' = 0 :=
        (mul_eq_zero.1 (show (x2 - x3) * _ = 0 by linear_combination g1 - g2)).resolve_left h23
      have hc : c - c' = 0 := by rw [hd] at g1; linarith
      have hb : b - b' = 0 := by rw [hd, hc] at e1; linarith
      obtain rfl : d = d' := by linarith
      obtain rfl : c = c' := by linarith
      obtain rfl : b = b' := by linarith
      obtain rfl : a = a' := by linarith
      rfl

/-- white phase noise with 9 values: the deviation at the factors 1, 2 and 4 is not zero -/
example (interp : Interp) (hi : CubicSpline interp) :
    psd2allan interp (tab (8 + 1) (fun j => 1 * ((j : ℝ) * 1) ^ 2)) (.step 1) "adev" 2 =
      .ok ((psdFactors 2 4).map (fun k : ℤ => (k : ℝ) / 8),
        (psdFactors 2 4).map (fun k : ℤ => some √(24 / (4 * π ^ 2 * ((k : ℝ) / 8) ^ 2)))) ∧
    psdFactors 2 4 ≠ [] := by
  refine ⟨?_, List.ne_nil_of_mem (a := 1) ?_⟩
  · have := psd2allan_white_pm interp hi 1 1 "adev" 2 8 (by norm_num) (by norm_num) (by norm_num) (by decide)
    norm_num at this ⊢
    exact this
  · have := (psdFactors_octave_wrong 4 2 (by norm_num) (by norm_num)).2 0 (by norm_num)
    simpa using this

end AT
