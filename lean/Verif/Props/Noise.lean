import Verif.Model.Noise
import Verif.Lemmas.Tab
import Verif.Lemmas.Realtime
import Verif.Lemmas.Gradev
import Mathlib.NumberTheory.Padics.PadicVal.Basic

/-!
# C52, C53: white, brown, violet and pink noise
-/

namespace AT

open Finset Real

/-! ## C53 -/

/-- C53: white noise: `num_points` samples, the draws scaled by the root of `b0 fs/2` -/
theorem white_eq (z : ℕ → ℝ) (n : ℕ) (b0 fs : ℝ) (h : 0 ≤ b0 * fs) :
    white z n b0 fs = .ok (tab n (fun i => √(b0 * fs / 2) * z i)) := by
  rw [white, if_neg (by linarith)]

example (z : ℕ → ℝ) : white z 2 2 4 = .ok [2 * z 0, 2 * z 1] := by
  rw [white_eq z 2 2 4 (by norm_num), show (2 : ℝ) * 4 / 2 = 2 ^ 2 by norm_num, Real.sqrt_sq (by norm_num)]
  rfl

/-- C53: a negative PSD raises -/
theorem white_negative (z : ℕ → ℝ) (n : ℕ) (b0 fs : ℝ) (h : b0 * fs < 0) :
    white z n b0 fs = .error .valueError := by
  rw [white, if_pos (by linarith)]

example (z : ℕ → ℝ) : white z 2 (-1) 4 = .error .valueError := white_negative z _ _ _ (by norm_num)

/-- C53: brown noise is the running sum of white noise of PSD `4π² b_minus2`, times `1/fs` -/
theorem brown_eq (z : ℕ → ℝ) (n : ℕ) (b fs : ℝ) (hb : 0 ≤ b) (hf : 0 < fs) :
    ∃ w, white z n (4 * π ^ 2 * b) fs = .ok (tab n w) ∧
      brown z n b fs = .ok (tab n (fun i => (∑ j ∈ range (i + 1), w j) / fs)) := by
  have h : 0 ≤ (4 * π ^ 2 * b) * fs := by positivity
  refine ⟨_, white_eq z n _ fs h, ?_⟩
  have e : b * (4 * π * π) = 4 * π ^ 2 * b := by ring
  rw [brown, pyDiv_ne hf.ne', e, white_eq z n _ fs h]
  simp only [ok_bind]
  rw [npCumsum_tab, vscale_tab]
  congr 1
  apply tab_congr
  intro i _
  ring

/-- C53: brown noise in terms of the draws: the amplitude is proportional to the root of the PSD
coefficient -/
theorem brown_draws (z : ℕ → ℝ) (n : ℕ) (b fs : ℝ) (hb : 0 ≤ b) (hf : 0 < fs) :
    brown z n b fs = .ok (tab n (fun i => √b * (2 * π / √(2 * fs)) * ∑ j ∈ range (i + 1), z j)) := by
  obtain ⟨w, hw, h⟩ := brown_eq z n b fs hb hf
  rw [h]
  rw [white_eq z n _ fs (by positivity)] at hw
  have hw' := Except.ok.inj hw
  congr 1
  apply tab_congr
  intro i hi
  have hj : ∀ j ∈ range (i + 1), w j = √(4 * π ^ 2 * b * fs / 2) * z j := fun j hj => by
    have := congrArg (fun l => List.getD l j 0) hw'
    simp only [tab_getD] at this
    have hjn : j < n := by have := mem_range.1 hj; omega
    rw [if_pos hjn, if_pos hjn] at this
    exact this.symm
  rw [sum_congr rfl hj, ← mul_sum, show 4 * π ^ 2 * b * fs / 2 = b * ((2 * π) ^ 2 * (fs / 2)) by ring,
    sqrt_mul hb, sqrt_mul (by positivity), sqrt_sq (by positivity), mul_div_right_comm]
  congr 1
  have h1 : √(fs / 2) * √(2 * fs) = fs := by
    rw [← sqrt_mul (by positivity), show fs / 2 * (2 * fs) = fs ^ 2 by ring, sqrt_sq hf.le]
  have h2 : √(2 * fs) ≠ 0 := by positivity
  field_simp
  linear_combination √b * h1

/-- C53: differencing brown noise gives back the white noise it was made of -/
theorem brown_diff (z : ℕ → ℝ) (n : ℕ) (b fs : ℝ) (hb : 0 ≤ b) (hf : 0 < fs) :
    ∃ w x, white z n (4 * π ^ 2 * b) fs = .ok w ∧ brown z n b fs = .ok x ∧ w.length = n ∧ x.length = n ∧
      vscale fs (npDiff x) = w.tail ∧ ∀ v, w.head? = some v → x.head? = some (v / fs) := by
  obtain ⟨w, hw, hx⟩ := brown_eq z n b fs hb hf
  refine ⟨_, _, hw, hx, by simp, by simp, ?_, ?_⟩
  · rw [npDiff_tab, vscale_tab]
    rcases n with - | n
    · rfl
    · rw [tab_succ' n w]
      simp only [List.tail_cons, Nat.add_sub_cancel]
      apply tab_congr
      intro i _
      rw [sum_range_succ _ (i + 1)]
      field_simp
      ring
  · rcases n with - | n
    · simp
    · rw [tab_succ', tab_succ']
      simp

example (z : ℕ → ℝ) := brown_diff z 5 2 10 (by norm_num) (by norm_num)

/-- C53: violet noise is the first difference, times `fs`, of white noise of PSD `b2/4π²`; it has
`num_points` samples -/
theorem violet_eq (z : ℕ → ℝ) (n : ℕ) (b fs : ℝ) (hb : 0 ≤ b) (hf : 0 ≤ fs) :
    ∃ w, white z (n + 1) (b / (4 * π ^ 2)) fs = .ok (tab (n + 1) w) ∧
      violet z n b fs = .ok (tab n (fun i => fs * (w (i + 1) - w i))) := by
  have h : 0 ≤ (b / (4 * π ^ 2)) * fs := by positivity
  refine ⟨_, white_eq z (n + 1) _ fs h, ?_⟩
  have e : b / (2 * π) ^ 2 = b / (4 * π ^ 2) := by ring
  rw [violet, e, white_eq z (n + 1) _ fs h]
  simp only [ok_bind]
  rw [npDiff_tab, vscale_tab]
  rfl

example (z : ℕ → ℝ) := violet_eq z 5 2 10 (by norm_num) (by norm_num)

/-- C53: violet noise in terms of the draws -/
theorem violet_draws (z : ℕ → ℝ) (n : ℕ) (b fs : ℝ) (hb : 0 ≤ b) (hf : 0 ≤ fs) :
    violet z n b fs = .ok (tab n (fun i => √b * (fs * √(fs / 2) / (2 * π)) * (z (i + 1) - z i))) := by
  have h : 0 ≤ (b / (2 * π) ^ 2) * fs := by positivity
  rw [violet, white_eq z (n + 1) _ fs h]
  simp only [ok_bind]
  rw [npDiff_tab, vscale_tab]
  congr 1
  apply tab_congr
  intro i _
  rw [show b / (2 * π) ^ 2 * fs / 2 = b * ((fs / 2) / (2 * π) ^ 2) by ring, sqrt_mul hb,
    sqrt_div (by positivity), sqrt_sq (by positivity)]
  ring

/-- C53: sampling frequency 0 raises for brown noise -/
theorem brown_zero (z : ℕ → ℝ) (n : ℕ) (b : ℝ) : brown z n b 0 = .error .zeroDivisionError := by
  simp [brown, pyDiv, error_bind]

/-- three draws at unit rate -/
example : violet (fun i => i ^ 2) 2 (8 * π ^ 2) 1 = .ok [1, 3] := by
  rw [violet_draws _ _ _ _ (by positivity) zero_le_one]
  have h : √(8 * π ^ 2) * (1 * √(1 / 2) / (2 * π)) = 1 := by
    rw [show 8 * π ^ 2 = (2 * π) ^ 2 * 2 by ring, sqrt_mul (by positivity), sqrt_sq (by positivity)]
    have h1 : √2 * √(1 / 2) = (1 : ℝ) := by rw [← sqrt_mul (by norm_num)]; norm_num
    have : (π : ℝ) ≠ 0 := pi_ne_zero
    field_simp
    linear_combination h1
  simp only [h, tab, List.range_succ, List.range_zero, List.nil_append, List.cons_append, List.map_cons,
    List.map_nil]
  norm_num

/-! ## C52 -/

/-- the `c`-th of the `depth` values that are summed in sample `n`: initially the first draw;
before sample `n` one value is replaced, that whose number is the number of trailing zero bits of
`n mod depth`, unless `n` is a multiple of `depth` -/
noncomputable def Spec.pinkValue (z : ℕ → ℕ → ℝ) (depth : ℕ) : ℕ → ℕ → ℝ
  | 0, c => z 0 c
  | n + 1, c =>
    if (n + 1) % depth ≠ 0 ∧ c = padicValNat 2 ((n + 1) % depth) then
      z (2 + 2 * ((n + 1) / depth)) ((n + 1) % depth)
    else pinkValue z depth n c

/-- sample `n`: the sum of the current values and the smoothing value -/
noncomputable def Spec.pinkSample (z : ℕ → ℕ → ℝ) (depth n : ℕ) : ℝ :=
  ∑ c ∈ range depth, pinkValue z depth n c + z (1 + 2 * (n / depth)) (n % depth)

open Spec

theorem trailingLoop_eq (i : ℕ) (hi : 0 < i) (fuel c : ℕ) (hc : c ≤ padicValNat 2 i)
    (hf : padicValNat 2 i - c < fuel) : trailingLoop fuel i c = some (padicValNat 2 i) := by
  induction fuel generalizing c with
  | zero => omega
  | succ fuel ih =>
    unfold trailingLoop
    rw [Nat.and_one_is_mod, Nat.shiftRight_eq_div_pow]
    rcases Nat.lt_or_ge c (padicValNat 2 i) with h | h
    · have hd : 2 ^ (c + 1) ∣ i := (padicValNat_dvd_iff_le hi.ne').2 h
      rw [if_pos, ih (c + 1) h (by omega)]
      obtain ⟨k, rfl⟩ := hd
      rw [pow_succ, mul_assoc, Nat.mul_div_cancel_left _ (by positivity)]
      simp
    · have hc' : c = padicValNat 2 i := le_antisymm hc h
      rw [if_neg, hc']
      intro h0
      have hd : 2 ^ (c + 1) ∣ i := by
        have h1 : 2 ^ c ∣ i := by rw [hc']; exact pow_padicValNat_dvd
        obtain ⟨k, rfl⟩ := h1
        rw [Nat.mul_div_cancel_left _ (by positivity)] at h0
        rw [pow_succ]
        exact Nat.mul_dvd_mul_left _ (Nat.dvd_of_mod_eq_zero h0)
      have := (padicValNat_dvd_iff_le hi.ne').1 hd
      omega

theorem padicVal_lt (i : ℕ) (hi : 0 < i) : padicValNat 2 i < i := by
  have h1 : 2 ^ padicValNat 2 i ≤ i := Nat.le_of_dvd hi pow_padicValNat_dvd
  exact lt_of_lt_of_le Nat.lt_two_pow_self h1

/-- the state of the generator before sample `n` -/
noncomputable def pinkState (z : ℕ → ℕ → ℝ) (depth n : ℕ) : PinkState :=
  ⟨tab depth (pinkValue z depth n), tab depth (z (1 + 2 * (n / depth))), tab depth (z (2 + 2 * (n / depth))),
    ∑ c ∈ range depth, pinkValue z depth n c, n % depth, 3 + 2 * (n / depth)⟩

/-- C52: every step of the generator succeeds and yields the sum of the current values and one
smoothing value -/
theorem pinkNext_eq (z : ℕ → ℕ → ℝ) (depth : ℕ) (hd : 0 < depth) (n : ℕ) :
    pinkNext z depth (pinkState z depth n) =
      some (.ok (pinkSample z depth n, pinkState z depth (n + 1))) := by
  have hm := Nat.mod_lt n hd
  unfold pinkNext
  have hg : pyGet (pinkState z depth n).smooth ((pinkState z depth n).i : ℤ) =
      .ok (z (1 + 2 * (n / depth)) (n % depth)) := pyGet_tab_nat _ _ _ hm
  rw [hg]
  simp only
  have hi : (pinkState z depth n).i + 1 = n % depth + 1 := rfl
  rw [hi]
  have hdm : n + 1 = depth * (n / depth) + (n % depth + 1) := by
    have := Nat.div_add_mod n depth; omega
  by_cases hw : n % depth + 1 = depth
  · have h0 : n + 1 = depth * (n / depth + 1) := by
      rw [Nat.mul_add, mul_one]; omega
    have h1 : (n + 1) % depth = 0 := by rw [h0]; exact Nat.mul_mod_right _ _
    have h2 : (n + 1) / depth = n / depth + 1 := by
      rw [h0]; exact Nat.mul_div_cancel_left _ hd
    have hv : pinkValue z depth (n + 1) = pinkValue z depth n := by
      funext c
      rw [pinkValue, if_neg (by rw [h1]; simp)]
    rw [if_pos hw]
    simp only [pinkState, h1, h2, hv, pinkSample]
    rw [show 3 + 2 * (n / depth) = 1 + 2 * (n / depth + 1) by ring,
      show 1 + 2 * (n / depth + 1) + 1 = 2 + 2 * (n / depth + 1) by ring,
      show 1 + 2 * (n / depth + 1) + 2 = 3 + 2 * (n / depth + 1) by ring]
  · have hr : n % depth + 1 < depth := lt_of_le_of_ne hm hw
    have h1 : (n + 1) % depth = n % depth + 1 := by
      conv_lhs => rw [hdm]
      rw [Nat.mul_add_mod, Nat.mod_eq_of_lt hr]
    have h2 : (n + 1) / depth = n / depth := by
      conv_lhs => rw [hdm]
      rw [Nat.mul_add_div hd, Nat.div_eq_of_lt hr, add_zero]
    have hpos : 0 < n % depth + 1 := by omega
    have hlt := padicVal_lt (n % depth + 1) hpos
    rw [if_neg hw, trailingLoop_eq _ hpos _ _ (Nat.zero_le _) (by omega)]
    set r := n % depth + 1 with hrdef
    set c := padicValNat 2 r
    have hc : c < depth := by omega
    have e1 : pyGet (pinkState z depth n).source (r : ℤ) = .ok (z (2 + 2 * (n / depth)) r) :=
      pyGet_tab_nat _ _ _ hr
    have e2 : pyGet (pinkState z depth n).values (c : ℤ) = .ok (pinkValue z depth n c) :=
      pyGet_tab_nat _ _ _ hc
    have hv : ∀ k, pinkValue z depth (n + 1) k =
        if k = c then z (2 + 2 * (n / depth)) r else pinkValue z depth n k := fun k => by
      rw [pinkValue, h1, h2]
      by_cases hk : k = c
      · rw [if_pos ⟨by omega, hk⟩, if_pos hk]
      · rw [if_neg (fun h => hk h.2), if_neg hk]
    have e3 : pySet (pinkState z depth n).values c (z (2 + 2 * (n / depth)) r) =
        .ok (tab depth (pinkValue z depth (n + 1))) := by
      have : (pinkState z depth n).values = tab depth (pinkValue z depth n) := rfl
      rw [this, pySet_tab _ _ _ hc]
      congr 1
      apply tab_congr
      intro k _
      rw [hv, Function.update_apply]
    have e4 : (∑ k ∈ range depth, pinkValue z depth (n + 1) k) =
        (∑ k ∈ range depth, pinkValue z depth n k) + (z (2 + 2 * (n / depth)) r - pinkValue z depth n c) := by
      have : ∀ k ∈ range depth, pinkValue z depth (n + 1) k = pinkValue z depth n k +
          if k = c then z (2 + 2 * (n / depth)) r - pinkValue z depth n c else 0 := fun k _ => by
        rw [hv]
        split_ifs with h
        · rw [h]; ring
        · ring
      rw [sum_congr rfl this, sum_add_distrib, sum_ite_eq' (range depth) c, if_pos (mem_range.2 hc)]
    simp only [e1, e2, e3, ok_bind]
    simp only [pinkState, h1, h2, e4, pinkSample]

theorem pinkInit_eq (z : ℕ → ℕ → ℝ) (depth : ℕ) : pinkInit z depth = pinkState z depth 0 := by
  have : pinkValue z depth 0 = z 0 := rfl
  simp [pinkInit, pinkState, npSum_tab, this]

theorem pinkLoop_eq (z : ℕ → ℕ → ℝ) (depth : ℕ) (hd : 0 < depth) (k n : ℕ) :
    pinkLoop z depth k (pinkState z depth n) (tab n (pinkSample z depth)) =
      some (.ok (tab (n + k) (pinkSample z depth))) := by
  induction k generalizing n with
  | zero => rfl
  | succ k ih =>
    rw [pinkLoop, pinkNext_eq z depth hd]
    simp only
    rw [← tab_succ, ih (n + 1)]
    congr 3
    omega

/-- C52: `pink` returns `num_points` samples for every random source, every depth above 0 and
every length; each is the sum of `depth` current values and one smoothing value -/
theorem pink_eq (z : ℕ → ℕ → ℝ) (N depth : ℕ) (hd : 0 < depth) :
    pink z N depth = some (.ok (tab N (pinkSample z depth))) := by
  have h := pinkLoop_eq z depth hd N 0
  rw [Nat.zero_add] at h
  rw [pink, pinkInit_eq]
  exact h

/-- C52: depth 0 fails at the first sample -/
theorem pink_zero (z : ℕ → ℕ → ℝ) (N : ℕ) (hN : 0 < N) : pink z N 0 = some (.error .indexError) := by
  obtain ⟨k, rfl⟩ : ∃ k, N = k + 1 := ⟨N - 1, by omega⟩
  simp [pink, pinkLoop, pinkNext, pinkInit, pyGet]

/-- the values with number `c`, `2^c ≥ depth`, are never replaced: they add a constant to all
samples. With the default depth 80 of `pink` these are 73 of the 80 values. -/
theorem pinkValue_constant (z : ℕ → ℕ → ℝ) (depth : ℕ) (hd : 0 < depth) (n c : ℕ) (hc : depth ≤ 2 ^ c) :
    pinkValue z depth n c = z 0 c := by
  induction n with
  | zero => rfl
  | succ n ih =>
    rw [pinkValue, if_neg, ih]
    rintro ⟨h1, h2⟩
    have h3 : 2 ^ c ∣ (n + 1) % depth := by rw [h2]; exact pow_padicValNat_dvd
    have h4 := Nat.le_of_dvd (Nat.pos_of_ne_zero h1) h3
    have h5 := Nat.mod_lt (n + 1) hd
    omega

/-- with depth 8 the fourth summand is drawn once -/
example (z : ℕ → ℕ → ℝ) (n : ℕ) : pinkValue z 8 n 3 = z 0 3 := pinkValue_constant z 8 (by norm_num) n 3 (by norm_num)

/-- two samples of depth 2: the second replaces value 0 by draw 1 of the third array -/
example (z : ℕ → ℕ → ℝ) : pink z 2 2 = some (.ok [z 0 0 + z 0 1 + z 1 0, z 2 1 + z 0 1 + z 1 1]) := by
  rw [pink_eq z 2 2 two_pos]
  simp [tab, List.range_succ, pinkSample, pinkValue, sum_range_succ]

end AT
