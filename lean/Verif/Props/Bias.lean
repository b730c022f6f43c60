import Verif.Props.Shape
import Verif.Props.NoiseIdWrong
import Mathlib.Analysis.SpecialFunctions.Pow.Deriv

/-!
# C48, C57: the B1 and R(n) ratios
-/

namespace AT

open Spec Finset Real

/-! ## C48 -/

/-- the general formula for the ratio of the standard variance of `N` samples to the Allan
variance, for noise with exponent `mu ≠ 0` -/
noncomputable def Spec.b1Formula (N : ℕ) (mu : ℝ) : ℝ :=
  (N : ℝ) * (1 - (N : ℝ) ^ mu) / (2 * ((N : ℝ) - 1) * (1 - 2 ^ mu))

/-- C48: for all exponents other than 0 - in particular in the special cases 2, 1, -1 and -2 -
the code returns the value of the general formula -/
theorem b1_theory_eq (N : ℕ) (hN : 2 ≤ N) (mu : ℤ) (hmu : mu ≠ 0) :
    b1_theory N mu = .ok (some (b1Formula N mu)) := by
  have hN' : (2 : ℝ) ≤ N := by exact_mod_cast hN
  have hN0 : (N : ℝ) ≠ 0 := by linarith
  have hN1 : (N : ℝ) - 1 ≠ 0 := by linarith
  have h2 : (1 : ℝ) - 2 ^ mu ≠ 0 := by
    rw [sub_ne_zero, ne_comm]
    intro h
    rcases lt_or_gt_of_ne hmu with h' | h'
    · have := zpow_lt_one_of_neg₀ (one_lt_two : (1 : ℝ) < 2) h'
      linarith
    · have := one_lt_zpow₀ (one_lt_two : (1 : ℝ) < 2) h'
      linarith
  unfold b1_theory b1Formula
  simp only [rpow_intCast]
  by_cases e2 : mu = 2
  · subst e2
    rw [if_pos rfl]
    congr 2
    norm_num
    field_simp
    try ring
  by_cases e1 : mu = 1
  · subst e1
    rw [if_neg (by norm_num), if_pos rfl]
    congr 2
    norm_num
    field_simp
    try ring
  by_cases f1 : mu = -1
  · subst f1
    rw [if_neg (by norm_num), if_neg (by norm_num), if_neg (by norm_num), if_pos rfl]
    congr 2
    norm_num
    field_simp
    try norm_num
  by_cases f2 : mu = -2
  · subst f2
    have hden : (1.5 : ℝ) * N * (N - 1) ≠ 0 := mul_ne_zero (mul_ne_zero (by norm_num) hN0) hN1
    rw [if_neg (by norm_num), if_neg (by norm_num), if_neg (by norm_num), if_neg (by norm_num), if_pos rfl,
      pyDiv_ne hden]
    simp only [ok_bind]
    congr 2
    rw [show (-2 : ℤ) = -(2 : ℕ) by norm_num, zpow_neg, zpow_neg, zpow_natCast, zpow_natCast]
    norm_num
    field_simp
    norm_num
  · have hden : 2 * ((N : ℝ) - 1) * (1 - 2 ^ mu) ≠ 0 := mul_ne_zero (mul_ne_zero two_ne_zero hN1) h2
    rw [if_neg e2, if_neg e1, if_neg hmu, if_neg f1, if_neg f2, if_neg (by rintro ⟨h, -⟩; omega),
      pyDiv_ne hden]
    rfl

/-- C48: for the exponent 0 the code returns the limit of the general formula -/
theorem b1_theory_zero (N : ℕ) (hN : 2 ≤ N) :
    ∃ v : ℝ, b1_theory N 0 = .ok (some v) ∧
      Filter.Tendsto (fun mu : ℝ => b1Formula N mu) (nhdsWithin 0 {0}ᶜ) (nhds v) := by
  have hN' : (2 : ℝ) ≤ N := by exact_mod_cast hN
  have hN0 : (0 : ℝ) < N := by linarith
  have hN1 : (N : ℝ) - 1 ≠ 0 := by linarith
  refine ⟨(N : ℝ) * log N / (2 * (N - 1) * log 2), ?_, ?_⟩
  · unfold b1_theory
    rw [if_neg (by norm_num), if_neg (by norm_num), if_pos rfl, if_neg (by omega)]
  · have hd : ∀ a : ℝ, 0 < a → Filter.Tendsto (fun mu : ℝ => mu⁻¹ * (a ^ mu - 1)) (nhdsWithin 0 {0}ᶜ)
        (nhds (log a)) := fun a ha => by
      have h := (hasDerivAt_iff_tendsto_slope_zero).1 (Real.hasStrictDerivAt_const_rpow ha 0).hasDerivAt
      simpa using h
    have hlog2 : log 2 ≠ 0 := (log_pos one_lt_two).ne'
    have h1 := hd N hN0
    have h2 := hd 2 two_pos
    have h3 := ((h1.const_mul (N : ℝ)).div (h2.const_mul (2 * ((N : ℝ) - 1)))
      (mul_ne_zero (mul_ne_zero two_ne_zero hN1) hlog2))
    refine h3.congr' ?_
    filter_upwards [self_mem_nhdsWithin] with mu hmu
    have hmu0 : mu ≠ 0 := hmu
    have h2ne : (2 : ℝ) ^ mu - 1 ≠ 0 := by
      rw [sub_ne_zero]
      intro h
      have := congrArg log h
      rw [log_rpow two_pos, log_one] at this
      exact (mul_ne_zero hmu0 hlog2) this
    have h2ne' : 1 - (2 : ℝ) ^ mu ≠ 0 := fun h => h2ne (by linarith)
    simp only [Pi.div_apply, b1Formula]
    rw [div_eq_div_iff (by positivity) (by positivity)]
    field_simp
    ring

/-- C48: the exponents `b` that `b_to_mu` accepts, and what it returns -/
theorem b_to_mu_eq (b : ℤ) :
    b_to_mu b = if b = 0 then .ok (-2) else if -6 ≤ b ∧ b ≤ -1 then .ok (-b - 3) else
      .error .assertionError := by
  unfold b_to_mu
  simp only
  split_ifs <;> first | rfl | (exfalso; omega) | (congr 1; omega)

/-- C48: the white phase modulation ratio is `1/af`, all noise types from white frequency
modulation on have ratio 1 -/
theorem rn_theory_eq (af : ℝ) (b : ℤ) :
    rn_theory af b = if b = 0 then 1 / af
      else if b = -1 then
        (3 * log (256 / 27) / (8 * π ^ 2)) / ((1.038 + 3 * log (π * af)) / (4 * π ^ 2))
      else 1 := by
  unfold rn_theory
  simp only [one_div]
  have h1 : 2 * π * 0.5 * af = π * af := by rw [show (0.5 : ℝ) = 1 / 2 by norm_num]; ring
  have h2 : (256.0 : ℝ) / 27.0 = 256 / 27 := by norm_num
  have h4 : (4.0 : ℝ) = 4 := by norm_num
  have h8 : (8.0 : ℝ) = 8 := by norm_num
  rw [h1, h2, h4, h8]

theorem b1Formula_pos (N : ℕ) (hN : 2 ≤ N) (mu : ℝ) (hmu : mu ≠ 0) : 0 < b1Formula N mu := by
  have hN' : (2 : ℝ) ≤ N := by exact_mod_cast hN
  unfold b1Formula
  rcases lt_or_gt_of_ne hmu with h | h
  · have h1 := rpow_lt_one_of_one_lt_of_neg (show (1 : ℝ) < N by linarith) h
    have h2 := rpow_lt_one_of_one_lt_of_neg (one_lt_two : (1 : ℝ) < 2) h
    exact div_pos (mul_pos (by linarith) (by linarith)) (mul_pos (by linarith) (by linarith))
  · have h1 := one_lt_rpow (show (1 : ℝ) < N by linarith) h
    have h2 := one_lt_rpow (one_lt_two : (1 : ℝ) < 2) h
    exact div_pos_of_neg_of_neg (mul_neg_of_pos_of_neg (by linarith) (by linarith))
      (mul_neg_of_pos_of_neg (by linarith) (by linarith))

theorem b1_theory_pos (N : ℕ) (hN : 2 ≤ N) (mu : ℤ) :
    ∃ v : ℝ, b1_theory N mu = .ok (some v) ∧ 0 < v := by
  by_cases h : mu = 0
  · subst h
    have hN' : (2 : ℝ) ≤ N := by exact_mod_cast hN
    refine ⟨(N : ℝ) * log N / (2 * (N - 1) * log 2), ?_, ?_⟩
    · unfold b1_theory
      rw [if_neg (by norm_num), if_neg (by norm_num), if_pos rfl, if_neg (by omega)]
    · exact div_pos (mul_pos (by linarith) (log_pos (by linarith)))
        (mul_pos (by linarith) (log_pos one_lt_two))
  · exact ⟨_, b1_theory_eq N hN mu h, b1Formula_pos N hN mu (by exact_mod_cast h)⟩

/-- C48: the decision boundary between neighbouring noise types is the geometric mean of their
two theory values and lies between them, for all noise types and all data lengths -/
theorem b1_boundary_between (N : ℕ) (hN : 2 ≤ N) (b_hi : ℤ) (h0 : -5 ≤ b_hi) (h1 : b_hi ≤ 0) :
    ∃ mulo muhi : ℤ, ∃ lo hi v : ℝ, b_to_mu (b_hi - 1) = .ok mulo ∧ b_to_mu b_hi = .ok muhi ∧
      b1_theory N mulo = .ok (some lo) ∧ b1_theory N muhi = .ok (some hi) ∧
      b1_boundary b_hi N = .ok (some v) ∧ v = √(lo * hi) ∧ min lo hi ≤ v ∧ v ≤ max lo hi := by
  obtain ⟨mulo, hl⟩ : ∃ mu, b_to_mu (b_hi - 1) = .ok mu := by
    rw [b_to_mu_eq]; split_ifs <;> first | exact ⟨_, rfl⟩ | (exfalso; omega)
  obtain ⟨muhi, hh⟩ : ∃ mu, b_to_mu b_hi = .ok mu := by
    rw [b_to_mu_eq]; split_ifs <;> first | exact ⟨_, rfl⟩ | (exfalso; omega)
  obtain ⟨lo, hlo, lop⟩ := b1_theory_pos N hN mulo
  obtain ⟨hi, hhi, hip⟩ := b1_theory_pos N hN muhi
  refine ⟨mulo, muhi, lo, hi, √(lo * hi), hl, hh, hlo, hhi, ?_, rfl, ?_, ?_⟩
  · unfold b1_boundary
    simp only [hl, hh, hlo, hhi, ok_bind]
    rw [if_pos (by linarith)]
    simp only [nvSqrt, not_lt.2 (mul_pos lop hip).le, if_false]
  · apply le_sqrt_of_sq_le
    rcases le_total lo hi with h | h
    · rw [min_eq_left h]; nlinarith
    · rw [min_eq_right h]; nlinarith
  · apply sqrt_le_iff.2
    refine ⟨(lt_max_of_lt_left lop).le, ?_⟩
    rcases le_total lo hi with h | h
    · rw [max_eq_right h]; nlinarith
    · rw [max_eq_left h]; nlinarith

example := b1_boundary_between 10 (by norm_num) (-2) (by norm_num) (by norm_num)

/-- the arithmetic mean that the code has for `b_lo < -4` is not taken: the test compares the
theory value instead of the exponent. For random run noise and three samples the result is
√(39/7), the arithmetic mean would be 67/28 -/
theorem b1_boundary_geometric :
    b1_boundary (-5) 3 = .ok (some (√(39 / 7))) ∧ √(39 / 7) ≠ ((39 / 14 + 2) / 2 : ℝ) := by
  constructor
  · obtain ⟨mulo, muhi, lo, hi, v, hl, hh, hlo, hhi, hv, he, -⟩ :=
      b1_boundary_between 3 (by norm_num) (-5) (by norm_num) (by norm_num)
    rw [b_to_mu_eq] at hl hh
    norm_num at hl hh
    subst hl hh
    rw [b1_theory_eq 3 (by norm_num) _ (by norm_num)] at hlo hhi
    simp only [Except.ok.injEq, Option.some.injEq, b1Formula] at hlo hhi
    rw [hv, he, ← hlo, ← hhi]
    norm_num
  · intro h
    have h2 : √(39 / 7 : ℝ) ^ 2 = ((39 / 14 + 2) / 2) ^ 2 := by rw [h]
    rw [sq_sqrt (by norm_num)] at h2
    norm_num at h2

theorem rn_theory_pos (af : ℝ) (haf : 1 ≤ af) (b : ℤ) : 0 < rn_theory af b := by
  rw [rn_theory_eq]
  have h1 : 0 < log (256 / 27) := log_pos (by norm_num)
  have h2 : 0 ≤ log (π * af) := log_nonneg (by nlinarith [two_le_pi])
  split_ifs
  · positivity
  · positivity
  · positivity

/-- C48: the same for the boundaries between the values of R(n) -/
theorem rn_boundary_between (af : ℝ) (haf : 1 ≤ af) (b_hi : ℤ) :
    rn_boundary af b_hi = √(rn_theory af (b_hi - 1) * rn_theory af b_hi) ∧
      min (rn_theory af (b_hi - 1)) (rn_theory af b_hi) ≤ rn_boundary af b_hi ∧
      rn_boundary af b_hi ≤ max (rn_theory af (b_hi - 1)) (rn_theory af b_hi) := by
  have lop := rn_theory_pos af haf (b_hi - 1)
  have hip := rn_theory_pos af haf b_hi
  unfold rn_boundary
  generalize rn_theory af (b_hi - 1) = lo at *
  generalize rn_theory af b_hi = hi at *
  refine ⟨by rw [mul_comm], ?_, ?_⟩
  · apply le_sqrt_of_sq_le
    rcases le_total lo hi with h | h
    · rw [min_eq_left h]; nlinarith
    · rw [min_eq_right h]; nlinarith
  · apply sqrt_le_iff.2
    refine ⟨(lt_max_of_lt_left lop).le, ?_⟩
    rcases le_total lo hi with h | h
    · rw [max_eq_right h]; nlinarith
    · rw [max_eq_left h]; nlinarith

example := rn_boundary_between 4 (by norm_num) (-1)

/-- the hypotheses are met: 10 points, exponent 1 -/
example : b1_theory 10 1 = .ok (some 5) := by
  unfold b1_theory
  rw [if_neg (by norm_num), if_pos rfl]
  norm_num

/-! ## C57 -/

/-- the deviations at a single requested averaging time -/
theorem run_single (fn : DevName) (x : List ℝ) (rate t : ℝ) (hr : rate ≠ 0) (k : ℕ)
    (hk : IsRound (t * rate) k) (hf : fn = .adev ∨ fn = .mdev) (hk0 : 0 < k) (hkN : k < x.length)
    (hc : 1 < count fn x.length k) :
    ∃ o, fn.run x rate "phase" (.list [t]) = .ok o ∧
      o.devs = [Spec.sign fn rate k * value fn (seq x) x.length rate k] := by
  have hne1 : fn ≠ .totdev := by rcases hf with rfl | rfl <;> simp
  have hne2 : fn ≠ .theo1 := by rcases hf with rfl | rfl <;> simp
  have hlen : lenOf fn x.length = x.length := by rcases hf with rfl | rfl <;> rfl
  have hmax : maxOf fn x.length = x.length := by rcases hf with rfl | rfl <;> rfl
  obtain ⟨kept, h1, h2, h3⟩ := (run_cases fn x rate (.list [t])).2 hr rfl (fun h => hne1 h.1)
  have hrep : ∀ m, Reported fn x.length rate (.list [t]) m ↔ m = k := fun m => by
    unfold Reported
    rw [hlen, hmax]
    constructor
    · rintro ⟨-, -, -, -, ⟨t', ht', hr'⟩, -⟩
      rw [List.mem_singleton.1 ht'] at hr'
      exact_mod_cast isRound_unique hr' hk
    · rintro rfl
      exact ⟨hk0, hkN, by exact_mod_cast hkN.le, fun h => absurd h hne2, ⟨t, by simp, hk⟩, hc⟩
  have hkept : kept = [k] := by
    have hmem : ∀ m, m ∈ kept ↔ m ∈ [k] := fun m => by rw [h2, hrep, List.mem_singleton]
    have hnd : kept.Nodup := h1.imp (fun h => ne_of_lt h)
    have hperm := (List.perm_ext_iff_of_nodup hnd (List.nodup_singleton k)).2 hmem
    exact List.perm_singleton.1 hperm
  rw [hkept, if_neg (by simp)] at h3
  exact ⟨_, h3, rfl⟩

/-- the ratio of the modified Allan variance to the Allan variance at averaging factor `m`
(no number when the Allan variance is zero) -/
noncomputable def Spec.rnRatio (x : List ℝ) (rate : ℝ) (m : ℕ) : NV :=
  if Spec.adev (seq x) x.length m (m / rate) = 0 then none
  else some ((Spec.mdev (seq x) x.length m (m / rate) / Spec.adev (seq x) x.length m (m / rate)) ^ 2)

/-- C57: what `rn` computes: the ratio at the averaging factor nearest to `af * rate²`, instead
of `af` -/
theorem rn_eq (x : List ℝ) (af rate : ℝ) (hr : 0 < rate) (k : ℕ) (hk : IsRound (af * rate * rate) k)
    (hk0 : 0 < k) (h1 : 1 < (decimated x.length k : ℤ) - 2) (h2 : 1 < (x.length : ℤ) - 3 * k + 1) :
    rn x af rate = .ok (rnRatio x rate k) := by
  have hkN : k < x.length := by omega
  obtain ⟨o1, r1, d1⟩ := run_single .adev x rate (af * rate) hr.ne' k hk (Or.inl rfl) hk0 hkN h1
  obtain ⟨o2, r2, d2⟩ := run_single .mdev x rate (af * rate) hr.ne' k hk (Or.inr rfl) hk0 hkN h2
  have r1' : adev x rate "phase" (.list [af * rate]) = .ok o1 := r1
  have r2' : mdev x rate "phase" (.list [af * rate]) = .ok o2 := r2
  unfold rn
  rw [r1', r2']
  simp only [ok_bind, d1, d2, sign_pos_rate _ rate hr, one_mul]
  simp only [pyGet, value, rnRatio, nvDiv, List.length_singleton]
  norm_num
  split_ifs <;> rfl

example : rn (tab 20 (fun i => (i : ℝ) ^ 3)) 1 2 = .ok (rnRatio (tab 20 (fun i => (i : ℝ) ^ 3)) 2 4) :=
  rn_eq _ 1 2 (by norm_num) 4 (by have := isRound_intCast 4; norm_num at this ⊢; exact this) (by norm_num)
    (by rw [tab_length]; decide) (by rw [tab_length]; decide)

/-- C57, for data taken at rate 1: the ratio is that at the averaging factor `af` -/
theorem rn_rate_one_partial (x : List ℝ) (af : ℕ) (h0 : 0 < af)
    (h1 : 1 < (decimated x.length af : ℤ) - 2) (h2 : 1 < (x.length : ℤ) - 3 * af + 1) :
    rn x af 1 = .ok (rnRatio x 1 af) :=
  rn_eq x af 1 one_pos af (by rw [mul_one, mul_one]; exact isRound_intCast af) h0 h1 h2

/-- mean fractional frequency (in units of phase steps) over the `i`-th group of `af` intervals -/
noncomputable def Spec.groupFreq (x : ℕ → ℝ) (af i : ℕ) : ℝ := (x (i * af + af) - x (i * af)) / af

/-- sample variance of the first `M` values of a series -/
noncomputable def Spec.sampleVar (g : ℕ → ℝ) (M : ℕ) : ℝ :=
  (∑ i ∈ range M, (g i - (∑ j ∈ range M, g j) / M) ^ 2) / ((M : ℝ) - 1)

/-- the ratio of the sample variance of the mean frequencies over `af` intervals to the Allan
variance at averaging factor `m` (no number when there are fewer than two groups or the Allan
variance is zero) -/
noncomputable def Spec.b1Ratio (x : List ℝ) (rate : ℝ) (af m : ℕ) : NV :=
  if (x.length - 1) / af ≤ 1 ∨ Spec.adev (seq x) x.length m (m / rate) = 0 then none
  else some (sampleVar (groupFreq (seq x) af) ((x.length - 1) / af) /
    Spec.adev (seq x) x.length m (m / rate) ^ 2)

theorem groupMeans_npDiff (x : List ℝ) (af : ℕ) :
    groupMeans (npDiff x) af = tab ((x.length - 1) / af) (groupFreq (seq x) af) := by
  unfold groupMeans
  have hd : npDiff x = tab (x.length - 1) (fun i => seq x (i + 1) - seq x i) := by
    conv_lhs => rw [eq_tab x 0]
    rw [npDiff_tab]
    rfl
  have hlen : (npDiff x).length = x.length - 1 := by rw [hd, tab_length]
  rw [hlen]
  apply tab_congr
  intro i hi
  have h1 : i * af + af ≤ x.length - 1 := by
    have := Nat.mul_le_of_le_div _ _ _ (Nat.succ_le_of_lt hi)
    linarith [Nat.succ_mul i af]
  rw [hd, slice_tab _ _ _ _ h1, npMean_tab, Nat.add_sub_cancel_left, groupFreq]
  have h2 := sum_range_sub (fun k => seq x (i * af + k)) af
  simp only [add_zero] at h2
  rw [← h2]
  rfl

/-- C57: what `b1` computes: the standard variance of the frequencies averaged over `af`
intervals, divided by the Allan variance at the averaging factor nearest to `af * rate²` -/
theorem b1_eq (x : List ℝ) (af : ℕ) (rate : ℝ) (hr : 0 < rate) (haf : 0 < af) (k : ℕ)
    (hk : IsRound (af * rate * rate) k) (hk0 : 0 < k) (h1 : 1 < (decimated x.length k : ℤ) - 2)
    (hkN : k < x.length) :
    b1 x af rate = .ok (b1Ratio x rate af k) := by
  obtain ⟨o1, r1, d1⟩ := run_single .adev x rate (af * rate) hr.ne' k hk (Or.inl rfl) hk0 hkN h1
  have r1' : adev x rate "phase" (.list [(af : ℝ) * rate]) = .ok o1 := r1
  have hb : b1 x af rate = .ok (nvDiv (npVar1 (groupMeans (npDiff x) af))
      (some (Spec.adev (seq x) x.length k (k / rate) ^ 2))) := by
    unfold b1
    rw [r1']
    simp only [ok_bind, d1, sign_pos_rate _ rate hr, one_mul]
    simp only [pyGet, value, List.length_singleton]
    norm_num
    omega
  rw [hb, groupMeans_npDiff, npVar1, tab_length, b1Ratio]
  by_cases hM : (x.length - 1) / af ≤ 1
  · rw [if_pos hM, if_pos (Or.inl hM)]; rfl
  · rw [if_neg hM, map_tab, sum_tab, npMean_tab]
    simp only [nvDiv]
    by_cases h0 : Spec.adev (seq x) x.length k (k / rate) = 0
    · rw [if_pos (Or.inr h0), if_pos (by rw [h0]; norm_num)]
    · rw [if_neg (pow_ne_zero 2 h0), if_neg (by tauto)]
      rfl

example : b1 (tab 20 (fun i => (i : ℝ) ^ 3)) 1 2 = .ok (b1Ratio (tab 20 (fun i => (i : ℝ) ^ 3)) 2 1 4) :=
  b1_eq _ 1 2 (by norm_num) (by norm_num) 4 (by have := isRound_intCast 4; norm_num at this ⊢; exact this)
    (by norm_num) (by rw [tab_length]; decide) (by rw [tab_length]; decide)

/-- C57 for `b1`, for data taken at rate 1 -/
theorem b1_rate_one_partial (x : List ℝ) (af : ℕ) (h0 : 0 < af)
    (h1 : 1 < (decimated x.length af : ℤ) - 2) (haf : af < x.length) :
    b1 x af 1 = .ok (b1Ratio x 1 af af) :=
  b1_eq x af 1 one_pos h0 af (by rw [mul_one, mul_one]; exact isRound_intCast af) h0 h1 haf

/-- an impulse of 13 points -/
noncomputable def impulse : List ℝ := tab 13 (fun i => if i = 0 then 1 else 0)

theorem seq_impulse : seq impulse = fun i => if i = 0 then 1 else 0 := by
  funext i
  simp only [seq, impulse, tab_getD]
  split_ifs <;> first | rfl | omega

theorem impulse_length : impulse.length = 13 := by simp [impulse]

theorem impulse_adev4 (τ : ℝ) : Spec.adev (seq impulse) 13 4 τ = √(1 / (4 * τ ^ 2)) := by
  have : decimated 13 4 = 4 := by decide
  rw [Spec.adev, seq_impulse, this]
  simp only [rms, d2]
  congr 1
  norm_num [sum_range_succ]
  try ring

theorem impulse_adev1 (τ : ℝ) : Spec.adev (seq impulse) 13 1 τ = √(1 / (22 * τ ^ 2)) := by
  have : decimated 13 1 = 13 := by decide
  rw [Spec.adev, seq_impulse, this]
  simp only [rms, d2]
  congr 1
  norm_num [sum_range_succ]
  try ring

theorem impulse_mdev4 (τ : ℝ) : Spec.mdev (seq impulse) 13 4 τ = √(1 / (64 * τ ^ 2)) := by
  rw [Spec.mdev, seq_impulse]
  simp only [rms, d2]
  congr 1
  norm_num [sum_range_succ]
  try ring

theorem impulse_mdev1 (τ : ℝ) : Spec.mdev (seq impulse) 13 1 τ = √(1 / (22 * τ ^ 2)) := by
  rw [Spec.mdev, seq_impulse]
  simp only [rms, d2, sum_range_one]
  congr 1
  norm_num [sum_range_succ]
  try ring

/-- C57 fails for other rates: the ratio does not depend on the rate, but `rn` returns 1 for
an impulse sampled at rate 1 and 1/16 for the same samples at rate 2 -/
theorem rn_wrong : rn impulse 1 1 = .ok (some 1) ∧ rn impulse 1 2 = .ok (some (1 / 16)) := by
  constructor
  · have h := rn_rate_one_partial impulse 1 one_pos (by rw [impulse_length]; decide)
      (by rw [impulse_length]; decide)
    push_cast at h
    rw [h, rnRatio, impulse_length]
    have := impulse_adev1 (((1 : ℕ) : ℝ) / 1)
    rw [this, impulse_mdev1, if_neg (by rw [sqrt_eq_zero']; norm_num), div_self (by
      rw [Ne, sqrt_eq_zero']; norm_num)]
    norm_num
  · rw [rn_eq impulse 1 2 two_pos 4 (by norm_num; exact isRound_intCast 4) (by norm_num)
      (by rw [impulse_length]; decide) (by rw [impulse_length]; decide), rnRatio, impulse_length,
      impulse_adev4, impulse_mdev4, if_neg (by rw [sqrt_eq_zero']; norm_num), div_pow,
      sq_sqrt (by positivity), sq_sqrt (by positivity)]
    norm_num

/-- C57 fails for `b1` as well: 11/6 at rate 1, 4/3 for the same samples at rate 2 -/
theorem b1_wrong : b1 impulse 1 1 = .ok (some (11 / 6)) ∧ b1 impulse 1 2 = .ok (some (4 / 3)) := by
  have hv : sampleVar (groupFreq (seq impulse) 1) ((13 - 1) / 1) = 1 / 12 := by
    rw [seq_impulse, sampleVar]
    norm_num [groupFreq, sum_range_succ]
  constructor
  · have h := b1_rate_one_partial impulse 1 one_pos (by rw [impulse_length]; decide)
      (by rw [impulse_length]; norm_num)
    rw [h, b1Ratio, impulse_length, impulse_adev1, if_neg (by rw [sqrt_eq_zero']; norm_num), hv,
      sq_sqrt (by positivity)]
    norm_num
  · rw [b1_eq impulse 1 2 two_pos one_pos 4 (by norm_num; exact isRound_intCast 4) (by norm_num)
      (by rw [impulse_length]; decide) (by rw [impulse_length]; norm_num), b1Ratio, impulse_length,
      impulse_adev4, if_neg (by rw [sqrt_eq_zero']; norm_num), hv, sq_sqrt (by positivity)]
    norm_num

end AT
