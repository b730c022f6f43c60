import Verif.Lemmas.Gradev

/-!
# C45: the simple formulas for equivalent degrees of freedom
-/

namespace AT

open Real

/-- NIST SP1065 table 5: equivalent degrees of freedom of the overlapping Allan variance for
`N` phase points and averaging factor `m`, by noise type; `N - 1` for other noise types -/
noncomputable def Spec.edfTable5 (N m : ℝ) (alpha : ℤ) : ℝ :=
  if alpha = 2 then (N + 1) * (N - 2 * m) / (2 * (N - m))
  else if alpha = 1 then exp (√(log ((N - 1) / (2 * m)) * log ((2 * m + 1) * (N - 1) / 4)))
  else if alpha = 0 then (3 * (N - 1) / (2 * m) - 2 * (N - 2) / N) * (4 * m ^ 2 / (4 * m ^ 2 + 5))
  else if alpha = -1 then
    if m = 1 then 2 * (N - 2) / (2.3 * N - 4.9) else 5 * N ^ 2 / (4 * m * (N + 3 * m))
  else if alpha = -2 then
    (N - 2) / (m * (N - 3) ^ 2) * ((N - 1) ^ 2 - 3 * m * (N - 1) + 4 * m ^ 2)
  else N - 1

/-- C45: whenever at least one second difference exists, `edf_simple` returns the value of
table 5, which is positive - except for random walk frequency noise and three points. -/
theorem edf_simple_eq_partial (N m : ℕ) (alpha : ℤ) (hm : 0 < m) (hN : 2 * m + 1 ≤ N)
    (h : ¬ (alpha = -2 ∧ N = 3)) :
    edf_simple N m (some alpha) = .ok (some (Spec.edfTable5 N m alpha)) ∧
      0 < Spec.edfTable5 N m alpha := by
  have hmR : (1 : ℝ) ≤ m := by exact_mod_cast hm
  have hNR : 2 * (m : ℝ) + 1 ≤ N := by exact_mod_cast hN
  by_cases h2 : alpha = 2
  · subst h2
    have e : (2 : ℝ) * (N - m) ≠ 0 := by nlinarith
    have e' : (0 : ℝ) < 2 * (N - m) := by nlinarith
    constructor
    · simp [edf_simple, Spec.edfTable5, pyDiv_ne e]
    · simp only [Spec.edfTable5, if_true]
      exact div_pos (mul_pos (by linarith) (by linarith)) e'
  by_cases h1 : alpha = 1
  · subst h1
    have e : (2 : ℝ) * m ≠ 0 := by positivity
    have ha : 1 ≤ ((N : ℝ) - 1) / (2 * m) := by rw [le_div_iff₀ (by positivity)]; linarith
    have hb : 1 ≤ (2 * (m : ℝ) + 1) * (N - 1) / 4 := by
      rw [le_div_iff₀ (by norm_num)]; nlinarith
    constructor
    · simp only [edf_simple, Spec.edfTable5, pyDiv_ne e]
      norm_num
      rw [if_neg (by push Not; constructor <;> linarith),
        if_neg (not_lt.2 (mul_nonneg (log_nonneg ha) (log_nonneg hb)))]
    · simp [Spec.edfTable5, exp_pos]
  by_cases h0 : alpha = 0
  · subst h0
    have e1 : (2 : ℝ) * m ≠ 0 := by positivity
    have e2 : (N : ℝ) ≠ 0 := by linarith
    have e3 : 4 * (m : ℝ) ^ 2 + 5 ≠ 0 := by positivity
    constructor
    · simp [edf_simple, Spec.edfTable5, pyDiv_ne e1, pyDiv_ne e2, pyDiv_ne e3]
    · simp only [Spec.edfTable5]
      norm_num
      refine mul_pos (sub_pos.2 ?_) (by positivity)
      calc 2 * ((N : ℝ) - 2) / N < 3 := by rw [div_lt_iff₀ (by linarith)]; linarith
        _ ≤ 3 * (N - 1) / (2 * m) := by rw [le_div_iff₀ (by positivity)]; linarith
  by_cases h1' : alpha = -1
  · subst h1'
    by_cases hm1 : m = 1
    · subst hm1
      have hN3 : (3 : ℝ) ≤ N := by push_cast at hNR; linarith
      have e : (2.3 : ℝ) * N - 4.9 ≠ 0 := by norm_num; linarith
      constructor
      · simp [edf_simple, Spec.edfTable5, pyDiv_ne e]
      · simp only [Spec.edfTable5]
        norm_num
        apply div_pos <;> linarith
    · have hm2 : (2 : ℝ) ≤ m := by exact_mod_cast (by omega : 2 ≤ m)
      have hm1' : (m : ℝ) ≠ 1 := by linarith
      have e : 4 * (m : ℝ) * (N + 3 * m) ≠ 0 := by positivity
      constructor
      · simp [edf_simple, Spec.edfTable5, pyDiv_ne e, hm2, hm1]
      · simp only [Spec.edfTable5]
        norm_num [hm1]
        have : (0 : ℝ) < N := by linarith
        positivity
  by_cases h2' : alpha = -2
  · subst h2'
    have hN4 : 4 ≤ N := by
      have : N ≠ 3 := fun hh => h ⟨rfl, hh⟩
      omega
    have hN4R : (4 : ℝ) ≤ N := by exact_mod_cast hN4
    have e : (m : ℝ) * ((N : ℝ) - 3) ^ 2 ≠ 0 :=
      mul_ne_zero (by linarith) (pow_ne_zero 2 (by linarith))
    constructor
    · simp [edf_simple, Spec.edfTable5, pyDiv_ne e]
    · simp only [Spec.edfTable5]
      norm_num
      refine mul_pos (div_pos (by linarith) (mul_pos (by linarith) (pow_pos (by linarith) 2))) ?_
      nlinarith [sq_nonneg ((N : ℝ) - 1 - 3 / 2 * m)]
  · have : (0 : ℝ) < N - 1 := by linarith
    simp [edf_simple, Spec.edfTable5, h2, h1, h0, h1', h2', this]

/-- C45 fails for three points and random walk frequency noise (where table 5 divides by
zero): ZeroDivisionError -/
theorem edf_simple_crash (m : ℕ) : edf_simple (3 : ℕ) m (some (-2)) = .error .zeroDivisionError := by
  simp [edf_simple, pyDiv, error_bind]

/-- C45: unknown noise types give `N - 1`, for all `N` and `m` -/
theorem edf_simple_unknown (N m : ℝ) (alpha : Option ℤ)
    (h : ∀ a ∈ ([2, 1, 0, -1, -2] : List ℤ), alpha ≠ some a) :
    edf_simple N m alpha = .ok (some (N - 1)) := by
  simp at h
  simp [edf_simple, h]

example : edf_simple 10 2 (some 5) = .ok (some 9) := by
  rw [edf_simple_unknown 10 2 (some 5) (by decide)]
  norm_num

/-- NIST SP1065 table 7: total variance; table 5 for other noise types -/
noncomputable def Spec.edfTable7 (N m : ℝ) (alpha : ℤ) : ℝ :=
  if alpha = 0 then 1.50 * (N / m)
  else if alpha = -1 then 1.17 * (N / m) - 0.22
  else if alpha = -2 then 0.93 * (N / m) - 0.36
  else Spec.edfTable5 N m alpha

/-- C45: `edf_totdev` for the noise types of table 7, at all factors up to the data length -/
theorem edf_totdev_eq (N m : ℕ) (alpha : ℤ) (ha : alpha ∈ ([0, -1, -2] : List ℤ))
    (hm : 0 < m) (hN : m ≤ N) :
    edf_totdev N m alpha = .ok (some (Spec.edfTable7 N m alpha)) ∧ 0 < Spec.edfTable7 N m alpha := by
  have e : (m : ℝ) ≠ 0 := by positivity
  have hq : 1 ≤ (N : ℝ) / m := by
    rw [le_div_iff₀ (by positivity), one_mul]; exact_mod_cast hN
  simp only [List.mem_cons, List.not_mem_nil, or_false] at ha
  rcases ha with rfl | rfl | rfl <;>
    refine ⟨by simp [edf_totdev, Spec.edfTable7, pyGet, table7, pyDiv_ne e]; try norm_num, ?_⟩ <;>
    simp only [Spec.edfTable7] <;> norm_num <;> linarith

/-- C45: `edf_totdev` for the other noise types, at factors up to half the data length -/
theorem edf_totdev_other_partial (N m : ℕ) (alpha : ℤ) (ha : alpha ∉ ([0, -1, -2] : List ℤ))
    (hm : 0 < m) (hN : 2 * m + 1 ≤ N) :
    edf_totdev N m alpha = .ok (some (Spec.edfTable7 N m alpha)) ∧ 0 < Spec.edfTable7 N m alpha := by
  simp only [List.mem_cons, List.not_mem_nil, or_false, not_or] at ha
  have := edf_simple_eq_partial N m alpha hm hN (fun hh => ha.2.2 hh.1)
  simpa [edf_totdev, Spec.edfTable7, ha] using this

/-- C45 fails for `totdev` with white phase noise at factors beyond half the data length,
where totdev has estimates: the degrees of freedom are not positive -/
theorem edf_totdev_wrong (N m : ℕ) (h1 : m < N) (h2 : N ≤ 2 * m) :
    ∃ v : ℝ, edf_totdev N m 2 = .ok (some v) ∧ v ≤ 0 := by
  have h1R : (m : ℝ) < N := by exact_mod_cast h1
  have h2R : (N : ℝ) ≤ 2 * m := by exact_mod_cast h2
  have e : (0 : ℝ) < 2 * ((N : ℝ) - m) := by linarith
  refine ⟨(N + 1) * (N - 2 * m) / (2 * (N - m)), by simp [edf_totdev, edf_simple, pyDiv_ne e.ne'], ?_⟩
  exact div_nonpos_of_nonpos_of_nonneg (mul_nonpos_of_nonneg_of_nonpos (by positivity) (by linarith)) e.le

example := edf_totdev_wrong 10 7 (by norm_num) (by norm_num)

/-- and for flicker phase noise they are not even a number -/
theorem edf_totdev_nan (N m : ℕ) (hN : 4 ≤ N) (h1 : m < N) (h2 : N ≤ 2 * m) :
    edf_totdev N m 1 = .ok none := by
  have h1R : (m : ℝ) < N := by exact_mod_cast h1
  have h2R : (N : ℝ) ≤ 2 * m := by exact_mod_cast h2
  have hNR : (4 : ℝ) ≤ N := by exact_mod_cast hN
  have e : (2 : ℝ) * m ≠ 0 := by linarith
  have ha : ((N : ℝ) - 1) / (2 * m) < 1 := by rw [div_lt_one (by linarith)]; linarith
  have ha0 : 0 < ((N : ℝ) - 1) / (2 * m) := div_pos (by linarith) (by linarith)
  have hb : 1 < (2 * (m : ℝ) + 1) * (N - 1) / 4 := by
    rw [lt_div_iff₀ (by norm_num)]; nlinarith
  simp only [edf_totdev, edf_simple, pyDiv_ne e]
  norm_num
  intro _ _ h
  exact absurd h (not_le.2 (mul_neg_of_neg_of_pos (log_neg ha0 ha) (log_pos hb)))

example : edf_totdev (10 : ℕ) (7 : ℕ) 1 = .ok none := edf_totdev_nan 10 7 (by norm_num) (by norm_num) (by norm_num)

/-- NIST SP1065 table 8: modified total variance -/
noncomputable def Spec.edfTable8 (N m : ℝ) (alpha : ℤ) : ℝ :=
  if alpha = 2 then 1.90 * (N / m) - 2.1
  else if alpha = 1 then 1.20 * (N / m) - 1.40
  else if alpha = 0 then 1.10 * (N / m) - 1.2
  else if alpha = -1 then 0.85 * (N / m) - 0.50
  else 0.75 * (N / m) - 0.31

/-- C45: `edf_mtotdev`; mtotdev has an estimate when `3 * m ≤ N` -/
theorem edf_mtotdev_eq (N m : ℕ) (alpha : ℤ) (ha : alpha ∈ ([2, 1, 0, -1, -2] : List ℤ))
    (hm : 0 < m) (hN : 3 * m ≤ N) :
    edf_mtotdev N m alpha = .ok (Spec.edfTable8 N m alpha) ∧ 0 < Spec.edfTable8 N m alpha := by
  have e : (m : ℝ) ≠ 0 := by positivity
  have hq : 3 ≤ (N : ℝ) / m := by
    rw [le_div_iff₀ (by positivity)]; exact_mod_cast hN
  have ha' := ha
  simp only [List.mem_cons, List.not_mem_nil, or_false] at ha
  rcases ha with rfl | rfl | rfl | rfl | rfl <;>
    refine ⟨by rw [edf_mtotdev, pyAssert_true ha']; simp [Spec.edfTable8, pyGet, table8, pyDiv_ne e, ok_bind], ?_⟩ <;>
    simp only [Spec.edfTable8] <;> norm_num <;> linarith

/-- C45: other noise types raise AssertionError -/
theorem edf_mtotdev_unknown (N m : ℝ) (alpha : ℤ) (ha : alpha ∉ ([2, 1, 0, -1, -2] : List ℤ)) :
    edf_mtotdev N m alpha = .error .assertionError := by
  rw [edf_mtotdev, pyAssert_false ha]; rfl

example : edf_mtotdev 10 2 3 = .error .assertionError := edf_mtotdev_unknown _ _ _ (by decide)

/-- the hypotheses are met: 10 points, factor 2, all five noise types -/
example : (∀ alpha ∈ ([2, 1, 0, -1, -2] : List ℤ), ¬ (alpha = -2 ∧ (10 : ℕ) = 3)) ∧
    2 * 2 + 1 ≤ 10 ∧ 3 * 2 ≤ 10 ∧ Spec.edfTable5 10 2 2 = 33 / 8 := by
  refine ⟨by decide, by norm_num, by norm_num, ?_⟩
  simp [Spec.edfTable5]; norm_num

end AT
