import Verif.Model.Kasdin
import Verif.Lemmas.Tab
import Verif.Props.Bias
import Mathlib.Tactic.FieldSimp
import Mathlib.Tactic.Ring
import Mathlib.Tactic.Linarith

/-!
# C51: predicted spectra and deviations of Kasdin noise
-/

namespace AT

open Finset Real Spec

/-- C51: the frequency PSD coefficient is `(2π)²` times the phase PSD coefficient -/
theorem frequency_psd_eq (s : Noise) (tau0 : ℝ) :
    s.frequency_psd_from_qd tau0 = (2 * π) ^ 2 * s.phase_psd_from_qd tau0 := by
  have h2 : (0 : ℝ) < 2 * π := by positivity
  unfold Noise.frequency_psd_from_qd Noise.phase_psd_from_qd
  simp only
  rw [rpow_add h2, show s.b + 2 - 1 = s.b + 1 by ring]
  norm_cast
  ring

/-- C51: with slope `b` of the phase PSD the frequency PSD `(2πf)² S_x(f)` has slope `a = b + 2` -/
theorem frequency_psd_slope (s : Noise) (tau0 f : ℝ) (hf : 0 < f) :
    s.frequency_psd_from_qd tau0 * f ^ (s.b + 2) = (2 * π * f) ^ 2 * (s.phase_psd_from_qd tau0 * f ^ s.b) := by
  rw [frequency_psd_eq, rpow_add hf]
  norm_cast
  ring

theorem frequency_psd_nonneg (s : Noise) (tau0 : ℝ) (hq : 0 ≤ s.qd) (ht : 0 < tau0) :
    0 ≤ s.frequency_psd_from_qd tau0 := by
  unfold Noise.frequency_psd_from_qd
  simp only
  positivity

/-- the five noise types -/
def Spec.KasdinType (b : ℝ) : Prop := b = 0 ∨ b = -1 ∨ b = -2 ∨ b = -3 ∨ b = -4

/-- the coefficient of `h_a τ^c` in the Allan variance (SP1065 table 5) -/
noncomputable def Spec.avarCoeff (b tau0 tau : ℝ) : ℝ :=
  if b = 0 then 3 / (8 * π ^ 2 * tau0)
  else if b = -1 then
    (3 * 0.57721566490153286060651209 - log 2 + 3 * log (π * tau / tau0)) / (4 * π ^ 2)
  else if b = -2 then 1 / 2
  else if b = -3 then 2 * log 2
  else 2 * π ^ 2 / 3

/-- the coefficient of `h_a τ^c` in the modified Allan variance -/
noncomputable def Spec.mvarCoeff (b : ℝ) : ℝ :=
  if b = 0 then 3 / (8 * π ^ 2)
  else if b = -1 then (24 * log 2 - 9 * log 3) / (8 * π ^ 2)
  else if b = -2 then 1 / 4
  else if b = -3 then 27 / 20 * log 2
  else 11 * π ^ 2 / 20

/-- exponent of `τ` in the Allan variance -/
noncomputable def Spec.avarExp (b : ℝ) : ℝ := max (-b - 3) (-2)

theorem adevCoeff_eq (s : Noise) (tau0 tau : ℝ) (hb : KasdinType s.b) :
    s.adevCoeff tau0 tau = .ok (avarCoeff s.b tau0 tau) := by
  unfold Noise.adevCoeff avarCoeff
  simp only
  have hh : (0.5 : ℝ) = 1 / 2 := by norm_num
  rw [hh]
  rcases hb with h | h | h | h | h <;> rw [h]
  · rw [if_pos rfl, if_pos rfl]
    congr 1
    by_cases ht : tau0 = 0
    · simp [ht]
    · field_simp
      norm_num
  · rw [if_neg (by norm_num), if_pos rfl, if_neg (by norm_num), if_pos rfl]
    congr 5
    ring
  all_goals norm_num

theorem mdevCoeff_eq (s : Noise) (hb : KasdinType s.b) : s.mdevCoeff = .ok (mvarCoeff s.b) := by
  unfold Noise.mdevCoeff mvarCoeff
  rcases hb with h | h | h | h | h <;> rw [h] <;> norm_num
  · ring
  · ring

/-- C51: the exponents are those of the noise type: `c = -a - 1 = -b - 3`, except that the Allan
variance does not fall faster than `τ⁻²` -/
theorem c_avar_eq (s : Noise) (hb : KasdinType s.b) :
    s.c_avar = some (avarExp s.b) ∧ s.c_mvar = some (-s.b - 3) := by
  unfold Noise.c_avar Noise.c_mvar avarExp
  rcases hb with h | h | h | h | h <;> rw [h] <;> norm_num

theorem kasdinDev_eq (v c tau : ℝ) (ht : 0 < tau) :
    kasdinDev (nvSqrt (some v)) tau (some c) =
      .ok (if v < 0 then none else some (√v * tau ^ (c / 2))) := by
  unfold kasdinDev nvSqrt
  by_cases h : v < 0
  · simp [h]
  · have hp : 0 ≤ √v ^ 2 * tau ^ c := by positivity
    simp only [if_neg h, Option.map_some, if_neg (not_lt.2 hp)]
    congr 2
    rw [sqrt_mul (by positivity), sqrt_sq (sqrt_nonneg _), sqrt_eq_rpow (tau ^ c), ← rpow_mul ht.le]
    congr 2
    ring

/-- C51: the predicted Allan deviation is `√(coeff h_a) τ^(c/2)`; no number where the flicker
phase formula is negative -/
theorem kasdin_adev_eq (s : Noise) (tau0 tau : ℝ) (hb : KasdinType s.b) (ht : 0 < tau) :
    s.adev tau0 tau = .ok (if avarCoeff s.b tau0 tau * s.frequency_psd_from_qd tau0 < 0 then none else
      some (√(avarCoeff s.b tau0 tau * s.frequency_psd_from_qd tau0) * tau ^ (avarExp s.b / 2))) := by
  unfold Noise.adev Noise.adev_from_qd
  simp only [adevCoeff_eq s tau0 tau hb, ok_bind, (c_avar_eq s hb).1]
  exact kasdinDev_eq _ _ _ ht

theorem mvarCoeff_pos (b : ℝ) : 0 < mvarCoeff b := by
  have h2 : 0 < log 2 := log_pos one_lt_two
  have h3 : 0 < 24 * log 2 - 9 * log 3 := by
    have : log ((3 : ℝ) ^ 9) < log (2 ^ 24) := log_lt_log (by norm_num) (by norm_num)
    rw [log_pow, log_pow] at this
    push_cast at this
    linarith
  unfold mvarCoeff
  split_ifs <;> positivity

/-- C51: the predicted modified Allan deviation is `√(coeff h_a) τ^(c/2)` with the same
coefficient at all `τ` -/
theorem kasdin_mdev_eq (s : Noise) (tau0 tau : ℝ) (hb : KasdinType s.b) (hq : 0 ≤ s.qd) (ht0 : 0 < tau0)
    (ht : 0 < tau) :
    s.mdev tau0 tau =
      .ok (some (√(mvarCoeff s.b * s.frequency_psd_from_qd tau0) * tau ^ ((-s.b - 3) / 2))) := by
  unfold Noise.mdev Noise.mdev_from_qd
  simp only [mdevCoeff_eq s hb, ok_bind, (c_avar_eq s hb).2]
  rw [kasdinDev_eq _ _ _ ht, if_neg (not_lt.2 (mul_nonneg (mvarCoeff_pos _).le
    (frequency_psd_nonneg s tau0 hq ht0)))]

theorem avarCoeff_pos (b tau0 tau : ℝ) (h0 : 0 < tau0) (hb : b ≠ -1) : 0 < avarCoeff b tau0 tau := by
  have h2 : 0 < log 2 := log_pos one_lt_two
  unfold avarCoeff
  rw [if_neg hb]
  split_ifs <;> positivity

/-- C51: from `τ = τ₀` on the flicker phase formula is positive as well -/
theorem avarCoeff_pos_fpm (b tau0 tau : ℝ) (h0 : 0 < tau0) (h : tau0 ≤ tau) :
    0 < avarCoeff b tau0 tau := by
  by_cases hb : b = -1
  · have h1 : (2 : ℝ) ≤ π * tau / tau0 := by
      rw [le_div_iff₀ h0]
      nlinarith [two_le_pi]
    have h3 : log 2 < 3 * log (π * tau / tau0) := by
      have : log 2 ≤ log (π * tau / tau0) := log_le_log (by norm_num) h1
      have h5 : 0 < log 2 := log_pos one_lt_two
      linarith
    unfold avarCoeff
    rw [if_neg (by rw [hb]; norm_num), if_pos hb]
    apply div_pos _ (by positivity)
    norm_num
    linarith
  · exact avarCoeff_pos b tau0 tau h0 hb

/-- C51: the predictions scale as `τ^(c/2)`, for all types but flicker phase noise -/
theorem kasdin_adev_scale_partial (s : Noise) (tau0 tau k : ℝ) (hb : KasdinType s.b) (h1 : s.b ≠ -1)
    (hq : 0 ≤ s.qd) (h0 : 0 < tau0) (ht : 0 < tau) (hk : 0 < k) :
    ∃ v, s.adev tau0 tau = .ok (some v) ∧ s.adev tau0 (k * tau) = .ok (some (k ^ (avarExp s.b / 2) * v)) := by
  have hh := frequency_psd_nonneg s tau0 hq h0
  refine ⟨_, by rw [kasdin_adev_eq s tau0 tau hb ht, if_neg (not_lt.2 (mul_nonneg
    (avarCoeff_pos _ _ _ h0 h1).le hh))], ?_⟩
  rw [kasdin_adev_eq s tau0 (k * tau) hb (by positivity), if_neg (not_lt.2 (mul_nonneg
    (avarCoeff_pos _ _ _ h0 h1).le hh)), mul_rpow hk.le ht.le]
  have : avarCoeff s.b tau0 (k * tau) = avarCoeff s.b tau0 tau := by
    unfold avarCoeff; simp only [if_neg h1]
  rw [this]
  congr 2
  ring

example := kasdin_adev_scale_partial (Noise.init 8 3 (-3)) 2 5 7 (by simp [KasdinType, Noise.init]) (by norm_num [Noise.init])
  (by norm_num [Noise.init]) (by norm_num) (by norm_num) (by norm_num)

/-- C51 fails for flicker phase noise: the coefficient contains `log τ`, the prediction is not
proportional to `τ⁻¹` -/
theorem kasdin_adev_fpm_wrong :
    ∃ v w, (Noise.init 2 1 (-1)).adev 1 1 = .ok (some v) ∧ (Noise.init 2 1 (-1)).adev 1 2 = .ok (some w) ∧
      (2 : ℝ) ^ (avarExp (-1) / 2) * v < w := by
  have hb : KasdinType (Noise.init 2 1 (-1)).b := Or.inr (Or.inl rfl)
  have hq : (0 : ℝ) ≤ (Noise.init 2 1 (-1)).qd := zero_le_one
  have hh : 0 < (Noise.init 2 1 (-1)).frequency_psd_from_qd 1 := by
    unfold Noise.frequency_psd_from_qd Noise.init; simp only; positivity
  have p1 := avarCoeff_pos_fpm (Noise.init 2 1 (-1)).b 1 1 one_pos le_rfl
  have p2 := avarCoeff_pos_fpm (Noise.init 2 1 (-1)).b 1 2 one_pos one_le_two
  have hbe : (Noise.init 2 1 (-1)).b = -1 := rfl
  refine ⟨_, _, by rw [kasdin_adev_eq _ _ _ hb one_pos, if_neg (not_lt.2 (mul_pos p1 hh).le)],
    by rw [kasdin_adev_eq _ _ _ hb two_pos, if_neg (not_lt.2 (mul_pos p2 hh).le)], ?_⟩
  simp only [hbe] at p1 p2 hb ⊢
  rw [one_rpow, mul_one, mul_comm]
  apply mul_lt_mul_of_pos_right _ (by positivity)
  apply sqrt_lt_sqrt (mul_pos p1 hh).le
  apply mul_lt_mul_of_pos_right _ hh
  unfold avarCoeff
  norm_num
  apply div_lt_div_of_pos_right _ (by positivity)
  have : log π < log (π * 2) := log_lt_log pi_pos (by linarith [pi_pos])
  linarith

/-- C51: the modified Allan deviation scales as `τ^(c/2)` for all five types -/
theorem kasdin_mdev_scale (s : Noise) (tau0 tau k : ℝ) (hb : KasdinType s.b)
    (hq : 0 ≤ s.qd) (h0 : 0 < tau0) (ht : 0 < tau) (hk : 0 < k) :
    ∃ v, s.mdev tau0 tau = .ok (some v) ∧ s.mdev tau0 (k * tau) = .ok (some (k ^ ((-s.b - 3) / 2) * v)) := by
  refine ⟨_, kasdin_mdev_eq s tau0 tau hb hq h0 ht, ?_⟩
  rw [kasdin_mdev_eq s tau0 (k * tau) hb hq h0 (by positivity), mul_rpow hk.le ht.le]
  congr 2
  ring

example := kasdin_mdev_scale (Noise.init 8 3 (-1)) 2 5 7 (by simp [KasdinType, Noise.init])
  (by norm_num [Noise.init]) (by norm_num) (by norm_num) (by norm_num)

/-- C51: both predictions scale as the root of `qd` -/
theorem kasdin_qd_scale (s : Noise) (tau0 tau k : ℝ) (hb : KasdinType s.b) (hq : 0 ≤ s.qd) (h0 : 0 < tau0)
    (ht : 0 < tau) (hk : 0 < k) :
    (∃ v, s.mdev tau0 tau = .ok (some v) ∧ ({ s with qd := k * s.qd } : Noise).mdev tau0 tau = .ok (some (√k * v))) ∧
      ∃ v, s.adev tau0 tau = .ok v ∧
        ({ s with qd := k * s.qd } : Noise).adev tau0 tau = .ok (v.map (fun u => √k * u)) := by
  have hf : ({ s with qd := k * s.qd } : Noise).frequency_psd_from_qd tau0 = k * s.frequency_psd_from_qd tau0 := by
    unfold Noise.frequency_psd_from_qd; ring
  constructor
  · refine ⟨_, kasdin_mdev_eq s tau0 tau hb hq h0 ht, ?_⟩
    rw [kasdin_mdev_eq { s with qd := k * s.qd } tau0 tau hb (mul_nonneg hk.le hq) h0 ht, hf]
    simp only
    rw [mul_left_comm, sqrt_mul hk.le, mul_assoc]
  · refine ⟨_, kasdin_adev_eq s tau0 tau hb ht, ?_⟩
    rw [kasdin_adev_eq { s with qd := k * s.qd } tau0 tau hb ht, hf]
    simp only
    rw [mul_left_comm]
    have : k * (avarCoeff s.b tau0 tau * s.frequency_psd_from_qd tau0) < 0 ↔
        avarCoeff s.b tau0 tau * s.frequency_psd_from_qd tau0 < 0 := by
      constructor
      · intro h
        by_contra h'
        exact absurd h (not_lt.2 (mul_nonneg hk.le (not_lt.1 h')))
      · intro h; exact mul_neg_of_pos_of_neg hk h
    simp only [this]
    split_ifs
    · rfl
    · rw [sqrt_mul hk.le, mul_assoc]; rfl

example := kasdin_qd_scale (Noise.init 8 3 (-1)) 2 5 7 (by simp [KasdinType, Noise.init])
  (by norm_num [Noise.init]) (by norm_num) (by norm_num) (by norm_num)

/-- C51: any other `b` raises -/
theorem kasdin_other (s : Noise) (tau0 tau : ℝ) (hb : ¬ KasdinType s.b) :
    s.adev tau0 tau = .error .unboundLocalError ∧ s.mdev tau0 tau = .error .unboundLocalError ∧
      s.pdev_from_qd tau0 = .error .unboundLocalError := by
  unfold KasdinType at hb
  push Not at hb
  obtain ⟨a, b, c, d, e⟩ := hb
  refine ⟨?_, ?_, ?_⟩
  · simp [Noise.adev, Noise.adev_from_qd, Noise.adevCoeff, a, b, c, d, e, error_bind]
  · simp [Noise.mdev, Noise.mdev_from_qd, Noise.mdevCoeff, a, b, c, d, e, error_bind]
  · simp [Noise.pdev_from_qd, Noise.pdevCoeff, a, b, c, d, e, error_bind]

example := kasdin_other (Noise.init 8 3 (-1 / 2)) 2 5 (by norm_num [KasdinType, Noise.init])

/-- white frequency noise of variance 1 at unit rate: both hypotheses met, deviations `1/√τ` and
`1/√(2τ)` -/
example : (Noise.init 2 1 (-2)).adev 1 4 = .ok (some (1 / 2)) := by
  rw [kasdin_adev_eq _ _ _ (Or.inr (Or.inr (Or.inl rfl))) (by norm_num)]
  have hf : (Noise.init 2 1 (-2)).frequency_psd_from_qd 1 = 2 := by
    simp [Noise.frequency_psd_from_qd, Noise.init]
  have hc : avarCoeff (Noise.init 2 1 (-2)).b 1 4 = 1 / 2 := by
    simp [avarCoeff, Noise.init]
  have he : avarExp (Noise.init 2 1 (-2)).b = -1 := by
    simp [avarExp, Noise.init]; norm_num
  have h4 : (4 : ℝ) ^ (-1 / 2 : ℝ) = 1 / 2 := by
    rw [show (4 : ℝ) = 2 ^ (2 : ℝ) by norm_num, ← rpow_mul (by norm_num)]
    norm_num
  rw [hf, hc, he, h4]
  norm_num

end AT
