import Verif.Props.FloatErr
import Verif.Props.Convert
import Verif.Props.Invar
import Verif.Props.Mtie

/-!
# C82: rounding errors for inexact phase data and for frequency data

Property: phase values with errors of at most `δ`, and with a wrong frequency offset of any size,
change the computed Allan and modified Allan deviations by at most `3.1 δ/tau` and the Hadamard
deviations by at most `3.5 δ/tau` on top of the rounding errors.  For `N` frequency values the
deviations in double precision agree with the exact ones up to a relative error as for phase
data and an absolute error of `c N²` roundings of `F/(rate tau)`, where `F` is the largest distance
of a value from the mean, plus the possible error of the mean.  The mean itself does not count:
this is what subtracting it before the integration achieves.
-/

namespace AT

open Spec Finset Real

variable {fl : ℝ → ℝ} {sum : List ℝ → ℝ}

/-! ## Data with errors -/

theorem rms_near (n : ℕ) (hn : 0 < n) (v d : ℕ → ℝ) (c τ η q : ℝ) (hc : 0 < c) (hτ : 0 < τ)
    (hq : 0 < q) (hcq : q ≤ √c) (h : ∀ i < n, |v i - d i| ≤ η) :
    |rms n v (c * τ ^ 2 * n) - rms n d (c * τ ^ 2 * n)| ≤ η / q / τ := by
  have h1 := rms_perturb n hn v d (c * τ ^ 2) η (by positivity) h
  unfold rms
  refine h1.trans ?_
  have hη : 0 ≤ η := (abs_nonneg _).trans (h 0 hn)
  rw [Real.sqrt_mul hc.le, Real.sqrt_sq hτ.le, ← div_div]
  exact div_le_div_of_nonneg_right (div_le_div_of_nonneg_left hη hq hcq) hτ.le

theorem d2_perturb {x' x : ℕ → ℝ} {δ : ℝ} {m i : ℕ} (h2 : |x' (i + 2 * m) - x (i + 2 * m)| ≤ δ)
    (h1 : |x' (i + m) - x (i + m)| ≤ δ) (h0 : |x' i - x i| ≤ δ) :
    |d2 x' m i - d2 x m i| ≤ 4 * δ := by
  unfold d2
  rw [abs_le] at *
  constructor <;> linarith [h2.1, h2.2, h1.1, h1.2, h0.1, h0.2]

theorem d3_perturb {x' x : ℕ → ℝ} {δ : ℝ} {m i : ℕ} (h3 : |x' (i + 3 * m) - x (i + 3 * m)| ≤ δ)
    (h2 : |x' (i + 2 * m) - x (i + 2 * m)| ≤ δ)
    (h1 : |x' (i + m) - x (i + m)| ≤ δ) (h0 : |x' i - x i| ≤ δ) :
    |d3 x' m i - d3 x m i| ≤ 8 * δ := by
  unfold d3
  rw [abs_le] at *
  constructor <;> linarith [h3.1, h3.2, h2.1, h2.2, h1.1, h1.2, h0.1, h0.2]

/-- an index of the decimated sequence lies in the data -/
theorem decimated_idx {N m k : ℕ} (hm : 0 < m) (hN : 0 < N) (hk : k < decimated N m) : k * m < N := by
  unfold decimated at hk
  have : k ≤ (N - 1) / m := by omega
  have := (Nat.le_div_iff_mul_le hm).1 this
  omega

/-- a frequency offset changes no second difference -/
theorem d2_lin (x : ℕ → ℝ) (b : ℝ) (m : ℕ) : d2 (fun i => x i + b * i) m = d2 x m := by
  funext i
  unfold d2
  push_cast
  ring

theorem d3_lin (x : ℕ → ℝ) (b : ℝ) (m : ℕ) : d3 (fun i => x i + b * i) m = d3 x m := by
  funext i
  unfold d3
  push_cast
  ring

theorem oadev_offset (x : ℕ → ℝ) (b : ℝ) (N m : ℕ) (τ : ℝ) :
    Spec.oadev (fun i => x i + b * i) N m τ = Spec.oadev x N m τ := by
  unfold Spec.oadev; rw [d2_lin]

theorem adev_offset (x : ℕ → ℝ) (b : ℝ) (N m : ℕ) (τ : ℝ) :
    Spec.adev (fun i => x i + b * i) N m τ = Spec.adev x N m τ := by
  unfold Spec.adev
  have : (fun k : ℕ => x (k * m) + b * ((k * m : ℕ) : ℝ)) = fun k : ℕ => x (k * m) + (b * m) * (k : ℝ) := by
    funext k; push_cast; ring
  simp only [this]
  rw [d2_lin (fun k => x (k * m)) (b * m)]

theorem ohdev_offset (x : ℕ → ℝ) (b : ℝ) (N m : ℕ) (τ : ℝ) :
    Spec.ohdev (fun i => x i + b * i) N m τ = Spec.ohdev x N m τ := by
  unfold Spec.ohdev; rw [d3_lin]

theorem hdev_offset (x : ℕ → ℝ) (b : ℝ) (N m : ℕ) (τ : ℝ) :
    Spec.hdev (fun i => x i + b * i) N m τ = Spec.hdev x N m τ := by
  unfold Spec.hdev
  have : (fun k : ℕ => x (k * m) + b * ((k * m : ℕ) : ℝ)) = fun k : ℕ => x (k * m) + (b * m) * (k : ℝ) := by
    funext k; push_cast; ring
  simp only [this]
  rw [d3_lin (fun k => x (k * m)) (b * m)]

theorem mdev_offset (x : ℕ → ℝ) (b : ℝ) (N m : ℕ) (τ : ℝ) :
    Spec.mdev (fun i => x i + b * i) N m τ = Spec.mdev x N m τ := by
  unfold Spec.mdev; simp only [d2_lin]

theorem oadev_perturb {x' x : ℕ → ℝ} {N m : ℕ} {δ τ b : ℝ} (hτ : 0 < τ)
    (h : ∀ i < N, |x' i - (x i + b * i)| ≤ δ)
    (hn : 2 * m < N) : |Spec.oadev x' N m τ - Spec.oadev x N m τ| ≤ 4 * δ / (14 / 10) / τ := by
  rw [← oadev_offset x b]
  have e : ((N : ℝ) - 2 * m) = ((N - 2 * m : ℕ) : ℝ) := by rw [Nat.cast_sub hn.le]; push_cast; ring
  unfold Spec.oadev
  rw [e]
  exact rms_near _ (by omega) _ _ 2 τ _ _ two_pos hτ (by norm_num) sqrt_two_gt.le
    (fun i hi => d2_perturb (h _ (by omega)) (h _ (by omega)) (h _ (by omega)))

theorem adev_perturb {x' x : ℕ → ℝ} {N m : ℕ} {δ τ b : ℝ} (hτ : 0 < τ)
    (h : ∀ i < N, |x' i - (x i + b * i)| ≤ δ)
    (hm : 0 < m) (hN : 0 < N) (hn : 2 < decimated N m) :
    |Spec.adev x' N m τ - Spec.adev x N m τ| ≤ 4 * δ / (14 / 10) / τ := by
  rw [← adev_offset x b]
  have e : ((decimated N m : ℝ) - 2) = ((decimated N m - 2 : ℕ) : ℝ) := by
    rw [Nat.cast_sub hn.le]; push_cast; ring
  unfold Spec.adev
  simp only
  rw [e]
  exact rms_near _ (by omega) _ _ 2 τ _ _ two_pos hτ (by norm_num) sqrt_two_gt.le
    (fun i hi => d2_perturb (h _ (decimated_idx hm hN (by omega))) (h _ (decimated_idx hm hN (by omega)))
      (h _ (decimated_idx hm hN (by omega))))

theorem ohdev_perturb {x' x : ℕ → ℝ} {N m : ℕ} {δ τ b : ℝ} (hτ : 0 < τ)
    (h : ∀ i < N, |x' i - (x i + b * i)| ≤ δ)
    (hn : 3 * m < N) : |Spec.ohdev x' N m τ - Spec.ohdev x N m τ| ≤ 8 * δ / (244 / 100) / τ := by
  rw [← ohdev_offset x b]
  have e : ((N : ℝ) - 3 * m) = ((N - 3 * m : ℕ) : ℝ) := by rw [Nat.cast_sub hn.le]; push_cast; ring
  unfold Spec.ohdev
  rw [e]
  exact rms_near _ (by omega) _ _ 6 τ _ _ (by norm_num) hτ (by norm_num) sqrt_six_gt.le
    (fun i hi => d3_perturb (h _ (by omega)) (h _ (by omega)) (h _ (by omega)) (h _ (by omega)))

theorem hdev_perturb {x' x : ℕ → ℝ} {N m : ℕ} {δ τ b : ℝ} (hτ : 0 < τ)
    (h : ∀ i < N, |x' i - (x i + b * i)| ≤ δ)
    (hm : 0 < m) (hN : 0 < N) (hn : 3 < decimated N m) :
    |Spec.hdev x' N m τ - Spec.hdev x N m τ| ≤ 8 * δ / (244 / 100) / τ := by
  rw [← hdev_offset x b]
  have e : ((decimated N m : ℝ) - 3) = ((decimated N m - 3 : ℕ) : ℝ) := by
    rw [Nat.cast_sub hn.le]; push_cast; ring
  unfold Spec.hdev
  simp only
  rw [e]
  exact rms_near _ (by omega) _ _ 6 τ _ _ (by norm_num) hτ (by norm_num) sqrt_six_gt.le
    (fun i hi => d3_perturb (h _ (decimated_idx hm hN (by omega))) (h _ (decimated_idx hm hN (by omega)))
      (h _ (decimated_idx hm hN (by omega))) (h _ (decimated_idx hm hN (by omega))))

theorem mdev_perturb {x' x : ℕ → ℝ} {N m : ℕ} {δ τ b : ℝ} (hτ : 0 < τ)
    (h : ∀ i < N, |x' i - (x i + b * i)| ≤ δ)
    (hm : 0 < m) (hn : 3 * m ≤ N) :
    |Spec.mdev x' N m τ - Spec.mdev x N m τ| ≤ 4 * δ / (14 / 10) / τ := by
  rw [← mdev_offset x b]
  have hm' : (0 : ℝ) < m := by exact_mod_cast hm
  have e : 2 * (m : ℝ) ^ 2 * τ ^ 2 * ((N : ℝ) - 3 * m + 1) =
      2 * ((m : ℝ) * τ) ^ 2 * ((N - 3 * m + 1 : ℕ) : ℝ) := by
    push_cast [Nat.cast_sub hn]; ring
  unfold Spec.mdev
  rw [e]
  refine (rms_near _ (by omega) _ _ 2 (m * τ) (m * (4 * δ)) _ two_pos (by positivity) (by norm_num)
    sqrt_two_gt.le (fun j hj => ?_)).trans_eq (by field_simp)
  rw [← Finset.sum_sub_distrib]
  refine (Finset.abs_sum_le_sum_abs _ _).trans ?_
  calc _ ≤ ∑ _i ∈ range m, 4 * δ :=
        Finset.sum_le_sum fun i hi => by
          have := Finset.mem_range.1 hi
          exact d2_perturb (h _ (by omega)) (h _ (by omega)) (h _ (by omega))
    _ = m * (4 * δ) := by simp

/-- rounding errors and data errors together -/
theorem row_near {r d' d A e k e' : ℝ} {n : ℤ} (h : |r - d'| ≤ 2 * ((n : ℝ) + k) * unitRoundoff * d' + A)
    (hd : |d' - d| ≤ e) (hn0 : 0 < n) (hn : n ≤ 2 ^ 47) (hk : 0 ≤ k) (hk' : k ≤ 2 ^ 47)
    (he : 17 / 16 * e ≤ e') :
    |r - d| ≤ 2 * ((n : ℝ) + k) * unitRoundoff * d + A + e' := by
  have hn' : (n : ℝ) ≤ 2 ^ 47 := by exact_mod_cast hn
  have hn1 : (0 : ℝ) < n := by exact_mod_cast hn0
  have h1 : 2 * ((n : ℝ) + k) * unitRoundoff ≤ 1 / 16 := by
    calc 2 * ((n : ℝ) + k) * unitRoundoff ≤ 2 * (2 ^ 47 + 2 ^ 47) * unitRoundoff :=
          mul_le_mul_of_nonneg_right (by linarith) unitRoundoff_pos.le
      _ ≤ 1 / 16 := by unfold unitRoundoff; norm_num
  have h0 : 0 ≤ 2 * ((n : ℝ) + k) * unitRoundoff := by
    have := unitRoundoff_pos
    positivity
  set q := 2 * ((n : ℝ) + k) * unitRoundoff
  have he0 : 0 ≤ e := (abs_nonneg _).trans hd
  have h2 : |r - d| ≤ |r - d'| + |d' - d| := abs_sub_le _ _ _
  have h3 : d' ≤ d + e := by linarith [(abs_le.1 hd).2]
  have h4 := mul_le_mul_of_nonneg_left h3 h0
  have h5 : q * e ≤ 1 / 16 * e := mul_le_mul_of_nonneg_right h1 he0
  linarith

theorem decimated_le (N m : ℕ) : decimated N m ≤ N + 1 := by
  unfold decimated
  have := Nat.div_le_self (N - 1) m
  omega

theorem mdev_body_fl_congr (x : List ℝ) (m : ℕ) (ts ts' : List ℝ) (i j : ℕ) (t : ℝ)
    (hi : ts[i]? = some t) (hj : ts'[j]? = some t) :
    mdev_body_fl fl sum x ts i m = mdev_body_fl fl sum x ts' j m := by
  have g : ∀ (l : List ℝ) (k : ℕ), l[k]? = some t → pyGet l (k : ℤ) = .ok t := by
    intro l k h
    unfold pyGet
    simp only [if_neg (by omega : ¬ ((k : ℤ) < 0)), Int.toNat_natCast, h]
  simp only [mdev_body_fl]
  rw [g _ _ hi, g _ _ hj]

theorem oadev_near_aux (hfl : FloatRound fl) (hsum : ∀ l, FloatSum fl l (sum l)) (log10grid x' x : List ℝ)
    (B δ b : ℝ) (hB : ∀ v ∈ x', |v| ≤ B) (hl : x'.length = x.length)
    (hδ : ∀ i < x.length, |seq x' i - (seq x i + b * i)| ≤ δ) (rate : ℝ) (hr : 0 < rate) (taus : TausArg)
    (hN : x.length ≤ 2 ^ 47) (ht : SafeTaus rate taus)
    (bound : ℝ → ℝ → ℤ → ℝ) (hbound : ∀ tau dev n, 0 < tau →
      Spec.adevBound B tau dev n + 31 / 10 * δ / tau ≤ bound tau dev n) :
    (∃ e, oadev_fl fl sum log10grid x' rate taus = .error e ∧ oadev x rate "phase" taus = .error e) ∨
    ∃ o o', oadev_fl fl sum log10grid x' rate taus = .ok o ∧ oadev x rate "phase" taus = .ok o' ∧
      FloatClose bound o o' := by
  rw [← hl] at hN
  have h := driver_float hfl bound log10grid x' rate taus hN ht
    (fun _ _ m => calc_adev_phase_fl fl sum x' rate m 1)
    (fun m => Spec.oadev (seq x) x.length m (m / rate))
    (fun m => Spec.oadev (seq x) x.length m (m / rate) / √((x.length : ℝ) - 2 * m))
    (fun m => (x.length : ℤ) - 2 * m) ?_ (fun _ _ _ _ _ _ _ => rfl)
  · simp only at h
    rw [hl, ← oadev_phase_eq x rate hr.le taus] at h
    have e : oadev_fl fl sum log10grid x' rate taus = (tau_generator_fl fl log10grid x' rate taus >>= fun r =>
        runTaus r.2.2 r.2.1 (fun _ m => calc_adev_phase_fl fl sum x' rate m 1)) := by
      unfold oadev_fl
      rw [tau_generator_float_safe hfl log10grid x' rate taus false (-1) hN ht]
      cases factors x'.length rate taus false (effMax x'.length (-1)) <;> simp only [ok_bind, error_bind]
    rw [e]
    exact h
  · intro _ m hm0 hmN _ _ _
    obtain ⟨row, h1, h2, h3⟩ := oadev_row_float hfl hsum x' B hB rate hr hN m hm0 hmN
    rw [hl] at h2 h3 hN hmN
    have hτ : (0 : ℝ) < m / rate := by
      have : (0 : ℝ) < m := by exact_mod_cast hm0
      positivity
    refine ⟨row, h1, h2, fun hn => ?_⟩
    obtain ⟨h4, h5, h6⟩ := h3 hn
    refine ⟨h4, le_trans ?_ (hbound _ _ _ hτ), h6⟩
    have hp := oadev_perturb (x' := seq x') (x := seq x) (N := x.length) (m := m) (b := b) hτ hδ (by omega)
    have hdec := decimated_le x.length m
    unfold Spec.adevBound at h5 ⊢
    refine row_near h5 hp (by omega) (by omega) (by norm_num) (by norm_num) ?_
    have hδ0 : 0 ≤ δ := (abs_nonneg _).trans (hδ 0 (by omega))
    have : 0 ≤ δ / (m / rate) := by positivity
    rw [div_right_comm, mul_div_assoc, mul_div_assoc _ δ]
    linarith

/-- C82: `oadev` in double precision of phase data `x'` with errors -/
theorem oadev_near (hfl : FloatRound fl) (hsum : ∀ l, FloatSum fl l (sum l)) (log10grid x' x : List ℝ)
    (B δ b : ℝ) (hB : ∀ v ∈ x', |v| ≤ B) (hl : x'.length = x.length)
    (hδ : ∀ i < x.length, |seq x' i - (seq x i + b * i)| ≤ δ) (rate : ℝ) (hr : 0 < rate) (taus : TausArg)
    (hN : x.length ≤ 2 ^ 47) (ht : SafeTaus rate taus) :
    (∃ e, oadev_fl fl sum log10grid x' rate taus = .error e ∧ oadev x rate "phase" taus = .error e) ∨
    ∃ o o', oadev_fl fl sum log10grid x' rate taus = .ok o ∧ oadev x rate "phase" taus = .ok o' ∧
      FloatClose (fun tau dev n => Spec.adevBound B tau dev n + 31 / 10 * δ / tau) o o' := by
  exact oadev_near_aux hfl hsum log10grid x' x B δ b hB hl hδ rate hr taus hN ht _ (fun _ _ _ _ => le_rfl)

theorem adev_near_aux (hfl : FloatRound fl) (hsum : ∀ l, FloatSum fl l (sum l)) (log10grid x' x : List ℝ)
    (B δ b : ℝ) (hB : ∀ v ∈ x', |v| ≤ B) (hl : x'.length = x.length)
    (hδ : ∀ i < x.length, |seq x' i - (seq x i + b * i)| ≤ δ) (rate : ℝ) (hr : 0 < rate) (taus : TausArg)
    (hN : x.length ≤ 2 ^ 47) (ht : SafeTaus rate taus)
    (bound : ℝ → ℝ → ℤ → ℝ) (hbound : ∀ tau dev n, 0 < tau →
      Spec.adevBound B tau dev n + 31 / 10 * δ / tau ≤ bound tau dev n) :
    (∃ e, adev_fl fl sum log10grid x' rate taus = .error e ∧ adev x rate "phase" taus = .error e) ∨
    ∃ o o', adev_fl fl sum log10grid x' rate taus = .ok o ∧ adev x rate "phase" taus = .ok o' ∧
      FloatClose bound o o' := by
  rw [← hl] at hN
  have h := driver_float hfl bound log10grid x' rate taus hN ht
    (fun _ _ m => calc_adev_phase_fl fl sum x' rate m m)
    (fun m => Spec.adev (seq x) x.length m (m / rate))
    (fun m => Spec.adev (seq x) x.length m (m / rate) / √((decimated x.length m : ℝ) - 2))
    (fun m => (decimated x.length m : ℤ) - 2) ?_ (fun _ _ _ _ _ _ _ => rfl)
  · simp only at h
    rw [hl, ← adev_phase_eq x rate hr.le taus] at h
    have e : adev_fl fl sum log10grid x' rate taus = (tau_generator_fl fl log10grid x' rate taus >>= fun r =>
        runTaus r.2.2 r.2.1 (fun _ m => calc_adev_phase_fl fl sum x' rate m m)) := by
      unfold adev_fl
      rw [tau_generator_float_safe hfl log10grid x' rate taus false (-1) hN ht]
      cases factors x'.length rate taus false (effMax x'.length (-1)) <;> simp only [ok_bind, error_bind]
    rw [e]
    exact h
  · intro _ m hm0 hmN _ _ _
    obtain ⟨row, h1, h2, h3⟩ := adev_row_float hfl hsum x' B hB rate hr hN m hm0 hmN
    rw [hl] at h2 h3 hN hmN
    have hτ : (0 : ℝ) < m / rate := by
      have : (0 : ℝ) < m := by exact_mod_cast hm0
      positivity
    refine ⟨row, h1, h2, fun hn => ?_⟩
    obtain ⟨h4, h5, h6⟩ := h3 hn
    refine ⟨h4, le_trans ?_ (hbound _ _ _ hτ), h6⟩
    have hp := adev_perturb (x' := seq x') (x := seq x) (N := x.length) (m := m) (b := b) hτ hδ hm0 (by omega) (by omega)
    have hdec := decimated_le x.length m
    unfold Spec.adevBound at h5 ⊢
    refine row_near h5 hp (by omega) (by omega) (by norm_num) (by norm_num) ?_
    have hδ0 : 0 ≤ δ := (abs_nonneg _).trans (hδ 0 (by omega))
    have : 0 ≤ δ / (m / rate) := by positivity
    rw [div_right_comm, mul_div_assoc, mul_div_assoc _ δ]
    linarith

/-- C82: `adev` in double precision of phase data `x'` with errors -/
theorem adev_near (hfl : FloatRound fl) (hsum : ∀ l, FloatSum fl l (sum l)) (log10grid x' x : List ℝ)
    (B δ b : ℝ) (hB : ∀ v ∈ x', |v| ≤ B) (hl : x'.length = x.length)
    (hδ : ∀ i < x.length, |seq x' i - (seq x i + b * i)| ≤ δ) (rate : ℝ) (hr : 0 < rate) (taus : TausArg)
    (hN : x.length ≤ 2 ^ 47) (ht : SafeTaus rate taus) :
    (∃ e, adev_fl fl sum log10grid x' rate taus = .error e ∧ adev x rate "phase" taus = .error e) ∨
    ∃ o o', adev_fl fl sum log10grid x' rate taus = .ok o ∧ adev x rate "phase" taus = .ok o' ∧
      FloatClose (fun tau dev n => Spec.adevBound B tau dev n + 31 / 10 * δ / tau) o o' := by
  exact adev_near_aux hfl hsum log10grid x' x B δ b hB hl hδ rate hr taus hN ht _ (fun _ _ _ _ => le_rfl)

theorem ohdev_near_aux (hfl : FloatRound fl) (hsum : ∀ l, FloatSum fl l (sum l)) (log10grid x' x : List ℝ)
    (B δ b : ℝ) (hB : ∀ v ∈ x', |v| ≤ B) (hl : x'.length = x.length)
    (hδ : ∀ i < x.length, |seq x' i - (seq x i + b * i)| ≤ δ) (rate : ℝ) (hr : 0 < rate) (taus : TausArg)
    (hN : x.length ≤ 2 ^ 47) (ht : SafeTaus rate taus)
    (bound : ℝ → ℝ → ℤ → ℝ) (hbound : ∀ tau dev n, 0 < tau →
      Spec.hdevBound B tau dev n + 35 / 10 * δ / tau ≤ bound tau dev n) :
    (∃ e, ohdev_fl fl sum log10grid x' rate taus = .error e ∧ ohdev x rate "phase" taus = .error e) ∨
    ∃ o o', ohdev_fl fl sum log10grid x' rate taus = .ok o ∧ ohdev x rate "phase" taus = .ok o' ∧
      FloatClose bound o o' := by
  rw [← hl] at hN
  have h := driver_float hfl bound log10grid x' rate taus hN ht
    (fun _ _ m => calc_hdev_phase_fl fl sum x' rate m 1)
    (fun m => Spec.ohdev (seq x) x.length m (m / rate))
    (fun m => Spec.ohdev (seq x) x.length m (m / rate) / √((x.length : ℝ) - 3 * m))
    (fun m => (x.length : ℤ) - 3 * m) ?_ (fun _ _ _ _ _ _ _ => rfl)
  · simp only at h
    rw [hl, ← ohdev_phase_eq x rate hr.le taus] at h
    have e : ohdev_fl fl sum log10grid x' rate taus = (tau_generator_fl fl log10grid x' rate taus >>= fun r =>
        runTaus r.2.2 r.2.1 (fun _ m => calc_hdev_phase_fl fl sum x' rate m 1)) := by
      unfold ohdev_fl
      rw [tau_generator_float_safe hfl log10grid x' rate taus false (-1) hN ht]
      cases factors x'.length rate taus false (effMax x'.length (-1)) <;> simp only [ok_bind, error_bind]
    rw [e]
    exact h
  · intro _ m hm0 hmN _ _ _
    obtain ⟨row, h1, h2, h3⟩ := ohdev_row_float hfl hsum x' B hB rate hr hN m hm0 hmN
    rw [hl] at h2 h3 hN hmN
    have hτ : (0 : ℝ) < m / rate := by
      have : (0 : ℝ) < m := by exact_mod_cast hm0
      positivity
    refine ⟨row, h1, h2, fun hn => ?_⟩
    obtain ⟨h4, h5, h6⟩ := h3 hn
    refine ⟨h4, le_trans ?_ (hbound _ _ _ hτ), h6⟩
    have hp := ohdev_perturb (x' := seq x') (x := seq x) (N := x.length) (m := m) (b := b) hτ hδ (by omega)
    have hdec := decimated_le x.length m
    unfold Spec.hdevBound at h5 ⊢
    refine row_near h5 hp (by omega) (by omega) (by norm_num) (by norm_num) ?_
    have hδ0 : 0 ≤ δ := (abs_nonneg _).trans (hδ 0 (by omega))
    have : 0 ≤ δ / (m / rate) := by positivity
    rw [div_right_comm, mul_div_assoc, mul_div_assoc _ δ]
    linarith

/-- C82: `ohdev` in double precision of phase data `x'` with errors -/
theorem ohdev_near (hfl : FloatRound fl) (hsum : ∀ l, FloatSum fl l (sum l)) (log10grid x' x : List ℝ)
    (B δ b : ℝ) (hB : ∀ v ∈ x', |v| ≤ B) (hl : x'.length = x.length)
    (hδ : ∀ i < x.length, |seq x' i - (seq x i + b * i)| ≤ δ) (rate : ℝ) (hr : 0 < rate) (taus : TausArg)
    (hN : x.length ≤ 2 ^ 47) (ht : SafeTaus rate taus) :
    (∃ e, ohdev_fl fl sum log10grid x' rate taus = .error e ∧ ohdev x rate "phase" taus = .error e) ∨
    ∃ o o', ohdev_fl fl sum log10grid x' rate taus = .ok o ∧ ohdev x rate "phase" taus = .ok o' ∧
      FloatClose (fun tau dev n => Spec.hdevBound B tau dev n + 35 / 10 * δ / tau) o o' := by
  exact ohdev_near_aux hfl hsum log10grid x' x B δ b hB hl hδ rate hr taus hN ht _ (fun _ _ _ _ => le_rfl)

theorem hdev_near_aux (hfl : FloatRound fl) (hsum : ∀ l, FloatSum fl l (sum l)) (log10grid x' x : List ℝ)
    (B δ b : ℝ) (hB : ∀ v ∈ x', |v| ≤ B) (hl : x'.length = x.length)
    (hδ : ∀ i < x.length, |seq x' i - (seq x i + b * i)| ≤ δ) (rate : ℝ) (hr : 0 < rate) (taus : TausArg)
    (hN : x.length ≤ 2 ^ 47) (ht : SafeTaus rate taus)
    (bound : ℝ → ℝ → ℤ → ℝ) (hbound : ∀ tau dev n, 0 < tau →
      Spec.hdevBound B tau dev n + 35 / 10 * δ / tau ≤ bound tau dev n) :
    (∃ e, hdev_fl fl sum log10grid x' rate taus = .error e ∧ hdev x rate "phase" taus = .error e) ∨
    ∃ o o', hdev_fl fl sum log10grid x' rate taus = .ok o ∧ hdev x rate "phase" taus = .ok o' ∧
      FloatClose bound o o' := by
  rw [← hl] at hN
  have h := driver_float hfl bound log10grid x' rate taus hN ht
    (fun _ _ m => calc_hdev_phase_fl fl sum x' rate m m)
    (fun m => Spec.hdev (seq x) x.length m (m / rate))
    (fun m => Spec.hdev (seq x) x.length m (m / rate) / √((decimated x.length m : ℝ) - 3))
    (fun m => (decimated x.length m : ℤ) - 3) ?_ (fun _ _ _ _ _ _ _ => rfl)
  · simp only at h
    rw [hl, ← hdev_phase_eq x rate hr.le taus] at h
    have e : hdev_fl fl sum log10grid x' rate taus = (tau_generator_fl fl log10grid x' rate taus >>= fun r =>
        runTaus r.2.2 r.2.1 (fun _ m => calc_hdev_phase_fl fl sum x' rate m m)) := by
      unfold hdev_fl
      rw [tau_generator_float_safe hfl log10grid x' rate taus false (-1) hN ht]
      cases factors x'.length rate taus false (effMax x'.length (-1)) <;> simp only [ok_bind, error_bind]
    rw [e]
    exact h
  · intro _ m hm0 hmN _ _ _
    obtain ⟨row, h1, h2, h3⟩ := hdev_row_float hfl hsum x' B hB rate hr hN m hm0 hmN
    rw [hl] at h2 h3 hN hmN
    have hτ : (0 : ℝ) < m / rate := by
      have : (0 : ℝ) < m := by exact_mod_cast hm0
      positivity
    refine ⟨row, h1, h2, fun hn => ?_⟩
    obtain ⟨h4, h5, h6⟩ := h3 hn
    refine ⟨h4, le_trans ?_ (hbound _ _ _ hτ), h6⟩
    have hp := hdev_perturb (x' := seq x') (x := seq x) (N := x.length) (m := m) (b := b) hτ hδ hm0 (by omega) (by omega)
    have hdec := decimated_le x.length m
    unfold Spec.hdevBound at h5 ⊢
    refine row_near h5 hp (by omega) (by omega) (by norm_num) (by norm_num) ?_
    have hδ0 : 0 ≤ δ := (abs_nonneg _).trans (hδ 0 (by omega))
    have : 0 ≤ δ / (m / rate) := by positivity
    rw [div_right_comm, mul_div_assoc, mul_div_assoc _ δ]
    linarith

/-- C82: `hdev` in double precision of phase data `x'` with errors -/
theorem hdev_near (hfl : FloatRound fl) (hsum : ∀ l, FloatSum fl l (sum l)) (log10grid x' x : List ℝ)
    (B δ b : ℝ) (hB : ∀ v ∈ x', |v| ≤ B) (hl : x'.length = x.length)
    (hδ : ∀ i < x.length, |seq x' i - (seq x i + b * i)| ≤ δ) (rate : ℝ) (hr : 0 < rate) (taus : TausArg)
    (hN : x.length ≤ 2 ^ 47) (ht : SafeTaus rate taus) :
    (∃ e, hdev_fl fl sum log10grid x' rate taus = .error e ∧ hdev x rate "phase" taus = .error e) ∨
    ∃ o o', hdev_fl fl sum log10grid x' rate taus = .ok o ∧ hdev x rate "phase" taus = .ok o' ∧
      FloatClose (fun tau dev n => Spec.hdevBound B tau dev n + 35 / 10 * δ / tau) o o' := by
  exact hdev_near_aux hfl hsum log10grid x' x B δ b hB hl hδ rate hr taus hN ht _ (fun _ _ _ _ => le_rfl)

theorem mdev_near_aux (hfl : FloatRound fl) (hsum : ∀ l, FloatSum fl l (sum l)) (log10grid x' x : List ℝ)
    (B δ b : ℝ) (hB : ∀ v ∈ x', |v| ≤ B) (hl : x'.length = x.length)
    (hδ : ∀ i < x.length, |seq x' i - (seq x i + b * i)| ≤ δ) (rate : ℝ) (hr : 0 < rate) (taus : TausArg)
    (hN : x.length ≤ 2 ^ 47) (ht : SafeTaus rate taus)
    (bound : ℝ → ℝ → ℤ → ℝ) (hbound : ∀ tau dev n, 0 < tau →
      Spec.mdevBound x.length rate B tau dev n + 31 / 10 * δ / tau ≤ bound tau dev n) :
    (∃ e, mdev_fl fl sum log10grid x' rate taus = .error e ∧ mdev x rate "phase" taus = .error e) ∨
    ∃ o o', mdev_fl fl sum log10grid x' rate taus = .ok o ∧ mdev x rate "phase" taus = .ok o' ∧
      FloatClose bound o o' := by
  rw [← hl] at hN
  have h := driver_float hfl bound log10grid x' rate taus hN ht
    (fun ts idx m => mdev_body_fl fl sum x' ts idx m)
    (fun m => Spec.mdev (seq x) x.length m (m / rate))
    (fun m => Spec.mdev (seq x) x.length m (m / rate) / √((x.length : ℝ) - 3 * m + 1))
    (fun m => (x.length : ℤ) - 3 * m + 1) ?_ ?_
  · simp only at h
    rw [hl, ← mdev_phase_eq x rate taus] at h
    have e : mdev_fl fl sum log10grid x' rate taus = (tau_generator_fl fl log10grid x' rate taus >>= fun r =>
        runTaus r.2.2 r.2.1 (fun idx m => mdev_body_fl fl sum x' r.2.2 idx m)) := by
      unfold mdev_fl
      rw [tau_generator_float_safe hfl log10grid x' rate taus false (-1) hN ht]
      cases factors x'.length rate taus false (effMax x'.length (-1)) <;> simp only [ok_bind, error_bind]
    rw [e]
    exact h
  · intro _ m hm0 hmN idx ts hts
    obtain ⟨row, h1, h2, h3⟩ := mdev_row_float hfl hsum x' B hB rate hr hN m hm0 idx ts hts
    rw [hl] at h2 h3 hN hmN
    have hτ : (0 : ℝ) < m / rate := by
      have : (0 : ℝ) < m := by exact_mod_cast hm0
      positivity
    refine ⟨row, h1, h2, fun hn => ?_⟩
    obtain ⟨h4, h5, h6⟩ := h3 hn
    refine ⟨h4, le_trans ?_ (hbound _ _ _ hτ), h6⟩
    have hp := mdev_perturb (x' := seq x') (x := seq x) (N := x.length) (m := m) (b := b) hτ hδ hm0 (by omega)
    have hdec := decimated_le x.length m
    unfold Spec.mdevBound at h5 ⊢
    refine row_near h5 hp (by omega) (by omega) (by norm_num) (by norm_num) ?_
    have hδ0 : 0 ≤ δ := (abs_nonneg _).trans (hδ 0 (by omega))
    have : 0 ≤ δ / (m / rate) := by positivity
    rw [div_right_comm, mul_div_assoc, mul_div_assoc _ δ]
    linarith
  · intro m ts ts' i j hi hj
    exact mdev_body_fl_congr x' m ts ts' i j _ hi hj

/-- C82: `mdev` in double precision of phase data `x'` with errors -/
theorem mdev_near (hfl : FloatRound fl) (hsum : ∀ l, FloatSum fl l (sum l)) (log10grid x' x : List ℝ)
    (B δ b : ℝ) (hB : ∀ v ∈ x', |v| ≤ B) (hl : x'.length = x.length)
    (hδ : ∀ i < x.length, |seq x' i - (seq x i + b * i)| ≤ δ) (rate : ℝ) (hr : 0 < rate) (taus : TausArg)
    (hN : x.length ≤ 2 ^ 47) (ht : SafeTaus rate taus) :
    (∃ e, mdev_fl fl sum log10grid x' rate taus = .error e ∧ mdev x rate "phase" taus = .error e) ∨
    ∃ o o', mdev_fl fl sum log10grid x' rate taus = .ok o ∧ mdev x rate "phase" taus = .ok o' ∧
      FloatClose (fun tau dev n => Spec.mdevBound x.length rate B tau dev n + 31 / 10 * δ / tau) o o' := by
  exact mdev_near_aux hfl hsum log10grid x' x B δ b hB hl hδ rate hr taus hN ht _ (fun _ _ _ _ => le_rfl)

/-! ## Frequency data -/

theorem NearA.mul {k l : ℕ} {a b c d G H : ℝ} (h : NearA k a b G) (h' : NearA l c d H) :
    NearA (k + l) (a * c) (b * d) (G * H) := by
  refine ⟨by rw [abs_mul]; exact mul_le_mul h.1 h'.1 (abs_nonneg _) h.nonneg, ?_⟩
  have e : a * c - b * d = (a - b) * c + b * (c - d) := by ring
  have h1 : |a * c - b * d| ≤ |a - b| * |c| + |b| * |c - d| := by
    rw [e]
    refine (abs_add_le _ _).trans ?_
    rw [abs_mul, abs_mul]
  have h2 := mul_le_mul h.2 h'.abs_le (abs_nonneg _) (mul_nonneg (near_eps_nonneg k) h.nonneg)
  have h3 := mul_le_mul h.1 h'.2 (abs_nonneg _) h.nonneg
  rw [pow_add]
  nlinarith

theorem seq_mem (x : List ℝ) (i : ℕ) (hi : i < x.length) : seq x i ∈ x := by
  unfold seq
  rw [List.getD_eq_getElem _ _ hi]
  exact List.getElem_mem hi

/-- the computed mean -/
theorem mean_float (hfl : FloatRound fl) (hsum : ∀ l, FloatSum fl l (sum l)) (N : ℕ) (hN0 : 0 < N)
    (y : ℕ → ℝ) (Y : ℝ) (hY : ∀ i < N, |y i| ≤ Y) :
    NearA N (fl (sum (tab N y) / N)) ((∑ i ∈ range N, y i) / N) Y := by
  have hN' : (0 : ℝ) < N := by exact_mod_cast hN0
  have h1 := FloatSum.nearA_tab hfl (hsum (tab N y)) (k := 0) (g := y) (G := fun _ => Y)
    (fun i hi => NearA.exact (hY i hi))
  have h2 := (h1.const_mul (1 / N)).fl hfl
  rw [one_div_mul_eq_div, one_div_mul_eq_div, abs_of_pos (by positivity), Finset.sum_const,
    Finset.card_range, nsmul_eq_mul, one_div_mul_eq_div, mul_div_cancel_left₀ _ hN'.ne'] at h2
  exact h2.mono (by omega)

/-- C82: the phase computed from frequency data.  Up to a frequency offset `b`, the error of the
computed mean, it is exact up to `6 N²` roundings of `F/rate`. -/
theorem frequency2phase_float (hfl : FloatRound fl) (hsum : ∀ l, FloatSum fl l (sum l)) (y : List ℝ)
    (hy : y ≠ []) (Y Z : ℝ) (hY : ∀ v ∈ y, |v| ≤ Y) (hZ : ∀ v ∈ y, |v - Spec.mean y| ≤ Z) (rate : ℝ)
    (hr : 0 < rate) (hN : y.length ≤ 2 ^ 46) :
    ∃ x' x b, frequency2phase_fl fl sum y rate = .ok x' ∧ frequency2phase y rate = .ok x ∧
      x'.length = y.length + 1 ∧ x.length = y.length + 1 ∧
      |b| ≤ 2 * y.length * unitRoundoff * Y / rate ∧
      (∀ i < x.length, |seq x' i - (seq x i + b * i)| ≤
        6 * y.length ^ 2 * unitRoundoff * ((Z + 2 * y.length * unitRoundoff * Y) / rate)) ∧
      ∀ v ∈ x', |v| ≤ 17 / 16 * y.length * ((Z + 2 * y.length * unitRoundoff * Y) / rate) := by
  have hu := unitRoundoff_pos
  have hN0 : 0 < y.length := List.length_pos_iff.2 hy
  have hx := frequency2phase_eq y hy rate hr.ne'
  have hm := mean_float hfl hsum y.length hN0 (seq y) Y (fun i hi => hY _ (seq_mem y i hi))
  rw [← mean_eq, ← eq_tab_seq] at hm
  have hZ' : ∀ i < y.length, |seq y i - Spec.mean y| ≤ Z := fun i hi => hZ _ (seq_mem y i hi)
  set N := y.length with hNd
  set c := fl (sum y / N) with hc
  have hN1 : (1 : ℝ) ≤ N := by exact_mod_cast hN0
  have hY0 : 0 ≤ Y := hm.nonneg
  have hZ0 : 0 ≤ Z := (abs_nonneg _).trans (hZ' 0 hN0)
  have hcm : |c - Spec.mean y| ≤ 2 * N * unitRoundoff * Y := by
    refine hm.2.trans (mul_le_mul_of_nonneg_right ?_ hY0)
    linarith [few_roundings (k := N) (by omega)]
  set F := Z + 2 * N * unitRoundoff * Y with hF
  have hF0 : 0 ≤ F := by positivity
  have hf : ∀ i < N, NearA 1 (fl (seq y i - c)) (seq y i - c) F := by
    intro i hi
    refine (NearA.exact ?_).fl hfl
    have := abs_sub_le (seq y i) (Spec.mean y) c
    rw [abs_sub_comm c] at hcm
    linarith [hZ' i hi]
  have hx' : frequency2phase_fl fl sum y rate = .ok (tab (N + 1) (fun i => match i with
      | 0 => 0
      | k + 1 => fl (runSum fl (fun j => fl (seq y j - c)) k * fl (1 / rate)))) := by
    unfold frequency2phase_fl
    rw [if_neg hr.ne', if_neg hy, tab_succ', ← hNd, ← hc]
    have e : y.map (fun v => fl (v - c)) = tab N (fun j => fl (seq y j - c)) := by
      conv_lhs => rw [eq_tab_seq y, map_tab]
    simp only [e, npCumsum_fl_tab, map_tab]
  have hrow : ∀ i < N, NearA (N + 2) (fl (runSum fl (fun j => fl (seq y j - c)) i * fl (1 / rate)))
      ((∑ j ∈ range (i + 1), (seq y j - c)) / rate) (N * (F / rate)) := by
    intro i hi
    have h1 := runSum_near hfl hf i hi
    have hi' : (i : ℝ) + 1 ≤ N := by exact_mod_cast hi
    have h2 := (h1.mono (by omega : i + 1 ≤ N)).mono_size (mul_le_mul_of_nonneg_right hi' hF0)
    have h3 := nearA_of_near (Near.of_fl hfl (1 / rate))
    have h4 := (h2.mul h3).fl hfl
    rw [mul_one_div, abs_of_pos (by positivity), mul_one_div] at h4
    rwa [mul_div_assoc] at h4
  refine ⟨_, _, (Spec.mean y - c) / rate, hx', hx, by simp, by simp, ?_, ?_, ?_⟩
  · rw [abs_div, abs_of_pos hr, abs_sub_comm]
    exact div_le_div_of_nonneg_right hcm hr.le
  · intro i hi
    rw [tab_length] at hi
    rw [seq_tab _ _ hi, seq_tab _ _ hi]
    cases i with
    | zero =>
      simp only [Finset.range_zero, Finset.sum_empty, zero_div, Nat.cast_zero, mul_zero, add_zero, sub_zero,
        abs_zero]
      positivity
    | succ i =>
      have h1 := (hrow i (by omega)).2
      have e : (∑ j ∈ range (i + 1), (seq y j - Spec.mean y)) / rate + (Spec.mean y - c) / rate * ((i + 1 : ℕ) : ℝ)
          = (∑ j ∈ range (i + 1), (seq y j - c)) / rate := by
        simp only [Finset.sum_sub_distrib, Finset.sum_const, Finset.card_range, nsmul_eq_mul]
        field_simp
        ring
      simp only
      rw [e]
      refine h1.trans ?_
      have h2 := few_roundings (k := N + 2) (by omega)
      have hFr : 0 ≤ F / rate := by positivity
      calc ((1 + unitRoundoff) ^ (N + 2) - 1) * (N * (F / rate))
          ≤ 2 * ((N + 2 : ℕ) : ℝ) * unitRoundoff * (N * (F / rate)) :=
            mul_le_mul_of_nonneg_right (by linarith) (by positivity)
        _ = (2 * ((N : ℝ) + 2) * N) * (unitRoundoff * (F / rate)) := by push_cast; ring
        _ ≤ (6 * N ^ 2) * (unitRoundoff * (F / rate)) :=
            mul_le_mul_of_nonneg_right (by nlinarith) (by positivity)
        _ = _ := by ring
  · intro v hv
    obtain ⟨i, hi, rfl⟩ := (mem_tab _ _ _).1 hv
    have hFr : 0 ≤ F / rate := by positivity
    cases i with
    | zero => simp only [abs_zero]; positivity
    | succ i =>
      simp only
      refine (hrow i (by omega)).abs_le.trans ?_
      have h2 := few_roundings (k := N + 2) (by omega)
      have h3 : 2 * ((N + 2 : ℕ) : ℝ) * unitRoundoff ≤ 1 / 16 := by
        have : ((N + 2 : ℕ) : ℝ) ≤ 2 ^ 47 := by
          have : N + 2 ≤ 2 ^ 47 := by omega
          exact_mod_cast this
        calc 2 * ((N + 2 : ℕ) : ℝ) * unitRoundoff ≤ 2 * 2 ^ 47 * unitRoundoff :=
              mul_le_mul_of_nonneg_right (by linarith) hu.le
          _ ≤ 1 / 16 := by unfold unitRoundoff; norm_num
      rw [mul_assoc]
      exact mul_le_mul_of_nonneg_right (by linarith) (by positivity)

theorem freq_bound {N : ℕ} {A C c F r τ : ℝ} (hN : 0 < N) (hF : 0 ≤ F) (hr : 0 < r) (hτ : 0 < τ)
    (hA : 0 ≤ A) (h : A * (17 / 16) + 6 * C ≤ c) :
    A * unitRoundoff * (17 / 16 * N * (F / r)) / τ + C * (6 * N ^ 2 * unitRoundoff * (F / r)) / τ ≤
      c * N ^ 2 * unitRoundoff * (F / r) / τ := by
  have hu := unitRoundoff_pos
  have hN1 : (1 : ℝ) ≤ N := by exact_mod_cast hN
  rw [← add_div]
  apply div_le_div_of_nonneg_right _ hτ.le
  have h1 : (A * (17 / 16) * N + 6 * C * N ^ 2) * (unitRoundoff * (F / r)) ≤
      c * N ^ 2 * (unitRoundoff * (F / r)) := by
    apply mul_le_mul_of_nonneg_right _ (by positivity)
    have : A * (17 / 16) * N ≤ A * (17 / 16) * N ^ 2 :=
      mul_le_mul_of_nonneg_left (by nlinarith) (by positivity)
    have h2 := mul_le_mul_of_nonneg_right h (sq_nonneg (N : ℝ))
    linarith
  linarith

theorem freq_ne_phase : ¬ ("freq" = "phase") := by decide

/-- C82: `oadev` of frequency data in double precision -/
theorem oadev_freq_float (hfl : FloatRound fl) (hsum : ∀ l, FloatSum fl l (sum l)) (log10grid y : List ℝ)
    (Y Z : ℝ) (hY : ∀ v ∈ y, |v| ≤ Y) (hZ : ∀ v ∈ y, |v - Spec.mean y| ≤ Z) (rate : ℝ) (hr : 0 < rate)
    (taus : TausArg) (hN : y.length ≤ 2 ^ 46) (ht : SafeTaus rate taus) :
    (∃ e, oadev_freq_fl fl sum log10grid y rate taus = .error e ∧ oadev y rate "freq" taus = .error e) ∨
    ∃ o o', oadev_freq_fl fl sum log10grid y rate taus = .ok o ∧ oadev y rate "freq" taus = .ok o' ∧
      FloatClose (freqBound 6 30 y.length rate (Z + 2 * y.length * unitRoundoff * Y)) o o' := by
  by_cases hy : y = []
  · left
    subst hy
    refine ⟨.indexError, ?_, ?_⟩
    · simp only [oadev_freq_fl, frequency2phase_fl, if_neg hr.ne', if_true, error_bind]
    · simp only [oadev, input_to_phase, frequency2phase, if_neg hr.ne', if_true, if_neg freq_ne_phase,
        error_bind]
  have hN0 : 0 < y.length := List.length_pos_iff.2 hy
  obtain ⟨x', x, b, h1, h2, h3', h3, _, h4, h5⟩ := frequency2phase_float hfl hsum y hy Y Z hY hZ rate hr hN
  have hF : 0 ≤ Z + 2 * y.length * unitRoundoff * Y := by
    have h0 := seq_mem y 0 hN0
    have := (abs_nonneg _).trans (hY _ h0)
    have := (abs_nonneg _).trans (hZ _ h0)
    have := unitRoundoff_pos
    positivity
  have e1 : oadev_freq_fl fl sum log10grid y rate taus = oadev_fl fl sum log10grid x' rate taus := by
    simp only [oadev_freq_fl, h1, ok_bind]
  have e2 : oadev y rate "freq" taus = oadev x rate "phase" taus := by
    simp only [oadev, input_to_phase, if_neg freq_ne_phase, if_true, h2, ok_bind]
  rw [e1, e2]
  exact oadev_near_aux hfl hsum log10grid x' x _ _ b h5 (h3'.trans h3.symm) h4 rate hr taus
    (by rw [h3]; omega) ht _ (fun τ dev n hτ => by
      unfold Spec.adevBound freqBound
      have := freq_bound (A := 10) (C := 31 / 10) (c := 30) hN0 hF hr hτ (by norm_num) (by norm_num)
      linarith)

/-- C82: `adev` of frequency data in double precision -/
theorem adev_freq_float (hfl : FloatRound fl) (hsum : ∀ l, FloatSum fl l (sum l)) (log10grid y : List ℝ)
    (Y Z : ℝ) (hY : ∀ v ∈ y, |v| ≤ Y) (hZ : ∀ v ∈ y, |v - Spec.mean y| ≤ Z) (rate : ℝ) (hr : 0 < rate)
    (taus : TausArg) (hN : y.length ≤ 2 ^ 46) (ht : SafeTaus rate taus) :
    (∃ e, adev_freq_fl fl sum log10grid y rate taus = .error e ∧ adev y rate "freq" taus = .error e) ∨
    ∃ o o', adev_freq_fl fl sum log10grid y rate taus = .ok o ∧ adev y rate "freq" taus = .ok o' ∧
      FloatClose (freqBound 6 30 y.length rate (Z + 2 * y.length * unitRoundoff * Y)) o o' := by
  by_cases hy : y = []
  · left
    subst hy
    refine ⟨.indexError, ?_, ?_⟩
    · simp only [adev_freq_fl, frequency2phase_fl, if_neg hr.ne', if_true, error_bind]
    · simp only [adev, input_to_phase, frequency2phase, if_neg hr.ne', if_true, if_neg freq_ne_phase,
        error_bind]
  have hN0 : 0 < y.length := List.length_pos_iff.2 hy
  obtain ⟨x', x, b, h1, h2, h3', h3, _, h4, h5⟩ := frequency2phase_float hfl hsum y hy Y Z hY hZ rate hr hN
  have hF : 0 ≤ Z + 2 * y.length * unitRoundoff * Y := by
    have h0 := seq_mem y 0 hN0
    have := (abs_nonneg _).trans (hY _ h0)
    have := (abs_nonneg _).trans (hZ _ h0)
    have := unitRoundoff_pos
    positivity
  have e1 : adev_freq_fl fl sum log10grid y rate taus = adev_fl fl sum log10grid x' rate taus := by
    simp only [adev_freq_fl, h1, ok_bind]
  have e2 : adev y rate "freq" taus = adev x rate "phase" taus := by
    simp only [adev, input_to_phase, if_neg freq_ne_phase, if_true, h2, ok_bind]
  rw [e1, e2]
  exact adev_near_aux hfl hsum log10grid x' x _ _ b h5 (h3'.trans h3.symm) h4 rate hr taus
    (by rw [h3]; omega) ht _ (fun τ dev n hτ => by
      unfold Spec.adevBound freqBound
      have := freq_bound (A := 10) (C := 31 / 10) (c := 30) hN0 hF hr hτ (by norm_num) (by norm_num)
      linarith)

/-- C82: `ohdev` of frequency data in double precision -/
theorem ohdev_freq_float (hfl : FloatRound fl) (hsum : ∀ l, FloatSum fl l (sum l)) (log10grid y : List ℝ)
    (Y Z : ℝ) (hY : ∀ v ∈ y, |v| ≤ Y) (hZ : ∀ v ∈ y, |v - Spec.mean y| ≤ Z) (rate : ℝ) (hr : 0 < rate)
    (taus : TausArg) (hN : y.length ≤ 2 ^ 46) (ht : SafeTaus rate taus) :
    (∃ e, ohdev_freq_fl fl sum log10grid y rate taus = .error e ∧ ohdev y rate "freq" taus = .error e) ∨
    ∃ o o', ohdev_freq_fl fl sum log10grid y rate taus = .ok o ∧ ohdev y rate "freq" taus = .ok o' ∧
      FloatClose (freqBound 8 37 y.length rate (Z + 2 * y.length * unitRoundoff * Y)) o o' := by
  by_cases hy : y = []
  · left
    subst hy
    refine ⟨.indexError, ?_, ?_⟩
    · simp only [ohdev_freq_fl, frequency2phase_fl, if_neg hr.ne', if_true, error_bind]
    · simp only [ohdev, input_to_phase, frequency2phase, if_neg hr.ne', if_true, if_neg freq_ne_phase,
        error_bind]
  have hN0 : 0 < y.length := List.length_pos_iff.2 hy
  obtain ⟨x', x, b, h1, h2, h3', h3, _, h4, h5⟩ := frequency2phase_float hfl hsum y hy Y Z hY hZ rate hr hN
  have hF : 0 ≤ Z + 2 * y.length * unitRoundoff * Y := by
    have h0 := seq_mem y 0 hN0
    have := (abs_nonneg _).trans (hY _ h0)
    have := (abs_nonneg _).trans (hZ _ h0)
    have := unitRoundoff_pos
    positivity
  have e1 : ohdev_freq_fl fl sum log10grid y rate taus = ohdev_fl fl sum log10grid x' rate taus := by
    simp only [ohdev_freq_fl, h1, ok_bind]
  have e2 : ohdev y rate "freq" taus = ohdev x rate "phase" taus := by
    simp only [ohdev, input_to_phase, if_neg freq_ne_phase, if_true, h2, ok_bind]
  rw [e1, e2]
  exact ohdev_near_aux hfl hsum log10grid x' x _ _ b h5 (h3'.trans h3.symm) h4 rate hr taus
    (by rw [h3]; omega) ht _ (fun τ dev n hτ => by
      unfold Spec.hdevBound freqBound
      have := freq_bound (A := 15) (C := 35 / 10) (c := 37) hN0 hF hr hτ (by norm_num) (by norm_num)
      linarith)

/-- C82: `hdev` of frequency data in double precision -/
theorem hdev_freq_float (hfl : FloatRound fl) (hsum : ∀ l, FloatSum fl l (sum l)) (log10grid y : List ℝ)
    (Y Z : ℝ) (hY : ∀ v ∈ y, |v| ≤ Y) (hZ : ∀ v ∈ y, |v - Spec.mean y| ≤ Z) (rate : ℝ) (hr : 0 < rate)
    (taus : TausArg) (hN : y.length ≤ 2 ^ 46) (ht : SafeTaus rate taus) :
    (∃ e, hdev_freq_fl fl sum log10grid y rate taus = .error e ∧ hdev y rate "freq" taus = .error e) ∨
    ∃ o o', hdev_freq_fl fl sum log10grid y rate taus = .ok o ∧ hdev y rate "freq" taus = .ok o' ∧
      FloatClose (freqBound 8 37 y.length rate (Z + 2 * y.length * unitRoundoff * Y)) o o' := by
  by_cases hy : y = []
  · left
    subst hy
    refine ⟨.indexError, ?_, ?_⟩
    · simp only [hdev_freq_fl, frequency2phase_fl, if_neg hr.ne', if_true, error_bind]
    · simp only [hdev, input_to_phase, frequency2phase, if_neg hr.ne', if_true, if_neg freq_ne_phase,
        error_bind]
  have hN0 : 0 < y.length := List.length_pos_iff.2 hy
  obtain ⟨x', x, b, h1, h2, h3', h3, _, h4, h5⟩ := frequency2phase_float hfl hsum y hy Y Z hY hZ rate hr hN
  have hF : 0 ≤ Z + 2 * y.length * unitRoundoff * Y := by
    have h0 := seq_mem y 0 hN0
    have := (abs_nonneg _).trans (hY _ h0)
    have := (abs_nonneg _).trans (hZ _ h0)
    have := unitRoundoff_pos
    positivity
  have e1 : hdev_freq_fl fl sum log10grid y rate taus = hdev_fl fl sum log10grid x' rate taus := by
    simp only [hdev_freq_fl, h1, ok_bind]
  have e2 : hdev y rate "freq" taus = hdev x rate "phase" taus := by
    simp only [hdev, input_to_phase, if_neg freq_ne_phase, if_true, h2, ok_bind]
  rw [e1, e2]
  exact hdev_near_aux hfl hsum log10grid x' x _ _ b h5 (h3'.trans h3.symm) h4 rate hr taus
    (by rw [h3]; omega) ht _ (fun τ dev n hτ => by
      unfold Spec.hdevBound freqBound
      have := freq_bound (A := 15) (C := 35 / 10) (c := 37) hN0 hF hr hτ (by norm_num) (by norm_num)
      linarith)

theorem mdev_freq_bound {N L : ℕ} {F r τ dev : ℝ} {n : ℤ} (hN : 0 < N) (hF : 0 ≤ F) (hr : 0 < r) (hτ : 0 < τ)
    (hL : L = N + 1) :
    Spec.mdevBound L r (17 / 16 * N * (F / r)) τ dev n +
      31 / 10 * (6 * N ^ 2 * unitRoundoff * (F / r)) / τ ≤ mdevFreqBound N r F τ dev n := by
  have hu := unitRoundoff_pos
  have hN1 : (1 : ℝ) ≤ N := by exact_mod_cast hN
  unfold Spec.mdevBound mdevFreqBound freqBound
  rw [hL]
  have h1 : 31 / 10 * (6 * N ^ 2 * unitRoundoff * (F / r)) / τ ≤
      19 * N ^ 2 * unitRoundoff * (F / r) / τ := by
    apply div_le_div_of_nonneg_right _ hτ.le
    have : 0 ≤ N ^ 2 * unitRoundoff * (F / r) := by positivity
    linarith
  have h2 : 13 * ((N + 1 : ℕ) : ℝ) * (((N + 1 : ℕ) : ℝ) + 1) * unitRoundoff * (17 / 16 * N * (F / r)) / (τ * r * τ)
      ≤ 83 * N ^ 3 * unitRoundoff * (F / r) / (τ * r * τ) := by
    apply div_le_div_of_nonneg_right _ (by positivity)
    have h3 : (13 * ((N : ℝ) + 1) * (N + 2) * (17 / 16) * N) * (unitRoundoff * (F / r)) ≤
        (83 * N ^ 3) * (unitRoundoff * (F / r)) := by
      apply mul_le_mul_of_nonneg_right _ (by positivity)
      have h4 : ((N : ℝ) + 1) * (N + 2) ≤ 6 * N ^ 2 := by nlinarith
      have h5 := mul_le_mul_of_nonneg_right h4 (show (0 : ℝ) ≤ N by positivity)
      have : (0 : ℝ) ≤ (N : ℝ) ^ 3 := by positivity
      nlinarith
    push_cast
    linarith
  linarith

/-- C82: `mdev` of frequency data in double precision -/
theorem mdev_freq_float (hfl : FloatRound fl) (hsum : ∀ l, FloatSum fl l (sum l)) (log10grid y : List ℝ)
    (Y Z : ℝ) (hY : ∀ v ∈ y, |v| ≤ Y) (hZ : ∀ v ∈ y, |v - Spec.mean y| ≤ Z) (rate : ℝ) (hr : 0 < rate)
    (taus : TausArg) (hN : y.length ≤ 2 ^ 46) (ht : SafeTaus rate taus) :
    (∃ e, mdev_freq_fl fl sum log10grid y rate taus = .error e ∧ mdev y rate "freq" taus = .error e) ∨
    ∃ o o', mdev_freq_fl fl sum log10grid y rate taus = .ok o ∧ mdev y rate "freq" taus = .ok o' ∧
      FloatClose (mdevFreqBound y.length rate (Z + 2 * y.length * unitRoundoff * Y)) o o' := by
  by_cases hy : y = []
  · left
    subst hy
    refine ⟨.indexError, ?_, ?_⟩
    · simp only [mdev_freq_fl, frequency2phase_fl, if_neg hr.ne', if_true, error_bind]
    · simp only [mdev, input_to_phase, frequency2phase, if_neg hr.ne', if_true, if_neg freq_ne_phase,
        error_bind]
  have hN0 : 0 < y.length := List.length_pos_iff.2 hy
  obtain ⟨x', x, b, h1, h2, h3', h3, _, h4, h5⟩ := frequency2phase_float hfl hsum y hy Y Z hY hZ rate hr hN
  have hF : 0 ≤ Z + 2 * y.length * unitRoundoff * Y := by
    have h0 := seq_mem y 0 hN0
    have := (abs_nonneg _).trans (hY _ h0)
    have := (abs_nonneg _).trans (hZ _ h0)
    have := unitRoundoff_pos
    positivity
  have e1 : mdev_freq_fl fl sum log10grid y rate taus = mdev_fl fl sum log10grid x' rate taus := by
    simp only [mdev_freq_fl, h1, ok_bind]
  have e2 : mdev y rate "freq" taus = mdev x rate "phase" taus := by
    simp only [mdev, input_to_phase, if_neg freq_ne_phase, if_true, h2, ok_bind]
  rw [e1, e2]
  exact mdev_near_aux hfl hsum log10grid x' x _ _ b h5 (h3'.trans h3.symm) h4 rate hr taus
    (by rw [h3]; omega) ht _ (fun τ dev n hτ => by
      exact mdev_freq_bound hN0 hF hr hτ h3)

/-! ## The time deviation -/

/-- one value of `tdev`: three operations after `mdev` -/
theorem tdev_value (hfl : FloatRound fl) {t τ r d A k : ℝ} {n : ℤ} (hτ : 0 < τ)
    (ht : |t - τ| ≤ unitRoundoff * |τ|) (hn0 : 0 < n) (hn : n ≤ 2 ^ 47) (hk' : k ≤ 2 ^ 47)
    (hd : 0 ≤ d) (hA : 0 ≤ A) (h : |r - d| ≤ 2 * ((n : ℝ) + k) * unitRoundoff * d + A) :
    |fl (fl (t * r) / fl √3) - τ / √3 * d| ≤
      2 * ((n : ℝ) + (k + 4)) * unitRoundoff * (τ / √3 * d) + 6 / 10 * A * τ := by
  have hu := unitRoundoff_pos
  have h3 : (0 : ℝ) < √3 := by positivity
  have h17 : (1725 / 1000 : ℝ) < √3 := by rw [Real.lt_sqrt (by norm_num)]; norm_num
  have ht' : Near 1 t τ := by unfold Near; rw [pow_one, add_sub_cancel_left]; exact ht
  have h1 := (((ht'.mul (Near.refl r)).fl hfl).div (Near.of_fl hfl √3) h3.ne' (by
    unfold unitRoundoff; norm_num)).fl hfl
  unfold Near at h1
  have e5 : (1 + unitRoundoff) ^ (1 + 0 + 1 + 2 * 1 + 1) - 1 ≤ 6 * unitRoundoff := by
    unfold unitRoundoff; norm_num
  have hn' : (n : ℝ) ≤ 2 ^ 47 := by exact_mod_cast hn
  have hn1 : (0 : ℝ) < n := by exact_mod_cast hn0
  have hq : 2 * ((n : ℝ) + k) * unitRoundoff ≤ 1 / 16 := by
    calc 2 * ((n : ℝ) + k) * unitRoundoff ≤ 2 * (2 ^ 47 + 2 ^ 47) * unitRoundoff :=
          mul_le_mul_of_nonneg_right (by linarith) unitRoundoff_pos.le
      _ ≤ 1 / 16 := by unfold unitRoundoff; norm_num
  set s := τ / √3 with hs
  have hs0 : 0 < s := by positivity
  have hs6 : s ≤ 5798 / 10000 * τ := by
    rw [hs, div_le_iff₀ h3]
    nlinarith
  have e : τ * r / √3 = s * r := by rw [hs]; ring
  rw [e, abs_mul, abs_of_pos hs0] at h1
  set q := 2 * ((n : ℝ) + k) * unitRoundoff with hqd
  have hr : |r| ≤ d + (q * d + A) := by
    have := abs_add_le (r - d) d
    rw [sub_add_cancel, abs_of_nonneg hd] at this
    linarith
  have h2 : |fl (fl (t * r) / fl √3) - s * r| ≤ 6 * unitRoundoff * (s * (d + (q * d + A))) :=
    h1.trans (mul_le_mul e5 (mul_le_mul_of_nonneg_left hr hs0.le) (by positivity) (by positivity))
  have h4 : |s * r - s * d| ≤ s * (q * d + A) := by
    rw [← mul_sub, abs_mul, abs_of_pos hs0]
    exact mul_le_mul_of_nonneg_left h hs0.le
  have h5 := abs_sub_le (fl (fl (t * r) / fl √3)) (s * r) (s * d)
  have e6 : 2 * ((n : ℝ) + (k + 4)) * unitRoundoff = q + 8 * unitRoundoff := by rw [hqd]; ring
  rw [e6]
  have hsd : 0 ≤ s * d := by positivity
  have hqsd : q * (unitRoundoff * (s * d)) ≤ 1 / 16 * (unitRoundoff * (s * d)) :=
    mul_le_mul_of_nonneg_right hq (by positivity)
  have hAs : A * s ≤ A * (5798 / 10000 * τ) := mul_le_mul_of_nonneg_left hs6 hA
  have huA : unitRoundoff * (A * s) ≤ 1 / 1000 * (A * s) :=
    mul_le_mul_of_nonneg_right (by unfold unitRoundoff; norm_num) (by positivity)
  have hAτ : 0 ≤ A * τ := by positivity
  nlinarith

theorem vop_len {α β γ : Type} (f : α → β → γ) (a : List α) (b : List β) (h : a.length = b.length) :
    vop f a b = .ok (List.zipWith f a b) := by
  unfold vop; rw [if_pos h]

theorem getD_zipWith {α β γ : Type} (f : α → β → γ) (a : List α) (b : List β) (i : ℕ) (za : α) (zb : β) (zc : γ)
    (ha : i < a.length) (hb : i < b.length) :
    (List.zipWith f a b).getD i zc = f (a.getD i za) (b.getD i zb) := by
  rw [List.getD_eq_getElem _ _ (by simp; omega), List.getD_eq_getElem _ _ ha, List.getD_eq_getElem _ _ hb,
    List.getElem_zipWith]

/-- the rows of a table -/
theorem table_row {N : ℕ} {rate : ℝ} {taus : TausArg} {even : Bool} {maxM : ℝ} {dev err : ℕ → ℝ}
    {n : ℕ → ℤ} {o : DevOut ℝ} (h : table N rate taus even maxM dev err n = .ok o) (i : ℕ)
    (hi : i < o.taus.length) :
    ∃ m, 0 < m ∧ m < N ∧ 1 < n m ∧ o.taus.getD i 0 = m / rate ∧ o.devs.getD i 0 = dev m ∧
      o.ns.getD i 0 = n m := by
  obtain ⟨ms, h1, _, rfl⟩ := table_ok h
  simp only [List.length_map] at hi ⊢
  set kept := ms.filter (fun m => decide (1 < n m)) with hk
  have hm : kept[i] ∈ ms.filter (fun m => decide (1 < n m)) := List.getElem_mem hi
  rw [List.mem_filter, decide_eq_true_eq] at hm
  obtain ⟨a, b, _⟩ := factors_mem h1 hm.1
  refine ⟨_, a, b, hm.2, ?_, ?_, ?_⟩ <;>
  · rw [List.getD_eq_getElem _ _ (by simpa using hi), List.getElem_map]

/-- the tail of `tdev` applied to a computed and an exact table -/
theorem scale_float (hfl : FloatRound fl) {o o' : DevOut ℝ} {k : ℝ} {A : ℝ → ℝ} {bound : ℝ → ℝ → ℤ → ℝ}
    (h : FloatClose (fun tau dev n => 2 * ((n : ℝ) + k) * unitRoundoff * dev + A tau) o o')
    (hk' : k ≤ 2 ^ 47)
    (ho : ∀ i < o'.taus.length, 0 < o'.taus.getD i 0 ∧ 0 ≤ o'.devs.getD i 0 ∧ 0 < o'.ns.getD i 0 ∧
      o'.ns.getD i 0 ≤ 2 ^ 47)
    (hA : ∀ t, 0 < t → 0 ≤ A t)
    (hb : ∀ tau dev (n : ℤ), 0 < tau → 2 * ((n : ℝ) + (k + 4)) * unitRoundoff * dev + 6 / 10 * A tau * tau ≤
      bound tau dev n) :
    ∃ t t', scaleToTdev_fl fl o = .ok t ∧ scaleToTdev o' = .ok t' ∧ FloatClose bound t t' := by
  obtain ⟨hns, htau, ⟨l1, l2, l3⟩, hdev, _⟩ := h
  have l4 : o.taus.length = o'.taus.length := htau.length_eq
  have l5 : o.ns.length = o'.taus.length := by rw [hns, l3]
  have e1 : scaleToTdev_fl fl o = .ok ⟨o.taus,
      (List.zipWith (fun u v => fl (u * v)) o.taus o.devs).map (fun v => fl (v / fl √3)),
      .arr (List.zipWith (fun (v : ℝ) (n : ℤ) => fl (v / fl √(n : ℝ)))
        ((List.zipWith (fun u v => fl (u * v)) o.taus o.devs).map (fun v => fl (v / fl √3))) o.ns), o.ns⟩ := by
    unfold scaleToTdev_fl vmul_fl
    rw [vop_len _ _ _ (by omega)]
    simp only [ok_bind]
    rw [vop_len _ _ _ (by simp; omega)]
    simp only [ok_bind]
  have e2 : scaleToTdev o' = .ok ⟨o'.taus,
      (List.zipWith (fun u v => u * v) o'.taus o'.devs).map (fun v => v / √3),
      .arr (List.zipWith (fun (v : ℝ) (n : ℤ) => v / √(n : ℝ))
        ((List.zipWith (fun u v => u * v) o'.taus o'.devs).map (fun v => v / √3)) o'.ns), o'.ns⟩ := by
    unfold scaleToTdev vmul
    rw [vop_len _ _ _ (by omega)]
    simp only [ok_bind]
    rw [vop_len _ _ _ (by simp; omega)]
    simp only [ok_bind]
  have g : ∀ (f : ℝ → ℝ) (l : List ℝ) (i : ℕ), i < l.length → (l.map f).getD i 0 = f (l.getD i 0) := by
    intro f l i hi
    rw [List.getD_eq_getElem _ _ (by simpa using hi), List.getElem_map, List.getD_eq_getElem _ _ hi]
  refine ⟨_, _, e1, e2, ⟨hns, htau, by simp; omega, ?_, ⟨_, rfl, by simp; omega, ?_⟩⟩⟩
  · intro i hi
    simp only at hi ⊢
    rw [g _ _ i (by simp; omega), g _ _ i (by simp; omega), getD_zipWith _ _ _ i 0 0 0 (by omega) (by omega),
      getD_zipWith _ _ _ i 0 0 0 (by omega) (by omega)]
    obtain ⟨p1, p2, p3, p4⟩ := ho i hi
    have ht : |o.taus.getD i 0 - o'.taus.getD i 0| ≤ unitRoundoff * |o'.taus.getD i 0| := by
      rw [List.getD_eq_getElem _ _ (by omega : i < o.taus.length), List.getD_eq_getElem _ _ hi]
      exact (List.forall₂_iff_get.1 htau).2 i (by omega) hi
    have := tdev_value hfl p1 ht p3 p4 hk' p2 (hA _ p1) (hdev i hi)
    rw [mul_div_right_comm]
    exact this.trans (hb _ _ _ p1)
  · intro i hi
    simp only at hi ⊢
    rw [getD_zipWith _ _ _ i 0 0 0 (by simp; omega) (by omega)]
    refine err_float hfl _ _ ?_
    rw [hns]
    exact_mod_cast (ho i hi).2.2.1

theorem tdev_from_mdev (hfl : FloatRound fl) (log10grid x' x : List ℝ) (rate : ℝ) (hr : 0 < rate)
    (taus : TausArg) (hN : x.length ≤ 2 ^ 46 + 1) (A : ℝ → ℝ) (bound : ℝ → ℝ → ℤ → ℝ)
    (h : (∃ e, mdev_fl fl sum log10grid x' rate taus = .error e ∧ mdev x rate "phase" taus = .error e) ∨
      ∃ o o', mdev_fl fl sum log10grid x' rate taus = .ok o ∧ mdev x rate "phase" taus = .ok o' ∧
        FloatClose (fun tau dev n => 2 * ((n : ℝ) + 17) * unitRoundoff * dev + A tau) o o')
    (hA : ∀ t, 0 < t → 0 ≤ A t)
    (hb : ∀ tau dev (n : ℤ), 0 < tau → 2 * ((n : ℝ) + 21) * unitRoundoff * dev + 6 / 10 * A tau * tau ≤
      bound tau dev n) :
    (∃ e, tdev_fl fl sum log10grid x' rate taus = .error e ∧ tdev x rate "phase" taus = .error e) ∨
    ∃ o o', tdev_fl fl sum log10grid x' rate taus = .ok o ∧ tdev x rate "phase" taus = .ok o' ∧
      FloatClose bound o o' := by
  have ex : tdev x rate "phase" taus = (mdev x rate "phase" taus >>= scaleToTdev) := by
    simp only [tdev, input_to_phase, if_true, ok_bind]
  rcases h with ⟨e, h1, h2⟩ | ⟨o, o', h1, h2, h3⟩
  · left
    refine ⟨e, ?_, ?_⟩
    · simp only [tdev_fl, h1, error_bind]
    · simp only [ex, h2, error_bind]
  · right
    have ho : ∀ i < o'.taus.length, 0 < o'.taus.getD i 0 ∧ 0 ≤ o'.devs.getD i 0 ∧ 0 < o'.ns.getD i 0 ∧
        o'.ns.getD i 0 ≤ 2 ^ 47 := by
      intro i hi
      have h4 := h2
      rw [mdev_phase_eq] at h4
      obtain ⟨m, m0, mN, n1, t1, t2, t3⟩ := table_row h4 i hi
      rw [t1, t2, t3]
      refine ⟨?_, Real.sqrt_nonneg _, by omega, by omega⟩
      have : (0 : ℝ) < m := by exact_mod_cast m0
      positivity
    obtain ⟨t, t', h5, h6, h7⟩ := scale_float hfl h3 (by norm_num) ho hA (bound := bound)
      (fun tau dev n h0 => by rw [show (17 : ℝ) + 4 = 21 by norm_num]; exact hb tau dev n h0)
    refine ⟨t, t', ?_, ?_, h7⟩
    · simp only [tdev_fl, h1, ok_bind, h5]
    · simp only [ex, h2, ok_bind, h6]

/-- C82: `tdev` of phase data in double precision -/
theorem tdev_float (hfl : FloatRound fl) (hsum : ∀ l, FloatSum fl l (sum l)) (log10grid x : List ℝ)
    (B : ℝ) (hB : ∀ v ∈ x, |v| ≤ B) (rate : ℝ) (hr : 0 < rate) (taus : TausArg)
    (hN : x.length ≤ 2 ^ 46) (ht : SafeTaus rate taus) :
    (∃ e, tdev_fl fl sum log10grid x rate taus = .error e ∧ tdev x rate "phase" taus = .error e) ∨
    ∃ o o', tdev_fl fl sum log10grid x rate taus = .ok o ∧ tdev x rate "phase" taus = .ok o' ∧
      FloatClose (Spec.tdevBound x.length rate B) o o' := by
  have hu := unitRoundoff_pos
  have hK : 0 ≤ (x.length : ℝ) * B := by
    rcases List.eq_nil_or_concat x with rfl | ⟨l, v, rfl⟩
    · simp
    · have := (abs_nonneg _).trans (hB v (by simp))
      positivity
  refine tdev_from_mdev hfl log10grid x x rate hr taus (by omega)
    (fun tau => 13 * x.length * (x.length + 1) * unitRoundoff * B / (tau * rate * tau)) _
    (mdev_float hfl hsum log10grid x B hB rate hr taus (by omega) ht) (fun t ht => by
      have : 0 ≤ 13 * ((x.length : ℝ) * B) * (x.length + 1) * unitRoundoff / (t * rate * t) := by positivity
      exact this.trans_eq (by ring)) ?_
  intro tau dev n h0
  unfold tdevBound
  have e : 6 / 10 * (13 * (x.length : ℝ) * (x.length + 1) * unitRoundoff * B / (tau * rate * tau)) * tau =
      78 / 10 * x.length * (x.length + 1) * unitRoundoff * B / (tau * rate) := by
    field_simp
    ring
  rw [e]
  have : 78 / 10 * (x.length : ℝ) * (x.length + 1) * unitRoundoff * B / (tau * rate) ≤
      8 * x.length * (x.length + 1) * unitRoundoff * B / (tau * rate) := by
    apply div_le_div_of_nonneg_right _ (by positivity)
    have : 0 ≤ (x.length : ℝ) * B * (x.length + 1) * unitRoundoff := by positivity
    linarith
  linarith

/-- C82: `tdev` of frequency data in double precision -/
theorem tdev_freq_float (hfl : FloatRound fl) (hsum : ∀ l, FloatSum fl l (sum l)) (log10grid y : List ℝ)
    (Y Z : ℝ) (hY : ∀ v ∈ y, |v| ≤ Y) (hZ : ∀ v ∈ y, |v - Spec.mean y| ≤ Z) (rate : ℝ) (hr : 0 < rate)
    (taus : TausArg) (hN : y.length ≤ 2 ^ 46) (ht : SafeTaus rate taus) :
    (∃ e, tdev_freq_fl fl sum log10grid y rate taus = .error e ∧ tdev y rate "freq" taus = .error e) ∨
    ∃ o o', tdev_freq_fl fl sum log10grid y rate taus = .ok o ∧ tdev y rate "freq" taus = .ok o' ∧
      FloatClose (tdevFreqBound y.length rate (Z + 2 * y.length * unitRoundoff * Y)) o o' := by
  by_cases hy : y = []
  · left
    subst hy
    refine ⟨.indexError, ?_, ?_⟩
    · simp only [tdev_freq_fl, frequency2phase_fl, if_neg hr.ne', if_true, error_bind]
    · simp only [tdev, input_to_phase, frequency2phase, if_neg hr.ne', if_true, if_neg freq_ne_phase,
        error_bind]
  have hN0 : 0 < y.length := List.length_pos_iff.2 hy
  have hu := unitRoundoff_pos
  obtain ⟨x', x, b, h1, h2, h3', h3, _, h4, h5⟩ := frequency2phase_float hfl hsum y hy Y Z hY hZ rate hr hN
  have hF : 0 ≤ Z + 2 * y.length * unitRoundoff * Y := by
    have h0 := seq_mem y 0 hN0
    have := (abs_nonneg _).trans (hY _ h0)
    have := (abs_nonneg _).trans (hZ _ h0)
    positivity
  have e1 : tdev_freq_fl fl sum log10grid y rate taus = tdev_fl fl sum log10grid x' rate taus := by
    simp only [tdev_freq_fl, h1, ok_bind]
  have e2 : tdev y rate "freq" taus = tdev x rate "phase" taus := by
    simp only [tdev, input_to_phase, if_neg freq_ne_phase, if_true, h2, ok_bind]
  rw [e1, e2]
  set F := Z + 2 * y.length * unitRoundoff * Y
  set N := y.length
  refine tdev_from_mdev hfl log10grid x' x rate hr taus (by omega)
    (fun tau => 19 * (N : ℝ) ^ 2 * unitRoundoff * (F / rate) / tau +
      83 * N ^ 3 * unitRoundoff * (F / rate) / (tau * rate * tau)) _
    (mdev_near_aux hfl hsum log10grid x' x _ _ b h5 (h3'.trans h3.symm) h4 rate hr taus
      (by rw [h3]; omega) ht _ (fun τ dev n hτ => ?_)) (fun t ht => by positivity) ?_
  · refine (mdev_freq_bound hN0 hF hr hτ h3).trans_eq ?_
    unfold mdevFreqBound freqBound
    ring
  · intro tau dev n h0
    unfold tdevFreqBound
    have e : 6 / 10 * (19 * (N : ℝ) ^ 2 * unitRoundoff * (F / rate) / tau +
        83 * N ^ 3 * unitRoundoff * (F / rate) / (tau * rate * tau)) * tau =
        114 / 10 * N ^ 2 * unitRoundoff * (F / rate) +
          498 / 10 * N ^ 3 * unitRoundoff * (F / rate) / (tau * rate) := by
      field_simp
      ring
    rw [e]
    have h6 : 0 ≤ (N : ℝ) ^ 2 * unitRoundoff * (F / rate) := by positivity
    have h7 : 498 / 10 * (N : ℝ) ^ 3 * unitRoundoff * (F / rate) / (tau * rate) ≤
        50 * N ^ 3 * unitRoundoff * (F / rate) / (tau * rate) := by
      apply div_le_div_of_nonneg_right _ (by positivity)
      have : 0 ≤ (N : ℝ) ^ 3 * unitRoundoff * (F / rate) := by positivity
      linarith
    linarith

/-- Four frequencies `10^9 ± 6` at 1 Hz in double precision.  The exact deviation is `√(197/6)` and the
computed one differs by less than `10^-12`, although one rounding of `10^9` is `10^-7`. -/
example : ∃ (fl : ℝ → ℝ) (sum : List ℝ → ℝ) (o : DevOut ℝ), (∀ x, IsBinary64 x (fl x)) ∧
    oadev_freq_fl fl sum [] [10 ^ 9 + 1, 10 ^ 9 - 1, 10 ^ 9 + 6, 10 ^ 9 - 6] 1 (.list [(1 : ℕ) / 1]) = .ok o ∧
    o.ns = [3] ∧ |o.devs.getD 0 0 - √(197 / 6)| < 1 / 10 ^ 12 := by
  obtain ⟨fl, h64, hfl⟩ := exists_binary64
  obtain ⟨sum, hsum⟩ := exists_floatSum fl
  have hmean : Spec.mean [10 ^ 9 + 1, 10 ^ 9 - 1, 10 ^ 9 + 6, 10 ^ 9 - 6] = 10 ^ 9 := by
    unfold Spec.mean; norm_num
  have ex : oadev [10 ^ 9 + 1, 10 ^ 9 - 1, 10 ^ 9 + 6, 10 ^ 9 - 6] 1 "freq" (.list [(1 : ℕ) / 1])
      = .ok ⟨[(1 : ℕ) / 1], [√(197 / 6)], .arr [√(197 / 6) / √3], [3]⟩ := by
    have hx : frequency2phase [10 ^ 9 + 1, 10 ^ 9 - 1, 10 ^ 9 + 6, 10 ^ 9 - 6] 1 = .ok [0, 1, 0, 6, 0] := by
      rw [frequency2phase_eq _ (by simp) 1 one_ne_zero, hmean]
      norm_num [tab, List.range_succ, sum_range_succ, seq]
    have e2 : oadev [10 ^ 9 + 1, 10 ^ 9 - 1, 10 ^ 9 + 6, 10 ^ 9 - 6] 1 "freq" (.list [(1 : ℕ) / 1]) =
        oadev [0, 1, 0, 6, 0] 1 "phase" (.list [(1 : ℕ) / 1]) := by
      simp only [oadev, input_to_phase, if_neg freq_ne_phase, if_true, hx, ok_bind]
    rw [e2, oadev_phase_eq _ _ (by norm_num), table_single _ _ (by norm_num) _ _ _ _ _ 1 (by norm_num) (by simp)
      (by norm_num) (by simp) (by norm_num)]
    simp [Spec.oadev, rms, d2, seq, Finset.sum_range_succ]
    norm_num
  have h := oadev_freq_float hfl hsum [] [10 ^ 9 + 1, 10 ^ 9 - 1, 10 ^ 9 + 6, 10 ^ 9 - 6] (10 ^ 9 + 6) 6
    (by norm_num [abs_of_pos]) (by rw [hmean]; norm_num) 1 one_pos (.list [(1 : ℕ) / 1])
    (by norm_num) (by
      intro t ht
      rw [List.mem_singleton] at ht
      exact ⟨1, by norm_num, by rw [ht]; norm_num⟩)
  rw [ex] at h
  rcases h with ⟨e, _, h⟩ | ⟨o, o', h1, h2, h3⟩
  · cases h
  · cases h2
    refine ⟨fl, sum, o, h64, h1, h3.ns, ?_⟩
    have h4 := h3.devs 0 (by simp)
    simp only [List.getD_cons_zero] at h4
    refine h4.trans_lt ?_
    have h5 : √(197 / 6 : ℝ) < 6 := by rw [Real.sqrt_lt' (by norm_num)]; norm_num
    unfold freqBound unitRoundoff
    norm_num at h5 ⊢
    linarith

end AT
