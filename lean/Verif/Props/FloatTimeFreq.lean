import Verif.Props.FloatTime

/-!
# C124: another unit of time in double precision, frequency data

Property: if the rate is multiplied by `2^k` and the given averaging times by `2^-k`, the deviations of fractional
frequencies and their error bars, as computed in double precision, do not change, except that those of `tdev`,
`ttotdev`, `tierms` and `mtie`, which are times, are multiplied by exactly `2^-k`, as are the averaging times.
-/

namespace AT

open Spec Real

variable {fl : ℝ → ℝ} {sum : List ℝ → ℝ}

theorem TimeUnit.freq {q b : ℝ} (U : TimeUnit fl q b) (y : List ℝ) (rate : ℝ) :
    PyRel (fun l l' => l' = l.map (b * ·)) (frequency2phase_fl fl sum y rate)
      (frequency2phase_fl fl sum y (q * rate)) := by
  unfold frequency2phase_fl
  simp only [U.rate_zero]
  split_ifs
  · exact PyRel.error _
  · exact PyRel.error _
  · refine PyRel.ok ?_
    simp only [U.divRate, U.down, U.mulDown, List.map_cons, mul_zero, List.map_map, Function.comp_def]

theorem timeOut_scaleOut (b a c : ℝ) (o : DevOut ℝ) : timeOut b a (scaleOut c o) = timeOut b (a * c) o := by
  obtain ⟨t, d, e, n⟩ := o
  cases e with
  | arr l => simp [timeOut, scaleOut, Function.comp_def, mul_assoc]
  | lst ls => simp [timeOut, scaleOut, Function.comp_def, mul_assoc]

/-- a deviation of phase data that follows C121 and C123 -/
theorem freq_time {k : ℤ} {a : ℝ} (hfl : ∀ x, IsBinary64 x (fl x)) (D : List ℝ → ℝ → TausArg → Py (DevOut ℝ))
    (rate : ℝ) (taus : TausArg)
    (hT : ∀ x, D x ((2 : ℝ) ^ k * rate) (scaleTaus ((2 : ℝ) ^ (-k)) taus) =
      (D x rate taus).map (timeOut ((2 : ℝ) ^ (-k)) a))
    (hS : ∀ x : List ℝ, D (x.map ((2 : ℝ) ^ (-k) * ·)) rate taus = (D x rate taus).map (scaleOut ((2 : ℝ) ^ (-k))))
    (y : List ℝ) :
    (frequency2phase_fl fl sum y ((2 : ℝ) ^ k * rate) >>= fun p =>
      D p ((2 : ℝ) ^ k * rate) (scaleTaus ((2 : ℝ) ^ (-k)) taus)) =
    (frequency2phase_fl fl sum y rate >>= fun p => D p rate taus).map
      (timeOut ((2 : ℝ) ^ (-k)) (a * (2 : ℝ) ^ (-k))) := by
  rcases (timeUnit hfl k).freq (sum := sum) y rate with ⟨e, h1, h2⟩ | ⟨p, _, h1, h2, rfl⟩
  · rw [h1, h2]; rfl
  · rw [h1, h2]
    simp only [ok_bind]
    rw [hT, hS]
    cases D p rate taus with
    | error e => rfl
    | ok o =>
      simp only [Except.map]
      rw [timeOut_scaleOut]

section

variable (hfl : ∀ x, IsBinary64 x (fl x)) (hsum : SumScale sum) (k : ℤ) (log10grid y : List ℝ) (rate : ℝ)
  (taus : TausArg)

include hfl hsum

/-- the deviations of fractional frequency do not change -/
theorem freq_time_float :
    adev_freq_fl fl sum log10grid y ((2 : ℝ) ^ k * rate) (scaleTaus ((2 : ℝ) ^ (-k)) taus) =
      (adev_freq_fl fl sum log10grid y rate taus).map (timeOut ((2 : ℝ) ^ (-k)) 1) ∧
    oadev_freq_fl fl sum log10grid y ((2 : ℝ) ^ k * rate) (scaleTaus ((2 : ℝ) ^ (-k)) taus) =
      (oadev_freq_fl fl sum log10grid y rate taus).map (timeOut ((2 : ℝ) ^ (-k)) 1) ∧
    hdev_freq_fl fl sum log10grid y ((2 : ℝ) ^ k * rate) (scaleTaus ((2 : ℝ) ^ (-k)) taus) =
      (hdev_freq_fl fl sum log10grid y rate taus).map (timeOut ((2 : ℝ) ^ (-k)) 1) ∧
    ohdev_freq_fl fl sum log10grid y ((2 : ℝ) ^ k * rate) (scaleTaus ((2 : ℝ) ^ (-k)) taus) =
      (ohdev_freq_fl fl sum log10grid y rate taus).map (timeOut ((2 : ℝ) ^ (-k)) 1) ∧
    mdev_freq_fl fl sum log10grid y ((2 : ℝ) ^ k * rate) (scaleTaus ((2 : ℝ) ^ (-k)) taus) =
      (mdev_freq_fl fl sum log10grid y rate taus).map (timeOut ((2 : ℝ) ^ (-k)) 1) ∧
    mtotdev_freq_fl fl sum log10grid y ((2 : ℝ) ^ k * rate) (scaleTaus ((2 : ℝ) ^ (-k)) taus) =
      (mtotdev_freq_fl fl sum log10grid y rate taus).map (timeOut ((2 : ℝ) ^ (-k)) 1) ∧
    totdev_freq_fl fl sum log10grid y ((2 : ℝ) ^ k * rate) (scaleTaus ((2 : ℝ) ^ (-k)) taus) =
      (totdev_freq_fl fl sum log10grid y rate taus).map (timeOut ((2 : ℝ) ^ (-k)) 1) ∧
    pdev_freq_fl fl sum log10grid y ((2 : ℝ) ^ k * rate) (scaleTaus ((2 : ℝ) ^ (-k)) taus) =
      (pdev_freq_fl fl sum log10grid y rate taus).map (timeOut ((2 : ℝ) ^ (-k)) 1) ∧
    theo1_freq_fl fl sum log10grid y ((2 : ℝ) ^ k * rate) (scaleTaus ((2 : ℝ) ^ (-k)) taus) =
      (theo1_freq_fl fl sum log10grid y rate taus).map (timeOut ((2 : ℝ) ^ (-k)) 1) := by
  have hc : (2 : ℝ) ^ (-k) = (2 : ℝ) ^ (-k) ∨ (2 : ℝ) ^ (-k) = -(2 : ℝ) ^ (-k) := Or.inl rfl
  have e : (1 : ℝ) = (2 : ℝ) ^ k * (2 : ℝ) ^ (-k) := by
    rw [zpow_neg, mul_inv_cancel₀ (by positivity)]
  rw [e]
  refine ⟨?_, ?_, ?_, ?_, ?_, ?_, ?_, ?_, ?_⟩
  · exact freq_time hfl (adev_fl fl sum log10grid) rate taus
      (fun x => (adev_time_float hfl k log10grid x rate taus).1)
      (fun x => (adev_scale_float hfl hsum (-k) hc log10grid x rate taus).1) y
  · exact freq_time hfl (oadev_fl fl sum log10grid) rate taus
      (fun x => (adev_time_float hfl k log10grid x rate taus).2.1)
      (fun x => (adev_scale_float hfl hsum (-k) hc log10grid x rate taus).2) y
  · exact freq_time hfl (hdev_fl fl sum log10grid) rate taus
      (fun x => (adev_time_float hfl k log10grid x rate taus).2.2.1)
      (fun x => (hdev_scale_float hfl hsum (-k) hc log10grid x rate taus).1) y
  · exact freq_time hfl (ohdev_fl fl sum log10grid) rate taus
      (fun x => (adev_time_float hfl k log10grid x rate taus).2.2.2)
      (fun x => (hdev_scale_float hfl hsum (-k) hc log10grid x rate taus).2) y
  · exact freq_time hfl (mdev_fl fl sum log10grid) rate taus
      (fun x => (mdev_time_float hfl k log10grid x rate taus).1)
      (fun x => (mdev_scale_float hfl hsum (-k) hc log10grid x rate taus).1) y
  · exact freq_time hfl (mtotdev_fl fl sum log10grid) rate taus
      (fun x => (mtotdev_time_float hfl k log10grid x rate taus).1)
      (fun x => (mtotdev_scale_float hfl hsum (-k) hc log10grid x rate taus).1) y
  · exact freq_time hfl (totdev_fl fl sum log10grid) rate taus
      (fun x => (totdev_time_float hfl k log10grid x rate taus).1)
      (fun x => totdev_scale_float hfl hsum (-k) hc log10grid x rate taus) y
  · exact freq_time hfl (pdev_fl fl sum log10grid) rate taus
      (fun x => (totdev_time_float hfl k log10grid x rate taus).2.1)
      (fun x => pdev_scale_float hfl hsum (-k) hc log10grid x rate taus) y
  · exact freq_time hfl (theo1_fl fl log10grid) rate taus
      (fun x => (totdev_time_float (sum := sum) hfl k log10grid x rate taus).2.2)
      (fun x => theo1_scale_float hfl (-k) hc log10grid x rate taus) y

/-- the deviations of time are multiplied by `2^-k` -/
theorem freq_time_float_times :
    tdev_freq_fl fl sum log10grid y ((2 : ℝ) ^ k * rate) (scaleTaus ((2 : ℝ) ^ (-k)) taus) =
      (tdev_freq_fl fl sum log10grid y rate taus).map (timeOut ((2 : ℝ) ^ (-k)) ((2 : ℝ) ^ (-k))) ∧
    ttotdev_freq_fl fl sum log10grid y ((2 : ℝ) ^ k * rate) (scaleTaus ((2 : ℝ) ^ (-k)) taus) =
      (ttotdev_freq_fl fl sum log10grid y rate taus).map (timeOut ((2 : ℝ) ^ (-k)) ((2 : ℝ) ^ (-k))) ∧
    tierms_freq_fl fl sum log10grid y ((2 : ℝ) ^ k * rate) (scaleTaus ((2 : ℝ) ^ (-k)) taus) =
      (tierms_freq_fl fl sum log10grid y rate taus).map (timeOut ((2 : ℝ) ^ (-k)) ((2 : ℝ) ^ (-k))) ∧
    mtie_freq_fl fl sum log10grid y ((2 : ℝ) ^ k * rate) (scaleTaus ((2 : ℝ) ^ (-k)) taus) =
      (mtie_freq_fl fl sum log10grid y rate taus).map (timeOut ((2 : ℝ) ^ (-k)) ((2 : ℝ) ^ (-k))) := by
  have hc : (2 : ℝ) ^ (-k) = (2 : ℝ) ^ (-k) ∨ (2 : ℝ) ^ (-k) = -(2 : ℝ) ^ (-k) := Or.inl rfl
  have e : timeOut ((2 : ℝ) ^ (-k)) ((2 : ℝ) ^ (-k)) = timeOut ((2 : ℝ) ^ (-k)) (1 * (2 : ℝ) ^ (-k)) := by
    rw [one_mul]
  have t : ∀ (y : List ℝ) (rate : ℝ) (taus : TausArg), ttotdev_freq_fl fl sum log10grid y rate taus =
      (frequency2phase_fl fl sum y rate >>= fun p => ttotdev_fl fl sum log10grid p rate taus) := by
    intro y rate taus
    unfold ttotdev_freq_fl ttotdev_fl mtotdev_freq_fl
    rw [bind_assoc]
  rw [e, t, t]
  refine ⟨?_, ?_, ?_, ?_⟩
  · exact freq_time hfl (tdev_fl fl sum log10grid) rate taus
      (fun x => (mdev_time_float hfl k log10grid x rate taus).2)
      (fun x => (mdev_scale_float hfl hsum (-k) hc log10grid x rate taus).2) y
  · exact freq_time hfl (ttotdev_fl fl sum log10grid) rate taus
      (fun x => (mtotdev_time_float hfl k log10grid x rate taus).2)
      (fun x => (mtotdev_scale_float hfl hsum (-k) hc log10grid x rate taus).2) y
  · exact freq_time hfl (tierms_fl fl sum log10grid) rate taus
      (fun x => (mtie_time_float hfl k log10grid x rate taus).1)
      (fun x => tierms_scale_float hfl hsum (-k) hc log10grid x rate taus) y
  · exact freq_time hfl (mtie_fl fl log10grid) rate taus
      (fun x => (mtie_time_float (sum := sum) hfl k log10grid x rate taus).2)
      (fun x => mtie_scale_float hfl (-k) hc log10grid x rate taus) y

end

/-- The four frequencies of the example of `oadev_freq_float`, sampled at 8 Hz instead of 1 Hz: the deviation at
the averaging time `1/8` is again within `10^-12` of `√(197/6)`. -/
example : ∃ (fl : ℝ → ℝ) (sum : List ℝ → ℝ) (o : DevOut ℝ), (∀ x, IsBinary64 x (fl x)) ∧ SumScale sum ∧
    oadev_freq_fl fl sum [] [10 ^ 9 + 1, 10 ^ 9 - 1, 10 ^ 9 + 6, 10 ^ 9 - 6] (2 ^ (3 : ℤ) * 1)
      (.list [2 ^ (-3 : ℤ) * ((1 : ℕ) / 1)]) = .ok o ∧
    o.ns = [3] ∧ |o.devs.getD 0 0 - √(197 / 6)| < 1 / 10 ^ 12 := by
  obtain ⟨fl, h64, hfl⟩ := exists_binary64
  obtain ⟨sum, hsum, hscale⟩ := exists_sumScale h64
  have hmean : Spec.mean [10 ^ 9 + 1, 10 ^ 9 - 1, 10 ^ 9 + 6, 10 ^ 9 - 6] = 10 ^ 9 := by
    unfold Spec.mean; norm_num
  have ex : oadev [10 ^ 9 + 1, 10 ^ 9 - 1, 10 ^ 9 + 6, 10 ^ 9 - 6] 1 "freq" (.list [(1 : ℕ) / 1])
      = .ok ⟨[(1 : ℕ) / 1], [√(197 / 6)], .arr [√(197 / 6) / √3], [3]⟩ := by
    have hx : frequency2phase [10 ^ 9 + 1, 10 ^ 9 - 1, 10 ^ 9 + 6, 10 ^ 9 - 6] 1 = .ok [0, 1, 0, 6, 0] := by
      rw [frequency2phase_eq _ (by simp) 1 one_ne_zero, hmean]
      norm_num [tab, List.range_succ, Finset.sum_range_succ, seq]
    have e2 : oadev [10 ^ 9 + 1, 10 ^ 9 - 1, 10 ^ 9 + 6, 10 ^ 9 - 6] 1 "freq" (.list [(1 : ℕ) / 1]) =
        oadev [0, 1, 0, 6, 0] 1 "phase" (.list [(1 : ℕ) / 1]) := by
      simp only [oadev, input_to_phase, if_neg freq_ne_phase, if_true, hx, ok_bind]
    rw [e2, oadev_phase_eq _ _ (by norm_num), table_single _ _ (by norm_num) _ _ _ _ _ 1 (by norm_num) (by simp)
      (by norm_num) (by simp) (by norm_num)]
    simp [Spec.oadev, rms, d2, seq, Finset.sum_range_succ]
    norm_num
  have h := oadev_freq_float hfl hsum [] [10 ^ 9 + 1, 10 ^ 9 - 1, 10 ^ 9 + 6, 10 ^ 9 - 6] (10 ^ 9 + 6) 6
    (by norm_num [abs_of_pos]) (by rw [hmean]; norm_num) 1 one_pos (.list [(1 : ℕ) / 1])
    (by norm_num) (by
      intro t ht
      rw [List.mem_singleton] at ht
      exact ⟨1, by norm_num, by rw [ht]; norm_num⟩)
  rw [ex] at h
  rcases h with ⟨e, _, h⟩ | ⟨o, o', h1, h2, h3⟩
  · cases h
  · cases h2
    have h6 := (freq_time_float h64 hscale 3 [] [10 ^ 9 + 1, 10 ^ 9 - 1, 10 ^ 9 + 6, 10 ^ 9 - 6] 1
      (.list [(1 : ℕ) / 1])).2.1
    rw [h1] at h6
    refine ⟨fl, sum, _, h64, hscale, h6, h3.ns, ?_⟩
    have h7 : (timeOut ((2 : ℝ) ^ (-3 : ℤ)) 1 o).devs = o.devs := by simp [timeOut, scaleOut]
    rw [h7]
    have h4 := h3.devs 0 (by simp)
    simp only [List.getD_cons_zero] at h4
    refine h4.trans_lt ?_
    have h5 : √(197 / 6 : ℝ) < 6 := by rw [Real.sqrt_lt' (by norm_num)]; norm_num
    unfold freqBound unitRoundoff
    norm_num at h5 ⊢
    linarith

end AT
