import Verif.Props.RealtimeFloat
import Verif.Props.FloatFreq

/-!
# C107: streaming and batch results agree in double precision

Property: after any stream of phases the deviation that a streaming class reports for an averaging factor `a`
and the deviation that the function of the same name computes from the same phases at the averaging time
`a/rate` differ by rounding errors only, when the sampling interval given to the class is the reciprocal of
the rate up to one rounding.  Both results are rounded; the difference is bounded by a relative part of the
order of the number of terms and an absolute part that comes from the cancellation in the differences.
-/

namespace AT

open Finset Real Spec

variable {fl : ℝ → ℝ} {sum : List ℝ → ℝ}

/-- the function of allantools.py that a streaming class of realtime.py replaces, rounded -/
noncomputable def RtName.batch_fl (fl : ℝ → ℝ) (sum : List ℝ → ℝ) (k : RtName) (log10grid x : List ℝ) (rate : ℝ)
    (taus : TausArg) : Py (DevOut ℝ) :=
  match k with
  | .oadev => oadev_fl fl sum log10grid x rate taus
  | .ohdev => ohdev_fl fl sum log10grid x rate taus
  | .tdev => tdev_fl fl sum log10grid x rate taus

/-- the difference of the streaming and the batch result for `N` phases up to `B`; `dev` is the exact
deviation -/
noncomputable def Spec.rtBatchBound (k : RtName) (N : ℕ) (B rate : ℝ) (a : ℕ) (dev : ℝ) : ℝ :=
  match k with
  | .oadev => 4 * ((N : ℝ) - 2 * a + 11) * unitRoundoff * dev + 21 * unitRoundoff * (B * rate / a)
  | .ohdev => 4 * ((N : ℝ) - 3 * a + 12) * unitRoundoff * dev + 31 * unitRoundoff * (B * rate / a)
  | .tdev => 4 * ((N : ℝ) - 3 * a + 17) * unitRoundoff * dev + 12 * N * (N + 1) * unitRoundoff * (B / a)

/-- the same for the method `mdev` of tdev_realtime and the function `mdev` -/
noncomputable def Spec.rtMdevBatchBound (N : ℕ) (B rate : ℝ) (a : ℕ) (dev : ℝ) : ℝ :=
  4 * ((N : ℝ) - 3 * a + 18) * unitRoundoff * dev + 20 * N * (N + 1) * unitRoundoff * (B * rate / (a * a))

theorem batch_combine {d₁ d₂ D A q K L c e : ℝ} (hD : 0 ≤ D) (hA : 0 ≤ A) (hc : 0 ≤ c) (hK0 : 0 ≤ K) (hK : K ≤ 2 ^ 49)
    (hq : |q - 1| ≤ 2 * unitRoundoff) (h1 : |d₁ - q * D| ≤ 2 * K * unitRoundoff * (q * D) + c * unitRoundoff * (q * A))
    (h2 : |d₂ - D| ≤ 2 * L * unitRoundoff * D + e * unitRoundoff * A) :
    |d₁ - d₂| ≤ (2 * K + 2 * L + 3) * unitRoundoff * D + (c * (51 / 50) + e) * unitRoundoff * A := by
  have hu := unitRoundoff_pos
  have hu1 : unitRoundoff = 1 / 2 ^ 53 := rfl
  have q1 := (abs_le.1 hq).2
  have h3 : |q * D - D| ≤ 2 * unitRoundoff * D := by
    rw [show q * D - D = (q - 1) * D by ring, abs_mul, abs_of_nonneg hD]
    exact mul_le_mul_of_nonneg_right hq hD
  have h4 : |d₁ - d₂| ≤ |d₁ - q * D| + |q * D - D| + |d₂ - D| := by
    have e1 : d₁ - d₂ = (d₁ - q * D) + (q * D - D) + -(d₂ - D) := by ring
    rw [e1]
    refine (abs_add_le _ _).trans ?_
    rw [abs_neg]
    linarith [abs_add_le (d₁ - q * D) (q * D - D)]
  have hKu : 2 * K * (2 * unitRoundoff) ≤ 1 := by rw [hu1]; linarith
  have h5 : 2 * K * unitRoundoff * (q * D) ≤ (2 * K + 1) * unitRoundoff * D := by
    have e1 : 2 * K * unitRoundoff * (q * D) ≤ 2 * K * unitRoundoff * ((1 + 2 * unitRoundoff) * D) :=
      mul_le_mul_of_nonneg_left (mul_le_mul_of_nonneg_right (by linarith) hD) (by positivity)
    have e2 : 2 * K * (2 * unitRoundoff) * (unitRoundoff * D) ≤ 1 * (unitRoundoff * D) :=
      mul_le_mul_of_nonneg_right hKu (by positivity)
    nlinarith
  have h6 : c * unitRoundoff * (q * A) ≤ c * (51 / 50) * unitRoundoff * A := by
    have e1 : q ≤ 51 / 50 := by
      have : 2 * unitRoundoff ≤ 1 / 50 := by rw [hu1]; norm_num
      linarith
    have := mul_le_mul_of_nonneg_left (mul_le_mul_of_nonneg_right e1 hA) (show 0 ≤ c * unitRoundoff by positivity)
    linarith
  linarith

/-- the ratio of the two sampling intervals -/
theorem interval_ratio {tau0 rate : ℝ} (ht : 0 < tau0) (hr : 0 < rate)
    (h : |tau0 * rate - 1| ≤ unitRoundoff) : |1 / (tau0 * rate) - 1| ≤ 2 * unitRoundoff := by
  have hu1 : unitRoundoff = 1 / 2 ^ 53 := rfl
  have hp := mul_pos ht hr
  have h1 : 1 / 2 ≤ tau0 * rate := by
    have := (abs_le.1 h).1
    rw [hu1] at this
    linarith
  rw [show 1 / (tau0 * rate) - 1 = -(tau0 * rate - 1) / (tau0 * rate) by field_simp; ring, abs_div, abs_neg,
    abs_of_pos hp, div_le_iff₀ hp]
  have := unitRoundoff_pos
  nlinarith

theorem rms_tau (n : ℕ) (f : ℕ → ℝ) (c t : ℝ) (ht : 0 < t) : rms n f (c * t ^ 2) = rms n f c / t := by
  unfold rms
  rw [← div_div, Real.sqrt_div' _ (by positivity), Real.sqrt_sq ht.le]

theorem oadev_tau (x : ℕ → ℝ) (N m : ℕ) {t : ℝ} (ht : 0 < t) : Spec.oadev x N m t = Spec.oadev x N m 1 / t := by
  unfold Spec.oadev
  rw [← rms_tau _ _ _ _ ht]
  congr 1
  ring

theorem ohdev_tau (x : ℕ → ℝ) (N m : ℕ) {t : ℝ} (ht : 0 < t) : Spec.ohdev x N m t = Spec.ohdev x N m 1 / t := by
  unfold Spec.ohdev
  rw [← rms_tau _ _ _ _ ht]
  congr 1
  ring

theorem mdev_tau (x : ℕ → ℝ) (N m : ℕ) {t : ℝ} (ht : 0 < t) : Spec.mdev x N m t = Spec.mdev x N m 1 / t := by
  unfold Spec.mdev
  rw [← rms_tau _ _ _ _ ht]
  congr 1
  ring

/-- a batch run with a single averaging time -/
theorem batch_single {f g : Py (DevOut ℝ)} {bound : ℝ → ℝ → ℤ → ℝ} {t d : ℝ} {e : Errs ℝ} {n : ℤ}
    (hg : g = .ok ⟨[t], [d], e, [n]⟩)
    (h : (∃ e, f = .error e ∧ g = .error e) ∨ ∃ o o', f = .ok o ∧ g = .ok o' ∧ FloatClose bound o o') :
    ∃ o v, f = .ok o ∧ o.devs = [v] ∧ o.ns = [n] ∧ |v - d| ≤ bound t d n := by
  rcases h with ⟨e, _, h⟩ | ⟨o, o', h1, h2, h3⟩
  · rw [hg] at h; cases h
  · rw [hg] at h2
    cases h2
    have hl := h3.devs_len.1
    have hd := h3.devs 0 (by simp)
    obtain ⟨v, hv⟩ := List.length_eq_one_iff.1 (by simpa using hl)
    refine ⟨o, v, h1, hv, h3.ns, ?_⟩
    rw [hv] at hd
    simpa using hd

theorem safe_single (rate : ℝ) (hr : 0 < rate) (a : ℕ) (ha : a ≤ 2 ^ 49) : SafeTaus rate (.list [(a : ℝ) / rate]) := by
  intro t ht
  rw [List.mem_singleton] at ht
  refine ⟨a, ?_, ?_⟩
  · rw [Int.cast_natCast, abs_of_nonneg (by positivity)]
    exact_mod_cast ha
  · rw [ht, div_mul_cancel₀ _ hr.ne']
    simp

/-- **C107.** The streaming class and the batch function of the same name, both in floating point. -/
theorem realtime_batch_float (hfl : FloatRound fl) (hsum : ∀ l, FloatSum fl l (sum l)) (k : RtName) (rate tau0 : ℝ)
    (hr : 0 < rate) (ht : 0 < tau0) (hrt : |tau0 * rate - 1| ≤ unitRoundoff) (p : ℕ) (afs : List ℕ)
    (ha : ∀ a ∈ afs, 0 < a) (xs : List ℝ) (B : ℝ) (hB0 : 0 ≤ B) (hB : ∀ v ∈ xs, |v| ≤ B) (hN : xs.length ≤ 2 ^ 46)
    (log10grid : List ℝ) (i a : ℕ) (hi : afs[i]? = some a) (hn : k.need a < xs.length) :
    ∃ st o d d', k.feed_fl fl (rt_cfg tau0 false p) (rt_init afs false) xs = .ok st ∧ st.dev[i]? = some d ∧
      k.batch_fl fl sum log10grid xs rate (.list [(a : ℝ) / rate]) = .ok o ∧ o.devs = [d'] ∧
      |d - d'| ≤ rtBatchBound k xs.length B rate a (rtDev k (seq xs) xs.length a (a / rate)) := by
  obtain ⟨st, h1, _, h2⟩ := realtime_float hfl k tau0 p afs ht ha xs B hB0 hB (by omega)
  obtain ⟨d, hd, h3⟩ := h2.close i a hi hn.le
  have ha0 := ha a (List.mem_of_getElem? hi)
  have ha' : (0 : ℝ) < a := by exact_mod_cast ha0
  have hq := interval_ratio ht hr hrt
  have hu := unitRoundoff_pos
  have eA : B / (a * tau0) = 1 / (tau0 * rate) * (B * rate / a) := by field_simp
  have hA : 0 ≤ B * rate / a := by positivity
  cases k
  · simp only [RtName.need] at hn
    have hs := safe_single rate hr a (by omega)
    have hNa : 2 * (a : ℝ) ≤ xs.length := by exact_mod_cast (show 2 * a ≤ xs.length by omega)
    have hN' : (xs.length : ℝ) ≤ 2 ^ 46 := by exact_mod_cast hN
    have hg := oadev_phase_eq xs rate hr.le (.list [(a : ℝ) / rate])
    rw [table_single _ _ hr.ne' _ _ _ _ _ a ha0 (by omega) (by exact_mod_cast (show a ≤ xs.length by omega)) (by simp)
      (by omega)] at hg
    obtain ⟨o, v, ho, hv, _, hb⟩ := batch_single hg (oadev_float hfl hsum log10grid xs B hB rate hr _ (by omega) hs)
    refine ⟨st, o, d, v, h1, hd, ho, hv, ?_⟩
    simp only [rtDev, rtBound, rtBatchBound] at h3 ⊢
    unfold adevBound at hb
    have eD : Spec.oadev (seq xs) xs.length a (a * tau0) =
        1 / (tau0 * rate) * Spec.oadev (seq xs) xs.length a (a / rate) := by
      rw [oadev_tau _ _ _ (mul_pos ha' ht), oadev_tau _ _ _ (div_pos ha' hr)]
      field_simp
    have hD : 0 ≤ Spec.oadev (seq xs) xs.length a (a / rate) := Real.sqrt_nonneg _
    rw [eD] at h3
    set D := Spec.oadev (seq xs) xs.length a (a / rate)
    have h4 := batch_combine (K := (xs.length : ℝ) - 2 * a + 14) (L := (xs.length : ℝ) - 2 * a + 6) (c := 10) (e := 10)
      hD hA (by norm_num) (by linarith) (by norm_num; linarith) hq (h3.trans_eq (by
        rw [← eA]; push_cast; ring)) (hb.trans_eq (by push_cast; field_simp))
    refine h4.trans ?_
    have e1 : 0 ≤ unitRoundoff * D := by positivity
    have e2 : 0 ≤ unitRoundoff * (B * rate / a) := by positivity
    nlinarith
  · simp only [RtName.need] at hn
    have hs := safe_single rate hr a (by omega)
    have hNa : 3 * (a : ℝ) ≤ xs.length := by exact_mod_cast (show 3 * a ≤ xs.length by omega)
    have hN' : (xs.length : ℝ) ≤ 2 ^ 46 := by exact_mod_cast hN
    have hg := ohdev_phase_eq xs rate hr.le (.list [(a : ℝ) / rate])
    rw [table_single _ _ hr.ne' _ _ _ _ _ a ha0 (by omega) (by exact_mod_cast (show a ≤ xs.length by omega)) (by simp)
      (by omega)] at hg
    obtain ⟨o, v, ho, hv, _, hb⟩ := batch_single hg (ohdev_float hfl hsum log10grid xs B hB rate hr _ (by omega) hs)
    refine ⟨st, o, d, v, h1, hd, ho, hv, ?_⟩
    simp only [rtDev, rtBound, rtBatchBound] at h3 ⊢
    unfold hdevBound at hb
    have eD : Spec.ohdev (seq xs) xs.length a (a * tau0) =
        1 / (tau0 * rate) * Spec.ohdev (seq xs) xs.length a (a / rate) := by
      rw [ohdev_tau _ _ _ (mul_pos ha' ht), ohdev_tau _ _ _ (div_pos ha' hr)]
      field_simp
    have hD : 0 ≤ Spec.ohdev (seq xs) xs.length a (a / rate) := Real.sqrt_nonneg _
    rw [eD] at h3
    set D := Spec.ohdev (seq xs) xs.length a (a / rate)
    have h4 := batch_combine (K := (xs.length : ℝ) - 3 * a + 14) (L := (xs.length : ℝ) - 3 * a + 8) (c := 15) (e := 15)
      hD hA (by norm_num) (by linarith) (by norm_num; linarith) hq (h3.trans_eq (by
        rw [← eA]; push_cast; ring)) (hb.trans_eq (by push_cast; field_simp))
    refine h4.trans ?_
    have e1 : 0 ≤ unitRoundoff * D := by positivity
    have e2 : 0 ≤ unitRoundoff * (B * rate / a) := by positivity
    nlinarith
  · simp only [RtName.need] at hn
    have hs := safe_single rate hr a (by omega)
    have hNa : 3 * (a : ℝ) ≤ xs.length := by exact_mod_cast (show 3 * a ≤ xs.length by omega)
    have hN' : (xs.length : ℝ) ≤ 2 ^ 46 := by exact_mod_cast hN
    have hg := tdev_phase_eq xs rate (.list [(a : ℝ) / rate])
    rw [table_single _ _ hr.ne' _ _ _ _ _ a ha0 (by omega) (by exact_mod_cast (show a ≤ xs.length by omega)) (by simp)
      (by omega)] at hg
    obtain ⟨o, v, ho, hv, _, hb⟩ := batch_single hg (tdev_float hfl hsum log10grid xs B hB rate hr _ hN hs)
    refine ⟨st, o, d, v, h1, hd, ho, hv, ?_⟩
    simp only [rtDev, rtBound, rtBatchBound] at h3 ⊢
    unfold tdevBound at hb
    have eD : Spec.tdev (seq xs) xs.length a (a * tau0) = Spec.tdev (seq xs) xs.length a (a / rate) := by
      unfold Spec.tdev
      rw [mdev_tau _ _ _ (mul_pos ha' ht), mdev_tau _ _ _ (div_pos ha' hr)]
      field_simp
    have hD : 0 ≤ Spec.tdev (seq xs) xs.length a (a / rate) := by
      unfold Spec.tdev Spec.mdev rms; positivity
    rw [eD] at h3
    set D := Spec.tdev (seq xs) xs.length a (a / rate)
    have hA' : 0 ≤ B / a := by positivity
    have h4 := batch_combine (q := 1) (A := B / a) (K := (xs.length : ℝ) - 3 * a + 10) (L := (xs.length : ℝ) - 3 * a + 22)
      (c := 15 / 4 * xs.length * (xs.length + 1)) (e := 8 * xs.length * (xs.length + 1))
      hD hA' (by positivity) (by linarith) (by norm_num; linarith) (by simpa using hu.le) (by
        rw [one_mul, one_mul]
        exact h3.trans_eq (by push_cast; ring)) (hb.trans_eq (by push_cast; field_simp; ring))
    refine h4.trans ?_
    have e1 : 0 ≤ unitRoundoff * D := by positivity
    have e2 : 0 ≤ (xs.length : ℝ) * (xs.length + 1) * unitRoundoff * (B / a) := by positivity
    nlinarith

/-- **C107, method `mdev`.** -/
theorem realtime_mdev_batch_float (hfl : FloatRound fl) (hsum : ∀ l, FloatSum fl l (sum l)) (rate tau0 : ℝ)
    (hr : 0 < rate) (ht : 0 < tau0) (hrt : |tau0 * rate - 1| ≤ unitRoundoff) (p : ℕ) (afs : List ℕ)
    (ha : ∀ a ∈ afs, 0 < a) (xs : List ℝ) (B : ℝ) (hB0 : 0 ≤ B) (hB : ∀ v ∈ xs, |v| ≤ B) (hN : xs.length ≤ 2 ^ 46)
    (log10grid : List ℝ) (i a : ℕ) (hi : afs[i]? = some a) (hn : 3 * a < xs.length) :
    ∃ st ms o d d', RtName.feed_fl fl .tdev (rt_cfg tau0 false p) (rt_init afs false) xs = .ok st ∧
      tdev_mdev_fl fl (rt_cfg tau0 false p) st = .ok ms ∧ ms[i]? = some d ∧
      mdev_fl fl sum log10grid xs rate (.list [(a : ℝ) / rate]) = .ok o ∧ o.devs = [d'] ∧
      |d - d'| ≤ rtMdevBatchBound xs.length B rate a (Spec.mdev (seq xs) xs.length a (a / rate)) := by
  obtain ⟨st, ms, h1, h1', h2⟩ := tdev_realtime_mdev_float hfl tau0 p afs ht ha xs B hB0 hB (by omega)
  obtain ⟨d, hd, h3⟩ := h2.close i a hi hn.le
  have ha0 := ha a (List.mem_of_getElem? hi)
  have ha' : (0 : ℝ) < a := by exact_mod_cast ha0
  have hq := interval_ratio ht hr hrt
  have hu := unitRoundoff_pos
  have eA : B / (a * (a * tau0)) = 1 / (tau0 * rate) * (B * rate / (a * a)) := by field_simp
  have hA : 0 ≤ B * rate / (a * a) := by positivity
  have hs := safe_single rate hr a (by omega)
  have hNa : 3 * (a : ℝ) ≤ xs.length := by exact_mod_cast (show 3 * a ≤ xs.length by omega)
  have hN' : (xs.length : ℝ) ≤ 2 ^ 46 := by exact_mod_cast hN
  have hg := mdev_phase_eq xs rate (.list [(a : ℝ) / rate])
  rw [table_single _ _ hr.ne' _ _ _ _ _ a ha0 (by omega) (by exact_mod_cast (show a ≤ xs.length by omega)) (by simp)
    (by omega)] at hg
  obtain ⟨o, v, ho, hv, _, hb⟩ := batch_single hg (mdev_float hfl hsum log10grid xs B hB rate hr _ (by omega) hs)
  refine ⟨st, ms, o, d, v, h1, h1', hd, ho, hv, ?_⟩
  unfold rtMdevBound at h3
  unfold rtMdevBatchBound
  unfold mdevBound at hb
  have eD : Spec.mdev (seq xs) xs.length a (a * tau0) =
      1 / (tau0 * rate) * Spec.mdev (seq xs) xs.length a (a / rate) := by
    rw [mdev_tau _ _ _ (mul_pos ha' ht), mdev_tau _ _ _ (div_pos ha' hr)]
    field_simp
  have hD : 0 ≤ Spec.mdev (seq xs) xs.length a (a / rate) := Real.sqrt_nonneg _
  rw [eD] at h3
  set D := Spec.mdev (seq xs) xs.length a (a / rate)
  have h4 := batch_combine (K := (xs.length : ℝ) - 3 * a + 15) (L := (xs.length : ℝ) - 3 * a + 18)
    (c := 26 / 4 * xs.length * (xs.length + 1)) (e := 13 * xs.length * (xs.length + 1))
    hD hA (by positivity) (by linarith) (by norm_num; linarith) hq (h3.trans_eq (by
      rw [← eA]; push_cast; ring)) (hb.trans_eq (by push_cast; field_simp; ring))
  refine h4.trans ?_
  have e1 : 0 ≤ unitRoundoff * D := by positivity
  have e2 : 0 ≤ (xs.length : ℝ) * (xs.length + 1) * unitRoundoff * (B * rate / (a * a)) := by positivity
  nlinarith

/-- the hypotheses hold for six samples at 1 Hz and factor 1 -/
example (hfl : FloatRound fl) (hsum : ∀ l, FloatSum fl l (sum l)) := realtime_batch_float hfl hsum .tdev 1 1
  one_pos one_pos (by simpa using unitRoundoff_pos.le) 4 [1, 3] (by simp) [0, 1, 5, 2, 2, 7] 7 (by norm_num)
  (by intro v hv; fin_cases hv <;> norm_num [abs_of_nonneg]) (by norm_num) [] 0 1 rfl (by simp [RtName.need])

/-- and for a sampling interval that is the rounded reciprocal of a rate of 3 Hz -/
example (hfl : FloatRound fl) (hsum : ∀ l, FloatSum fl l (sum l)) := realtime_mdev_batch_float hfl hsum 3 (fl (1 / 3))
  (by norm_num) (fl_pos hfl (by norm_num)) (by
    have := hfl (1 / 3)
    rw [abs_of_pos (show (0 : ℝ) < 1 / 3 by norm_num)] at this
    rw [show fl (1 / 3) * 3 - 1 = (fl (1 / 3) - 1 / 3) * 3 by ring, abs_mul, abs_of_pos (show (0 : ℝ) < 3 by norm_num)]
    linarith) 4 [1] (by simp) [0, 1, 5, 2, 2, 7] 7 (by norm_num)
  (by intro v hv; fin_cases hv <;> norm_num [abs_of_nonneg]) (by norm_num) [] 0 1 rfl (by simp)

end AT
