import Verif.Lemmas.FloatTot
import Verif.Spec.FloatTot
import Verif.Props.Mtot
import Verif.Props.FloatFreqMore

/-!
# C100: rounding errors of `mtotdev`, `ttotdev` and `htotdev`

Property: with every operation rounded to double precision `mtotdev`, `ttotdev` and `htotdev` evaluate
the same averaging factors with the same numbers of terms as the exact functions, and their deviations
differ by at most a relative error of about `6 N` roundings and an absolute error of `c m` roundings of
the largest value over `tau`, although the window sums are updated instead of computed anew; for phase
data and for frequency data.
-/

namespace AT

open Spec Finset Real

variable {fl : ℝ → ℝ} {sum : List ℝ → ℝ}

theorem sqrt_half_le {t : ℝ} (ht : 0 < t) {n : ℝ} (hn : 0 < n) {m : ℝ} (hm : 0 < m) :
    √(n * (6 * m / (6 * m)) / (2 * (t * t) * n)) ≤ 7072 / 10000 / t := by
  rw [Real.sqrt_le_left (by positivity)]
  have e : n * (6 * m / (6 * m)) / (2 * (t * t) * n) = 1 / 2 / (t * t) := by field_simp
  rw [e, div_pow, pow_two t]
  apply div_le_div_of_nonneg_right _ (by positivity)
  norm_num

theorem calc_mtotdev_phase_fl_row (hfl : FloatRound fl) (hsum : ∀ l, FloatSum fl l (sum l)) (phase : List ℝ)
    (B : ℝ) (hB : ∀ v ∈ phase, |v| ≤ B) (rate : ℝ) (hr : 0 < rate) (m : ℕ) (hm0 : 0 < m)
    (hmN : 3 * m ≤ phase.length) (hN : phase.length ≤ 2 ^ 45 + 1) :
    ∃ row, calc_mtotdev_phase_fl fl sum phase rate m = .ok row ∧
      row.2.2 = (phase.length : ℤ) - 3 * m + 1 ∧
      |row.1 - Spec.mtotdev (seq phase) phase.length m (m / rate)| ≤
        Spec.mtotdevBound phase.length rate B (m / rate) (Spec.mtotdev (seq phase) phase.length m (m / rate))
          ((phase.length : ℤ) - 3 * m + 1) ∧
      |row.2.1 - row.1 / √(((phase.length : ℤ) - 3 * m + 1 : ℤ) : ℝ)| ≤
        4 * unitRoundoff * |row.1 / √(((phase.length : ℤ) - 3 * m + 1 : ℤ) : ℝ)| := by
  set N := phase.length with hNd
  set x := seq phase with hx
  have hp : phase = tab N x := eq_tab_seq phase
  have hxB : ∀ i < N, |x i| ≤ B := fun i hi => seq_abs_le hB i hi
  have hB0 : 0 ≤ B := (abs_nonneg _).trans (hxB 0 (by omega))
  have hu := unitRoundoff_pos
  unfold calc_mtotdev_phase_fl
  rw [hp]
  simp only [tab_length]
  have hK : ((N : ℤ) - 3 * m + 1).toNat = N - 3 * m + 1 := by omega
  rw [hK]
  set n := N - 3 * m + 1 with hn
  have hc : ((N : ℤ) - 3 * m + 1 : ℤ) = (n : ℤ) := by omega
  set e' : ℕ → ℕ → ℝ := fun i => mirror (fun k => fl (x (i + k) - fl (fl (tot_slope_fl fl sum
    (fun d => fl (d * fl (1 / rate))) (tab (3 * m) (fun k => x (i + k))) m * k) * fl (1 / rate)))) (3 * m) with he'
  set V : ℕ → ℕ → ℝ := fun i j => totQ fl sum (e' i) m j with hV
  rw [forRange_eq (fun i => (seqSum fl (fun i => fl (fl (1 / fl (6 * (m : ℝ))) *
        seqSum fl (fun j => fl (V i j * V i j)) (6 * m))) i, i)) (by simp [seqSum])]
  swap
  · intro i hi
    rw [slice_tab _ _ _ _ (by omega)]
    have e1 : i + 3 * m - i = 3 * m := by omega
    rw [e1, pyAssert_true (by simp)]
    simp only [ok_bind]
    rw [zipIdx_map_tab (3 * m) (fun k => x (i + k)) (fun a k => fl (a - fl (fl (tot_slope_fl fl sum
      (fun d => fl (d * fl (1 / rate))) (tab (3 * m) (fun k => x (i + k))) m * k) * fl (1 / rate))))]
    rw [mirror_tab, pyAssert_true (by simp; ring)]
    have e2 : 3 * (3 * m) = 9 * m := by ring
    rw [e2, tot_inner_fl_eq _ _ _ _ hm0]
    simp only [ok_bind]
    rfl
  simp only [ok_bind]
  rw [pyAssert_true hc.symm]
  simp only [ok_bind]
  have hn0 : 0 < n := by omega
  have hn' : (0 : ℝ) < n := by exact_mod_cast hn0
  have hm' : (0 : ℝ) < m := by exact_mod_cast hm0
  rw [hc]
  refine ⟨_, rfl, rfl, ?_, err_float hfl _ _ hn'⟩
  simp only [Int.cast_natCast]
  set t : ℝ := m / rate with ht
  have htp : 0 < t := by positivity
  set D : ℕ → ℕ → ℝ := fun i j => (∑ k ∈ range m,
    d2 (mirror (fun k => x (i + k) - halfSlope (fun k => x (i + k)) m 1 * k) (3 * m)) m (j + k)) / m with hD
  have hVD : ∀ i < n, ∀ j < 6 * m, |V i j - D i j| ≤
      ((1 + unitRoundoff) ^ (13 * m + 1 + (3 * m / 2 + 14)) - 1) * (4 * (5 * B)) := by
    intro i hi j hj
    refine totQ_near hfl hsum (e' i) _ m (3 * m / 2 + 14) hm0 (5 * B) (fun k hk => ?_) j hj
    exact NearA.mirror (3 * m) (fun k hk => mtot_detrend hfl hsum (fun k => x (i + k)) m hm0 B
      (fun l hl => hxB _ (by omega)) rate hr k hk) k (by omega)
  have f1 : Near 2 (fl (m * fl (1 / rate))) t := by
    have := ((Near.of_fl hfl (1 / rate)).const_mul (m : ℝ)).fl hfl
    rw [mul_one_div] at this
    exact this
  have f2 := ((((f1.mul f1).fl hfl).const_mul 2).fl hfl |>.mul (Near.refl (n : ℝ))).fl hfl
  have hE : 0 ≤ ((1 + unitRoundoff) ^ (13 * m + 1 + (3 * m / 2 + 14)) - 1) * (4 * (5 * B)) := by
    have := near_eps_nonneg (13 * m + 1 + (3 * m / 2 + 14)); positivity
  have h4 := tot_core hfl n m 7 V D (6 * (m : ℝ)) _ (2 * (t * t) * n) _ (by positivity) (by positivity)
    (by unfold unitRoundoff; norm_num) f2 hE (by omega) hVD
  have e5 : √((∑ i ∈ range n, (∑ j ∈ range (6 * m), D i j ^ 2) / (6 * (m : ℝ))) / (2 * (t * t) * n)) =
      Spec.mtotdev x N m t := by
    unfold Spec.mtotdev totTerm
    have : ((N : ℝ) - 3 * m + 1) = n := by
      rw [hn, Nat.cast_add, Nat.cast_sub hmN]; push_cast; ring
    rw [this, pow_two t]
  rw [e5] at h4
  refine h4.trans (add_le_add ?_ ?_)
  · have hd0 : 0 ≤ Spec.mtotdev x N m t := Real.sqrt_nonneg _
    have : (n : ℝ) + 6 * m + 8 + 2 * (7 : ℕ) ≤ n + (2 * N + 22) := by
      have : (3 : ℝ) * m ≤ N := by exact_mod_cast hmN
      push_cast
      linarith
    push_cast at this ⊢
    gcongr
  · have e7 := few_roundings' (k := 13 * m + 1 + (3 * m / 2 + 14)) (by omega)
    have e8 : ((13 * m + 1 + (3 * m / 2 + 14) : ℕ) : ℝ) ≤ 29 / 2 * m + 15 := by
      have : 2 * (13 * m + 1 + (3 * m / 2 + 14)) ≤ 29 * m + 30 := by omega
      have : (2 : ℝ) * ((13 * m + 1 + (3 * m / 2 + 14) : ℕ) : ℝ) ≤ 29 * m + 30 := by exact_mod_cast this
      linarith
    have e9 := sqrt_half_le htp hn' hm'
    have e10 : t * rate = m := by rw [ht]; field_simp
    rw [e10]
    calc 17 / 16 * (((1 + unitRoundoff) ^ (13 * m + 1 + (3 * m / 2 + 14)) - 1) * (4 * (5 * B)) *
          √(n * (6 * m / (6 * m)) / (2 * (t * t) * n)))
        ≤ 17 / 16 * (17 / 16 * (29 / 2 * m + 15) * unitRoundoff * (4 * (5 * B)) * (7072 / 10000 / t)) := by
          have : (1 + unitRoundoff) ^ (13 * m + 1 + (3 * m / 2 + 14)) - 1 ≤
              17 / 16 * (29 / 2 * m + 15) * unitRoundoff := e7.trans (by gcongr)
          gcongr
      _ = (17 / 16 * (17 / 16) * 20 * (7072 / 10000) * (29 / 2 * m + 15)) * unitRoundoff * B / t := by
          field_simp
          ring
      _ ≤ 240 * (m + 1) * unitRoundoff * B / t := by
          have e11 : 17 / 16 * (17 / 16) * 20 * (7072 / 10000) * (29 / 2 * (m : ℝ) + 15) ≤ 240 * (m + 1) := by
            linarith
          exact div_le_div_of_nonneg_right (mul_le_mul_of_nonneg_right (mul_le_mul_of_nonneg_right e11 hu.le)
            hB0) htp.le

theorem sqrt_sixth_le {n : ℝ} (hn : 0 < n) {m : ℝ} (hm : 0 < m) :
    √(n * (6 * m / (6 * (6 * m))) / n) ≤ 4083 / 10000 := by
  rw [Real.sqrt_le_left (by positivity)]
  have e : n * (6 * m / (6 * (6 * m))) / n = 1 / 6 := by field_simp
  rw [e]
  norm_num

theorem calc_htotdev_freq_fl_row (hfl : FloatRound fl) (hsum : ∀ l, FloatSum fl l (sum l)) (freq : List ℝ)
    (B : ℝ) (hB : ∀ v ∈ freq, |v| ≤ B) (m : ℕ) (hm0 : 0 < m)
    (hmN : 3 * m ≤ freq.length) (hN : freq.length ≤ 2 ^ 45 + 1) :
    ∃ row, calc_htotdev_freq_fl fl sum freq m = .ok row ∧
      row.2.2 = (freq.length : ℤ) - 3 * m + 1 ∧
      |row.1 - Spec.htotdev (seq freq) freq.length m| ≤
        2 * ((((freq.length : ℤ) - 3 * m + 1 : ℤ) : ℝ) + (2 * freq.length + 8)) * unitRoundoff *
          Spec.htotdev (seq freq) freq.length m + 81 * ((m : ℝ) + 1) * unitRoundoff * B ∧
      |row.2.1 - row.1 / √(((freq.length : ℤ) - 3 * m + 1 : ℤ) : ℝ)| ≤
        4 * unitRoundoff * |row.1 / √(((freq.length : ℤ) - 3 * m + 1 : ℤ) : ℝ)| := by
  set N := freq.length with hNd
  set x := seq freq with hx
  have hp : freq = tab N x := eq_tab_seq freq
  have hxB : ∀ i < N, |x i| ≤ B := fun i hi => seq_abs_le hB i hi
  have hB0 : 0 ≤ B := (abs_nonneg _).trans (hxB 0 (by omega))
  have hu := unitRoundoff_pos
  unfold calc_htotdev_freq_fl
  rw [hp]
  simp only [tab_length]
  have hK : ((N : ℤ) - 3 * m + 1).toNat = N - 3 * m + 1 := by omega
  rw [hK]
  set n := N - 3 * m + 1 with hn
  have hc : ((N : ℤ) - 3 * m + 1 : ℤ) = (n : ℤ) := by omega
  set e' : ℕ → ℕ → ℝ := fun i => mirror (fun k => fl (x (i + k) - fl (tot_slope_fl fl sum
    (fun d => d) (tab (3 * m) (fun k => x (i + k))) m * fl ((k : ℝ) - ⌊(3 * m / 2 : ℝ)⌋)))) (3 * m) with he'
  set V : ℕ → ℕ → ℝ := fun i j => totQ fl sum (e' i) m j with hV
  rw [forRange_eq (fun i => (seqSum fl (fun i => fl (fl (1 / fl (6 * ((6 * m : ℕ) : ℝ))) *
        seqSum fl (fun j => fl (V i j * V i j)) (6 * m))) i, i)) (by simp [seqSum])]
  swap
  · intro i hi
    rw [slice_tab _ _ _ _ (by omega)]
    have e1 : i + 3 * m - i = 3 * m := by omega
    rw [e1, pyAssert_true (by simp)]
    simp only [ok_bind]
    rw [zipIdx_map_tab (3 * m) (fun k => x (i + k)) (fun a k => fl (a - fl (tot_slope_fl fl sum
      (fun d => d) (tab (3 * m) (fun k => x (i + k))) m * fl ((k : ℝ) - ⌊(3 * m / 2 : ℝ)⌋))))]
    rw [mirror_tab, pyAssert_true (by simp; ring)]
    have e2 : 3 * (3 * m) = 9 * m := by ring
    rw [e2, tot_inner_fl_eq _ _ _ _ hm0]
    simp only [ok_bind]
    rfl
  simp only [ok_bind]
  rw [pyAssert_true hc.symm]
  simp only [ok_bind]
  have hn0 : 0 < n := by omega
  have hn' : (0 : ℝ) < n := by exact_mod_cast hn0
  have hm' : (0 : ℝ) < m := by exact_mod_cast hm0
  rw [hc]
  refine ⟨_, rfl, rfl, ?_, err_float hfl _ _ hn'⟩
  simp only [Int.cast_natCast, Nat.cast_mul, Nat.cast_ofNat]
  set D : ℕ → ℕ → ℝ := fun i j => (∑ k ∈ range m,
    d2 (mirror (fun k => x (i + k) - halfSlope (fun k => x (i + k)) m 1 * k) (3 * m)) m (j + k)) / m with hD
  have hVD : ∀ i < n, ∀ j < 6 * m, |V i j - D i j| ≤
      ((1 + unitRoundoff) ^ (13 * m + 1 + (3 * m / 2 + 9)) - 1) * (4 * (3 * B)) := by
    intro i hi j hj
    have h1 := totQ_near hfl hsum (e' i) (mirror (fun k => x (i + k) - halfSlope (fun k => x (i + k)) m 1 *
      ((k : ℝ) - ⌊(3 * m / 2 : ℝ)⌋)) (3 * m)) m (3 * m / 2 + 9) hm0 (3 * B) (fun k hk =>
      NearA.mirror (3 * m) (fun k hk => htot_detrend hfl hsum (fun k => x (i + k)) m hm0 B
      (fun l hl => hxB _ (by omega)) k hk) k (by omega)) j hj
    have e3 : (fun k : ℕ => x (i + k) - halfSlope (fun k => x (i + k)) m 1 *
          ((k : ℝ) - ⌊(3 * (m : ℝ) / 2)⌋))
        = (fun k : ℕ => (x (i + k) - halfSlope (fun k => x (i + k)) m 1 * k) +
          halfSlope (fun k => x (i + k)) m 1 * ⌊(3 * (m : ℝ) / 2)⌋) := by
      funext k; ring
    rw [e3] at h1
    simp only [d2_mirror_shift] at h1
    exact h1
  have hE : 0 ≤ ((1 + unitRoundoff) ^ (13 * m + 1 + (3 * m / 2 + 9)) - 1) * (4 * (3 * B)) := by
    have := near_eps_nonneg (13 * m + 1 + (3 * m / 2 + 9)); positivity
  have h4 := tot_core hfl n m 0 V D (6 * (6 * (m : ℝ))) _ n _ (by positivity) (by positivity)
    (by norm_num) (Near.refl (n : ℝ)) hE (by omega) hVD
  have e5 : √((∑ i ∈ range n, (∑ j ∈ range (6 * m), D i j ^ 2) / (6 * (6 * (m : ℝ)))) / n) =
      Spec.htotdev x N m := by
    unfold Spec.htotdev totTerm
    have : ((N : ℝ) - 3 * m + 1) = n := by
      rw [hn, Nat.cast_add, Nat.cast_sub hmN]; push_cast; ring
    rw [this, ← div_div _ 6 (n : ℝ), Finset.sum_div _ _ (6 : ℝ)]
    congr 2
    apply Finset.sum_congr rfl
    intro i _
    simp only [hD]
    rw [div_div, mul_comm (6 * (m : ℝ)) 6]
  rw [e5] at h4
  refine h4.trans (add_le_add ?_ ?_)
  · have hd0 : 0 ≤ Spec.htotdev x N m := Real.sqrt_nonneg _
    have : (n : ℝ) + 6 * m + 8 + 2 * (0 : ℕ) ≤ n + (2 * N + 8) := by
      have : (3 : ℝ) * m ≤ N := by exact_mod_cast hmN
      push_cast
      linarith
    gcongr
  · have e7 := few_roundings' (k := 13 * m + 1 + (3 * m / 2 + 9)) (by omega)
    have e8 : ((13 * m + 1 + (3 * m / 2 + 9) : ℕ) : ℝ) ≤ 29 / 2 * m + 10 := by
      have : 2 * (13 * m + 1 + (3 * m / 2 + 9)) ≤ 29 * m + 20 := by omega
      have : (2 : ℝ) * ((13 * m + 1 + (3 * m / 2 + 9) : ℕ) : ℝ) ≤ 29 * m + 20 := by exact_mod_cast this
      linarith
    have e9 := sqrt_sixth_le hn' hm'
    calc 17 / 16 * (((1 + unitRoundoff) ^ (13 * m + 1 + (3 * m / 2 + 9)) - 1) * (4 * (3 * B)) *
          √(n * (6 * m / (6 * (6 * m))) / n))
        ≤ 17 / 16 * (17 / 16 * (29 / 2 * m + 10) * unitRoundoff * (4 * (3 * B)) * (4083 / 10000)) := by
          have : (1 + unitRoundoff) ^ (13 * m + 1 + (3 * m / 2 + 9)) - 1 ≤
              17 / 16 * (29 / 2 * m + 10) * unitRoundoff := e7.trans (by gcongr)
          gcongr
      _ = (17 / 16 * (17 / 16) * 12 * (4083 / 10000) * (29 / 2 * m + 10)) * unitRoundoff * B := by
          ring
      _ ≤ 81 * (m + 1) * unitRoundoff * B := by
          have e11 : 17 / 16 * (17 / 16) * 12 * (4083 / 10000) * (29 / 2 * (m : ℝ) + 10) ≤ 81 * (m + 1) := by
            linarith
          exact mul_le_mul_of_nonneg_right (mul_le_mul_of_nonneg_right e11 hu.le) hB0

/-! ## `mtotdev` and `ttotdev` of phase data -/

/-- C100: `mtotdev` of phase data in double precision -/
theorem mtotdev_float (hfl : FloatRound fl) (hint : IntExact fl) (hsum : ∀ l, FloatSum fl l (sum l))
    (log10grid x : List ℝ) (B : ℝ) (hB : ∀ v ∈ x, |v| ≤ B) (rate : ℝ) (hr : 0 < rate) (taus : TausArg)
    (hN : x.length ≤ 2 ^ 45 + 1) (ht : SafeTaus rate taus) :
    (∃ e, mtotdev_fl fl sum log10grid x rate taus = .error e ∧ mtotdev x rate "phase" taus = .error e) ∨
    ∃ o o', mtotdev_fl fl sum log10grid x rate taus = .ok o ∧ mtotdev x rate "phase" taus = .ok o' ∧
      FloatClose (mtotdevBound x.length rate B) o o' := by
  have hN' : x.length ≤ 2 ^ 47 := hN.trans (by norm_num)
  have h := driver_floatE hfl (mtotdevBound x.length rate B) (fun _ d n => d / √(n : ℝ))
    log10grid x rate taus false (fl ((x.length : ℝ) / 3)) hN' ht (fun m => calc_mtotdev_phase_fl fl sum x rate m)
    (fun m => Spec.mtotdev (seq x) x.length m (m / rate))
    (fun m => Spec.mtotdev (seq x) x.length m (m / rate) / √((x.length : ℝ) - 3 * m + 1))
    (fun m => (x.length : ℤ) - 3 * m + 1) (fun _ m hm0 _ _ hmax => by
      rw [effMax_fl_third hfl hint _ hN', fl_third hfl hint _ _ hN'] at hmax
      obtain ⟨row, h1, h2, h3, h4⟩ := calc_mtotdev_phase_fl_row hfl hsum x B hB rate hr m hm0 (third_le hmax) hN
      exact ⟨row, h1, by rw [h2], fun _ => ⟨h2, h3, h4⟩⟩)
  have e1 : mtotdev x rate "phase" taus = table x.length rate taus false
      (effMax x.length (fl ((x.length : ℝ) / 3)))
        (fun m => Spec.mtotdev (seq x) x.length m (m / rate))
        (fun m => Spec.mtotdev (seq x) x.length m (m / rate) / √((x.length : ℝ) - 3 * m + 1))
        (fun m => (x.length : ℤ) - 3 * m + 1) := by
    rw [mtotdev_phase_eq]
    unfold table
    rw [factors_third hfl hint _ hN']
  have e2 : mtotdev_fl fl sum log10grid x rate taus =
      (tau_generator_fl fl log10grid x rate taus false (fl ((x.length : ℝ) / 3)) >>= fun r =>
      runTaus r.2.2 r.2.1 (fun _ m => calc_mtotdev_phase_fl fl sum x rate m)) := by
    unfold mtotdev_fl
    rw [tau_generator_float_safe hfl log10grid x rate taus false _ hN' ht]
    cases factors x.length rate taus false (effMax x.length (fl ((x.length : ℝ) / 3))) <;>
      simp only [ok_bind, error_bind]
  rw [e1, e2]
  rcases h with h | ⟨o, o', h1, h2, h3⟩
  · exact Or.inl h
  · exact Or.inr ⟨o, o', h1, h2, h3.close⟩

/-- from `mtotdev` to `ttotdev` -/
theorem ttotdev_from_mtotdev (hfl : FloatRound fl) (x : List ℝ) (rate : ℝ) (hr : 0 < rate)
    (taus : TausArg) (hN : x.length ≤ 2 ^ 45 + 1) (k : ℝ) (hk : k ≤ 2 ^ 47) (A : ℝ → ℝ)
    (bound : ℝ → ℝ → ℤ → ℝ) (f : Py (DevOut ℝ))
    (h : (∃ e, f = .error e ∧ mtotdev x rate "phase" taus = .error e) ∨
      ∃ o o', f = .ok o ∧ mtotdev x rate "phase" taus = .ok o' ∧
        FloatClose (fun tau dev n => 2 * ((n : ℝ) + k) * unitRoundoff * dev + A tau) o o')
    (hA : ∀ t, 0 < t → 0 ≤ A t)
    (hb : ∀ tau dev (n : ℤ), 0 < tau → 2 * ((n : ℝ) + (k + 4)) * unitRoundoff * dev + 6 / 10 * A tau * tau ≤
      bound tau dev n) :
    (∃ e, (f >>= fun r => scaleToTdev_fl fl r) = .error e ∧ ttotdev x rate "phase" taus = .error e) ∨
    ∃ o o', (f >>= fun r => scaleToTdev_fl fl r) = .ok o ∧ ttotdev x rate "phase" taus = .ok o' ∧
      FloatClose bound o o' := by
  have ex : ttotdev x rate "phase" taus = (mtotdev x rate "phase" taus >>= scaleToTdev) := rfl
  rcases h with ⟨e, h1, h2⟩ | ⟨o, o', h1, h2, h3⟩
  · left
    refine ⟨e, ?_, ?_⟩
    · rw [h1, error_bind]
    · rw [ex, h2, error_bind]
  · right
    have ho : ∀ i < o'.taus.length, 0 < o'.taus.getD i 0 ∧ 0 ≤ o'.devs.getD i 0 ∧ 0 < o'.ns.getD i 0 ∧
        o'.ns.getD i 0 ≤ 2 ^ 47 := by
      intro i hi
      have h4 := h2
      rw [mtotdev_phase_eq] at h4
      obtain ⟨m, m0, mN, n1, t1, t2, t3⟩ := table_row h4 i hi
      rw [t1, t2, t3]
      refine ⟨?_, Real.sqrt_nonneg _, by omega, by omega⟩
      have : (0 : ℝ) < m := by exact_mod_cast m0
      positivity
    obtain ⟨t, t', h5, h6, h7⟩ := scale_float hfl h3 hk ho hA (bound := bound) hb
    refine ⟨t, t', ?_, ?_, h7⟩
    · rw [h1, ok_bind, h5]
    · rw [ex, h2, ok_bind, h6]

/-- the largest magnitude is not negative, unless there are no values -/
theorem bound_nonneg {x : List ℝ} {B : ℝ} (hB : ∀ v ∈ x, |v| ≤ B) (hx : x ≠ []) : 0 ≤ B := by
  obtain ⟨v, hv⟩ := List.exists_mem_of_ne_nil x hx
  exact (abs_nonneg v).trans (hB v hv)

/-- C100: `ttotdev` of phase data in double precision -/
theorem ttotdev_float (hfl : FloatRound fl) (hint : IntExact fl) (hsum : ∀ l, FloatSum fl l (sum l))
    (log10grid x : List ℝ) (hx : x ≠ []) (B : ℝ) (hB : ∀ v ∈ x, |v| ≤ B) (rate : ℝ) (hr : 0 < rate)
    (taus : TausArg) (hN : x.length ≤ 2 ^ 45 + 1) (ht : SafeTaus rate taus) :
    (∃ e, ttotdev_fl fl sum log10grid x rate taus = .error e ∧ ttotdev x rate "phase" taus = .error e) ∨
    ∃ o o', ttotdev_fl fl sum log10grid x rate taus = .ok o ∧ ttotdev x rate "phase" taus = .ok o' ∧
      FloatClose (ttotdevBound x.length rate B) o o' := by
  have hB0 := bound_nonneg hB hx
  have hu := unitRoundoff_pos
  have hN2 : (x.length : ℝ) ≤ 2 ^ 45 + 1 := by exact_mod_cast hN
  refine ttotdev_from_mtotdev hfl x rate hr taus hN (2 * x.length + 22) (by linarith)
    (fun tau => 240 * (tau * rate + 1) * unitRoundoff * B / tau) _ _
    (mtotdev_float hfl hint hsum log10grid x B hB rate hr taus hN ht) (fun t ht => by positivity) ?_
  intro tau dev n h0
  unfold ttotdevBound
  apply le_of_eq
  field_simp
  ring

/-! ## Data with errors -/

theorem halfSlope_perturb {s' s : ℕ → ℝ} {m : ℕ} {δ : ℝ} (hm : 0 < m) (h : ∀ k < 3 * m, |s' k - s k| ≤ δ) :
    |halfSlope s' m 1 - halfSlope s m 1| ≤ 2 * δ / (3 * m - 3 * m / 2 : ℕ) := by
  unfold halfSlope
  simp only [mul_one]
  set q := 3 * m / 2 with hq
  have hq0 : (0 : ℝ) < q := by exact_mod_cast (show 0 < q by omega)
  have hd : (0 : ℝ) < ((3 * m - q : ℕ) : ℝ) := by exact_mod_cast (show 0 < 3 * m - q by omega)
  have key : ∀ o, o + q ≤ 3 * m → |(∑ k ∈ range q, s' (o + k)) / q - (∑ k ∈ range q, s (o + k)) / q| ≤ δ := by
    intro o ho
    rw [← sub_div, ← Finset.sum_sub_distrib, abs_div, abs_of_pos hq0, div_le_iff₀ hq0]
    refine (Finset.abs_sum_le_sum_abs _ _).trans ?_
    refine (Finset.sum_le_sum (g := fun _ => δ) fun k hk => h _ ?_).trans (by simp [mul_comm])
    have := Finset.mem_range.1 hk
    omega
  have k1 := abs_le.1 (key (3 * m - q) (by omega))
  have k2 := abs_le.1 (key 0 (by omega))
  simp only [Nat.zero_add] at k2
  rw [← sub_div, abs_div, abs_of_pos hd]
  apply div_le_div_of_nonneg_right _ hd.le
  rw [abs_le]
  constructor <;> linarith [k1.1, k1.2, k2.1, k2.2]

theorem totQ_perturb {s' s : ℕ → ℝ} {m : ℕ} {δ : ℝ} (hm : 0 < m) (h : ∀ k < 3 * m, |s' k - s k| ≤ δ) (j : ℕ)
    (hj : j < 6 * m) :
    |(∑ k ∈ range m, d2 (mirror (fun k => s' k - halfSlope s' m 1 * k) (3 * m)) m (j + k)) / m -
      (∑ k ∈ range m, d2 (mirror (fun k => s k - halfSlope s m 1 * k) (3 * m)) m (j + k)) / m| ≤ 12 * δ := by
  have hδ : 0 ≤ δ := (abs_nonneg _).trans (h 0 (by omega))
  have hm' : (0 : ℝ) < m := by exact_mod_cast hm
  have hd : (0 : ℝ) < ((3 * m - 3 * m / 2 : ℕ) : ℝ) := by
    exact_mod_cast (show 0 < 3 * m - 3 * m / 2 by omega)
  have sh : ∀ z : ℕ → ℝ, ∀ i, d2 (mirror (fun k => z k - halfSlope z m 1 * k) (3 * m)) m i =
      d2 (mirror (fun k => z k - halfSlope z m 1 * ((k : ℝ) - (3 * m / 2 : ℕ))) (3 * m)) m i := by
    intro z i
    rw [← d2_mirror_shift _ (halfSlope z m 1 * (3 * m / 2 : ℕ))]
    congr 2
    funext k
    ring
  simp only [sh]
  have hg : ∀ k < 3 * m, |(s' k - halfSlope s' m 1 * ((k : ℝ) - (3 * m / 2 : ℕ))) -
      (s k - halfSlope s m 1 * ((k : ℝ) - (3 * m / 2 : ℕ)))| ≤ 3 * δ := by
    intro k hk
    have e : (s' k - halfSlope s' m 1 * ((k : ℝ) - (3 * m / 2 : ℕ))) -
      (s k - halfSlope s m 1 * ((k : ℝ) - (3 * m / 2 : ℕ))) =
      (s' k - s k) - (halfSlope s' m 1 - halfSlope s m 1) * ((k : ℝ) - (3 * m / 2 : ℕ)) := by ring
    rw [e]
    refine (abs_sub _ _).trans ?_
    have d2 : |(k : ℝ) - (3 * m / 2 : ℕ)| ≤ ((3 * m - 3 * m / 2 : ℕ) : ℝ) := by
      rw [abs_le]
      have p1 : ((3 * m / 2 : ℕ) : ℝ) ≤ k + ((3 * m - 3 * m / 2 : ℕ) : ℝ) := by
        exact_mod_cast (show 3 * m / 2 ≤ k + (3 * m - 3 * m / 2) by omega)
      have p2 : (k : ℝ) ≤ ((3 * m / 2 : ℕ) : ℝ) + ((3 * m - 3 * m / 2 : ℕ) : ℝ) := by
        exact_mod_cast (show k ≤ 3 * m / 2 + (3 * m - 3 * m / 2) by omega)
      constructor <;> linarith
    have d3 := mul_le_mul (halfSlope_perturb hm h) d2 (abs_nonneg _) (by positivity)
    rw [div_mul_cancel₀ _ hd.ne'] at d3
    rw [abs_mul]
    linarith [h k hk]
  have hmir : ∀ i < 9 * m, |mirror (fun k => s' k - halfSlope s' m 1 * ((k : ℝ) - (3 * m / 2 : ℕ))) (3 * m) i -
      mirror (fun k => s k - halfSlope s m 1 * ((k : ℝ) - (3 * m / 2 : ℕ))) (3 * m) i| ≤ 3 * δ := by
    intro i hi
    unfold Spec.mirror
    split_ifs with h1 h2
    · exact hg _ (by omega)
    · exact hg _ (by omega)
    · exact hg _ (by omega)
  rw [← sub_div, ← Finset.sum_sub_distrib, abs_div, abs_of_pos hm', div_le_iff₀ hm']
  refine (Finset.abs_sum_le_sum_abs _ _).trans ?_
  refine (Finset.sum_le_sum (g := fun _ => 12 * δ) fun k hk => ?_).trans (by simp [mul_comm])
  have hk := Finset.mem_range.1 hk
  have := d2_perturb (hmir (j + k + 2 * m) (by omega)) (hmir (j + k + m) (by omega)) (hmir (j + k) (by omega))
  linarith

/-- the root of the mean of the terms, for data with errors -/
theorem totTerm_rms_perturb {x' x : ℕ → ℝ} {N m : ℕ} {δ D : ℝ} (hm : 0 < m) (hmN : 3 * m ≤ N) (hD : 0 < D)
    (h : ∀ i < N, |x' i - x i| ≤ δ) :
    |√((∑ i ∈ range (N - 3 * m + 1), totTerm (fun k => x' (i + k)) m) / D) -
      √((∑ i ∈ range (N - 3 * m + 1), totTerm (fun k => x (i + k)) m) / D)| ≤
      12 * δ * √(((N - 3 * m + 1 : ℕ) : ℝ) / D) := by
  have hδ : 0 ≤ δ := (abs_nonneg _).trans (h 0 (by omega))
  have hm' : (0 : ℝ) < m := by exact_mod_cast hm
  set n := N - 3 * m + 1
  have hq := wrms_perturb (range n ×ˢ range (6 * m)) (fun _ => 1 / (6 * (m : ℝ)))
    (fun p => (∑ k ∈ range m, d2 (mirror (fun k => x' (p.1 + k) - halfSlope (fun k => x' (p.1 + k)) m 1 * k)
      (3 * m)) m (p.2 + k)) / m)
    (fun p => (∑ k ∈ range m, d2 (mirror (fun k => x (p.1 + k) - halfSlope (fun k => x (p.1 + k)) m 1 * k)
      (3 * m)) m (p.2 + k)) / m) D (12 * δ) hD (by positivity) (fun _ _ => by positivity)
    (fun p hp => by
      have h1 := Finset.mem_range.1 (Finset.mem_product.1 hp).1
      exact totQ_perturb (s' := fun k => x' (p.1 + k)) (s := fun k => x (p.1 + k)) hm
        (fun k hk => h _ (by omega)) p.2 (Finset.mem_range.1 (Finset.mem_product.1 hp).2))
  rw [Finset.sum_product, Finset.sum_product, Finset.sum_product] at hq
  simp only [← Finset.mul_sum, Finset.sum_const, card_range, nsmul_eq_mul] at hq
  have e1 : ∀ z : ℕ → ℝ, 1 / (6 * (m : ℝ)) * ∑ i ∈ range n, ∑ j ∈ range (6 * m),
      ((∑ k ∈ range m, d2 (mirror (fun k => z (i + k) - halfSlope (fun k => z (i + k)) m 1 * k)
      (3 * m)) m (j + k)) / m) ^ 2 = ∑ i ∈ range n, totTerm (fun k => z (i + k)) m := by
    intro z
    rw [Finset.mul_sum]
    exact Finset.sum_congr rfl fun i _ => one_div_mul_eq_div _ _
  have e2 : ((6 * m : ℕ) : ℝ) * ((n : ℝ) * (1 / (6 * (m : ℝ)))) = n := by
    push_cast
    field_simp
  rw [e1, e1, e2] at hq
  exact hq

theorem mtotdev_perturb {x' x : ℕ → ℝ} {N m : ℕ} {δ τ b : ℝ} (hτ : 0 < τ)
    (h : ∀ i < N, |x' i - (x i + b * i)| ≤ δ) (hm : 0 < m) (hmN : 3 * m ≤ N) :
    |Spec.mtotdev x' N m τ - Spec.mtotdev x N m τ| ≤ 85 / 10 * δ / τ := by
  have hδ : 0 ≤ δ := (abs_nonneg _).trans (h 0 (by omega))
  rw [← mtotdev_affine x 0 b N m hm τ]
  have e : ((N : ℝ) - 3 * m + 1) = ((N - 3 * m + 1 : ℕ) : ℝ) := by
    rw [Nat.cast_add, Nat.cast_sub hmN]; push_cast; ring
  have hn' : (0 : ℝ) < ((N - 3 * m + 1 : ℕ) : ℝ) := by positivity
  have h' : ∀ i < N, |x' i - (fun i : ℕ => x i + (0 + b * i)) i| ≤ δ := fun i hi => by
    simp only [zero_add]; exact h i hi
  generalize (fun i : ℕ => x i + (0 + b * i)) = z at h' ⊢
  unfold Spec.mtotdev
  rw [e]
  refine (totTerm_rms_perturb hm hmN (by positivity) h').trans ?_
  have s1 : √(((N - 3 * m + 1 : ℕ) : ℝ) / (2 * τ ^ 2 * ((N - 3 * m + 1 : ℕ) : ℝ))) ≤ 7072 / 10000 / τ := by
    rw [Real.sqrt_le_left (by positivity)]
    have e : ((N - 3 * m + 1 : ℕ) : ℝ) / (2 * τ ^ 2 * ((N - 3 * m + 1 : ℕ) : ℝ)) = 1 / 2 / τ ^ 2 := by
      field_simp
    rw [e, div_pow]
    apply div_le_div_of_nonneg_right _ (by positivity)
    norm_num
  refine (mul_le_mul_of_nonneg_left s1 (by positivity)).trans ?_
  rw [← mul_div_assoc]
  apply div_le_div_of_nonneg_right _ hτ.le
  linarith

theorem htotdev_perturb {y' y : ℕ → ℝ} {N m : ℕ} {δ : ℝ}
    (h : ∀ i < N, |y' i - y i| ≤ δ) (hm : 0 < m) (hmN : 3 * m ≤ N) :
    |Spec.htotdev y' N m - Spec.htotdev y N m| ≤ 49 / 10 * δ := by
  have hδ : 0 ≤ δ := (abs_nonneg _).trans (h 0 (by omega))
  have e : ((N : ℝ) - 3 * m + 1) = ((N - 3 * m + 1 : ℕ) : ℝ) := by
    rw [Nat.cast_add, Nat.cast_sub hmN]; push_cast; ring
  have hn' : (0 : ℝ) < ((N - 3 * m + 1 : ℕ) : ℝ) := by positivity
  unfold Spec.htotdev
  rw [e]
  refine (totTerm_rms_perturb hm hmN (by positivity) h).trans ?_
  have s1 : √(((N - 3 * m + 1 : ℕ) : ℝ) / (6 * ((N - 3 * m + 1 : ℕ) : ℝ))) ≤ 4083 / 10000 := by
    rw [Real.sqrt_le_left (by positivity)]
    have e : ((N - 3 * m + 1 : ℕ) : ℝ) / (6 * ((N - 3 * m + 1 : ℕ) : ℝ)) = 1 / 6 := by
      field_simp
    rw [e]
    norm_num
  refine (mul_le_mul_of_nonneg_left s1 (by positivity)).trans ?_
  linarith

/-! ## `mtotdev` and `ttotdev` of inexact phase data and of frequency data -/

theorem mtotdev_near_aux (hfl : FloatRound fl) (hint : IntExact fl) (hsum : ∀ l, FloatSum fl l (sum l))
    (log10grid x' x : List ℝ) (B δ b : ℝ) (hB : ∀ v ∈ x', |v| ≤ B) (hl : x'.length = x.length)
    (hδ : ∀ i < x.length, |seq x' i - (seq x i + b * i)| ≤ δ) (rate : ℝ) (hr : 0 < rate) (taus : TausArg)
    (hN : x.length ≤ 2 ^ 45 + 1) (ht : SafeTaus rate taus)
    (bound : ℝ → ℝ → ℤ → ℝ) (hbound : ∀ tau dev n, 0 < tau →
      mtotdevBound x.length rate B tau dev n + 92 / 10 * δ / tau ≤ bound tau dev n) :
    (∃ e, mtotdev_fl fl sum log10grid x' rate taus = .error e ∧ mtotdev x rate "phase" taus = .error e) ∨
    ∃ o o', mtotdev_fl fl sum log10grid x' rate taus = .ok o ∧ mtotdev x rate "phase" taus = .ok o' ∧
      FloatClose bound o o' := by
  have h := mtotdev_float hfl hint hsum log10grid x' B hB rate hr taus (hl ▸ hN) ht
  have e' := mtotdev_phase_eq x' rate taus
  rw [hl] at e' h
  refine near_of_close h e' (mtotdev_phase_eq x rate taus) (fun m hm0 hmN _ hn r hr' => ?_)
  have hτ : (0 : ℝ) < m / rate := by
    have : (0 : ℝ) < m := by exact_mod_cast hm0
    positivity
  refine le_trans ?_ (hbound _ _ _ hτ)
  have hp := mtotdev_perturb (x' := seq x') (x := seq x) (N := x.length) (m := m) (b := b) hτ hδ hm0 (by omega)
  have hN2 : (x.length : ℝ) ≤ 2 ^ 45 + 1 := by exact_mod_cast hN
  unfold mtotdevBound at hr' ⊢
  refine row_near hr' hp (by omega) (by omega) (by positivity) (by linarith) ?_
  have hδ0 : 0 ≤ δ := (abs_nonneg _).trans (hδ 0 (by omega))
  have : 0 ≤ δ / (m / rate) := by positivity
  rw [mul_div_assoc, mul_div_assoc _ δ]
  linarith

/-- C100: `mtotdev` in double precision of phase data `x'` with errors -/
theorem mtotdev_near (hfl : FloatRound fl) (hint : IntExact fl) (hsum : ∀ l, FloatSum fl l (sum l))
    (log10grid x' x : List ℝ) (B δ b : ℝ) (hB : ∀ v ∈ x', |v| ≤ B) (hl : x'.length = x.length)
    (hδ : ∀ i < x.length, |seq x' i - (seq x i + b * i)| ≤ δ) (rate : ℝ) (hr : 0 < rate) (taus : TausArg)
    (hN : x.length ≤ 2 ^ 45 + 1) (ht : SafeTaus rate taus) :
    (∃ e, mtotdev_fl fl sum log10grid x' rate taus = .error e ∧ mtotdev x rate "phase" taus = .error e) ∨
    ∃ o o', mtotdev_fl fl sum log10grid x' rate taus = .ok o ∧ mtotdev x rate "phase" taus = .ok o' ∧
      FloatClose (fun tau dev n => mtotdevBound x.length rate B tau dev n + 92 / 10 * δ / tau) o o' :=
  mtotdev_near_aux hfl hint hsum log10grid x' x B δ b hB hl hδ rate hr taus hN ht _ (fun _ _ _ _ => le_rfl)

/-- the errors of the phase computed from frequency data -/
theorem mtotdev_freq_aux (hfl : FloatRound fl) (hint : IntExact fl) (hsum : ∀ l, FloatSum fl l (sum l))
    (log10grid y : List ℝ) (hy : y ≠ []) (Y Z : ℝ) (hY : ∀ v ∈ y, |v| ≤ Y)
    (hZ : ∀ v ∈ y, |v - Spec.mean y| ≤ Z) (rate : ℝ) (hr : 0 < rate)
    (taus : TausArg) (hN : y.length ≤ 2 ^ 45) (ht : SafeTaus rate taus) :
    ∃ x', ∃ x : List ℝ, x.length = y.length + 1 ∧ frequency2phase_fl fl sum y rate = .ok x' ∧
      frequency2phase y rate = .ok x ∧
    ((∃ e, mtotdev_fl fl sum log10grid x' rate taus = .error e ∧ mtotdev x rate "phase" taus = .error e) ∨
    ∃ o o', mtotdev_fl fl sum log10grid x' rate taus = .ok o ∧ mtotdev x rate "phase" taus = .ok o' ∧
      FloatClose (mtotdevFreqBound y.length rate (Z + 2 * y.length * unitRoundoff * Y)) o o') := by
  have hN0 : 0 < y.length := List.length_pos_iff.2 hy
  obtain ⟨x', x, b, h1, h2, h3', h3, hb, h4, h5⟩ :=
    frequency2phase_float hfl hsum y hy Y Z hY hZ rate hr (by omega)
  have hY0 : 0 ≤ Y := (abs_nonneg _).trans (hY _ (seq_mem y 0 hN0))
  have hF : 0 ≤ Z + 2 * y.length * unitRoundoff * Y := by
    have := (abs_nonneg _).trans (hZ _ (seq_mem y 0 hN0))
    have := unitRoundoff_pos
    positivity
  refine ⟨x', x, h3, h1, h2, ?_⟩
  refine mtotdev_near_aux hfl hint hsum log10grid x' x _ _ b h5 (h3'.trans h3.symm) h4 rate hr taus
    (by rw [h3]; omega) ht _ (fun τ dev n hτ => ?_)
  unfold mtotdevBound mtotdevFreqBound
  have hu := unitRoundoff_pos
  set F := Z + 2 * y.length * unitRoundoff * Y with hFd
  rw [h3]
  have g1 : 0 ≤ (τ * rate + 1) * (y.length * unitRoundoff * (F / rate) / τ) := by positivity
  have g2 : 0 ≤ y.length ^ 2 * unitRoundoff * (F / rate) / τ := by positivity
  have k1 : 240 * (τ * rate + 1) * unitRoundoff * (17 / 16 * y.length * (F / rate)) / τ =
      240 * (17 / 16) * ((τ * rate + 1) * (y.length * unitRoundoff * (F / rate) / τ)) := by ring
  have k2 : 92 / 10 * (6 * y.length ^ 2 * unitRoundoff * (F / rate)) / τ =
      552 / 10 * (y.length ^ 2 * unitRoundoff * (F / rate) / τ) := by ring
  have k3 : (56 * y.length ^ 2 + 255 * (τ * rate + 1) * y.length) * unitRoundoff * (F / rate) / τ =
      56 * (y.length ^ 2 * unitRoundoff * (F / rate) / τ) +
      255 * ((τ * rate + 1) * (y.length * unitRoundoff * (F / rate) / τ)) := by ring
  rw [k1, k2, k3]
  push_cast
  linarith

/-- C100: `mtotdev` of frequency data in double precision -/
theorem mtotdev_freq_float (hfl : FloatRound fl) (hint : IntExact fl) (hsum : ∀ l, FloatSum fl l (sum l))
    (log10grid y : List ℝ) (Y Z : ℝ) (hY : ∀ v ∈ y, |v| ≤ Y) (hZ : ∀ v ∈ y, |v - Spec.mean y| ≤ Z)
    (rate : ℝ) (hr : 0 < rate) (taus : TausArg) (hN : y.length ≤ 2 ^ 45) (ht : SafeTaus rate taus) :
    (∃ e, mtotdev_freq_fl fl sum log10grid y rate taus = .error e ∧ mtotdev y rate "freq" taus = .error e) ∨
    ∃ o o', mtotdev_freq_fl fl sum log10grid y rate taus = .ok o ∧ mtotdev y rate "freq" taus = .ok o' ∧
      FloatClose (mtotdevFreqBound y.length rate (Z + 2 * y.length * unitRoundoff * Y)) o o' := by
  by_cases hy : y = []
  · left
    subst hy
    refine ⟨.indexError, ?_, ?_⟩
    · simp only [mtotdev_freq_fl, frequency2phase_fl, if_neg hr.ne', if_true, error_bind]
    · simp only [mtotdev, input_to_phase, frequency2phase, if_neg hr.ne', if_true, if_neg freq_ne_phase,
        error_bind]
  obtain ⟨x', x, _, h1, h2, h⟩ := mtotdev_freq_aux hfl hint hsum log10grid y hy Y Z hY hZ rate hr taus hN ht
  have e1 : mtotdev_freq_fl fl sum log10grid y rate taus = mtotdev_fl fl sum log10grid x' rate taus := by
    simp only [mtotdev_freq_fl, h1, ok_bind]
  have e2 : mtotdev y rate "freq" taus = mtotdev x rate "phase" taus := by
    simp only [mtotdev, input_to_phase, if_neg freq_ne_phase, if_true, h2, ok_bind]
  rw [e1, e2]
  exact h

/-- C100: `ttotdev` of frequency data in double precision -/
theorem ttotdev_freq_float (hfl : FloatRound fl) (hint : IntExact fl) (hsum : ∀ l, FloatSum fl l (sum l))
    (log10grid y : List ℝ) (Y Z : ℝ) (hY : ∀ v ∈ y, |v| ≤ Y) (hZ : ∀ v ∈ y, |v - Spec.mean y| ≤ Z)
    (rate : ℝ) (hr : 0 < rate) (taus : TausArg) (hN : y.length ≤ 2 ^ 45) (ht : SafeTaus rate taus) :
    (∃ e, ttotdev_freq_fl fl sum log10grid y rate taus = .error e ∧ ttotdev y rate "freq" taus = .error e) ∨
    ∃ o o', ttotdev_freq_fl fl sum log10grid y rate taus = .ok o ∧ ttotdev y rate "freq" taus = .ok o' ∧
      FloatClose (ttotdevFreqBound y.length rate (Z + 2 * y.length * unitRoundoff * Y)) o o' := by
  by_cases hy : y = []
  · left
    subst hy
    refine ⟨.indexError, ?_, ?_⟩
    · simp only [ttotdev_freq_fl, mtotdev_freq_fl, frequency2phase_fl, if_neg hr.ne', if_true, error_bind]
    · simp only [ttotdev, mtotdev, input_to_phase, frequency2phase, if_neg hr.ne', if_true,
        if_neg freq_ne_phase, error_bind]
  have hN0 : 0 < y.length := List.length_pos_iff.2 hy
  have hu := unitRoundoff_pos
  have hF : 0 ≤ Z + 2 * y.length * unitRoundoff * Y := by
    have := (abs_nonneg _).trans (hY _ (seq_mem y 0 hN0))
    have := (abs_nonneg _).trans (hZ _ (seq_mem y 0 hN0))
    positivity
  obtain ⟨x', x, hxl, h1, h2, h⟩ := mtotdev_freq_aux hfl hint hsum log10grid y hy Y Z hY hZ rate hr taus hN ht
  have e1 : ttotdev_freq_fl fl sum log10grid y rate taus =
      (mtotdev_fl fl sum log10grid x' rate taus >>= fun r => scaleToTdev_fl fl r) := by
    simp only [ttotdev_freq_fl, mtotdev_freq_fl, h1, ok_bind]
  have e2 : ttotdev y rate "freq" taus = ttotdev x rate "phase" taus := by
    simp only [ttotdev, mtotdev, input_to_phase, if_neg freq_ne_phase, if_true, h2, ok_bind]
  rw [e1, e2]
  set F := Z + 2 * y.length * unitRoundoff * Y with hFd
  have hN2 : (y.length : ℝ) ≤ 2 ^ 45 := by exact_mod_cast hN
  refine ttotdev_from_mtotdev hfl x rate hr taus (by omega) (2 * y.length + 24) (by linarith)
    (fun tau => (56 * y.length ^ 2 + 255 * (tau * rate + 1) * y.length) * unitRoundoff * (F / rate) / tau) _ _
    h (fun t ht => by positivity) ?_
  intro tau dev n h0
  unfold ttotdevFreqBound
  have g2 : 0 ≤ y.length ^ 2 * unitRoundoff * (F / rate) := by positivity
  have k : 6 / 10 * ((56 * y.length ^ 2 + 255 * (tau * rate + 1) * y.length) * unitRoundoff * (F / rate) / tau) * tau =
      336 / 10 * (y.length ^ 2 * unitRoundoff * (F / rate)) +
        153 * (tau * rate + 1) * y.length * unitRoundoff * (F / rate) := by
    generalize F / rate = G
    field_simp
    ring
  rw [k]
  have k3 : (34 * y.length ^ 2 + 153 * (tau * rate + 1) * y.length) * unitRoundoff * (F / rate) =
      34 * (y.length ^ 2 * unitRoundoff * (F / rate)) +
        153 * (tau * rate + 1) * y.length * unitRoundoff * (F / rate) := by ring
  rw [k3]
  have k4 : (2 : ℝ) * y.length + 24 + 4 = 2 * y.length + 28 := by ring
  rw [k4]
  linarith

/-! ## `htotdev` -/

theorem htot_driver (hfl : FloatRound fl) (hint : IntExact fl) (log10grid freq : List ℝ) (rate : ℝ)
    (taus : TausArg) (hN : freq.length ≤ 2 ^ 47) (ht : SafeTaus rate taus) (bound : ℝ → ℝ → ℤ → ℝ)
    (body : ℕ → Py (ℝ × ℝ × ℤ)) (dev : ℕ → ℝ) (n : ℕ → ℤ)
    (H : ∀ m, 0 < m → 3 * m ≤ freq.length →
      ∃ row, body m = .ok row ∧ (1 < row.2.2 ↔ 1 < n m) ∧
        (1 < n m → row.2.2 = n m ∧ |row.1 - dev m| ≤ bound (m / rate) (dev m) (n m) ∧
          |row.2.1 - row.1 / √(n m : ℝ)| ≤ 4 * unitRoundoff * |row.1 / √(n m : ℝ)|)) (o o' : Py (DevOut ℝ))
    (ho : o = (tau_generator_fl fl log10grid freq rate taus false (fl ((freq.length : ℝ) / 3)) >>= fun r =>
      runTaus r.2.2 r.2.1 (fun _ m => body m)))
    (ho' : o' = table freq.length rate taus false ((freq.length : ℝ) / 3) dev (fun m => dev m / √(n m : ℝ)) n) :
    (∃ e, o = .error e ∧ o' = .error e) ∨ ∃ t t', o = .ok t ∧ o' = .ok t' ∧ FloatClose bound t t' := by
  have h := driver_floatE hfl bound (fun _ d n => d / √(n : ℝ))
    log10grid freq rate taus false (fl ((freq.length : ℝ) / 3)) hN ht body dev (fun m => dev m / √(n m : ℝ)) n
    (fun _ m hm0 _ _ hmax => by
      rw [effMax_fl_third hfl hint _ hN, fl_third hfl hint _ _ hN] at hmax
      exact H m hm0 (third_le hmax))
  have e1 : o' = table freq.length rate taus false
      (effMax freq.length (fl ((freq.length : ℝ) / 3))) dev (fun m => dev m / √(n m : ℝ)) n := by
    rw [ho']
    unfold table
    rw [factors_third hfl hint _ hN]
  rw [e1, ho]
  rcases h with h | ⟨o, o', h1, h2, h3⟩
  · exact Or.inl h
  · exact Or.inr ⟨o, o', h1, h2, h3.close⟩

theorem phase2frequency_fl_length (phase : List ℝ) (rate : ℝ) :
    (phase2frequency_fl fl phase rate).length = phase.length - 1 := by
  simp [phase2frequency_fl, vscale_fl, tab]

theorem phase2frequency_fl_near (hfl : FloatRound fl) (x : List ℝ) (B : ℝ) (hB : ∀ v ∈ x, |v| ≤ B) (rate : ℝ)
    (hr : 0 < rate) (i : ℕ) (hi : i < x.length - 1) :
    NearA 2 (seq (phase2frequency_fl fl x rate) i) (Spec.freqOf (seq x) rate i) (2 * B * rate) := by
  have e : seq (phase2frequency_fl fl x rate) i = fl (rate * fl (seq x (i + 1) - seq x i)) := by
    unfold phase2frequency_fl vscale_fl
    rw [seq_map _ _ (by simpa [tab] using hi), seq_tab _ _ hi]
    rfl
  rw [e]
  have h1 := NearA.exact (hB _ (seq_mem x i (by omega)))
  have h2 := NearA.exact (hB _ (seq_mem x (i + 1) (by omega)))
  have h := (((h2.sub h1).fl hfl).const_mul rate).fl hfl
  refine h.mono_size ?_
  rw [abs_of_pos hr]
  linarith

/-- C100: `htotdev` of phase data in double precision -/
theorem htotdev_float (hfl : FloatRound fl) (hint : IntExact fl) (hsum : ∀ l, FloatSum fl l (sum l))
    (log10grid x : List ℝ) (B : ℝ) (hB : ∀ v ∈ x, |v| ≤ B) (rate : ℝ) (hr : 0 < rate) (taus : TausArg)
    (hN : x.length ≤ 2 ^ 45 + 2) (ht : SafeTaus rate taus) :
    (∃ e, htotdev_fl fl sum log10grid x rate taus = .error e ∧ htotdev x rate "phase" taus = .error e) ∨
    ∃ o o', htotdev_fl fl sum log10grid x rate taus = .ok o ∧ htotdev x rate "phase" taus = .ok o' ∧
      FloatClose (htotdevBound x.length rate B) o o' := by
  have hu := unitRoundoff_pos
  set freq := phase2frequency_fl fl x rate with hfreq
  have hlen : freq.length = x.length - 1 := phase2frequency_fl_length x rate
  refine htot_driver hfl hint log10grid freq rate taus (by omega) ht (htotdevBound x.length rate B)
    (fun m => if m = 1 then calc_hdev_phase_fl fl sum x rate m 1 else calc_htotdev_freq_fl fl sum freq m)
    (fun m => Spec.htotdev' (seq x) (Spec.freqOf (seq x) rate) x.length (x.length - 1) m (m / rate))
    (fun m => Spec.htotCount x.length (x.length - 1) m) (fun m hm0 hm3 => ?_) _ _ ?_ ?_
  · have hB0 : 0 ≤ B := (abs_nonneg _).trans (hB _ (seq_mem x 0 (by omega)))
    by_cases hm1 : m = 1
    · subst hm1
      obtain ⟨row, h1, h2, h3⟩ := ohdev_row_float hfl hsum x B hB rate hr (by omega) 1 one_pos (by omega)
      simp only [if_true, Spec.htotdev', Spec.htotCount]
      have e3 : (x.length : ℤ) - 3 = (x.length : ℤ) - 3 * (1 : ℕ) := by norm_num
      rw [e3]
      refine ⟨row, h1, h2, fun hn => ?_⟩
      obtain ⟨h4, h5, h6⟩ := h3 hn
      refine ⟨h4, h5.trans ?_, h6⟩
      have hd : 0 ≤ Spec.ohdev (seq x) x.length 1 ((1 : ℕ) / rate) := by
        unfold Spec.ohdev
        exact Real.sqrt_nonneg _
      generalize Spec.ohdev (seq x) x.length 1 ((1 : ℕ) / rate) = d at hd
      unfold Spec.hdevBound htotdevBound
      have g1 : 0 ≤ (x.length : ℝ) * (unitRoundoff * d) := by positivity
      have g2 : 0 ≤ unitRoundoff * B * rate := by positivity
      have k1 : 15 * unitRoundoff * B / (((1 : ℕ) : ℝ) / rate) = 15 * (unitRoundoff * B * rate) := by
        push_cast
        field_simp
      have k2 : 170 * (((1 : ℕ) : ℝ) / rate * rate + 1) * unitRoundoff * (B * rate) =
          340 * (unitRoundoff * B * rate) := by
        push_cast
        field_simp
        ring
      rw [k1, k2]
      linarith
    · simp only [if_neg hm1, Spec.htotdev', Spec.htotCount]
      have hnear := fun i (hi : i < x.length - 1) => phase2frequency_fl_near hfl x B hB rate hr i hi
      rw [← hfreq] at hnear
      have hG : 0 ≤ 2 * B * rate := by positivity
      have hfB : ∀ v ∈ freq, |v| ≤ 16001 / 16000 * (2 * B * rate) := by
        intro v hv
        obtain ⟨i, hi, rfl⟩ := List.getElem_of_mem hv
        have h1 := (hnear i (by omega)).abs_le
        have e : seq freq i = freq[i] := by simp [seq, List.getD_eq_getElem?_getD, hi]
        rw [e] at h1
        refine h1.trans (mul_le_mul_of_nonneg_right ?_ hG)
        unfold unitRoundoff
        norm_num
      obtain ⟨row, h1, h2, h3, h4⟩ := calc_htotdev_freq_fl_row hfl hsum freq _ hfB m hm0 hm3 (by omega)
      have hp := htotdev_perturb (y' := seq freq) (y := Spec.freqOf (seq x) rate) (N := x.length - 1) (m := m)
        (δ := 20001 / 10000 * unitRoundoff * (2 * B * rate)) (fun i hi => by
          refine (hnear i hi).2.trans (mul_le_mul_of_nonneg_right ?_ hG)
          unfold unitRoundoff
          norm_num) hm0 (by omega)
      rw [hlen] at h2 h3 h4
      have hNr : ((x.length - 1 : ℕ) : ℝ) ≤ 2 ^ 45 + 1 := by
        have : x.length - 1 ≤ 2 ^ 45 + 1 := by omega
        exact_mod_cast this
      refine ⟨row, h1, by rw [h2], fun hn => ⟨h2, ?_, h4⟩⟩
      have hrow := row_near h3 hp (by omega) (by omega) (by positivity) (by linarith) le_rfl
      refine hrow.trans ?_
      have hd : 0 ≤ Spec.htotdev (Spec.freqOf (seq x) rate) (x.length - 1) m := by
        unfold Spec.htotdev
        positivity
      have hm2 : (2 : ℝ) ≤ m := by
        have : 2 ≤ m := by omega
        exact_mod_cast this
      have hNN : ((x.length - 1 : ℕ) : ℝ) ≤ x.length := by exact_mod_cast Nat.sub_le _ _
      generalize Spec.htotdev (Spec.freqOf (seq x) rate) (x.length - 1) m = d at hd
      unfold htotdevBound
      have g0 := mul_le_mul_of_nonneg_right hNN (show 0 ≤ unitRoundoff * d by positivity)
      have g1 : 0 ≤ (m - 2) * (unitRoundoff * (B * rate)) := mul_nonneg (by linarith) (by positivity)
      have g2 : 0 ≤ unitRoundoff * (B * rate) := by positivity
      have k2 : (m : ℝ) / rate * rate = m := by field_simp
      rw [k2]
      have k3 : 81 * ((m : ℝ) + 1) * unitRoundoff * (16001 / 16000 * (2 * B * rate)) =
          81 * 2 * (16001 / 16000) * ((m - 2) * (unitRoundoff * (B * rate)) + 3 * (unitRoundoff * (B * rate))) := by
        ring
      have k4 : 17 / 16 * (49 / 10 * (20001 / 10000 * unitRoundoff * (2 * B * rate))) =
          17 / 16 * (49 / 10) * (20001 / 10000) * 2 * (unitRoundoff * (B * rate)) := by ring
      have k5 : 170 * ((m : ℝ) + 1) * unitRoundoff * (B * rate) =
          170 * ((m - 2) * (unitRoundoff * (B * rate)) + 3 * (unitRoundoff * (B * rate))) := by ring
      rw [k3, k4, k5]
      linarith
  · unfold htotdev_fl
    rw [← hfreq]
    simp only
    rw [tau_generator_float_safe hfl log10grid freq rate taus false _ (by omega) ht]
    cases factors freq.length rate taus false (effMax freq.length (fl ((freq.length : ℝ) / 3))) <;>
      simp only [ok_bind, error_bind]
  · rw [htotdev_phase_eq x rate hr.le, hlen]

/-- C100: `htotdev` of frequency data in double precision -/
theorem htotdev_freq_float (hfl : FloatRound fl) (hint : IntExact fl) (hsum : ∀ l, FloatSum fl l (sum l))
    (log10grid y : List ℝ) (Y Z : ℝ) (hY : ∀ v ∈ y, |v| ≤ Y) (hZ : ∀ v ∈ y, |v - Spec.mean y| ≤ Z)
    (rate : ℝ) (hr : 0 < rate) (taus : TausArg) (hN : y.length ≤ 2 ^ 45 + 1) (ht : SafeTaus rate taus) :
    (∃ e, htotdev_freq_fl fl sum log10grid y rate taus = .error e ∧ htotdev y rate "freq" taus = .error e) ∨
    ∃ o o', htotdev_freq_fl fl sum log10grid y rate taus = .ok o ∧ htotdev y rate "freq" taus = .ok o' ∧
      FloatClose (htotdevFreqBound y.length rate (Z + 2 * y.length * unitRoundoff * Y) Y) o o' := by
  have hu := unitRoundoff_pos
  by_cases hy : y = []
  · left
    subst hy
    refine ⟨.indexError, ?_, ?_⟩
    · simp only [htotdev_freq_fl, frequency2phase_fl, if_neg hr.ne', if_true, error_bind]
    · simp only [htotdev, frequency2phase, if_neg hr.ne', if_true, if_neg freq_ne_phase,
        error_bind]
  have hN0 : 0 < y.length := List.length_pos_iff.2 hy
  obtain ⟨x', x, b, h1, h2, h3', h3, hb, h4, h5⟩ :=
    frequency2phase_float hfl hsum y hy Y Z hY hZ rate hr (by omega)
  have hY0 : 0 ≤ Y := (abs_nonneg _).trans (hY _ (seq_mem y 0 hN0))
  have hF : 0 ≤ Z + 2 * y.length * unitRoundoff * Y := by
    have := (abs_nonneg _).trans (hZ _ (seq_mem y 0 hN0))
    positivity
  obtain ⟨x₂, h6, _, hexact⟩ := htotdev_freq_eq y hy rate hr taus
  obtain rfl : x = x₂ := by
    rw [h2] at h6
    exact Except.ok.inj h6
  set F := Z + 2 * y.length * unitRoundoff * Y with hFd
  refine htot_driver hfl hint log10grid y rate taus (by omega) ht (htotdevFreqBound y.length rate F Y)
    (fun m => if m = 1 then calc_hdev_phase_fl fl sum x' rate m 1 else calc_htotdev_freq_fl fl sum y m)
    (fun m => Spec.htotdev' (seq x) (seq y) x.length y.length m (m / rate))
    (fun m => Spec.htotCount x.length y.length m) (fun m hm0 hm3 => ?_) _ _ ?_ hexact
  · by_cases hm1 : m = 1
    · subst hm1
      obtain ⟨row, r1, r2, r3⟩ := ohdev_row_float hfl hsum x' _ h5 rate hr (by omega) 1 one_pos (by omega)
      simp only [if_true, Spec.htotdev', Spec.htotCount]
      have e3 : (x.length : ℤ) - 3 = (x.length : ℤ) - 3 * (1 : ℕ) := by norm_num
      rw [e3]
      have hl : x'.length = x.length := h3'.trans h3.symm
      rw [hl] at r2 r3
      refine ⟨row, r1, r2, fun hn => ?_⟩
      obtain ⟨r4, r5, r6⟩ := r3 hn
      refine ⟨r4, ?_, r6⟩
      have hτ : (0 : ℝ) < (1 : ℕ) / rate := by positivity
      have hp := ohdev_perturb (x' := seq x') (x := seq x) (N := x.length) (m := 1) (b := b) hτ h4 (by omega)
      unfold Spec.hdevBound at r5
      have hδ0 : 0 ≤ 6 * (y.length : ℝ) ^ 2 * unitRoundoff * (F / rate) := by positivity
      have hrow := row_near (e' := 35 / 10 * (6 * y.length ^ 2 * unitRoundoff * (F / rate)) / (((1 : ℕ) : ℝ) / rate))
        r5 hp (by omega) (by omega) (by norm_num) (by norm_num) (by
          have : 0 ≤ 6 * (y.length : ℝ) ^ 2 * unitRoundoff * (F / rate) / (((1 : ℕ) : ℝ) / rate) := by positivity
          rw [div_right_comm, mul_div_assoc, mul_div_assoc _ (6 * (y.length : ℝ) ^ 2 * unitRoundoff * (F / rate))]
          linarith)
      refine hrow.trans ?_
      rw [add_assoc]
      refine (add_le_add le_rfl (freq_bound (c := 37) hN0 hF hr hτ (by norm_num) (by norm_num))).trans ?_
      have hd : 0 ≤ Spec.ohdev (seq x) x.length 1 ((1 : ℕ) / rate) := by
        unfold Spec.ohdev
        exact Real.sqrt_nonneg _
      generalize Spec.ohdev (seq x) x.length 1 ((1 : ℕ) / rate) = d at hd
      unfold htotdevFreqBound
      have k1 : ((1 : ℕ) : ℝ) / rate * rate = 1 := by
        push_cast
        field_simp
      rw [if_pos k1]
      have g1 : 0 ≤ (y.length : ℝ) * (unitRoundoff * d) := by positivity
      have k2 : 37 * (y.length : ℝ) ^ 2 * unitRoundoff * (F / rate) / (((1 : ℕ) : ℝ) / rate) =
          37 * y.length ^ 2 * unitRoundoff * F := by
        push_cast
        field_simp
      rw [k2]
      linarith
    · simp only [if_neg hm1, Spec.htotdev', Spec.htotCount]
      obtain ⟨row, r1, r2, r3, r4⟩ := calc_htotdev_freq_fl_row hfl hsum y Y hY m hm0 hm3 hN
      refine ⟨row, r1, by rw [r2], fun hn => ⟨r2, r3.trans (le_of_eq ?_), r4⟩⟩
      unfold htotdevFreqBound
      have k1 : (m : ℝ) / rate * rate = m := by field_simp
      rw [k1, if_neg (by exact_mod_cast hm1)]
  · simp only [htotdev_freq_fl, h1, ok_bind]
    rw [tau_generator_float_safe hfl log10grid y rate taus false _ (by omega) ht]
    cases factors y.length rate taus false (effMax y.length (fl ((y.length : ℝ) / 3))) <;>
      simp only [ok_bind, error_bind]

/-- the hypotheses can be met: seven frequencies, or eight phases, with `m = 2` -/
example : ∃ (fl : ℝ → ℝ) (sum : List ℝ → ℝ), (∀ x, IsBinary64 x (fl x)) ∧
    (∃ o o', mtotdev_fl fl sum [] [0, 0, 1 / 2, 0, 0, 0, -1 / 2, 0] 2 (.list [(2 : ℕ) / 2]) = .ok o ∧
      mtotdev [0, 0, 1 / 2, 0, 0, 0, -1 / 2, 0] 2 "phase" (.list [(2 : ℕ) / 2]) = .ok o' ∧ o'.ns = [3] ∧
      FloatClose (mtotdevBound 8 2 (1 / 2)) o o') ∧
    (∃ o o', ttotdev_fl fl sum [] [0, 0, 1 / 2, 0, 0, 0, -1 / 2, 0] 2 (.list [(2 : ℕ) / 2]) = .ok o ∧
      ttotdev [0, 0, 1 / 2, 0, 0, 0, -1 / 2, 0] 2 "phase" (.list [(2 : ℕ) / 2]) = .ok o' ∧ o'.ns = [3] ∧
      FloatClose (ttotdevBound 8 2 (1 / 2)) o o') ∧
    (∃ o o', htotdev_fl fl sum [] [0, 0, 1 / 2, 0, 0, 0, -1 / 2, 0] 2 (.list [(2 : ℕ) / 2]) = .ok o ∧
      htotdev [0, 0, 1 / 2, 0, 0, 0, -1 / 2, 0] 2 "phase" (.list [(2 : ℕ) / 2]) = .ok o' ∧ o'.ns = [2] ∧
      FloatClose (htotdevBound 8 2 (1 / 2)) o o') ∧
    (∃ o o', mtotdev_freq_fl fl sum [] [1, 2, 0, 1, 1, 0, 2] 2 (.list [(2 : ℕ) / 2]) = .ok o ∧
      mtotdev [1, 2, 0, 1, 1, 0, 2] 2 "freq" (.list [(2 : ℕ) / 2]) = .ok o' ∧ o'.ns = [3] ∧
      FloatClose (mtotdevFreqBound 7 2 (1 + 2 * (7 : ℕ) * unitRoundoff * 2)) o o') ∧
    (∃ o o', ttotdev_freq_fl fl sum [] [1, 2, 0, 1, 1, 0, 2] 2 (.list [(2 : ℕ) / 2]) = .ok o ∧
      ttotdev [1, 2, 0, 1, 1, 0, 2] 2 "freq" (.list [(2 : ℕ) / 2]) = .ok o' ∧ o'.ns = [3] ∧
      FloatClose (ttotdevFreqBound 7 2 (1 + 2 * (7 : ℕ) * unitRoundoff * 2)) o o') ∧
    (∃ o o', htotdev_freq_fl fl sum [] [1, 2, 0, 1, 1, 0, 2] 2 (.list [(2 : ℕ) / 2]) = .ok o ∧
      htotdev [1, 2, 0, 1, 1, 0, 2] 2 "freq" (.list [(2 : ℕ) / 2]) = .ok o' ∧ o'.ns = [2] ∧
      FloatClose (htotdevFreqBound 7 2 (1 + 2 * (7 : ℕ) * unitRoundoff * 2) 2) o o') := by
  obtain ⟨fl, h64, hfl⟩ := exists_binary64
  obtain ⟨sum, hsum⟩ := exists_floatSum fl
  have hi := binary64_intExact h64
  have ht : SafeTaus 2 (.list [(2 : ℕ) / 2]) := by
    intro t ht
    rw [List.mem_singleton] at ht
    exact ⟨2, by norm_num, by rw [ht]; norm_num⟩
  have hx : frequency2phase [1, 2, 0, 1, 1, 0, 2] 2 = .ok [0, 0, 1 / 2, 0, 0, 0, -1 / 2, 0] := by
    rw [frequency2phase_eq _ (by simp) 2 two_ne_zero]
    norm_num [tab, List.range_succ, Finset.sum_range_succ, Spec.mean, seq]
  have hB : ∀ v ∈ [(0 : ℝ), 0, 1 / 2, 0, 0, 0, -1 / 2, 0], |v| ≤ 1 / 2 := by norm_num
  have hY : ∀ v ∈ [(1 : ℝ), 2, 0, 1, 1, 0, 2], |v| ≤ 2 := by norm_num
  have hZ : ∀ v ∈ [(1 : ℝ), 2, 0, 1, 1, 0, 2], |v - Spec.mean [1, 2, 0, 1, 1, 0, 2]| ≤ 1 := by
    norm_num [Spec.mean]
  have hl : [(1 : ℝ), 2, 0, 1, 1, 0, 2].length = 7 := rfl
  have hl' : [(0 : ℝ), 0, 1 / 2, 0, 0, 0, -1 / 2, 0].length = 8 := rfl
  have em : mtotdev [0, 0, 1 / 2, 0, 0, 0, -1 / 2, 0] 2 "phase" (.list [(2 : ℕ) / 2]) = .ok ⟨[(2 : ℕ) / 2], [Spec.mtotdev (seq [0, 0, 1 / 2, 0, 0, 0, -1 / 2, 0]) 8 2 ((2 : ℕ) / 2)],
      .arr [Spec.mtotdev (seq [0, 0, 1 / 2, 0, 0, 0, -1 / 2, 0]) 8 2 ((2 : ℕ) / 2) / √((8 : ℕ) - 3 * (2 : ℕ) + 1)], [3]⟩ := by
    rw [mtotdev_phase_eq, table_single _ _ (by norm_num) _ _ _ _ _ 2 (by norm_num) (by simp)
      (by norm_num) (by simp) (by simp)]
    rfl
  have eh : ∃ o, htotdev [0, 0, 1 / 2, 0, 0, 0, -1 / 2, 0] 2 "phase" (.list [(2 : ℕ) / 2]) = .ok o ∧ o.ns = [2] := by
    rw [htotdev_phase_eq _ _ two_pos.le, table_single _ _ (by norm_num) _ _ _ _ _ 2 (by norm_num) (by simp)
      (by norm_num) (by simp) (by simp [Spec.htotCount])]
    exact ⟨_, rfl, by simp [Spec.htotCount]⟩
  have ehf : ∃ o, htotdev [1, 2, 0, 1, 1, 0, 2] 2 "freq" (.list [(2 : ℕ) / 2]) = .ok o ∧ o.ns = [2] := by
    obtain ⟨x, _, _, h⟩ := htotdev_freq_eq [1, 2, 0, 1, 1, 0, 2] (by simp) 2 two_pos (.list [(2 : ℕ) / 2])
    rw [h, table_single _ _ (by norm_num) _ _ _ _ _ 2 (by norm_num) (by simp)
      (by norm_num) (by simp) (by simp [Spec.htotCount])]
    exact ⟨_, rfl, by simp [Spec.htotCount]⟩
  have et : ∃ o, ttotdev [0, 0, 1 / 2, 0, 0, 0, -1 / 2, 0] 2 "phase" (.list [(2 : ℕ) / 2]) = .ok o ∧ o.ns = [3] := by
    simp only [ttotdev, em, ok_bind, scaleToTdev]
    exact ⟨_, rfl, rfl⟩
  have emf : mtotdev [1, 2, 0, 1, 1, 0, 2] 2 "freq" (.list [(2 : ℕ) / 2]) = mtotdev [0, 0, 1 / 2, 0, 0, 0, -1 / 2, 0] 2 "phase" (.list [(2 : ℕ) / 2]) := by
    simp only [mtotdev, input_to_phase, if_neg freq_ne_phase, if_true, hx, ok_bind]
  have etf : ttotdev [1, 2, 0, 1, 1, 0, 2] 2 "freq" (.list [(2 : ℕ) / 2]) = ttotdev [0, 0, 1 / 2, 0, 0, 0, -1 / 2, 0] 2 "phase" (.list [(2 : ℕ) / 2]) := by
    simp only [ttotdev, emf]
  have key : ∀ (f g : Py (DevOut ℝ)) (n : ℤ) (bound : ℝ → ℝ → ℤ → ℝ), (∃ o, g = .ok o ∧ o.ns = [n]) →
      ((∃ e, f = .error e ∧ g = .error e) ∨ ∃ o o', f = .ok o ∧ g = .ok o' ∧ FloatClose bound o o') →
      ∃ o o', f = .ok o ∧ g = .ok o' ∧ o'.ns = [n] ∧ FloatClose bound o o' := by
    rintro f g n bound ⟨o, rfl, ho⟩ (⟨e, _, h⟩ | ⟨o₁, o', h1, h2, h3⟩)
    · cases h
    · cases h2
      exact ⟨o₁, o, h1, rfl, ho, h3⟩
  refine ⟨fl, sum, h64, key _ _ _ _ ⟨_, em, rfl⟩ ?_, key _ _ _ _ et ?_, key _ _ _ _ eh ?_,
    key _ _ _ _ ⟨_, emf.trans em, rfl⟩ ?_, key _ _ _ _ (etf ▸ et) ?_, key _ _ _ _ ehf ?_⟩
  · exact mtotdev_float hfl hi hsum [] _ _ hB 2 two_pos _ (by rw [hl']; norm_num) ht
  · exact ttotdev_float hfl hi hsum [] _ (by simp) _ hB 2 two_pos _ (by rw [hl']; norm_num) ht
  · exact htotdev_float hfl hi hsum [] _ _ hB 2 two_pos _ (by rw [hl']; norm_num) ht
  · exact mtotdev_freq_float hfl hi hsum [] _ _ _ hY hZ 2 two_pos _ (by rw [hl]; norm_num) ht
  · exact ttotdev_freq_float hfl hi hsum [] _ _ _ hY hZ 2 two_pos _ (by rw [hl]; norm_num) ht
  · exact htotdev_freq_float hfl hi hsum [] _ _ _ hY hZ 2 two_pos _ (by rw [hl]; norm_num) ht

end AT
