import Verif.Lemmas.FloatErr
import Verif.Props.Float
import Verif.Props.Adev
import Verif.Props.Mdev
import Mathlib.Data.List.GetD

/-!
# C67: rounding errors of the deviations

Property: in double precision every deviation function returns the same taus (up to one rounding)
and numbers of terms as in exact arithmetic, and deviations with a small error: a relative
error proportional to the number of terms, and an absolute error proportional to the
largest phase value divided by tau.  No data set makes the error larger.
-/

namespace AT

open Spec Finset Real

variable {fl : ℝ → ℝ} {sum : List ℝ → ℝ}

theorem sweep_close (bound : ℝ → ℝ → ℤ → ℝ) (ms : List ℕ) (tau' tau devfl dev errfl err : ℕ → ℝ)
    (n : ℕ → ℤ)
    (H : ∀ m ∈ ms, 1 < n m → |tau' m - tau m| ≤ unitRoundoff * |tau m| ∧
      |devfl m - dev m| ≤ bound (tau m) (dev m) (n m) ∧
      |errfl m - devfl m / √(n m : ℝ)| ≤ 4 * unitRoundoff * |devfl m / √(n m : ℝ)|) :
    (∃ e, sweep ms tau' devfl errfl n = .error e ∧ sweep ms tau dev err n = .error e) ∨
    ∃ o o', sweep ms tau' devfl errfl n = .ok o ∧ sweep ms tau dev err n = .ok o' ∧
      FloatClose bound o o' := by
  unfold sweep
  set kept := ms.filter (fun m => decide (1 < n m)) with hk
  simp only
  by_cases h0 : kept = []
  · left; rw [if_pos h0, if_pos h0]; exact ⟨_, rfl, rfl⟩
  right
  rw [if_neg h0, if_neg h0]
  have H' : ∀ m ∈ kept, |tau' m - tau m| ≤ unitRoundoff * |tau m| ∧
      |devfl m - dev m| ≤ bound (tau m) (dev m) (n m) ∧
      |errfl m - devfl m / √(n m : ℝ)| ≤ 4 * unitRoundoff * |devfl m / √(n m : ℝ)| := by
    intro m hm
    rw [hk, List.mem_filter, decide_eq_true_eq] at hm
    exact H m hm.1 hm.2
  clear_value kept
  have gd : ∀ {β : Type} (f : ℕ → β) (z : β) (i : ℕ) (hi : i < kept.length),
      (kept.map f).getD i z = f kept[i] := by
    intro β f z i hi
    rw [List.getD_eq_getElem _ _ (by simpa using hi), List.getElem_map]
  refine ⟨_, _, rfl, rfl, ⟨rfl, ?_, by simp, ?_, ⟨_, rfl, by simp, ?_⟩⟩⟩
  · simp only
    rw [List.forall₂_map_left_iff, List.forall₂_map_right_iff, List.forall₂_same]
    exact fun m hm => (H' m hm).1
  · intro i hi
    simp only [List.length_map] at hi
    simp only [gd _ _ i hi]
    exact (H' _ (List.getElem_mem hi)).2.1
  · intro i hi
    simp only [List.length_map] at hi
    simp only [gd _ _ i hi]
    exact (H' _ (List.getElem_mem hi)).2.2

/-- what a driver in floating point returns, compared with the exact one -/
theorem driver_float (hfl : FloatRound fl) (bound : ℝ → ℝ → ℤ → ℝ) (log10grid x : List ℝ) (rate : ℝ)
    (taus : TausArg) (hN : x.length ≤ 2 ^ 47) (ht : SafeTaus rate taus)
    (body : List ℝ → ℕ → ℕ → Py (ℝ × ℝ × ℤ)) (dev err : ℕ → ℝ) (n : ℕ → ℤ)
    (H : rate ≠ 0 → ∀ m, 0 < m → m < x.length → ∀ idx ts, ts[idx]? = some (fl ((m : ℝ) / rate)) →
      ∃ row, body ts idx m = .ok row ∧ (1 < row.2.2 ↔ 1 < n m) ∧
        (1 < n m → row.2.2 = n m ∧ |row.1 - dev m| ≤ bound (m / rate) (dev m) (n m) ∧
          |row.2.1 - row.1 / √(n m : ℝ)| ≤ 4 * unitRoundoff * |row.1 / √(n m : ℝ)|))
    (hb : ∀ (m : ℕ) (ts ts' : List ℝ) (i j : ℕ), ts[i]? = some (fl ((m : ℝ) / rate)) → ts'[j]? = some (fl ((m : ℝ) / rate)) →
      body ts i m = body ts' j m) :
    let o := (tau_generator_fl fl log10grid x rate taus >>= fun r =>
        runTaus r.2.2 r.2.1 (fun idx m => body r.2.2 idx m))
    let o' := table x.length rate taus false x.length dev err n
    (∃ e, o = .error e ∧ o' = .error e) ∨
    ∃ t t', o = .ok t ∧ o' = .ok t' ∧ FloatClose bound t t' := by
  intro o o'
  have ho : o = (tau_generator_fl fl log10grid x rate taus >>= fun r =>
        runTaus r.2.2 r.2.1 (fun idx m => body r.2.2 idx m)) := rfl
  have ho' : o' = table x.length rate taus false x.length dev err n := rfl
  clear_value o o'
  rw [tau_generator_float_safe hfl log10grid x rate taus false (-1) hN ht, effMax_default] at ho
  unfold table at ho'
  rcases factors_cases (N := x.length) (rate := rate) (taus := taus) (even := false)
    (mx := x.length) with ⟨e, he⟩ | ⟨ms, hms⟩
  · left
    rw [he] at ho ho'
    exact ⟨e, ho, ho'⟩
  rw [hms] at ho ho'
  simp only [ok_bind] at ho ho'
  have hr := factors_ok_rate hms
  set ts := ms.map (fun (m : ℕ) => fl ((m : ℝ) / rate)) with hts
  -- the rows
  have R : ∀ m : ℕ, ∃ row : ℝ × ℝ × ℤ, m ∈ ms → (∀ idx, ms[idx]? = some m → body ts idx m = .ok row) ∧
      (1 < row.2.2 ↔ 1 < n m) ∧ (1 < n m → row.2.2 = n m ∧
        |row.1 - dev m| ≤ bound (m / rate) (dev m) (n m) ∧
          |row.2.1 - row.1 / √(n m : ℝ)| ≤ 4 * unitRoundoff * |row.1 / √(n m : ℝ)|) := by
    intro m
    by_cases hm : m ∈ ms
    · obtain ⟨a, b, _⟩ := factors_mem hms hm
      obtain ⟨row, h1, h2, h3⟩ := H hr m a b 0 [fl ((m : ℝ) / rate)] rfl
      refine ⟨row, fun _ => ⟨fun idx hidx => ?_, h2, h3⟩⟩
      rw [← h1]
      apply hb
      · rw [hts, List.getElem?_map, hidx]; rfl
      · rfl
    · exact ⟨(0, 0, 0), fun h => absurd h hm⟩
  choose row hrow using R
  have e1 : o = sweep ms (fun m => fl ((m : ℝ) / rate)) (fun m => (row m).1) (fun m => (row m).2.1) n := by
    rw [ho, hts]
    apply runTaus_eq
    intro i m hi
    have hm := List.mem_of_getElem? hi
    refine ⟨row m, (hrow m hm).1 i hi, (hrow m hm).2.1, fun hn => ?_⟩
    have := ((hrow m hm).2.2 hn).1
    exact Prod.ext rfl (Prod.ext rfl this)
  rw [e1, ho']
  apply sweep_close
  intro m hm hn
  obtain ⟨_, h2, h3⟩ := (hrow m hm).2.2 hn
  exact ⟨hfl _, h2, h3⟩

/-- the error bar `fl (dev / fl √n)` -/
theorem err_float (hfl : FloatRound fl) (d : ℝ) (n : ℝ) (hn : 0 < n) :
    |fl (d / fl √n) - d / √n| ≤ 4 * unitRoundoff * |d / √n| := by
  have h := ((Near.refl d).div (Near.of_fl hfl √n) (Real.sqrt_pos.2 hn).ne' (by
    unfold unitRoundoff; norm_num)).fl hfl
  unfold Near at h
  refine h.trans (mul_le_mul_of_nonneg_right ?_ (abs_nonneg _))
  unfold unitRoundoff; norm_num

/-- `calc_adev_phase` in floating point -/
theorem calc_adev_phase_fl_row (hfl : FloatRound fl) (hsum : ∀ l, FloatSum fl l (sum l))
    (phase : List ℝ) (B : ℝ) (hB : ∀ v ∈ phase, |v| ≤ B) (rate : ℝ) (hr : 0 < rate) (m s : ℕ)
    (hm0 : 0 < m) (hmN : m < phase.length) (hs : 0 < s) (hN : phase.length ≤ 2 ^ 47) :
    ∃ row, calc_adev_phase_fl fl sum phase rate m s = .ok row ∧
      row.2.2 = (max 1 ((phase.length - 2 * m + s - 1) / s) : ℕ) ∧
      (0 < (phase.length - 2 * m + s - 1) / s →
        |row.1 - √((∑ i ∈ range ((phase.length - 2 * m + s - 1) / s),
            (seq phase (2 * m + i * s) - 2 * seq phase (m + i * s) + seq phase (i * s)) ^ 2)
              / (2 * (((phase.length - 2 * m + s - 1) / s : ℕ) : ℝ))) / m * rate| ≤
          2 * ((((phase.length - 2 * m + s - 1) / s : ℕ) : ℝ) + 6) * unitRoundoff *
            (√((∑ i ∈ range ((phase.length - 2 * m + s - 1) / s),
            (seq phase (2 * m + i * s) - 2 * seq phase (m + i * s) + seq phase (i * s)) ^ 2)
              / (2 * (((phase.length - 2 * m + s - 1) / s : ℕ) : ℝ))) / m * rate)
            + 10 * unitRoundoff * B / (m / rate) ∧
        |row.2.1 - row.1 / √(((phase.length - 2 * m + s - 1) / s : ℕ) : ℝ)| ≤
          4 * unitRoundoff * |row.1 / √(((phase.length - 2 * m + s - 1) / s : ℕ) : ℝ)|) := by
  set N := phase.length with hNd
  set x := seq phase with hx
  have hp : phase = tab N x := eq_tab_seq phase
  have hxB : ∀ i < N, |x i| ≤ B := by
    intro i hi
    have : x i = phase[i] := by rw [hx]; unfold seq; rw [List.getD_eq_getElem]
    rw [this]
    exact hB _ (List.getElem_mem _)
  have hB0 : 0 ≤ B := (abs_nonneg _).trans (hxB 0 (by omega))
  have l1 := len_mono' N m (2 * m) s hs (by omega)
  have l2 := len_mono' N 0 m s hs (by omega)
  have p1 := len_pos N m s hs hmN
  have hidx : ∀ i < (N - 2 * m + s - 1) / s, 2 * m + i * s < N := by
    intro i hi
    have h1 : (i + 1) * s ≤ N - 2 * m + s - 1 := (Nat.le_div_iff_mul_le hs).1 hi
    rw [Nat.add_mul, one_mul] at h1
    omega
  have hn2N : (N - 2 * m + s - 1) / s ≤ N := by
    rcases Nat.eq_zero_or_pos ((N - 2 * m + s - 1) / s) with h | h
    · omega
    · have h1 := hidx ((N - 2 * m + s - 1) / s - 1) (by omega)
      have h2 : (N - 2 * m + s - 1) / s - 1 ≤ ((N - 2 * m + s - 1) / s - 1) * s :=
        Nat.le_mul_of_pos_right _ hs
      omega
  unfold calc_adev_phase_fl
  rw [hp]
  rw [sliceStep_tab _ _ _ _ hs, sliceStep_tab _ _ _ _ hs, sliceStep_tab _ _ _ _ hs]
  simp only [ok_bind, tab_length, one_mul]
  generalize hn2 : (N - 2 * m + s - 1) / s = n2 at *
  generalize hn1 : (N - m + s - 1) / s = n1 at *
  generalize hn0 : (N - 0 + s - 1) / s = n0 at *
  have hmin : min (min n0 n1) n2 = n2 := by omega
  simp only [hmin]
  rcases Nat.eq_zero_or_pos n2 with h | h
  · subst h
    simp only [if_true, sliceTo_nat, take_tab]
    have q1 : min 1 n1 = 1 := by omega
    have q0 : min 1 n0 = 1 := by omega
    simp only [q1, q0, Nat.min_zero, tab_zero, vscale_fl, map_tab, vsub_fl, vadd_fl, vmul_fl, vop_nil_one, ok_bind]
    have : vop (fun x1 x2 : ℝ => fl (x1 * x2)) [] [] = .ok [] := by simp [vop]
    rw [this]
    exact ⟨_, rfl, by simp, fun h => absurd h (by omega)⟩
  · simp only [if_neg (by omega : ¬ n2 = 0), sliceTo_nat, take_tab, min_self]
    have q1 : min n2 n1 = n2 := by omega
    have q0 : min n2 n0 = n2 := by omega
    simp only [q1, q0, vscale_fl, map_tab, vsub_fl, vadd_fl, vmul_fl, vop_tab, ok_bind]
    have hn' : (0 : ℝ) < n2 := by exact_mod_cast h
    have hm' : (0 : ℝ) < m := by exact_mod_cast hm0
    refine ⟨_, rfl, ?_, fun _ => ⟨?_, err_float hfl _ _ hn'⟩⟩
    · have : max 1 n2 = n2 := by omega
      simp [this]
    · simp only
      set v : ℕ → ℝ := fun i => fl (fl (x (2 * m + i * s) - fl (2 * x (m + i * s))) + x (0 + i * s))
        with hv
      set d : ℕ → ℝ := fun i => x (2 * m + i * s) - 2 * x (m + i * s) + x (i * s) with hd
      have hvd : ∀ i < n2, |v i - d i| ≤ ((1 + unitRoundoff) ^ 3 - 1) * (4 * B) := by
        intro i hi
        have h0 := hidx i hi
        have := (d2_near hfl (hxB (2 * m + i * s) h0) (hxB (m + i * s) (by omega))
          (hxB (i * s) (by omega))).2
        simp only [hv, hd, Nat.zero_add]
        exact this
      have h1 := sumsq_near hfl h (hsum (tab n2 (fun i => fl (v i * v i))))
      have h2 := (h1.div (Near.of_fl hfl (2 * (n2 : ℝ))) (by positivity) (by
        unfold unitRoundoff; norm_num)).fl hfl
      have h3 := ((((h2.sqrt (div_nonneg (Finset.sum_nonneg fun i _ => sq_nonneg _)
        (by positivity))).fl hfl).div_const (m : ℝ)).fl hfl).mul_const rate |>.fl hfl
      rw [div_mul_eq_mul_div, mul_div_assoc] at h3
      have h4 := dev_bound _ n2 h v d 2 _ (rate / m) _ two_pos (by positivity) h3 hvd
      have h5 := simple_bound (K := n2 + 2 * 1 + 1 + 1 + 1 + 1) (by omega)
        (D := √((∑ i ∈ range n2, d i ^ 2) / (2 * n2)) * (rate / m))
        (E := ((1 + unitRoundoff) ^ 3 - 1) * (4 * B) / √2 * (rate / m)) (by positivity)
        (by have := near_eps_nonneg 3; positivity)
      have h6 := eta_two hB0 (show 0 ≤ rate / m by positivity)
      have e1 : √((∑ i ∈ range n2, d i ^ 2) / (2 * n2)) / m * rate =
        √((∑ i ∈ range n2, d i ^ 2) / (2 * n2)) * (rate / m) := by ring
      have e2 : 10 * unitRoundoff * B / (m / rate) = 10 * unitRoundoff * B * (rate / m) := by
        field_simp
      have e3 : ((n2 + 2 * 1 + 1 + 1 + 1 + 1 : ℕ) : ℝ) = n2 + 6 := by push_cast; ring
      rw [e1, e2]
      rw [e3] at h5
      have h7 : 0 ≤ unitRoundoff * B * (rate / m) := by
        have := unitRoundoff_pos; positivity
      refine (h4.trans h5).trans ?_
      nlinarith

/-- one row of `oadev` -/
theorem oadev_row_float (hfl : FloatRound fl) (hsum : ∀ l, FloatSum fl l (sum l)) (x : List ℝ) (B : ℝ)
    (hB : ∀ v ∈ x, |v| ≤ B) (rate : ℝ) (hr : 0 < rate) (hN : x.length ≤ 2 ^ 47) (m : ℕ)
    (hm0 : 0 < m) (hmN : m < x.length) :
    ∃ row, calc_adev_phase_fl fl sum x rate m 1 = .ok row ∧ (1 < row.2.2 ↔ 1 < (x.length : ℤ) - 2 * m) ∧
      (1 < (x.length : ℤ) - 2 * m → row.2.2 = (x.length : ℤ) - 2 * m ∧
        |row.1 - Spec.oadev (seq x) x.length m (m / rate)| ≤
          Spec.adevBound B (m / rate) (Spec.oadev (seq x) x.length m (m / rate)) ((x.length : ℤ) - 2 * m) ∧
        |row.2.1 - row.1 / √(((x.length : ℤ) - 2 * m : ℤ) : ℝ)| ≤
          4 * unitRoundoff * |row.1 / √(((x.length : ℤ) - 2 * m : ℤ) : ℝ)|) := by
  obtain ⟨row, h1, h2, h3⟩ := calc_adev_phase_fl_row hfl hsum x B hB rate hr m 1 hm0 hmN one_pos hN
  have e : (x.length - 2 * m + 1 - 1) / 1 = x.length - 2 * m := by simp
  rw [e] at h2 h3
  refine ⟨row, h1, by rw [h2]; omega, fun hn => ?_⟩
  have hn0 : 0 < x.length - 2 * m := by omega
  obtain ⟨h4, h5⟩ := h3 hn0
  have hc : ((x.length - 2 * m : ℕ) : ℝ) = (((x.length : ℤ) - 2 * m : ℤ) : ℝ) := by
    rw [Nat.cast_sub (by omega)]; push_cast; ring
  have hd : √((∑ i ∈ range (x.length - 2 * m),
          (seq x (2 * m + i * 1) - 2 * seq x (m + i * 1) + seq x (i * 1)) ^ 2)
            / (2 * ((x.length - 2 * m : ℕ) : ℝ))) / m * rate = Spec.oadev (seq x) x.length m (m / rate) := by
    rw [sqrt_norm _ 2 _ two_pos (by exact_mod_cast hn0) m hm0 rate hr.ne', rateSign_of_nonneg hr.le, one_mul]
    unfold Spec.oadev rms d2
    rw [hc]
    push_cast
    congr 2
    apply Finset.sum_congr rfl
    intro i _
    rw [mul_one, Nat.add_comm (2 * m), Nat.add_comm m]
  rw [hd, hc] at h4
  rw [hc] at h5
  exact ⟨by rw [h2]; omega, h4, h5⟩

/-- C67: `oadev` on phase data in double precision -/
theorem oadev_float (hfl : FloatRound fl) (hsum : ∀ l, FloatSum fl l (sum l)) (log10grid x : List ℝ)
    (B : ℝ) (hB : ∀ v ∈ x, |v| ≤ B) (rate : ℝ) (hr : 0 < rate) (taus : TausArg)
    (hN : x.length ≤ 2 ^ 47) (ht : SafeTaus rate taus) :
    (∃ e, oadev_fl fl sum log10grid x rate taus = .error e ∧ oadev x rate "phase" taus = .error e) ∨
    ∃ o o', oadev_fl fl sum log10grid x rate taus = .ok o ∧ oadev x rate "phase" taus = .ok o' ∧
      FloatClose (Spec.adevBound B) o o' := by
  have h := driver_float hfl (Spec.adevBound B) log10grid x rate taus hN ht
    (fun _ _ mj => calc_adev_phase_fl fl sum x rate mj 1)
    (fun m => Spec.oadev (seq x) x.length m (m / rate))
    (fun m => Spec.oadev (seq x) x.length m (m / rate) / √((x.length : ℝ) - 2 * m))
    (fun m => (x.length : ℤ) - 2 * m) ?_ (fun _ _ _ _ _ _ _ => rfl)
  · simp only at h
    rw [← oadev_phase_eq x rate hr.le taus] at h
    have e : oadev_fl fl sum log10grid x rate taus = (tau_generator_fl fl log10grid x rate taus >>= fun r =>
        runTaus r.2.2 r.2.1 (fun _ m => calc_adev_phase_fl fl sum x rate m 1)) := by
      unfold oadev_fl
      rw [tau_generator_float_safe hfl log10grid x rate taus false (-1) hN ht]
      cases factors x.length rate taus false (effMax x.length (-1)) <;> simp only [ok_bind, error_bind]
    rw [e]
    exact h
  · intro _ m hm0 hmN _ _ _
    exact oadev_row_float hfl hsum x B hB rate hr hN m hm0 hmN

/-- one row of `adev` -/
theorem adev_row_float (hfl : FloatRound fl) (hsum : ∀ l, FloatSum fl l (sum l)) (x : List ℝ) (B : ℝ)
    (hB : ∀ v ∈ x, |v| ≤ B) (rate : ℝ) (hr : 0 < rate) (hN : x.length ≤ 2 ^ 47) (m : ℕ)
    (hm0 : 0 < m) (hmN : m < x.length) :
    ∃ row, calc_adev_phase_fl fl sum x rate m m = .ok row ∧ (1 < row.2.2 ↔ 1 < (decimated x.length m : ℤ) - 2) ∧
      (1 < (decimated x.length m : ℤ) - 2 → row.2.2 = (decimated x.length m : ℤ) - 2 ∧
        |row.1 - Spec.adev (seq x) x.length m (m / rate)| ≤
          Spec.adevBound B (m / rate) (Spec.adev (seq x) x.length m (m / rate)) ((decimated x.length m : ℤ) - 2) ∧
        |row.2.1 - row.1 / √(((decimated x.length m : ℤ) - 2 : ℤ) : ℝ)| ≤
          4 * unitRoundoff * |row.1 / √(((decimated x.length m : ℤ) - 2 : ℤ) : ℝ)|) := by
  obtain ⟨row, h1, h2, h3⟩ := calc_adev_phase_fl_row hfl hsum x B hB rate hr m m hm0 hmN hm0 hN
  rw [adev_len _ _ hm0 hmN] at h2 h3
  refine ⟨row, h1, by rw [h2]; omega, fun hn => ?_⟩
  have hn0 : 0 < decimated x.length m - 2 := by omega
  obtain ⟨h4, h5⟩ := h3 hn0
  have hc : ((decimated x.length m - 2 : ℕ) : ℝ) = (((decimated x.length m : ℤ) - 2 : ℤ) : ℝ) := by
    rw [Nat.cast_sub (by omega)]; push_cast; ring
  have hd : √((∑ i ∈ range (decimated x.length m - 2),
          (seq x (2 * m + i * m) - 2 * seq x (m + i * m) + seq x (i * m)) ^ 2)
            / (2 * ((decimated x.length m - 2 : ℕ) : ℝ))) / m * rate = Spec.adev (seq x) x.length m (m / rate) := by
    rw [sqrt_norm _ 2 _ two_pos (by exact_mod_cast hn0) m hm0 rate hr.ne', rateSign_of_nonneg hr.le, one_mul]
    unfold Spec.adev rms d2
    rw [hc]
    push_cast
    congr 2
    apply Finset.sum_congr rfl
    intro i _
    congr 1
    ring_nf
  rw [hd, hc] at h4
  rw [hc] at h5
  exact ⟨by rw [h2]; omega, h4, h5⟩

/-- C67: `adev` on phase data in double precision -/
theorem adev_float (hfl : FloatRound fl) (hsum : ∀ l, FloatSum fl l (sum l)) (log10grid x : List ℝ)
    (B : ℝ) (hB : ∀ v ∈ x, |v| ≤ B) (rate : ℝ) (hr : 0 < rate) (taus : TausArg)
    (hN : x.length ≤ 2 ^ 47) (ht : SafeTaus rate taus) :
    (∃ e, adev_fl fl sum log10grid x rate taus = .error e ∧ adev x rate "phase" taus = .error e) ∨
    ∃ o o', adev_fl fl sum log10grid x rate taus = .ok o ∧ adev x rate "phase" taus = .ok o' ∧
      FloatClose (Spec.adevBound B) o o' := by
  have h := driver_float hfl (Spec.adevBound B) log10grid x rate taus hN ht
    (fun _ _ mj => calc_adev_phase_fl fl sum x rate mj mj)
    (fun m => Spec.adev (seq x) x.length m (m / rate))
    (fun m => Spec.adev (seq x) x.length m (m / rate) / √((decimated x.length m : ℝ) - 2))
    (fun m => (decimated x.length m : ℤ) - 2) ?_ (fun _ _ _ _ _ _ _ => rfl)
  · simp only at h
    rw [← adev_phase_eq x rate hr.le taus] at h
    have e : adev_fl fl sum log10grid x rate taus = (tau_generator_fl fl log10grid x rate taus >>= fun r =>
        runTaus r.2.2 r.2.1 (fun _ m => calc_adev_phase_fl fl sum x rate m m)) := by
      unfold adev_fl
      rw [tau_generator_float_safe hfl log10grid x rate taus false (-1) hN ht]
      cases factors x.length rate taus false (effMax x.length (-1)) <;> simp only [ok_bind, error_bind]
    rw [e]
    exact h
  · intro _ m hm0 hmN _ _ _
    exact adev_row_float hfl hsum x B hB rate hr hN m hm0 hmN

/-- `calc_hdev_phase` in floating point -/
theorem calc_hdev_phase_fl_row (hfl : FloatRound fl) (hsum : ∀ l, FloatSum fl l (sum l))
    (phase : List ℝ) (B : ℝ) (hB : ∀ v ∈ phase, |v| ≤ B) (rate : ℝ) (hr : 0 < rate) (m s : ℕ)
    (hm0 : 0 < m) (hmN : m < phase.length) (hs : 0 < s) (hN : phase.length ≤ 2 ^ 47) :
    ∃ row, calc_hdev_phase_fl fl sum phase rate m s = .ok row ∧
      row.2.2 = (max 1 ((phase.length - 3 * m + s - 1) / s) : ℕ) ∧
      (0 < (phase.length - 3 * m + s - 1) / s →
        |row.1 - √((∑ i ∈ range ((phase.length - 3 * m + s - 1) / s),
            (seq phase (3 * m + i * s) - 3 * seq phase (2 * m + i * s) + 3 * seq phase (m + i * s)
              - seq phase (i * s)) ^ 2)
              / (6 * (((phase.length - 3 * m + s - 1) / s : ℕ) : ℝ))) / m * rate| ≤
          2 * ((((phase.length - 3 * m + s - 1) / s : ℕ) : ℝ) + 8) * unitRoundoff *
            (√((∑ i ∈ range ((phase.length - 3 * m + s - 1) / s),
            (seq phase (3 * m + i * s) - 3 * seq phase (2 * m + i * s) + 3 * seq phase (m + i * s)
              - seq phase (i * s)) ^ 2)
              / (6 * (((phase.length - 3 * m + s - 1) / s : ℕ) : ℝ))) / m * rate)
            + 15 * unitRoundoff * B / (m / rate) ∧
        |row.2.1 - row.1 / √(((phase.length - 3 * m + s - 1) / s : ℕ) : ℝ)| ≤
          4 * unitRoundoff * |row.1 / √(((phase.length - 3 * m + s - 1) / s : ℕ) : ℝ)|) := by
  set N := phase.length with hNd
  set x := seq phase with hx
  have hp : phase = tab N x := eq_tab_seq phase
  have hxB : ∀ i < N, |x i| ≤ B := by
    intro i hi
    have : x i = phase[i] := by rw [hx]; unfold seq; rw [List.getD_eq_getElem]
    rw [this]
    exact hB _ (List.getElem_mem _)
  have hB0 : 0 ≤ B := (abs_nonneg _).trans (hxB 0 (by omega))
  have l3 := len_mono' N (2 * m) (3 * m) s hs (by omega)
  have l1 := len_mono' N m (2 * m) s hs (by omega)
  have l2 := len_mono' N 0 m s hs (by omega)
  have hidx : ∀ i < (N - 3 * m + s - 1) / s, 3 * m + i * s < N := by
    intro i hi
    have h1 : (i + 1) * s ≤ N - 3 * m + s - 1 := (Nat.le_div_iff_mul_le hs).1 hi
    rw [Nat.add_mul, one_mul] at h1
    omega
  have hn3N : (N - 3 * m + s - 1) / s ≤ N := by
    rcases Nat.eq_zero_or_pos ((N - 3 * m + s - 1) / s) with h | h
    · omega
    · have h1 := hidx ((N - 3 * m + s - 1) / s - 1) (by omega)
      have h2 : (N - 3 * m + s - 1) / s - 1 ≤ ((N - 3 * m + s - 1) / s - 1) * s :=
        Nat.le_mul_of_pos_right _ hs
      omega
  unfold calc_hdev_phase_fl
  rw [hp, if_neg hr.ne']
  rw [sliceStep_tab _ _ _ _ hs, sliceStep_tab _ _ _ _ hs, sliceStep_tab _ _ _ _ hs,
    sliceStep_tab _ _ _ _ hs]
  simp only [ok_bind, tab_length, one_mul]
  generalize hn3 : (N - 3 * m + s - 1) / s = n3 at *
  generalize hn2 : (N - 2 * m + s - 1) / s = n2 at *
  generalize hn1 : (N - m + s - 1) / s = n1 at *
  generalize hn0 : (N - 0 + s - 1) / s = n0 at *
  have hmin : min (min (min n0 n1) n2) n3 = n3 := by omega
  simp only [hmin, sliceTo_nat, take_tab, min_self]
  have q2 : min n3 n2 = n3 := by omega
  have q1 : min n3 n1 = n3 := by omega
  have q0 : min n3 n0 = n3 := by omega
  simp only [q2, q1, q0, vscale_fl, map_tab, vsub_fl, vadd_fl, vmul_fl, vop_tab, ok_bind]
  refine ⟨_, rfl, ?_, fun h => ?_⟩
  · rcases Nat.eq_zero_or_pos n3 with h | h
    · simp [h]
    · have : max 1 n3 = n3 := by omega
      simp only [this, if_neg (by omega : ¬ n3 = 0)]
  · simp only [if_neg (by omega : ¬ n3 = 0)]
    have hn' : (0 : ℝ) < n3 := by exact_mod_cast h
    have hm' : (0 : ℝ) < m := by exact_mod_cast hm0
    refine ⟨?_, err_float hfl _ _ hn'⟩
    set v : ℕ → ℝ := fun i => fl (fl (fl (x (3 * m + i * s) - fl (3 * x (2 * m + i * s)))
      + fl (3 * x (m + i * s))) - x (0 + i * s)) with hv
    set d : ℕ → ℝ := fun i => x (3 * m + i * s) - 3 * x (2 * m + i * s) + 3 * x (m + i * s)
      - x (i * s) with hd
    have hvd : ∀ i < n3, |v i - d i| ≤ ((1 + unitRoundoff) ^ 4 - 1) * (8 * B) := by
      intro i hi
      have h0 := hidx i hi
      have := (d3_near hfl (hxB (3 * m + i * s) h0) (hxB (2 * m + i * s) (by omega))
        (hxB (m + i * s) (by omega)) (hxB (i * s) (by omega))).2
      simp only [hv, hd, Nat.zero_add]
      exact this
    have h1 := sumsq_near hfl h (hsum (tab n3 (fun i => fl (v i * v i))))
    have h2 := (((h1.div_const 6).fl hfl).div_const (n3 : ℝ)).fl hfl
    have h2' := ((h2.sqrt (div_nonneg (div_nonneg (Finset.sum_nonneg fun i _ => sq_nonneg _)
        (by norm_num)) hn'.le)).fl hfl)
    have ht0 := ((Near.of_fl hfl (1 / rate)).mul_const (m : ℝ)).fl hfl
    have h3 := (h2'.div ht0 (by positivity) (by unfold unitRoundoff; norm_num)).fl hfl
    rw [div_div _ (6 : ℝ)] at h3
    have et : √((∑ i ∈ range n3, v i ^ 2) / (6 * n3)) / (1 / rate * m) =
        √((∑ i ∈ range n3, v i ^ 2) / (6 * n3)) * (rate / m) := by field_simp
    rw [et] at h3
    have h4 := dev_bound _ n3 h v d 6 _ (rate / m) _ (by norm_num) (by positivity) h3 hvd
    have h5 := simple_bound (K := n3 + 1 + 1 + 1 + 2 * (1 + 1) + 1) (by omega)
      (D := √((∑ i ∈ range n3, d i ^ 2) / (6 * n3)) * (rate / m))
      (E := ((1 + unitRoundoff) ^ 4 - 1) * (8 * B) / √6 * (rate / m)) (by positivity)
      (by have := near_eps_nonneg 4; positivity)
    have h6 := eta_six hB0 (show 0 ≤ rate / m by positivity)
    have e1 : √((∑ i ∈ range n3, d i ^ 2) / (6 * n3)) / m * rate =
      √((∑ i ∈ range n3, d i ^ 2) / (6 * n3)) * (rate / m) := by ring
    have e2 : 15 * unitRoundoff * B / (m / rate) = 15 * unitRoundoff * B * (rate / m) := by
      field_simp
    have e3 : ((n3 + 1 + 1 + 1 + 2 * (1 + 1) + 1 : ℕ) : ℝ) = n3 + 8 := by push_cast; ring
    rw [e1, e2]
    rw [e3] at h5
    have h7 : 0 ≤ unitRoundoff * B * (rate / m) := by
      have := unitRoundoff_pos; positivity
    refine (h4.trans h5).trans ?_
    nlinarith

/-- one row of `ohdev` -/
theorem ohdev_row_float (hfl : FloatRound fl) (hsum : ∀ l, FloatSum fl l (sum l)) (x : List ℝ) (B : ℝ)
    (hB : ∀ v ∈ x, |v| ≤ B) (rate : ℝ) (hr : 0 < rate) (hN : x.length ≤ 2 ^ 47) (m : ℕ)
    (hm0 : 0 < m) (hmN : m < x.length) :
    ∃ row, calc_hdev_phase_fl fl sum x rate m 1 = .ok row ∧ (1 < row.2.2 ↔ 1 < (x.length : ℤ) - 3 * m) ∧
      (1 < (x.length : ℤ) - 3 * m → row.2.2 = (x.length : ℤ) - 3 * m ∧
        |row.1 - Spec.ohdev (seq x) x.length m (m / rate)| ≤
          Spec.hdevBound B (m / rate) (Spec.ohdev (seq x) x.length m (m / rate)) ((x.length : ℤ) - 3 * m) ∧
        |row.2.1 - row.1 / √(((x.length : ℤ) - 3 * m : ℤ) : ℝ)| ≤
          4 * unitRoundoff * |row.1 / √(((x.length : ℤ) - 3 * m : ℤ) : ℝ)|) := by
  obtain ⟨row, h1, h2, h3⟩ := calc_hdev_phase_fl_row hfl hsum x B hB rate hr m 1 hm0 hmN one_pos hN
  have e : (x.length - 3 * m + 1 - 1) / 1 = x.length - 3 * m := by simp
  rw [e] at h2 h3
  refine ⟨row, h1, by rw [h2]; omega, fun hn => ?_⟩
  have hn0 : 0 < x.length - 3 * m := by omega
  obtain ⟨h4, h5⟩ := h3 hn0
  have hc : ((x.length - 3 * m : ℕ) : ℝ) = (((x.length : ℤ) - 3 * m : ℤ) : ℝ) := by
    rw [Nat.cast_sub (by omega)]; push_cast; ring
  have hd : √((∑ i ∈ range (x.length - 3 * m),
          (seq x (3 * m + i * 1) - 3 * seq x (2 * m + i * 1) + 3 * seq x (m + i * 1)
            - seq x (i * 1)) ^ 2)
            / (6 * ((x.length - 3 * m : ℕ) : ℝ))) / m * rate = Spec.ohdev (seq x) x.length m (m / rate) := by
    rw [sqrt_norm _ 6 _ (by norm_num) (by exact_mod_cast hn0) m hm0 rate hr.ne', rateSign_of_nonneg hr.le, one_mul]
    unfold Spec.ohdev rms d3
    rw [hc]
    push_cast
    congr 2
    apply Finset.sum_congr rfl
    intro i _
    rw [mul_one, Nat.add_comm (3 * m), Nat.add_comm (2 * m), Nat.add_comm m]
  rw [hd, hc] at h4
  rw [hc] at h5
  exact ⟨by rw [h2]; omega, h4, h5⟩

/-- C67: `ohdev` on phase data in double precision -/
theorem ohdev_float (hfl : FloatRound fl) (hsum : ∀ l, FloatSum fl l (sum l)) (log10grid x : List ℝ)
    (B : ℝ) (hB : ∀ v ∈ x, |v| ≤ B) (rate : ℝ) (hr : 0 < rate) (taus : TausArg)
    (hN : x.length ≤ 2 ^ 47) (ht : SafeTaus rate taus) :
    (∃ e, ohdev_fl fl sum log10grid x rate taus = .error e ∧ ohdev x rate "phase" taus = .error e) ∨
    ∃ o o', ohdev_fl fl sum log10grid x rate taus = .ok o ∧ ohdev x rate "phase" taus = .ok o' ∧
      FloatClose (Spec.hdevBound B) o o' := by
  have h := driver_float hfl (Spec.hdevBound B) log10grid x rate taus hN ht
    (fun _ _ mj => calc_hdev_phase_fl fl sum x rate mj 1)
    (fun m => Spec.ohdev (seq x) x.length m (m / rate))
    (fun m => Spec.ohdev (seq x) x.length m (m / rate) / √((x.length : ℝ) - 3 * m))
    (fun m => (x.length : ℤ) - 3 * m) ?_ (fun _ _ _ _ _ _ _ => rfl)
  · simp only at h
    rw [← ohdev_phase_eq x rate hr.le taus] at h
    have e : ohdev_fl fl sum log10grid x rate taus = (tau_generator_fl fl log10grid x rate taus >>= fun r =>
        runTaus r.2.2 r.2.1 (fun _ m => calc_hdev_phase_fl fl sum x rate m 1)) := by
      unfold ohdev_fl
      rw [tau_generator_float_safe hfl log10grid x rate taus false (-1) hN ht]
      cases factors x.length rate taus false (effMax x.length (-1)) <;> simp only [ok_bind, error_bind]
    rw [e]
    exact h
  · intro _ m hm0 hmN _ _ _
    exact ohdev_row_float hfl hsum x B hB rate hr hN m hm0 hmN

/-- one row of `hdev` -/
theorem hdev_row_float (hfl : FloatRound fl) (hsum : ∀ l, FloatSum fl l (sum l)) (x : List ℝ) (B : ℝ)
    (hB : ∀ v ∈ x, |v| ≤ B) (rate : ℝ) (hr : 0 < rate) (hN : x.length ≤ 2 ^ 47) (m : ℕ)
    (hm0 : 0 < m) (hmN : m < x.length) :
    ∃ row, calc_hdev_phase_fl fl sum x rate m m = .ok row ∧ (1 < row.2.2 ↔ 1 < (decimated x.length m : ℤ) - 3) ∧
      (1 < (decimated x.length m : ℤ) - 3 → row.2.2 = (decimated x.length m : ℤ) - 3 ∧
        |row.1 - Spec.hdev (seq x) x.length m (m / rate)| ≤
          Spec.hdevBound B (m / rate) (Spec.hdev (seq x) x.length m (m / rate)) ((decimated x.length m : ℤ) - 3) ∧
        |row.2.1 - row.1 / √(((decimated x.length m : ℤ) - 3 : ℤ) : ℝ)| ≤
          4 * unitRoundoff * |row.1 / √(((decimated x.length m : ℤ) - 3 : ℤ) : ℝ)|) := by
  obtain ⟨row, h1, h2, h3⟩ := calc_hdev_phase_fl_row hfl hsum x B hB rate hr m m hm0 hmN hm0 hN
  rw [hdev_len _ _ hm0 hmN] at h2 h3
  refine ⟨row, h1, by rw [h2]; omega, fun hn => ?_⟩
  have hn0 : 0 < decimated x.length m - 3 := by omega
  obtain ⟨h4, h5⟩ := h3 hn0
  have hc : ((decimated x.length m - 3 : ℕ) : ℝ) = (((decimated x.length m : ℤ) - 3 : ℤ) : ℝ) := by
    rw [Nat.cast_sub (by omega)]; push_cast; ring
  have hd : √((∑ i ∈ range (decimated x.length m - 3),
          (seq x (3 * m + i * m) - 3 * seq x (2 * m + i * m) + 3 * seq x (m + i * m)
            - seq x (i * m)) ^ 2)
            / (6 * ((decimated x.length m - 3 : ℕ) : ℝ))) / m * rate = Spec.hdev (seq x) x.length m (m / rate) := by
    rw [sqrt_norm _ 6 _ (by norm_num) (by exact_mod_cast hn0) m hm0 rate hr.ne', rateSign_of_nonneg hr.le, one_mul]
    unfold Spec.hdev rms d3
    rw [hc]
    push_cast
    congr 2
    apply Finset.sum_congr rfl
    intro i _
    congr 1
    ring_nf
  rw [hd, hc] at h4
  rw [hc] at h5
  exact ⟨by rw [h2]; omega, h4, h5⟩

/-- C67: `hdev` on phase data in double precision -/
theorem hdev_float (hfl : FloatRound fl) (hsum : ∀ l, FloatSum fl l (sum l)) (log10grid x : List ℝ)
    (B : ℝ) (hB : ∀ v ∈ x, |v| ≤ B) (rate : ℝ) (hr : 0 < rate) (taus : TausArg)
    (hN : x.length ≤ 2 ^ 47) (ht : SafeTaus rate taus) :
    (∃ e, hdev_fl fl sum log10grid x rate taus = .error e ∧ hdev x rate "phase" taus = .error e) ∨
    ∃ o o', hdev_fl fl sum log10grid x rate taus = .ok o ∧ hdev x rate "phase" taus = .ok o' ∧
      FloatClose (Spec.hdevBound B) o o' := by
  have h := driver_float hfl (Spec.hdevBound B) log10grid x rate taus hN ht
    (fun _ _ mj => calc_hdev_phase_fl fl sum x rate mj mj)
    (fun m => Spec.hdev (seq x) x.length m (m / rate))
    (fun m => Spec.hdev (seq x) x.length m (m / rate) / √((decimated x.length m : ℝ) - 3))
    (fun m => (decimated x.length m : ℤ) - 3) ?_ (fun _ _ _ _ _ _ _ => rfl)
  · simp only at h
    rw [← hdev_phase_eq x rate hr.le taus] at h
    have e : hdev_fl fl sum log10grid x rate taus = (tau_generator_fl fl log10grid x rate taus >>= fun r =>
        runTaus r.2.2 r.2.1 (fun _ m => calc_hdev_phase_fl fl sum x rate m m)) := by
      unfold hdev_fl
      rw [tau_generator_float_safe hfl log10grid x rate taus false (-1) hN ht]
      cases factors x.length rate taus false (effMax x.length (-1)) <;> simp only [ok_bind, error_bind]
    rw [e]
    exact h
  · intro _ m hm0 hmN _ _ _
    exact hdev_row_float hfl hsum x B hB rate hr hN m hm0 hmN

/-- the loop body of `mdev` in floating point -/
theorem mdev_body_fl_row (hfl : FloatRound fl) (hsum : ∀ l, FloatSum fl l (sum l))
    (phase : List ℝ) (B : ℝ) (hB : ∀ v ∈ phase, |v| ≤ B) (rate : ℝ) (hr : 0 < rate) (m : ℕ)
    (hm0 : 0 < m) (hN : phase.length ≤ 2 ^ 47) (taus : List ℝ) (idx : ℕ)
    (ht : taus[idx]? = some (fl ((m : ℝ) / rate))) :
    ∃ row, mdev_body_fl fl sum phase taus idx m = .ok row ∧
      row.2.2 = ((phase.length - 3 * m + 1 : ℕ) : ℤ) ∧
      (3 * m < phase.length →
        |row.1 - √((∑ j ∈ range (phase.length - 3 * m + 1), (modTerm (seq phase) m j) ^ 2)
              / (2 * ((phase.length - 3 * m + 1 : ℕ) : ℝ))) * (1 / (m * (m / rate)))| ≤
          2 * (((phase.length - 3 * m + 1 : ℕ) : ℝ) + 17) * unitRoundoff *
            (√((∑ j ∈ range (phase.length - 3 * m + 1), (modTerm (seq phase) m j) ^ 2)
              / (2 * ((phase.length - 3 * m + 1 : ℕ) : ℝ))) * (1 / (m * (m / rate)))) +
          13 * phase.length * (phase.length + 1) * unitRoundoff * B * (1 / (m * (m / rate))) ∧
        |row.2.1 - row.1 / √((phase.length - 3 * m + 1 : ℕ) : ℝ)| ≤
          4 * unitRoundoff * |row.1 / √((phase.length - 3 * m + 1 : ℕ) : ℝ)|) := by
  set N := phase.length with hNd
  set x := seq phase with hx
  have hp : phase = tab N x := eq_tab_seq phase
  have hxB : ∀ i < N, |x i| ≤ B := by
    intro i hi
    have : x i = phase[i] := by rw [hx]; unfold seq; rw [List.getD_eq_getElem]
    rw [this]
    exact hB _ (List.getElem_mem _)
  unfold mdev_body_fl
  have hg : pyGet taus (idx : ℤ) = .ok (fl ((m : ℝ) / rate)) := by
    unfold pyGet
    simp only [if_neg (by omega : ¬ ((idx : ℤ) < 0)), Int.toNat_natCast, ht]
  rw [hp, hg]
  simp only [ok_bind, slice_nat, sliceFrom_nat, take_tab, drop_tab, tab_length, sliceTo_nat]
  generalize he : min (min (min m N - 0) (min (2 * m) N - m)) (min (3 * m) N - 2 * m) = e
  have a0 : min e (min m N - 0) = e := by omega
  have a1 : min e (min (2 * m) N - m) = e := by omega
  have a2 : min e (min (3 * m) N - 2 * m) = e := by omega
  generalize he' : min (min (min (N - 0) (N - 1 * m)) (N - 2 * m)) (N - 3 * m) = e'
  have b : e' = N - 3 * m := by omega
  have b0 : min e' (N - 0) = e' := by omega
  have b1 : min e' (N - 1 * m) = e' := by omega
  have b2 : min e' (N - 2 * m) = e' := by omega
  have b3 : min e' (N - 3 * m) = e' := by omega
  simp only [a0, a1, a2, b0, b1, b2, b3, vscale_fl, vsub_fl, vadd_fl, vmul_fl, map_tab, vop_tab,
    ok_bind, npCumsum_fl_tab]
  rw [← b]
  refine ⟨_, rfl, rfl, fun h3 => ?_⟩
  have hem : e = m := by omega
  have hm' : (0 : ℝ) < m := by exact_mod_cast hm0
  have hn' : (0 : ℝ) < ((e' + 1 : ℕ) : ℝ) := by positivity
  have hB0 : 0 ≤ B := (abs_nonneg _).trans (hxB 0 (by omega))
  refine ⟨?_, err_float hfl _ _ hn'⟩
  simp only [hem]
  -- the first window
  set v := sum (tab m (fun i => fl (fl (x (2 * m + i) - fl (2 * x (m + i))) + x (0 + i)))) with hv
  have hv1 : NearA (m - 1 + 3) v (modTerm x m 0) (∑ _i ∈ range m, 4 * B) := by
    have := FloatSum.nearA_tab hfl (k := 3) (g := fun i => d2 x m (0 + i)) (G := fun _ => 4 * B)
      (hsum (tab m (fun i => fl (fl (x (2 * m + i) - fl (2 * x (m + i))) + x (0 + i))))) (by
        intro i hi
        have := d2_near hfl (hxB (2 * m + i) (by omega)) (hxB (m + i) (by omega))
          (hxB i (by omega))
        simp only [d2, Nat.zero_add, Nat.add_comm i]
        exact this)
    exact this
  rw [Finset.sum_const, Finset.card_range, nsmul_eq_mul] at hv1
  -- the other windows
  set bb : ℕ → ℝ := fun i => fl (fl (fl (x (3 * m + i) - fl (3 * x (2 * m + i))) +
    fl (3 * x (1 * m + i))) - x (0 + i)) with hbb
  have hb1 : ∀ i < e', NearA 4 (bb i) (d3 x m i) (8 * B) := by
    intro i hi
    have := d3_near hfl (hxB (3 * m + i) (by omega)) (hxB (2 * m + i) (by omega))
      (hxB (m + i) (by omega)) (hxB i (by omega))
    simp only [hbb, d3, Nat.zero_add, Nat.one_mul, Nat.add_comm i]
    exact this
  set u : ℕ → ℝ := fun i => fl (v + runSum fl bb i) with hu
  have hu1 : ∀ i < e', NearA (N + 1) (u i) (modTerm x m (i + 1)) (8 * N * B) := by
    intro i hi
    have h1 := (runSum_near hfl hb1 i hi).mono (by omega : i + 4 ≤ N)
    have h2 := hv1.mono (by omega : m - 1 + 3 ≤ N)
    have h4 := (h2.add h1).fl hfl
    rw [modTerm_cumsum] at h4
    refine h4.mono_size ?_
    have : (m : ℝ) * 4 + (i + 1) * 8 ≤ 8 * N := by
      have : m * 4 + (i + 1) * 8 ≤ 8 * N := by omega
      exact_mod_cast this
    nlinarith
  set w : ℕ → ℝ := fun j => if j = 0 then v else u (j - 1) with hw
  have hw1 : ∀ j < e' + 1, |w j - modTerm x m j| ≤ ((1 + unitRoundoff) ^ (N + 1) - 1) * (8 * N * B) := by
    intro j hj
    rcases Nat.eq_zero_or_pos j with h | h
    · subst h
      simp only [hw, if_true]
      refine ((hv1.mono (by omega : m - 1 + 3 ≤ N + 1)).mono_size ?_).2
      have : (m : ℝ) * 4 ≤ 8 * N := by
        have : m * 4 ≤ 8 * N := by omega
        exact_mod_cast this
      nlinarith
    · simp only [hw, if_neg (by omega : ¬ j = 0)]
      have := (hu1 (j - 1) (by omega)).2
      rwa [Nat.sub_add_cancel h] at this
  -- the sum of squares
  have hs1 : Near (e' + 2) (fl (fl (v * v) + sum (tab e' (fun i => fl (u i * u i)))))
      (∑ j ∈ range (e' + 1), w j ^ 2) := by
    have h1 := (sumsq_near' hfl (hsum (tab e' (fun i => fl (u i * u i))))).mono
      (by omega : e' ≤ e' + 1)
    have h2 := (Near.of_fl hfl (v * v)).mono (by omega : 1 ≤ e' + 1)
    have h4 := (h2.add h1 (mul_self_nonneg v) (Finset.sum_nonneg fun i _ => sq_nonneg _)).fl hfl
    have e1 : ∑ j ∈ range (e' + 1), w j ^ 2 = v * v + ∑ i ∈ range e', u i ^ 2 := by
      rw [Finset.sum_range_succ', add_comm]
      simp [hw, pow_two]
    rw [e1]
    exact h4
  -- the denominator
  have hden : Near 7 (fl (fl (fl (fl (fl (2 * (m : ℝ)) * m) * fl ((m : ℝ) / rate)) *
      fl ((m : ℝ) / rate)) * ((e' + 1 : ℕ) : ℝ)))
      (2 * m * m * (m / rate) * (m / rate) * ((e' + 1 : ℕ) : ℝ)) := by
    have t := Near.of_fl hfl ((m : ℝ) / rate)
    have h1 := ((Near.of_fl hfl (2 * (m : ℝ))).mul_const (m : ℝ)).fl hfl
    have h2 := ((h1.mul t).fl hfl)
    have h4 := ((h2.mul t).fl hfl)
    exact (h4.mul_const _).fl hfl
  have h5 := (hs1.div hden (by positivity) (by unfold unitRoundoff; norm_num)).fl hfl
  have h6 := (h5.sqrt (div_nonneg (Finset.sum_nonneg fun i _ => sq_nonneg _) (by positivity))).fl hfl
  have e1 : √((∑ j ∈ range (e' + 1), w j ^ 2) / (2 * m * m * (m / rate) * (m / rate) * ((e' + 1 : ℕ) : ℝ)))
      = √((∑ j ∈ range (e' + 1), w j ^ 2) / (2 * ((e' + 1 : ℕ) : ℝ))) * (1 / (m * (m / rate))) := by
    have e2 : (∑ j ∈ range (e' + 1), w j ^ 2) / (2 * m * m * (m / rate) * (m / rate) * ((e' + 1 : ℕ) : ℝ))
        = (∑ j ∈ range (e' + 1), w j ^ 2) / (2 * ((e' + 1 : ℕ) : ℝ)) * (1 / (m * (m / rate))) ^ 2 := by
      field_simp
    rw [e2, Real.sqrt_mul' _ (sq_nonneg _), Real.sqrt_sq (by positivity)]
  rw [e1] at h6
  have h7 := dev_bound _ (e' + 1) (by omega) w (modTerm x m) 2 _ (1 / (m * (m / rate))) _ two_pos
    (by positivity) h6 hw1
  have h8 := simple_bound (K := e' + 2 + 2 * 7 + 1 + 1) (by omega)
    (D := √((∑ j ∈ range (e' + 1), modTerm x m j ^ 2) / (2 * ((e' + 1 : ℕ) : ℝ))) * (1 / (m * (m / rate))))
    (E := ((1 + unitRoundoff) ^ (N + 1) - 1) * (8 * N * B) / √2 * (1 / (m * (m / rate))))
    (by positivity) (by have := near_eps_nonneg (N + 1); positivity)
  have h9 := eta_mdev hN hB0 (show 0 ≤ 1 / ((m : ℝ) * (m / rate)) by positivity)
  have e3 : ((e' + 2 + 2 * 7 + 1 + 1 : ℕ) : ℝ) = ((e' + 1 : ℕ) : ℝ) + 17 := by push_cast; ring
  rw [e3] at h8
  have h10 : 0 ≤ N * (N + 1) * unitRoundoff * B * (1 / (m * (m / rate))) := by
    have := unitRoundoff_pos; positivity
  refine (h7.trans h8).trans ?_
  nlinarith

/-- one row of `mdev` -/
theorem mdev_row_float (hfl : FloatRound fl) (hsum : ∀ l, FloatSum fl l (sum l)) (x : List ℝ) (B : ℝ)
    (hB : ∀ v ∈ x, |v| ≤ B) (rate : ℝ) (hr : 0 < rate) (hN : x.length ≤ 2 ^ 47) (m : ℕ)
    (hm0 : 0 < m) (idx : ℕ) (ts : List ℝ)
    (hts : ts[idx]? = some (fl ((m : ℝ) / rate))) :
    ∃ row, mdev_body_fl fl sum x ts idx m = .ok row ∧ (1 < row.2.2 ↔ 1 < (x.length : ℤ) - 3 * m + 1) ∧
      (1 < (x.length : ℤ) - 3 * m + 1 → row.2.2 = (x.length : ℤ) - 3 * m + 1 ∧
        |row.1 - Spec.mdev (seq x) x.length m (m / rate)| ≤
          Spec.mdevBound x.length rate B (m / rate) (Spec.mdev (seq x) x.length m (m / rate)) ((x.length : ℤ) - 3 * m + 1) ∧
        |row.2.1 - row.1 / √(((x.length : ℤ) - 3 * m + 1 : ℤ) : ℝ)| ≤
          4 * unitRoundoff * |row.1 / √(((x.length : ℤ) - 3 * m + 1 : ℤ) : ℝ)|) := by
  obtain ⟨row, h1, h2, h3⟩ := mdev_body_fl_row hfl hsum x B hB rate hr m hm0 hN ts idx hts
  refine ⟨row, h1, by rw [h2]; omega, fun hn => ?_⟩
  have hn0 : 3 * m < x.length := by omega
  obtain ⟨h4, h5⟩ := h3 hn0
  have hm' : (0 : ℝ) < m := by exact_mod_cast hm0
  have hc : ((x.length - 3 * m + 1 : ℕ) : ℝ) = (((x.length : ℤ) - 3 * m + 1 : ℤ) : ℝ) := by
    rw [Nat.cast_add, Nat.cast_sub (by omega)]; push_cast; ring
  have hd : √((∑ j ∈ range (x.length - 3 * m + 1), (modTerm (seq x) m j) ^ 2)
            / (2 * ((x.length - 3 * m + 1 : ℕ) : ℝ))) * (1 / (m * (m / rate))) =
      Spec.mdev (seq x) x.length m (m / rate) := by
    have hp : (0 : ℝ) < ((x.length - 3 * m + 1 : ℕ) : ℝ) := by positivity
    unfold Spec.mdev rms
    have hc' : (x.length : ℝ) - 3 * m + 1 = ((x.length - 3 * m + 1 : ℕ) : ℝ) := by
      rw [hc]; push_cast; ring
    rw [hc']
    have e2 : (∑ j ∈ range (x.length - 3 * m + 1), (∑ i ∈ range m, d2 (seq x) m (j + i)) ^ 2) /
        (2 * m ^ 2 * (m / rate) ^ 2 * ((x.length - 3 * m + 1 : ℕ) : ℝ)) =
        (∑ j ∈ range (x.length - 3 * m + 1), (modTerm (seq x) m j) ^ 2) /
          (2 * ((x.length - 3 * m + 1 : ℕ) : ℝ)) * (1 / (m * (m / rate))) ^ 2 := by
      unfold modTerm
      field_simp
    rw [e2, Real.sqrt_mul' _ (sq_nonneg _), Real.sqrt_sq (by positivity)]
  rw [hd, hc] at h4
  rw [hc] at h5
  refine ⟨by rw [h2]; omega, ?_, h5⟩
  unfold Spec.mdevBound
  have e3 : (m : ℝ) / rate * rate = m := by field_simp
  rw [e3, div_eq_mul_one_div _ ((m : ℝ) * (m / rate))]
  exact h4

/-- C67: `mdev` on phase data in double precision -/
theorem mdev_float (hfl : FloatRound fl) (hsum : ∀ l, FloatSum fl l (sum l)) (log10grid x : List ℝ)
    (B : ℝ) (hB : ∀ v ∈ x, |v| ≤ B) (rate : ℝ) (hr : 0 < rate) (taus : TausArg)
    (hN : x.length ≤ 2 ^ 47) (ht : SafeTaus rate taus) :
    (∃ e, mdev_fl fl sum log10grid x rate taus = .error e ∧ mdev x rate "phase" taus = .error e) ∨
    ∃ o o', mdev_fl fl sum log10grid x rate taus = .ok o ∧ mdev x rate "phase" taus = .ok o' ∧
      FloatClose (Spec.mdevBound x.length rate B) o o' := by
  have h := driver_float hfl (Spec.mdevBound x.length rate B) log10grid x rate taus hN ht
    (fun ts idx m => mdev_body_fl fl sum x ts idx m)
    (fun m => Spec.mdev (seq x) x.length m (m / rate))
    (fun m => Spec.mdev (seq x) x.length m (m / rate) / √((x.length : ℝ) - 3 * m + 1))
    (fun m => (x.length : ℤ) - 3 * m + 1) ?_ ?_
  · simp only at h
    rw [← mdev_phase_eq x rate taus] at h
    have e : mdev_fl fl sum log10grid x rate taus = (tau_generator_fl fl log10grid x rate taus >>= fun r =>
        runTaus r.2.2 r.2.1 (fun idx m => mdev_body_fl fl sum x r.2.2 idx m)) := by
      unfold mdev_fl
      rw [tau_generator_float_safe hfl log10grid x rate taus false (-1) hN ht]
      cases factors x.length rate taus false (effMax x.length (-1)) <;> simp only [ok_bind, error_bind]
    rw [e]
    exact h
  · intro _ m hm0 hmN idx ts hts
    exact mdev_row_float hfl hsum x B hB rate hr hN m hm0 idx ts hts
  · intro m ts ts' i j hi hj
    have g : ∀ (l : List ℝ) (k : ℕ) (t : ℝ), l[k]? = some t → pyGet l (k : ℤ) = .ok t := by
      intro l k t h
      unfold pyGet
      simp only [if_neg (by omega : ¬ ((k : ℤ) < 0)), Int.toNat_natCast, h]
    simp only [mdev_body_fl]
    rw [g _ _ _ hi, g _ _ _ hj]

/-- The absolute term of the bound is needed, the relative error alone is not bounded: for these
four phase values, which are doubles, the computed Allan deviation is zero and the exact one is
positive.  Both second differences are lost when a phase value is subtracted from a larger one. -/
theorem oadev_float_zero (hfl : ∀ x, IsBinary64 x (fl x)) (hsum : ∀ l, FloatSum fl l (sum l)) :
    oadev_fl fl sum [] [1, 1 / 2, 1 / 2 ^ 60, -(1 / 2)] 1 (.list [((1 : ℕ) : ℝ) / 1]) =
      .ok ⟨[1], [0], .arr [0], [2]⟩ ∧
    oadev [1, 1 / 2, 1 / 2 ^ 60, -(1 / 2)] 1 "phase" (.list [((1 : ℕ) : ℝ) / 1]) =
      .ok ⟨[((1 : ℕ) : ℝ) / 1], [√(5 / 2 ^ 122)], .arr [√(5 / 2 ^ 122) / √2], [2]⟩ := by
  have hr : FloatRound fl := fun x => isBinary64_rel (hfl x)
  have z : fl 0 = 0 := by
    have := hr 0
    simpa using this
  have o1 : fl 1 = 1 := by
    have := binary64_eq hfl 1 (-52) (2 ^ 52) (by norm_num) (by norm_num) (by norm_num)
    rw [this]; norm_num
  constructor
  · unfold oadev_fl
    have hs : SafeTaus 1 (.list [((1 : ℕ) : ℝ) / 1]) := by
      intro t ht
      rw [List.mem_singleton] at ht
      exact ⟨1, by norm_num, by rw [ht]; norm_num⟩
    rw [tau_generator_float_safe hr [] _ 1 _ false (-1) (by norm_num) hs, effMax_default]
    rw [factors_single _ 1 one_ne_zero false _ 1 one_pos (by simp) (by simp) (by simp)]
    simp only [ok_bind, List.map_cons, List.map_nil]
    have c1 : fl (2 * (1 / 2)) = 1 := by
      rw [show (2 : ℝ) * (1 / 2) = 1 by norm_num]; exact o1
    have c2 : fl (1 / 2 ^ 60 - 1) = -1 := by
      have := binary64_eq hfl (1 / 2 ^ 60 - 1) (-53) (-2 ^ 53) (by norm_num [abs_of_neg])
        (by norm_num [abs_of_neg]) (by norm_num [abs_of_pos])
      rw [this]; norm_num
    have c3 : fl (2 * (1 / 2 ^ 60)) = 1 / 2 ^ 59 := by
      have := binary64_eq hfl (2 * (1 / 2 ^ 60)) (-111) (2 ^ 52) (by norm_num) (by norm_num)
        (by norm_num)
      rw [this]; norm_num
    have c4 : fl (-(1 / 2) - 1 / 2 ^ 59) = -(1 / 2) := by
      have := binary64_eq hfl (-(1 / 2) - 1 / 2 ^ 59) (-53) (-2 ^ 52) (by norm_num [abs_of_neg])
        (by norm_num [abs_of_neg]) (by norm_num [abs_of_neg])
      rw [this]; norm_num
    have c5 : sum [0, 0] = 0 := by
      have := (FloatSum.nearA hr (hsum [0, 0])).2
      simpa using this
    have row : calc_adev_phase_fl fl sum [1, 1 / 2, 1 / 2 ^ 60, -(1 / 2)] 1 1 1 = .ok (0, 0, 2) := by
      simp only [calc_adev_phase_fl]
      have s2 : sliceStep [(1 : ℝ), 1 / 2, 1 / 2 ^ 60, -(1 / 2)] ((2 * 1 : ℕ) : ℤ) 1 = .ok [1 / 2 ^ 60, -(1 / 2)] := by
        simp only [sliceStep, if_neg one_ne_zero, sliceFrom_nat]; simp [everyNth]
      have s1 : sliceStep [(1 : ℝ), 1 / 2, 1 / 2 ^ 60, -(1 / 2)] ((1 * 1 : ℕ) : ℤ) 1 = .ok [1 / 2, 1 / 2 ^ 60, -(1 / 2)] := by
        simp only [sliceStep, if_neg one_ne_zero, sliceFrom_nat]; simp [everyNth]
      have s0 : sliceStep [(1 : ℝ), 1 / 2, 1 / 2 ^ 60, -(1 / 2)] ((0 : ℕ) : ℤ) 1 = .ok [1, 1 / 2, 1 / 2 ^ 60, -(1 / 2)] := by
        simp only [sliceStep, if_neg one_ne_zero, sliceFrom_nat]; simp [everyNth]
      rw [s2, s1, s0]
      have l : ∀ a b c d : ℝ, min (min [a, b, c, d].length [b, c, d].length) [c, d].length = 2 :=
        fun _ _ _ _ => rfl
      have t : ∀ (a b c d : ℝ), sliceTo [a, b, c, d] ((2 : ℕ) : ℤ) = [a, b] := fun _ _ _ _ => rfl
      have t' : ∀ (a b c : ℝ), sliceTo [a, b, c] ((2 : ℕ) : ℤ) = [a, b] := fun _ _ _ => rfl
      have t'' : ∀ (a b : ℝ), sliceTo [a, b] ((2 : ℕ) : ℤ) = [a, b] := fun _ _ => rfl
      have vo : ∀ (f : ℝ → ℝ → ℝ) (a b c d : ℝ), vop f [a, b] [c, d] = .ok [f a c, f b d] :=
        fun _ _ _ _ _ => rfl
      simp only [ok_bind, l, if_neg (by norm_num : ¬ (2 = 0)), t, t', t'', vscale_fl, vsub_fl, vadd_fl,
        vmul_fl, List.map_cons, List.map_nil, vo, c1, c2, c3, c4, neg_add_cancel, z, mul_zero, c5,
        zero_div, Real.sqrt_zero, zero_mul]
      rfl
    have h := runTaus_eq' [1] (fun m => calc_adev_phase_fl fl sum [1, 1 / 2, 1 / 2 ^ 60, -(1 / 2)] 1 m 1)
      (fun _ => 1) (fun _ => 0) (fun _ => 0) (fun _ => 2) (by
        intro m hm
        rw [List.mem_singleton] at hm
        subst hm
        exact ⟨_, row, by simp, fun _ => rfl⟩)
    simp only [List.map_cons, List.map_nil] at h
    rw [show ((1 : ℕ) : ℝ) / 1 = 1 by norm_num, o1, h]
    simp [sweep]
  · rw [oadev_phase_eq _ _ (by norm_num), table_single _ _ (by norm_num) _ _ _ _ _ 1 (by norm_num) (by simp)
      (by norm_num) (by simp) (by norm_num)]
    have h : Spec.oadev (seq [1, 1 / 2, 1 / 2 ^ 60, -(1 / 2)]) 4 1 (((1 : ℕ) : ℝ) / 1) = √(5 / 2 ^ 122) := by
      simp only [Spec.oadev, rms, d2, seq, Finset.sum_range_succ]
      congr 1
      norm_num [Finset.sum_range_succ]
    have l : [(1 : ℝ), 1 / 2, 1 / 2 ^ 60, -(1 / 2)].length = 4 := rfl
    rw [l, h]
    norm_num

/-- every list has a rounded sum -/
theorem exists_floatSum (fl : ℝ → ℝ) : ∃ sum : List ℝ → ℝ, ∀ l, FloatSum fl l (sum l) := by
  have h : ∀ l : List ℝ, ∃ s, FloatSum fl l s := by
    intro l
    induction l with
    | nil => exact ⟨0, .nil⟩
    | cons v l ih =>
      obtain ⟨s, hs⟩ := ih
      by_cases h0 : l = []
      · subst h0; exact ⟨v, .single v⟩
      · exact ⟨_, .add (by simp) h0 (List.Perm.refl ([v] ++ l)) (.single v) hs⟩
  choose sum hsum using h
  exact ⟨sum, hsum⟩

/-- Double precision with some order of summation: 6 points at 2 Hz, averaging time 1 s.  The
exact deviation is `√(109/4)` and the computed one differs by less than `10^-13`. -/
example : ∃ (fl : ℝ → ℝ) (sum : List ℝ → ℝ) (o : DevOut ℝ), (∀ x, IsBinary64 x (fl x)) ∧
    oadev_fl fl sum [] [0, 1, 0, 1, 3, -9] 2 (.list [(2 : ℕ) / 2]) = .ok o ∧ o.ns = [2] ∧
    |o.devs.getD 0 0 - √(109 / 4)| < 1 / 10 ^ 13 := by
  obtain ⟨fl, h64, hfl⟩ := exists_binary64
  obtain ⟨sum, hsum⟩ := exists_floatSum fl
  have ex : oadev [0, 1, 0, 1, 3, -9] 2 "phase" (.list [(2 : ℕ) / 2])
      = .ok ⟨[(2 : ℕ) / 2], [√(109 / 4)], .arr [√(109 / 4) / √2], [2]⟩ := by
    rw [oadev_phase_eq _ _ (by norm_num), table_single _ _ (by norm_num) _ _ _ _ _ 2 (by norm_num) (by simp)
      (by norm_num) (by simp) (by norm_num)]
    simp [Spec.oadev, rms, d2, seq, Finset.sum_range_succ]
    norm_num
  have h := oadev_float hfl hsum [] [0, 1, 0, 1, 3, -9] 9 (by norm_num) 2 two_pos (.list [(2 : ℕ) / 2])
    (by norm_num) (by
      intro t ht
      rw [List.mem_singleton] at ht
      exact ⟨2, by norm_num, by rw [ht]; norm_num⟩)
  rw [ex] at h
  rcases h with ⟨e, _, h⟩ | ⟨o, o', h1, h2, h3⟩
  · cases h
  · cases h2
    refine ⟨fl, sum, o, h64, h1, h3.ns, ?_⟩
    have h4 := h3.devs 0 (by simp)
    simp only [List.getD_cons_zero] at h4
    refine h4.trans_lt ?_
    have h5 : √(109 / 4 : ℝ) < 6 := by rw [Real.sqrt_lt' (by norm_num)]; norm_num
    unfold Spec.adevBound unitRoundoff
    norm_num at h5 ⊢
    linarith

end AT
