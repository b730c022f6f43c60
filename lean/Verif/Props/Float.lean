import Verif.Lemmas.Float
import Verif.Lemmas.Run
import Verif.Model.Float

/-!
# C66: averaging factors in floating point

Property: rounding errors of double precision do not change the averaging factors: the
keywords give the same factors as in exact arithmetic, taus returned by one call select the same
factors in another call, and the averaging factors written to a file are those that were used.  The
first two hold for up to `2^47` samples.  The last one is false: `int(taus[i]/taus[0])` truncates.
-/

namespace AT

open Spec

theorem tau_core {α : Type} (data : List α) (g : ℤ → ℝ) (even : Bool) (ms : List ℤ) :
    (if even = true then
      (.ok (data, (ms.filter (fun k => decide (k % 2 = 0))).map Int.toNat,
        (ms.filter (fun k => decide (k % 2 = 0))).map g) : Py (List α × List ℕ × List ℝ))
    else .ok (data, ms.map Int.toNat, ms.map g)) =
    .ok (data, (ms.filter (fun k => if even then decide (k % 2 = 0) else true)).map Int.toNat,
      (ms.filter (fun k => if even then decide (k % 2 = 0) else true)).map g) := by
  cases even <;> simp

theorem tau_fl_core {α : Type} (fl : ℝ → ℝ) (log10grid : List ℝ) (data : List α)
    (rate : ℝ) (hr : rate ≠ 0) (taus : TausArg) (even : Bool) (mx : ℝ)
    (h : (∃ e, expand_taus_fl fl log10grid data.length rate taus = .error e ∧
        expand_taus data.length rate taus = .error e) ∨
      ∃ l l', expand_taus_fl fl log10grid data.length rate taus = .ok l ∧
        expand_taus data.length rate taus = .ok l' ∧
        l.map (fun t => npRound (fl (t * rate))) = l'.map (fun t => npRound (t * rate))) :
    tau_generator_fl fl log10grid data rate taus even mx =
      (factors data.length rate taus even (effMax data.length mx) >>= fun ms =>
        .ok (data, ms, ms.map (fun (m : ℕ) => fl ((m : ℝ) / rate)))) := by
  have hex := tau_generator_eq data rate taus even mx
  unfold tau_generator_fl
  unfold tau_generator at hex
  rw [if_neg hr] at hex ⊢
  rcases h with ⟨e, h1, h2⟩ | ⟨l, l', h1, h2, h3⟩
  · rw [h2, error_bind] at hex
    rw [h1, error_bind]
    cases hf : factors data.length rate taus even (effMax data.length mx) with
    | error e' => rw [hf, error_bind] at hex; rw [error_bind]; injection hex with hex; rw [hex]
    | ok ms => rw [hf, ok_bind] at hex; cases hex
  · rw [h2, ok_bind] at hex
    rw [h1, ok_bind]
    simp only [maskSel_map, maskSel_map_map, ok_bind] at hex ⊢
    rw [h3]
    rw [tau_core] at hex ⊢
    set u := npUnique _ with hu
    have hupos : ∀ k ∈ u, 0 < k := by
      intro k hk
      rw [hu, mem_npUnique] at hk
      simp only [List.mem_filter, Bool.and_eq_true, decide_eq_true_eq] at hk
      exact hk.1.2.1.2
    clear_value u
    cases hf : factors data.length rate taus even (effMax data.length mx) with
    | error e' => rw [hf, error_bind] at hex; cases hex
    | ok ms =>
      rw [hf, ok_bind] at hex
      rw [ok_bind]
      injection hex with hex
      obtain ⟨_, hex⟩ := Prod.mk.inj hex
      obtain ⟨hms, _⟩ := Prod.mk.inj hex
      rw [← hms, List.map_map]
      congr 3
      apply List.map_congr_left
      intro k hk
      have hk0 := hupos k (List.mem_filter.1 hk).1
      simp only [Function.comp]
      congr 2
      have h : ((k.toNat : ℕ) : ℤ) = k := Int.toNat_of_nonneg hk0.le
      exact_mod_cast h.symm

variable {fl : ℝ → ℝ}

/-- C66: for the keywords "all", "octave", "decade" and the default, and up to `2^47` samples,
rounding errors change no averaging factor, whatever the rate. -/
theorem tau_generator_float {α : Type} (hfl : FloatRound fl) (log10grid : List ℝ) (data : List α)
    (rate : ℝ) (taus : TausArg) (even : Bool) (mx : ℝ) (hN : data.length ≤ 2 ^ 47)
    (ht : taus = .none ∨ taus = .list [] ∨ ∃ s, taus = .str s ∧ s ≠ "log10") :
    tau_generator_fl fl log10grid data rate taus even mx =
      (factors data.length rate taus even (effMax data.length mx) >>= fun ms =>
        .ok (data, ms, ms.map (fun (m : ℕ) => fl ((m : ℝ) / rate)))) := by
  by_cases hr : rate = 0
  · subst hr
    unfold tau_generator_fl factors
    rw [if_pos rfl, if_pos rfl]
    rfl
  set N := data.length with hNd
  have hNr : (N : ℝ) ≤ 2 ^ 47 := by exact_mod_cast hN
  -- one tau value
  have one : ∀ c : ℝ, |c| ≤ 2 ^ 49 → ∀ t, Near 5 t (1 / rate * c) → ∀ k : ℤ, c = k →
      npRound (fl (t * rate)) = npRound (1 / rate * c * rate) := by
    intro c hc t ht k hk
    have e : 1 / rate * c * rate = c := by field_simp
    have h1 := (ht.mul_const rate).fl hfl
    rw [e] at h1
    rw [e]
    have h2 : npRound c = k := npRound_of_lt (by rw [hk]; simp)
    rw [h2]
    apply npRound_of_lt
    rw [← hk]
    exact h1.lt_half le_rfl hc
  have oct : ∀ taus : TausArg, (expand_taus N rate taus = expand_taus.octave N rate) →
      (expand_taus_fl fl log10grid N rate taus = expand_taus_fl.octave fl N rate) →
      ((∃ e, expand_taus_fl fl log10grid N rate taus = .error e ∧ expand_taus N rate taus = .error e) ∨
      ∃ l l', expand_taus_fl fl log10grid N rate taus = .ok l ∧ expand_taus N rate taus = .ok l' ∧
        l.map (fun t => npRound (fl (t * rate))) = l'.map (fun t => npRound (t * rate))) := by
    intro taus h1 h2
    rw [h1, h2]
    unfold expand_taus.octave expand_taus_fl.octave
    by_cases h0 : N = 0
    · left; rw [if_pos h0, if_pos h0]; exact ⟨_, rfl, rfl⟩
    right
    rw [if_neg h0, if_neg h0]
    refine ⟨_, _, rfl, rfl, ?_⟩
    have hf : ⌊Real.logb 2 N⌋ = (Nat.log 2 N : ℤ) := by
      exact_mod_cast floor_logb 2 (by norm_num) N (by omega)
    have e1 : (⌊Real.logb 2 N⌋ + 1).toNat = Nat.log 2 N + 1 := by rw [hf]; omega
    have e2 : ((⌊Real.logb 2 N⌋ : ℤ) : ℝ) = ((Nat.log 2 N : ℕ) : ℝ) := by rw [hf]; simp
    simp only [e1, e2, vscale, List.map_map]
    apply List.map_congr_left
    intro x hx
    obtain ⟨k, hk, rfl⟩ := (logspace_octave _ _).1 hx
    simp only [Function.comp]
    have hle : 2 ^ k ≤ N := (Nat.pow_le_pow_right (by norm_num) hk).trans
      (Nat.pow_log_le_self 2 (by omega))
    have hle' : ((2 ^ k : ℕ) : ℝ) ≤ N := by exact_mod_cast hle
    refine one _ ?_ _ ?_ (2 ^ k) (by push_cast; rfl)
    · rw [abs_of_pos (by positivity)]
      push_cast at hle'
      linarith
    · exact (((Near.of_fl hfl _).mul (Near.of_fl hfl _)).fl hfl).mono (by norm_num)
  apply tau_fl_core fl log10grid data rate hr taus even mx
  rw [← hNd]
  clear_value N
  rcases ht with rfl | rfl | ⟨s, rfl, hs⟩
  · exact oct _ rfl rfl
  · exact oct _ rfl rfl
  by_cases h1 : s = "all"
  · subst h1
    right
    refine ⟨(npLinspace 1 N N).map (fun k => fl (fl (1 / rate) * k)),
      vscale (1 / rate) (npLinspace 1 N N), by simp [expand_taus_fl], by simp [expand_taus], ?_⟩
    simp only [vscale, List.map_map]
    apply List.map_congr_left
    intro x hx
    obtain ⟨i, hi, rfl⟩ := (mem_linspace_one N _).1 hx
    simp only [Function.comp]
    refine one _ ?_ _ ?_ ((i : ℤ) + 1) (by push_cast; rfl)
    · rw [abs_of_pos (by positivity)]
      have : ((i + 1 : ℕ) : ℝ) ≤ N := by exact_mod_cast hi
      push_cast at this
      linarith
    · exact (((Near.of_fl hfl _).mul_const _).fl hfl).mono (by norm_num)
  by_cases h2 : s = "octave"
  · subst h2
    exact oct _ (by simp [expand_taus]) (by simp [expand_taus_fl])
  by_cases h4 : s = "decade"
  · subst h4
    by_cases h0 : N = 0
    · left; exact ⟨.overflowError, by simp [expand_taus_fl, h0], by simp [expand_taus, h0]⟩
    right
    have hf : ⌊Real.logb 10 N⌋ = (Nat.log 10 N : ℤ) := by
      exact_mod_cast floor_logb 10 (by norm_num) N (by omega)
    have e1 : (⌊Real.logb 10 N⌋ + 1).toNat = Nat.log 10 N + 1 := by rw [hf]; omega
    refine ⟨(List.range (Nat.log 10 N + 1)).flatMap (fun k =>
          [fl (fl (1 * fl (1 / rate)) * fl (10 ^ k)), fl (fl (2 * fl (1 / rate)) * fl (10 ^ k)),
            fl (fl (4 * fl (1 / rate)) * fl (10 ^ k))]),
      (List.range (Nat.log 10 N + 1)).flatMap (fun k =>
          [1 * (1 / rate) * 10 ^ k, 2 * (1 / rate) * 10 ^ k, 4 * (1 / rate) * 10 ^ k]),
      by simp [expand_taus_fl, h0, e1], by simp [expand_taus, h0, e1], ?_⟩
    rw [List.map_flatMap, List.map_flatMap]
    apply List.flatMap_congr
    intro k hk
    rw [List.mem_range] at hk
    have hle : 10 ^ k ≤ N := (Nat.pow_le_pow_right (by norm_num) (by omega)).trans
      (Nat.pow_log_le_self 10 (by omega))
    have hle' : ((10 ^ k : ℕ) : ℝ) ≤ N := by exact_mod_cast hle
    push_cast at hle'
    have step : ∀ c : ℕ, c ≤ 4 → npRound (fl (fl (fl (c * fl (1 / rate)) * fl (10 ^ k)) * rate))
        = npRound (c * (1 / rate) * 10 ^ k * rate) := by
      intro c hc
      have hc' : (c : ℝ) ≤ 4 := by exact_mod_cast hc
      have e : (c : ℝ) * (1 / rate) * 10 ^ k = 1 / rate * (c * 10 ^ k) := by ring
      rw [e]
      refine one _ ?_ _ ?_ (c * 10 ^ k) (by push_cast; rfl)
      · rw [abs_of_nonneg (by positivity)]
        have h5 : (0 : ℝ) < 10 ^ k := by positivity
        nlinarith
      · have := ((((Near.of_fl hfl (1 / rate)).const_mul (c : ℝ)).fl hfl).mul
          (Near.of_fl hfl ((10 : ℝ) ^ k))).fl hfl
        rw [e] at this
        exact this.mono (by norm_num)
    have s1 := step 1 (by norm_num)
    have s2 := step 2 (by norm_num)
    have s4 := step 4 (by norm_num)
    push_cast at s1 s2 s4
    simp only [List.map_cons, List.map_nil, s1, s2, s4]
  · left
    exact ⟨.typeError, by simp [expand_taus_fl, h1, h2, h4, hs], by simp [expand_taus, h1, h2, h4, hs]⟩

/-- C66: rounding errors change no averaging factor for a keyword other than "log10", nor for
taus given as numbers if each `tau*rate` is within 1/4 of an integer up to `2^49`. -/
theorem tau_generator_float_safe {α : Type} (hfl : FloatRound fl) (log10grid : List ℝ)
    (data : List α) (rate : ℝ) (taus : TausArg) (even : Bool) (mx : ℝ) (hN : data.length ≤ 2 ^ 47)
    (ht : SafeTaus rate taus) :
    tau_generator_fl fl log10grid data rate taus even mx =
      (factors data.length rate taus even (effMax data.length mx) >>= fun ms =>
        .ok (data, ms, ms.map (fun (m : ℕ) => fl ((m : ℝ) / rate)))) := by
  have arr : ∀ (taus : TausArg) (l : List ℝ),
      (∀ N, expand_taus_fl fl log10grid N rate taus = .ok l ∧ expand_taus N rate taus = .ok l) →
      (∀ t ∈ l, ∃ k : ℤ, |(k : ℝ)| ≤ 2 ^ 49 ∧ |t * rate - k| ≤ 1 / 4) →
      tau_generator_fl fl log10grid data rate taus even mx =
      (factors data.length rate taus even (effMax data.length mx) >>= fun ms =>
        .ok (data, ms, ms.map (fun (m : ℕ) => fl ((m : ℝ) / rate)))) := by
    intro taus l he hl
    by_cases hr : rate = 0
    · subst hr
      unfold tau_generator_fl factors
      rw [if_pos rfl, if_pos rfl]
      rfl
    apply tau_fl_core fl log10grid data rate hr _ even mx
    right
    refine ⟨l, l, (he _).1, (he _).2, ?_⟩
    apply List.map_congr_left
    intro t ht
    obtain ⟨k, h1, h2⟩ := hl t ht
    rw [npRound_of_lt (k := k) (x := t * rate) (by linarith)]
    apply npRound_of_lt
    have h3 := hfl (t * rate)
    have h4 : |t * rate| ≤ 2 ^ 49 + 1 / 4 := by
      have := abs_add_le (t * rate - k) k
      rw [sub_add_cancel] at this
      linarith
    have h5 : unitRoundoff * |t * rate| < 1 / 4 := by
      refine lt_of_le_of_lt (mul_le_mul_of_nonneg_left h4 unitRoundoff_pos.le) ?_
      unfold unitRoundoff; norm_num
    have h6 : |fl (t * rate) - k| ≤ |fl (t * rate) - t * rate| + |t * rate - k| := abs_sub_le _ _ _
    linarith
  match taus, ht with
  | .none, _ => exact tau_generator_float hfl _ _ _ _ _ _ hN (Or.inl rfl)
  | .list [], _ => exact tau_generator_float hfl _ _ _ _ _ _ hN (Or.inr (Or.inl rfl))
  | .str s, h => exact tau_generator_float hfl _ _ _ _ _ _ hN (Or.inr (Or.inr ⟨s, rfl, h⟩))
  | .list (t :: ts), h => exact arr _ _ (fun _ => ⟨rfl, rfl⟩) h
  | .array l, h => exact arr _ _ (fun _ => ⟨rfl, rfl⟩) h

theorem tau_fl_ok {α : Type} (log10grid : List ℝ) (data : List α)
    (rate : ℝ) (taus : TausArg) (even : Bool) (mx : ℝ)
    {d : List α} {ms : List ℕ} {ts : List ℝ}
    (h : tau_generator_fl fl log10grid data rate taus even mx = .ok (d, ms, ts)) :
    rate ≠ 0 ∧ d = data ∧ ts = ms.map (fun (m : ℕ) => fl ((m : ℝ) / rate)) ∧
      ms.Pairwise (· < ·) ∧ ∀ m ∈ ms, 0 < m ∧ m < data.length ∧
        (m : ℝ) ≤ effMax data.length mx ∧ (even = true → Even m) := by
  unfold tau_generator_fl at h
  by_cases hr : rate = 0
  · rw [if_pos hr] at h; cases h
  rw [if_neg hr] at h
  cases he : expand_taus_fl fl log10grid data.length rate taus with
  | error e => rw [he, error_bind] at h; cases h
  | ok l =>
    rw [he, ok_bind] at h
    simp only [maskSel_map, maskSel_map_map, ok_bind] at h
    rw [tau_core] at h
    set u := npUnique _ with hu
    have humem : ∀ k ∈ u, k < (data.length : ℤ) ∧ 0 < k ∧ (k : ℝ) ≤ effMax data.length mx := by
      intro k hk
      rw [hu, mem_npUnique] at hk
      simp only [List.mem_filter, Bool.and_eq_true, decide_eq_true_eq] at hk
      exact ⟨hk.1.2.1.1, hk.1.2.1.2, hk.1.2.2⟩
    have hus : u.Pairwise (· < ·) := npUnique_sorted _
    clear_value u
    injection h with h
    obtain ⟨hd, h⟩ := Prod.mk.inj h
    obtain ⟨hms, hts⟩ := Prod.mk.inj h
    refine ⟨hr, hd.symm, ?_, ?_, ?_⟩
    · rw [← hts, ← hms, List.map_map]
      apply List.map_congr_left
      intro k hk
      have hk0 := (humem k (List.mem_filter.1 hk).1).2.1
      simp only [Function.comp]
      congr 2
      have h : ((k.toNat : ℕ) : ℤ) = k := Int.toNat_of_nonneg hk0.le
      exact_mod_cast h.symm
    · rw [← hms, List.pairwise_map]
      refine List.Pairwise.imp_of_mem ?_ (hus.filter _)
      intro a b ha hb hab
      have := (humem a (List.mem_filter.1 ha).1).2.1
      omega
    · intro m hm
      rw [← hms, List.mem_map] at hm
      obtain ⟨k, hk, rfl⟩ := hm
      obtain ⟨hk, hp⟩ := List.mem_filter.1 hk
      obtain ⟨a1, a2, a3⟩ := humem k hk
      have hk' : ((k.toNat : ℕ) : ℤ) = k := Int.toNat_of_nonneg a2.le
      have hk'' : ((k.toNat : ℕ) : ℝ) = (k : ℝ) := by exact_mod_cast hk'
      refine ⟨by omega, by omega, by rw [hk'']; exact a3, fun he => ?_⟩
      rw [if_pos he, decide_eq_true_eq] at hp
      rw [Nat.even_iff]; omega

/-- C66: the taus returned by one call, given to a second call with the same data length, rate
and limits, select the same factors and are returned again. -/
theorem tau_generator_float_again {α : Type} (hfl : FloatRound fl) (log10grid : List ℝ)
    (data : List α) (rate : ℝ) (taus : TausArg) (even : Bool) (mx : ℝ)
    (hN : data.length ≤ 2 ^ 47) {d : List α} {ms : List ℕ} {ts : List ℝ}
    (h : tau_generator_fl fl log10grid data rate taus even mx = .ok (d, ms, ts)) :
    tau_generator_fl fl log10grid data rate (.array ts) even mx = .ok (d, ms, ts) := by
  obtain ⟨hr, rfl, hts, hsort, hmem⟩ := tau_fl_ok log10grid data rate taus even mx h
  have near : ∀ m ∈ ms, |fl ((m : ℝ) / rate) * rate - (m : ℤ)| ≤ 1 / 4 := by
    intro m hm
    have h1 := (Near.of_fl hfl ((m : ℝ) / rate)).mul_const rate
    rw [div_mul_cancel₀ _ hr] at h1
    unfold Near at h1
    have hm' : (m : ℝ) ≤ 2 ^ 49 := by
      have : m ≤ 2 ^ 49 := (hmem m hm).2.1.le.trans (hN.trans (by norm_num))
      exact_mod_cast this
    rw [pow_one, add_sub_cancel_left, Nat.abs_cast] at h1
    have h2 : unitRoundoff * m ≤ 1 / 4 := by
      refine le_trans (mul_le_mul_of_nonneg_left hm' unitRoundoff_pos.le) ?_
      unfold unitRoundoff; norm_num
    push_cast
    linarith
  rw [tau_generator_float_safe hfl log10grid d rate (.array ts) even mx hN]
  · have hf : factors d.length rate (.array ts) even (effMax d.length mx) = .ok ms := by
      unfold factors
      rw [if_neg hr]
      simp only [tausError]
      congr 1
      apply sorted_ext
      · exact List.Pairwise.filter _ List.pairwise_lt_range
      · exact hsort
      · intro a
        simp only [List.mem_filter, List.mem_range, admissible_iff, Requested]
        constructor
        · rintro ⟨_, _, _, _, _, t, ht, hround⟩
          rw [hts, List.mem_map] at ht
          obtain ⟨m, hm, rfl⟩ := ht
          have h1 := isRound_of_lt (lt_of_le_of_lt (near m hm) (by norm_num))
          have := isRound_unique hround h1
          have : a = m := by exact_mod_cast this
          rw [this]; exact hm
        · intro ha
          obtain ⟨a1, a2, a3, a4⟩ := hmem a ha
          refine ⟨a2, a1, a2, a3, a4, _, ?_, isRound_of_lt (lt_of_le_of_lt (near a ha) (by norm_num))⟩
          rw [hts]
          exact List.mem_map.2 ⟨a, ha, rfl⟩
    rw [hf, ok_bind, hts]
  · intro t ht
    rw [hts, List.mem_map] at ht
    obtain ⟨m, hm, rfl⟩ := ht
    refine ⟨m, ?_, near m hm⟩
    have : m ≤ 2 ^ 49 := (hmem m hm).2.1.le.trans (hN.trans (by norm_num))
    push_cast
    rw [Nat.abs_cast]
    exact_mod_cast this

/-! ## The averaging factor written to a file -/

theorem af_quotient (hfl : FloatRound fl) (rate : ℝ) (hr : 0 < rate) (m : ℕ) (hm : 0 < m)
    (hm' : m ≤ 2 ^ 49) : |fl (fl ((m : ℝ) / rate) / fl (1 / rate)) - m| < 1 / 2 := by
  have hu := unitRoundoff_pos
  have hu1 : unitRoundoff ≤ 1 / 2 ^ 53 := le_rfl
  have hmr : (m : ℝ) ≤ 2 ^ 49 := by exact_mod_cast hm'
  have hm0 : (0 : ℝ) < m := by exact_mod_cast hm
  set t := 1 / rate with ht
  have ht0 : 0 < t := by positivity
  have hmt : (m : ℝ) / rate = m * t := by rw [ht]; ring
  rw [hmt]
  have h1 := hfl (m * t)
  have h2 := hfl t
  have hmt0 := mul_pos hm0 ht0
  rw [abs_of_pos hmt0] at h1
  rw [abs_of_pos ht0] at h2
  set a := fl (m * t)
  set b := fl t
  have h1' := abs_le.1 h1
  have h2' := abs_le.1 h2
  have hb0 : 0 < b := by nlinarith
  have ha0 : 0 < a := by nlinarith [mul_pos hm0 ht0]
  have h3 := hfl (a / b)
  have hq0 : 0 < a / b := by positivity
  rw [abs_of_pos hq0] at h3
  have h3' := abs_le.1 h3
  have hlo : (m : ℝ) * (1 - 2 * unitRoundoff) ≤ a / b := by
    rw [le_div_iff₀ hb0]
    have hb1 : b ≤ t * (1 + unitRoundoff) := by linarith
    have : (m : ℝ) * (1 - 2 * unitRoundoff) * b ≤ m * (1 - 2 * unitRoundoff) * (t * (1 + unitRoundoff)) :=
      mul_le_mul_of_nonneg_left hb1 (by
        have : unitRoundoff ≤ 1 / 4 := hu1.trans (by norm_num)
        have : 0 ≤ 1 - 2 * unitRoundoff := by linarith
        positivity)
    nlinarith
  have hhi : a / b ≤ (m : ℝ) * (1 + 3 * unitRoundoff) := by
    rw [div_le_iff₀ hb0]
    have hb1 : t * (1 - unitRoundoff) ≤ b := by linarith
    have : (m : ℝ) * (1 + 3 * unitRoundoff) * (t * (1 - unitRoundoff)) ≤ m * (1 + 3 * unitRoundoff) * b :=
      mul_le_mul_of_nonneg_left hb1 (by positivity)
    have h5 : (m : ℝ) * (1 + 3 * unitRoundoff) * (t * (1 - unitRoundoff)) =
        m * t * (1 + 2 * unitRoundoff - 3 * unitRoundoff ^ 2) := by ring
    have h6 : unitRoundoff ^ 2 ≤ unitRoundoff / 4 := by
      have : unitRoundoff ≤ 1 / 4 := hu1.trans (by norm_num)
      nlinarith
    nlinarith
  have hmu : (m : ℝ) * unitRoundoff ≤ 1 / 16 := by
    calc (m : ℝ) * unitRoundoff ≤ 2 ^ 49 * (1 / 2 ^ 53) :=
          mul_le_mul hmr hu1 hu.le (by positivity)
      _ = 1 / 16 := by norm_num
  have hu4 : unitRoundoff ≤ 1 / 16 := hu1.trans (by norm_num)
  rw [abs_lt]
  constructor <;> nlinarith

/-- C66 (partial): with `taus[0]` the sampling interval, the averaging factor written for the
factor `m` is `m` or `m - 1`.  Missing: that it is `m`, which is false (`af_column_wrong`). -/
theorem af_column_partial (hfl : FloatRound fl) (rate : ℝ) (hr : 0 < rate) (m : ℕ) (hm : 0 < m)
    (hm' : m ≤ 2 ^ 49) :
    af_column_fl fl (fl ((m : ℝ) / rate)) (fl (1 / rate)) = m ∨
    af_column_fl fl (fl ((m : ℝ) / rate)) (fl (1 / rate)) = m - 1 := by
  have h := abs_lt.1 (af_quotient hfl rate hr m hm hm')
  unfold af_column_fl
  have g1 : (m : ℤ) - 1 ≤ ⌊fl (fl ((m : ℝ) / rate) / fl (1 / rate))⌋ := by
    rw [Int.le_floor]; push_cast; linarith [h.1]
  have g2 : ⌊fl (fl ((m : ℝ) / rate) / fl (1 / rate))⌋ < (m : ℤ) + 1 := by
    rw [Int.floor_lt]; push_cast; linarith [h.2]
  omega

/-- a number is rounded to `k * 2^e` -/
theorem binary64_eq (hfl : ∀ x, IsBinary64 x (fl x)) (x : ℝ) (e k : ℤ)
    (h1 : (2 : ℝ) ^ (52 : ℕ) ≤ |x| / (2 : ℝ) ^ e) (h2 : |x| / (2 : ℝ) ^ e < (2 : ℝ) ^ (53 : ℕ))
    (h3 : |x / (2 : ℝ) ^ e - k| < 1 / 2) : fl x = k * (2 : ℝ) ^ e :=
  isBinary64_unique (hfl x) (Or.inr ⟨e, k, h1, h2, isRound_of_lt h3, rfl⟩)

/-- C66 is violated: with 10 samples per second, the line for the averaging factor 3 written by
`write_results` has the averaging factor 2, since `0.3/0.1` is less than 3 in double precision. -/
theorem af_column_wrong (hfl : ∀ x, IsBinary64 x (fl x)) :
    af_column_fl fl (fl (((3 : ℕ) : ℝ) / 10)) (fl (1 / 10)) = 2 := by
  have a1 : fl (((3 : ℕ) : ℝ) / 10) = (5404319552844595 : ℤ) * (2 : ℝ) ^ (-54 : ℤ) := by
    apply binary64_eq hfl <;> norm_num [abs_of_pos]
  have a2 : fl (1 / 10) = (7205759403792794 : ℤ) * (2 : ℝ) ^ (-56 : ℤ) := by
    apply binary64_eq hfl <;> norm_num [abs_of_pos]
  have a3 : fl (fl (((3 : ℕ) : ℝ) / 10) / fl (1 / 10)) = (6755399441055743 : ℤ) * (2 : ℝ) ^ (-51 : ℤ) := by
    rw [a1, a2]
    apply binary64_eq hfl <;> norm_num [abs_of_pos]
  unfold af_column_fl
  rw [a3, Int.floor_eq_iff]
  norm_num

/-- the same truncation in `timmer_koenig_from_psd`: 0.7 s in steps of 0.1 s gives 6 samples -/
theorem tk_samples_wrong (hfl : ∀ x, IsBinary64 x (fl x)) :
    tk_samples_fl fl (fl (7 / 10)) (fl (1 / 10)) = 6 := by
  have a1 : fl (7 / 10) = (6305039478318694 : ℤ) * (2 : ℝ) ^ (-53 : ℤ) := by
    apply binary64_eq hfl <;> norm_num [abs_of_pos]
  have a2 : fl (1 / 10) = (7205759403792794 : ℤ) * (2 : ℝ) ^ (-56 : ℤ) := by
    apply binary64_eq hfl <;> norm_num [abs_of_pos]
  have a3 : fl (fl (7 / 10) / fl (1 / 10)) = (7881299347898367 : ℤ) * (2 : ℝ) ^ (-50 : ℤ) := by
    rw [a1, a2]
    apply binary64_eq hfl <;> norm_num [abs_of_pos]
  unfold tk_samples_fl
  rw [a3, Int.floor_eq_iff]
  norm_num

/-- rounding the quotient instead of truncating it would give the averaging factor -/
theorem af_column_rounded (hfl : FloatRound fl) (rate : ℝ) (hr : 0 < rate) (m : ℕ) (hm : 0 < m)
    (hm' : m ≤ 2 ^ 49) : npRound (fl (fl ((m : ℝ) / rate) / fl (1 / rate))) = m :=
  npRound_of_lt (by exact_mod_cast af_quotient hfl rate hr m hm hm')

/-! ## The hypotheses can be met -/

/-- a rounding as assumed above exists, and it has the relative error assumed above -/
theorem exists_binary64 : ∃ fl : ℝ → ℝ, (∀ x, IsBinary64 x (fl x)) ∧ FloatRound fl :=
  ⟨fun x => (exists_isBinary64 x).choose, fun x => (exists_isBinary64 x).choose_spec,
    fun x => isBinary64_rel (exists_isBinary64 x).choose_spec⟩

example : ∃ fl : ℝ → ℝ, FloatRound fl ∧
    tau_generator_fl fl [] [(0 : ℝ), 1, 2, 3] 10 (.str "decade") =
      .ok ([0, 1, 2, 3], [1, 2], [fl (1 / 10), fl (2 / 10)]) := by
  obtain ⟨fl, _, h⟩ := exists_binary64
  refine ⟨fl, h, ?_⟩
  rw [tau_generator_float h [] _ 10 _ false (-1) (by norm_num)
    (Or.inr (Or.inr ⟨"decade", rfl, by decide⟩))]
  have hf : factors [(0 : ℝ), 1, 2, 3].length 10 (.str "decade") false
      (effMax [(0 : ℝ), 1, 2, 3].length (-1)) = .ok [1, 2] := by
    unfold factors
    rw [if_neg (by norm_num)]
    have h0 : tausError [(0 : ℝ), 1, 2, 3].length (.str "decade") = none := by
      simp [tausError]
    rw [h0]
    show Except.ok _ = .ok _
    congr 1
    apply sorted_ext
    · exact List.Pairwise.filter _ List.pairwise_lt_range
    · decide
    · intro a
      simp only [List.mem_filter, List.mem_range, admissible_iff, effMax, Requested, IsDecade]
      constructor
      · rintro ⟨h1, h2, -, -, -, h3⟩
        simp at h1 h3
        obtain ⟨k, hk⟩ := h3
        rcases k with _ | k
        · simp at hk ⊢; omega
        · have : 10 ≤ 10 ^ (k + 1) := by
            rw [pow_succ]; have := Nat.one_le_pow k 10 (by norm_num); omega
          omega
      · intro h
        simp at h
        rcases h with rfl | rfl
        · refine ⟨by simp, by norm_num, by simp, by norm_num, by simp, Or.inr (Or.inr (Or.inl ⟨trivial, 0, by norm_num⟩))⟩
        · refine ⟨by simp, by norm_num, by simp, by norm_num, by simp, Or.inr (Or.inr (Or.inl ⟨trivial, 0, by norm_num⟩))⟩
  rw [hf, ok_bind]
  simp

example : ∃ fl : ℝ → ℝ, FloatRound fl ∧
    af_column_fl fl (fl (((3 : ℕ) : ℝ) / 10)) (fl (1 / 10)) = 2 := by
  obtain ⟨fl, h, h'⟩ := exists_binary64
  exact ⟨fl, h', af_column_wrong h⟩

end AT
