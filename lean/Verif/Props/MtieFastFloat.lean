import Mathlib.Analysis.SpecialFunctions.Log.Base
import Mathlib.Analysis.SpecialFunctions.Log.Deriv
import Mathlib.Analysis.Complex.ExponentialBounds
import Verif.Model.MtieFastFloat
import Verif.Props.Mtie
import Verif.Props.FloatMore
import Verif.Props.TauReduction

/-!
# C116: `mtie_phase_fast` in double precision
-/

namespace AT

open Spec

theorem mtie_fast_column_fl_eq (fl : ℝ → ℝ) (phase pmax pmin : List ℝ) (k imax : ℕ) (hk : 1 ≤ k)
    (hL : 2 ^ k ≤ phase.length) (him : imax = phase.length - 2 ^ k + 1)
    (hpmax : 2 ≤ k → pmax = colAt (phase.length - 1) (dblMax (seq phase) (k - 1))
      (phase.length - 2 ^ (k - 1) + 1))
    (hpmin : 2 ≤ k → pmin = colAt (phase.length - 1) (dblMin (seq phase) (k - 1))
      (phase.length - 2 ^ (k - 1) + 1)) :
    mtie_fast_column_fl fl phase pmax pmin k =
      .ok (colAt (phase.length - 1) (dblMax (seq phase) k) imax,
        colAt (phase.length - 1) (dblMin (seq phase) k) imax,
        tab imax (fun i => fl (dblMax (seq phase) k i - dblMin (seq phase) k i))) := by
  set N := phase.length with hN
  have p2 : 2 ^ k = 2 ^ (k - 1) + 2 ^ (k - 1) := by
    conv_lhs => rw [show k = k - 1 + 1 by omega, pow_succ]
    ring
  have p1 : 1 ≤ 2 ^ (k - 1) := Nat.one_le_two_pow
  unfold mtie_fast_column_fl
  have e1 : ((phase.length : ℤ) - 2 ^ k + 1).toNat = imax := by
    have : ((2 ^ k : ℕ) : ℤ) = 2 ^ k := by push_cast; rfl
    rw [← this]
    omega
  rw [e1]
  have hfin : tab imax (fun i => fl (dblMax (seq phase) k i - dblMin (seq phase) k i)) =
      colAt imax (fun i => fl (dblMax (seq phase) k i - dblMin (seq phase) k i)) imax := by
    unfold colAt
    apply tab_congr
    intro i hi
    simp [hi]
  rw [hfin]
  simp only
  apply forRange_eq (fun i => (colAt (N - 1) (dblMax (seq phase) k) i,
    colAt (N - 1) (dblMin (seq phase) k) i,
    colAt imax (fun i => fl (dblMax (seq phase) k i - dblMin (seq phase) k i)) i))
  · rw [colAt_zero, colAt_zero, colAt_zero]
  · intro i hi
    have hval : mtie_fast_entry phase pmax pmin k i =
        .ok (dblMax (seq phase) k i, dblMin (seq phase) k i) := by
      unfold mtie_fast_entry
      split_ifs with h1
      · subst h1
        have e2 : ((i : ℤ) + 1) = ((i + 1 : ℕ) : ℤ) := by push_cast; rfl
        rw [e2, pyGet_seq phase i (by omega), pyGet_seq phase (i + 1) (by omega)]
        rfl
      · have e2 : ((i : ℤ) + (2 ^ (k - 1) : ℕ)) = ((i + 2 ^ (k - 1) : ℕ) : ℤ) := by push_cast; rfl
        rw [e2, hpmax (by omega), hpmin (by omega)]
        unfold colAt
        have l1 : i < N - 1 := by omega
        have l2 : i + 2 ^ (k - 1) < N - 1 := by
          have : 2 ≤ 2 ^ (k - 1) := by
            calc 2 = 2 ^ 1 := rfl
              _ ≤ 2 ^ (k - 1) := Nat.pow_le_pow_right (by norm_num) (by omega)
          omega
        rw [pyGet_tab_nat _ _ _ l1, pyGet_tab_nat _ _ _ l1, pyGet_tab_nat _ _ _ l2,
          pyGet_tab_nat _ _ _ l2]
        simp only [ok_bind]
        rw [if_pos (by omega), if_pos (by omega), if_pos (by omega), if_pos (by omega)]
        obtain ⟨k', rfl⟩ : ∃ k', k = k' + 1 := ⟨k - 1, by omega⟩
        rfl
    simp only [hval, ok_bind]
    rw [pySet_colAt _ _ _ (by omega), pySet_colAt _ _ _ (by omega)]
    simp only [ok_bind]
    have := pySet_colAt imax (fun i => fl (dblMax (seq phase) k i - dblMin (seq phase) k i)) i hi
    rw [this, ok_bind]

/-- the result when the computed logarithm has the right integer part; `D k` is the largest
rounded excursion -/
theorem mtie_phase_fast_fl_run (fl lg : ℝ → ℝ) (x : List ℝ) (h0 : x.length ≠ 0)
    (hlg : ⌊lg x.length⌋.toNat = Nat.log 2 x.length) :
    ∃ D : ℕ → ℝ, mtie_phase_fast_fl fl lg x =
      (if x.length < 4 then .error .userWarning
      else .ok ⟨tab (Nat.log 2 x.length - 1) (fun k => (2 : ℝ) ^ k),
        tab (Nat.log 2 x.length - 1) D,
        .arr (tab (Nat.log 2 x.length - 1) (fun _ => 0)),
        tab (Nat.log 2 x.length - 1) (fun k => (2 : ℤ) ^ Nat.log 2 x.length - 2 ^ (k + 1) + 1)⟩) ∧
      ∀ k < Nat.log 2 x.length, ∃ A B : ℕ → ℝ,
        (∀ i < 2 ^ Nat.log 2 x.length - (2 ^ (k + 1) - 1),
          (∃ l < 2 ^ (k + 1) - 1 + 1, A i = seq x (i + l)) ∧
          ∀ l < 2 ^ (k + 1) - 1 + 1, seq x (i + l) ≤ A i) ∧
        (∀ i < 2 ^ Nat.log 2 x.length - (2 ^ (k + 1) - 1),
          (∃ l < 2 ^ (k + 1) - 1 + 1, B i = seq x (i + l)) ∧
          ∀ l < 2 ^ (k + 1) - 1 + 1, B i ≤ seq x (i + l)) ∧
        (∃ i < 2 ^ Nat.log 2 x.length - (2 ^ (k + 1) - 1), D k = fl (A i - B i)) ∧
        ∀ i < 2 ^ Nat.log 2 x.length - (2 ^ (k + 1) - 1), fl (A i - B i) ≤ D k := by
  unfold mtie_phase_fast_fl
  simp only [if_neg h0]
  set K := Nat.log 2 x.length with hK
  have hK1 : 2 ^ K ≤ x.length := Nat.pow_log_le_self 2 h0
  rw [hlg]
  set phase := slice x (0 : ℕ) ((2 ^ K : ℕ) : ℤ) with hph
  have hpt : phase = tab (2 ^ K) (seq x) := by
    rw [hph, slice_seq x 0 _ hK1]
    simp
  have hlen : phase.length = 2 ^ K := by rw [hpt]; simp
  have hseq : ∀ i < 2 ^ K, seq phase i = seq x i := by
    intro i hi
    rw [hpt]
    unfold seq
    rw [tab_getD, if_pos hi]
  rw [pyAssert_true hlen]
  simp only [ok_bind]
  have hmx : ∀ k, ∃ v, k < K → npMax (tab (phase.length - 2 ^ (k + 1) + 1)
      (fun i => fl (dblMax (seq phase) (k + 1) i - dblMin (seq phase) (k + 1) i))) = .ok v ∧
      (∃ i < phase.length - 2 ^ (k + 1) + 1,
        v = fl (dblMax (seq phase) (k + 1) i - dblMin (seq phase) (k + 1) i)) ∧
      ∀ i < phase.length - 2 ^ (k + 1) + 1,
        fl (dblMax (seq phase) (k + 1) i - dblMin (seq phase) (k + 1) i) ≤ v := by
    intro k
    obtain ⟨v, v1, v2, v3⟩ := npMax_tab (show 0 < phase.length - 2 ^ (k + 1) + 1 by omega)
        (fun i => fl (dblMax (seq phase) (k + 1) i - dblMin (seq phase) (k + 1) i))
    exact ⟨v, fun _ => ⟨v1, v2, v3⟩⟩
  choose D hD using hmx
  obtain ⟨st, hst1, hst2⟩ := forRange_inv K (([], [], []) : List ℝ × List ℝ × List (ℝ × ℤ))
    (fun st kidx => do
      let (cmax, cmin, tie) ← mtie_fast_column_fl fl phase st.1 st.2.1 (kidx + 1)
      let dev ← npMax tie
      .ok (cmax, cmin, st.2.2 ++ [(dev, (phase.length : ℤ) - 2 ^ (kidx + 1) + 1)]))
    (fun k st => (1 ≤ k → st.1 = colAt (phase.length - 1) (dblMax (seq phase) k)
        (phase.length - 2 ^ k + 1) ∧ st.2.1 = colAt (phase.length - 1) (dblMin (seq phase) k)
        (phase.length - 2 ^ k + 1)) ∧
      st.2.2 = tab k (fun k => (D k, (phase.length : ℤ) - 2 ^ (k + 1) + 1)))
    ⟨fun h => absurd h (by norm_num), rfl⟩
    (by
      rintro k hk ⟨cm, cn, rows⟩ ⟨h1, h2⟩
      simp only at h1 h2
      have hp : 2 ^ (k + 1) ≤ phase.length := by
        rw [hlen]; exact Nat.pow_le_pow_right (by norm_num) hk
      have hcol := mtie_fast_column_fl_eq fl phase cm cn (k + 1) (phase.length - 2 ^ (k + 1) + 1)
        (by omega) hp rfl
        (fun h => by simpa using (h1 (by omega)).1) (fun h => by simpa using (h1 (by omega)).2)
      simp only [hcol, ok_bind]
      rw [(hD k hk).1]
      simp only [ok_bind]
      refine ⟨_, rfl, fun _ => ⟨rfl, rfl⟩, ?_⟩
      simp only
      rw [h2, tab_succ])
  rw [hst1]
  simp only [ok_bind]
  rw [hst2.2]
  refine ⟨D, ?_, ?_⟩
  · set n : ℕ → ℤ := fun k => (phase.length : ℤ) - 2 ^ (k + 1) + 1 with hn
    have hkeep : ∀ k < K, (1 < n k ↔ k < K - 1) := by
      intro k hk
      rw [hn]
      simp only [hlen]
      push_cast
      constructor
      · intro h
        by_contra hc
        have : k + 1 = K := by omega
        rw [this] at h
        omega
      · intro h
        have : (2 : ℤ) ^ (k + 1) < 2 ^ K := pow_lt_pow_right₀ (by norm_num) (by omega)
        omega
    have hr : (List.range K).filter (fun k => decide (1 < n k)) = List.range (K - 1) := by
      apply sorted_ext (List.pairwise_lt_range.filter _) List.pairwise_lt_range
      intro a
      simp only [List.mem_filter, List.mem_range, decide_eq_true_eq]
      constructor
      · rintro ⟨a1, a2⟩; exact (hkeep a a1).1 a2
      · intro a1; exact ⟨by omega, (hkeep a (by omega)).2 a1⟩
    rw [hn] at hr
    have hz : List.replicate K (0 : ℝ) = (List.range K).map (fun _ => (0 : ℝ)) := by
      rw [List.map_const', List.length_range]
    unfold remove_small_ns tab
    simp only [hz, List.map_map, Function.comp_def, maskSel_map_map, ok_bind, hr, List.length_map,
      List.length_range]
    by_cases h4 : x.length < 4
    · have : K - 1 = 0 := by
        have : K < 2 := Nat.log_lt_of_lt_pow h0 (by omega)
        omega
      rw [if_pos this, if_pos h4]
    · have hK2 : 2 ≤ K := by
        rw [hK]
        exact (Nat.le_log_iff_pow_le (by norm_num) h0).2 (by omega)
      rw [if_neg (by omega), if_neg h4]
      congr 2
      · apply List.map_congr_left
        intro k _
        push_cast; rfl
      · apply List.map_congr_left
        intro k hk
        rw [hlen]
        push_cast; rfl
  · intro k hk
    have hp : 2 ^ (k + 1) ≤ 2 ^ K := Nat.pow_le_pow_right (by norm_num) hk
    have pp : 0 < 2 ^ (k + 1) := by positivity
    have e1 : 2 ^ (k + 1) - 1 + 1 = 2 ^ (k + 1) := by omega
    have e2 : 2 ^ K - (2 ^ (k + 1) - 1) = phase.length - 2 ^ (k + 1) + 1 := by omega
    rw [e1, e2]
    refine ⟨dblMax (seq phase) (k + 1), dblMin (seq phase) (k + 1), ?_, ?_, (hD k hk).2.1, (hD k hk).2.2⟩
    · intro i hi
      obtain ⟨⟨l, l1, l2⟩, l3⟩ := dblMax_spec (seq phase) (k + 1) i
      exact ⟨⟨l, l1, by rw [l2, hseq _ (by omega)]⟩, fun l hl => by
        rw [← hseq _ (by omega)]; exact l3 l hl⟩
    · intro i hi
      obtain ⟨⟨l, l1, l2⟩, l3⟩ := dblMin_spec (seq phase) (k + 1) i
      exact ⟨⟨l, l1, by rw [l2, hseq _ (by omega)]⟩, fun l hl => by
        rw [← hseq _ (by omega)]; exact l3 l hl⟩

/-- distance of the logarithm of an integer from the next integers -/
theorem logb_gap (N K : ℕ) (h1 : 2 ^ K ≤ N) (h2 : N < 2 ^ (K + 1)) :
    Real.logb 2 N ≤ K + 1 - 1 / 2 ^ (K + 1) ∧ (N ≠ 2 ^ K → K + 1 / 2 ^ (K + 1) ≤ Real.logb 2 N) := by
  have l2 : (0 : ℝ) < Real.log 2 := Real.log_pos (by norm_num)
  have l2' : Real.log 2 ≤ 1 := by
    have := Real.log_two_lt_d9
    linarith
  have hN : (0 : ℝ) < N := by
    have : 0 < 2 ^ K := by positivity
    exact_mod_cast (by omega : 0 < N)
  constructor
  · have p : (0 : ℝ) < 2 ^ (K + 1) := by positivity
    have q : (N : ℝ) ≤ 2 ^ (K + 1) - 1 := by
      have : (N : ℝ) + 1 ≤ 2 ^ (K + 1) := by exact_mod_cast h2
      linarith
    have e : Real.logb 2 N = (K + 1 : ℕ) + Real.log (N / 2 ^ (K + 1)) / Real.log 2 := by
      rw [Real.log_div hN.ne' p.ne', Real.log_pow, Real.logb]
      field_simp
      ring
    have b := Real.log_le_sub_one_of_pos (show (0 : ℝ) < N / 2 ^ (K + 1) by positivity)
    have c : (N : ℝ) / 2 ^ (K + 1) - 1 ≤ -(1 / 2 ^ (K + 1)) := by
      rw [div_sub_one p.ne', ← neg_div]
      gcongr
      linarith
    have d : Real.log (N / 2 ^ (K + 1)) / Real.log 2 ≤ -(1 / 2 ^ (K + 1)) := by
      rw [div_le_iff₀ l2]
      have : (0 : ℝ) < 1 / 2 ^ (K + 1) := by positivity
      nlinarith
    rw [e]
    push_cast
    linarith
  · intro hne
    have p : (0 : ℝ) < 2 ^ K := by positivity
    have q : (2 : ℝ) ^ K + 1 ≤ N := by exact_mod_cast (by omega : 2 ^ K + 1 ≤ N)
    have q2 : (N : ℝ) ≤ 2 ^ (K + 1) := by exact_mod_cast h2.le
    have e : Real.logb 2 N = K + Real.log (N / 2 ^ K) / Real.log 2 := by
      rw [Real.log_div hN.ne' p.ne', Real.log_pow, Real.logb]
      field_simp
      ring
    have b := Real.one_sub_inv_le_log_of_pos (show (0 : ℝ) < N / 2 ^ K by positivity)
    have c : 1 / 2 ^ (K + 1) ≤ 1 - ((N : ℝ) / 2 ^ K)⁻¹ := by
      rw [inv_div, one_sub_div hN.ne', div_le_div_iff₀ (by positivity) hN]
      have r1 : (1 : ℝ) ≤ N - 2 ^ K := by linarith
      have r2 : (0 : ℝ) < 2 ^ (K + 1) := by positivity
      nlinarith
    have d : 1 / 2 ^ (K + 1) ≤ Real.log (N / 2 ^ K) / Real.log 2 := by
      rw [le_div_iff₀ l2]
      have : (0 : ℝ) < 1 / 2 ^ (K + 1) := by positivity
      nlinarith
    rw [e]
    linarith

/-- a base-2 logarithm with relative error up to four units, exact for powers of two, has the
right integer part for all lengths below `2^40` -/
theorem floor_lg (lg : ℝ → ℝ) (hlg : ∀ n : ℕ, |lg n - Real.logb 2 n| ≤ 4 * unitRoundoff * Real.logb 2 n)
    (hpow : ∀ k : ℕ, k < 40 → lg ((2 ^ k : ℕ) : ℝ) = k) (N : ℕ) (h0 : N ≠ 0) (hN : N < 2 ^ 40) :
    ⌊lg N⌋.toNat = Nat.log 2 N := by
  set K := Nat.log 2 N with hK
  have h1 : 2 ^ K ≤ N := Nat.pow_log_le_self 2 h0
  have h2 : N < 2 ^ (K + 1) := Nat.lt_pow_succ_log_self (by norm_num) N
  have hK40 : K + 1 ≤ 40 := by
    have : K < 40 := Nat.log_lt_of_lt_pow h0 hN
    omega
  suffices h : ⌊lg N⌋ = (K : ℤ) by rw [h]; rfl
  by_cases he : N = 2 ^ K
  · rw [he, hpow K (by omega)]; simp
  obtain ⟨g1, g2⟩ := logb_gap N K h1 h2
  have g2 := g2 he
  have e := hlg N
  have hk : ((K : ℝ) + 1) ≤ 40 := by exact_mod_cast hK40
  have p : (1 : ℝ) / 2 ^ 40 ≤ 1 / 2 ^ (K + 1) := by
    apply one_div_le_one_div_of_le (by positivity)
    exact pow_le_pow_right₀ (by norm_num) hK40
  have p0 : (0 : ℝ) < 1 / 2 ^ 40 := by positivity
  have b : 4 * unitRoundoff * Real.logb 2 N < 1 / 2 ^ 40 := by
    have : Real.logb 2 N ≤ 40 := by linarith
    unfold unitRoundoff
    norm_num at *
    linarith
  rw [abs_le] at e
  rw [Int.floor_eq_iff]
  push_cast
  constructor <;> linarith

/-- C116: `mtie_phase_fast` in double precision on fewer than `2^40` samples raises what it raises
in exact arithmetic, or returns the same taus, error bars and counts and the exact values up to
one rounding -/
theorem mtie_phase_fast_float {fl lg : ℝ → ℝ} (hfl : FloatRound fl)
    (hlg : ∀ n : ℕ, |lg n - Real.logb 2 n| ≤ 4 * unitRoundoff * Real.logb 2 n)
    (hpow : ∀ k : ℕ, k < 40 → lg ((2 ^ k : ℕ) : ℝ) = k) (x : List ℝ) (hN : x.length < 2 ^ 40) :
    (∃ e, mtie_phase_fast_fl fl lg x = .error e ∧ mtie_phase_fast x = .error e) ∨
    ∃ o o', mtie_phase_fast_fl fl lg x = .ok o ∧ mtie_phase_fast x = .ok o' ∧ o.taus = o'.taus ∧
      o.errs = o'.errs ∧ o.ns = o'.ns ∧ o.devs.length = o'.devs.length ∧
      ∀ i < o'.devs.length, |seq o.devs i - seq o'.devs i| ≤ unitRoundoff * seq o'.devs i := by
  rw [mtie_phase_fast_eq_partial]
  by_cases h0 : x.length = 0
  · left
    exact ⟨.overflowError, by simp [mtie_phase_fast_fl, h0], by simp [h0]⟩
  obtain ⟨D, h1, h2⟩ := mtie_phase_fast_fl_run fl lg x h0 (floor_lg lg hlg hpow _ h0 hN)
  rw [h1, if_neg h0]
  by_cases h4 : x.length < 4
  · left
    exact ⟨.userWarning, by rw [if_pos h4], by rw [if_pos h4]⟩
  right
  rw [if_neg h4, if_neg h4]
  refine ⟨_, _, rfl, rfl, rfl, rfl, rfl, by simp, ?_⟩
  simp only [tab_length]
  intro k hk
  obtain ⟨A, B, hA, hB, ⟨i, hi, d1⟩, d2⟩ := h2 k (by omega)
  have sq : ∀ g : ℕ → ℝ, seq (tab (Nat.log 2 x.length - 1) g) k = g k := by
    intro g
    unfold seq
    rw [tab_getD, if_pos hk]
  rw [sq, sq]
  set K := Nat.log 2 x.length with hK
  have hp : 2 ^ (k + 1) ≤ 2 ^ K := Nat.pow_le_pow_right (by norm_num) (by omega)
  have pp : 0 < 2 ^ (k + 1) := by positivity
  obtain ⟨w, _, ⟨j, hj, k2⟩, k3⟩ := npMax_tab (show 0 < 2 ^ K - (2 ^ (k + 1) - 1) by omega) (fun i => A i - B i)
  have hw := mtie_of_windows (seq x) (2 ^ K) (2 ^ (k + 1) - 1) (by omega) A B hA hB w ⟨j, hj, k2⟩ k3
  rw [← hw]
  have hpos : ∀ i < 2 ^ K - (2 ^ (k + 1) - 1), 0 ≤ A i - B i := by
    intro i hi
    have a := (hA i hi).2 0 (by omega)
    have b := (hB i hi).2 0 (by omega)
    linarith
  have f1 := hfl (A i - B i)
  have f2 := hfl (A j - B j)
  rw [abs_of_nonneg (hpos i hi)] at f1
  rw [abs_of_nonneg (hpos j hj)] at f2
  have f3 := d2 j hj
  have f4 := k3 i hi
  have hu := unitRoundoff_pos
  rw [abs_le] at f1 f2 ⊢
  rw [← d1] at f1
  rw [← k2] at f2 f3
  have f5 := mul_le_mul_of_nonneg_left f4 hu.le
  constructor <;> linarith

/-- C116: with a monotone rounding the computed values are the exact values rounded once -/
theorem mtie_phase_fast_float_mono {fl lg : ℝ → ℝ} (hfl : Monotone fl)
    (hlg : ∀ n : ℕ, |lg n - Real.logb 2 n| ≤ 4 * unitRoundoff * Real.logb 2 n)
    (hpow : ∀ k : ℕ, k < 40 → lg ((2 ^ k : ℕ) : ℝ) = k) (x : List ℝ) (hN : x.length < 2 ^ 40) :
    mtie_phase_fast_fl fl lg x =
      (mtie_phase_fast x).map (fun o => { o with devs := o.devs.map fl }) := by
  rw [mtie_phase_fast_eq_partial]
  by_cases h0 : x.length = 0
  · simp [mtie_phase_fast_fl, h0, Except.map]
  obtain ⟨D, h1, h2⟩ := mtie_phase_fast_fl_run fl lg x h0 (floor_lg lg hlg hpow _ h0 hN)
  rw [h1, if_neg h0]
  by_cases h4 : x.length < 4
  · rw [if_pos h4, if_pos h4]; rfl
  rw [if_neg h4, if_neg h4]
  simp only [Except.map]
  congr 2
  unfold tab
  rw [List.map_map]
  apply List.map_congr_left
  intro k hk
  rw [List.mem_range] at hk
  obtain ⟨A, B, hA, hB, ⟨i, hi, d1⟩, d2⟩ := h2 k (by omega)
  set K := Nat.log 2 x.length with hK
  have hp : 2 ^ (k + 1) ≤ 2 ^ K := Nat.pow_le_pow_right (by norm_num) (by omega)
  have pp : 0 < 2 ^ (k + 1) := by positivity
  obtain ⟨w, _, ⟨j, hj, k2⟩, k3⟩ := npMax_tab (show 0 < 2 ^ K - (2 ^ (k + 1) - 1) by omega) (fun i => A i - B i)
  have hw := mtie_of_windows (seq x) (2 ^ K) (2 ^ (k + 1) - 1) (by omega) A B hA hB w ⟨j, hj, k2⟩ k3
  simp only [Function.comp]
  rw [← hw, d1]
  apply le_antisymm
  · exact hfl (k3 i hi)
  · rw [k2, ← d1]
    exact d2 j hj

/-- C116: when the computed logarithm is rounded up to the next integer the assertion on the
truncated length fails -/
theorem mtie_phase_fast_float_assert (fl lg : ℝ → ℝ) (x : List ℝ) (h0 : x.length ≠ 0)
    (h : Nat.log 2 x.length < ⌊lg x.length⌋.toNat) :
    mtie_phase_fast_fl fl lg x = .error .assertionError := by
  unfold mtie_phase_fast_fl
  simp only [if_neg h0]
  have hlt : x.length < 2 ^ ⌊lg x.length⌋.toNat := Nat.lt_pow_of_log_lt (by norm_num) h
  have : ¬ (slice x (0 : ℕ) ((2 ^ ⌊lg x.length⌋.toNat : ℕ) : ℤ)).length = 2 ^ ⌊lg x.length⌋.toNat := by
    have hle : (slice x (0 : ℕ) ((2 ^ ⌊lg x.length⌋.toNat : ℕ) : ℤ)).length ≤ x.length := by
      unfold slice
      simp only [List.length_take, List.length_drop]
      omega
    omega
  simp only [pyAssert, if_neg this, error_bind]

/-- C116: a correctly rounded logarithm is rounded up for `2^49 - 1` samples: `mtie_phase_fast` raises
AssertionError where exact arithmetic gives a result -/
theorem mtie_phase_fast_float_fails {fl : ℝ → ℝ} (hfl : ∀ x, IsBinary64 x (fl x)) (x : List ℝ)
    (hx : x.length = 2 ^ 49 - 1) :
    mtie_phase_fast_fl fl (fun v => fl (Real.logb 2 v)) x = .error .assertionError ∧
      ∃ o, mtie_phase_fast x = .ok o := by
  have hlog : Nat.log 2 x.length = 48 := by
    rw [hx]
    exact Nat.log_eq_of_pow_le_of_lt_pow (by norm_num) (by norm_num)
  constructor
  · have hc : ((x.length : ℕ) : ℝ) = 2 ^ 49 - 1 := by rw [hx]; norm_num
    have l2 := Real.log_two_gt_d9
    have l2p : (0 : ℝ) < Real.log 2 := Real.log_pos (by norm_num)
    have up : Real.logb 2 x.length ≤ 49 := by
      rw [Real.logb_le_iff_le_rpow (by norm_num) (by rw [hc]; norm_num), hc]
      norm_num
    have lo : 49 - 0.4 / 2 ^ 47 ≤ Real.logb 2 x.length := by
      have e : Real.logb 2 x.length = 49 + Real.log ((2 ^ 49 - 1) / 2 ^ 49) / Real.log 2 := by
        rw [hc, Real.log_div (by norm_num) (by norm_num), Real.log_pow, Real.logb]
        field_simp
        ring
      have b := Real.one_sub_inv_le_log_of_pos (show (0 : ℝ) < (2 ^ 49 - 1) / 2 ^ 49 by norm_num)
      have d : -(0.4 / 2 ^ 47) ≤ Real.log ((2 ^ 49 - 1) / 2 ^ 49) / Real.log 2 := by
        rw [le_div_iff₀ l2p]
        norm_num at b l2 ⊢
        linarith
      rw [e]
      linarith
    have hr : fl (Real.logb 2 x.length) = 49 := by
      set y := Real.logb 2 x.length with hy
      have ya : |y| = y := abs_of_nonneg (by norm_num at lo ⊢; linarith)
      have z : (2 : ℝ) ^ (-47 : ℤ) = 1 / 2 ^ 47 := by norm_num
      have := binary64_eq hfl y (-47) (49 * 2 ^ 47)
        (by rw [ya, z]; norm_num at lo ⊢; linarith) (by rw [ya, z]; norm_num at up ⊢; linarith)
        (by
          rw [z, abs_lt]
          push_cast
          norm_num at lo up ⊢
          constructor <;> linarith)
      rw [this]; norm_num
    apply mtie_phase_fast_float_assert
    · omega
    · rw [hlog]
      simp only [hr]
      norm_num
  · rw [mtie_phase_fast_eq_partial, if_neg (by omega), if_neg (by omega)]
    exact ⟨_, rfl⟩

/-- round to nearest is monotone: positive numbers -/
theorem isBinary64_mono_pos {x y a b : ℝ} (hx : IsBinary64 x a) (hy : IsBinary64 y b) (h0 : 0 < x)
    (h : x ≤ y) : a ≤ b := by
  rcases hx with ⟨rfl, _⟩ | ⟨e, k, x1, x2, x3, rfl⟩
  · exact absurd h0 (lt_irrefl _)
  rcases hy with ⟨rfl, _⟩ | ⟨e', k', y1, y2, y3, rfl⟩
  · exact absurd (lt_of_lt_of_le h0 h) (lt_irrefl _)
  rw [abs_of_pos h0] at x1 x2
  rw [abs_of_pos (lt_of_lt_of_le h0 h)] at y1 y2
  have p : (0 : ℝ) < (2 : ℝ) ^ e := by positivity
  have p' : (0 : ℝ) < (2 : ℝ) ^ e' := by positivity
  have he : e ≤ e' := by
    have a1 := (le_div_iff₀ p).1 x1
    have a2 := (div_lt_iff₀ p').1 y2
    have a3 : (2 : ℝ) ^ e < (2 : ℝ) ^ (e' + 1) := by
      rw [zpow_add_one₀ (by norm_num)]
      norm_num at a1 a2
      linarith
    have := (zpow_lt_zpow_iff_right₀ (by norm_num : (1 : ℝ) < 2)).1 a3
    omega
  rcases he.eq_or_lt with rfl | hlt
  · have : k ≤ k' := isRound_mono (by gcongr) x3 y3
    have : (k : ℝ) ≤ k' := by exact_mod_cast this
    gcongr
  · have q1 : k ≤ 2 ^ 53 := isRound_mono (y := ((2 ^ 53 : ℤ) : ℝ)) (by norm_num at x2 ⊢; exact x2.le) x3
      (isRound_of_lt (by simp))
    have q2 : 2 ^ 52 ≤ k' := isRound_mono (x := ((2 ^ 52 : ℤ) : ℝ)) (by norm_num at y1 ⊢; exact y1)
      (isRound_of_lt (by simp)) y3
    have r1 : (k : ℝ) ≤ 2 ^ 53 := by exact_mod_cast q1
    have r2 : (2 : ℝ) ^ 52 ≤ k' := by exact_mod_cast q2
    have r3 : (2 : ℝ) * (2 : ℝ) ^ e ≤ (2 : ℝ) ^ e' := by
      have : (2 : ℝ) ^ (e + 1) ≤ (2 : ℝ) ^ e' := zpow_le_zpow_right₀ (by norm_num) (by omega)
      rw [zpow_add_one₀ (by norm_num)] at this
      linarith
    calc (k : ℝ) * (2 : ℝ) ^ e ≤ 2 ^ 53 * (2 : ℝ) ^ e := by gcongr
      _ = 2 ^ 52 * (2 * (2 : ℝ) ^ e) := by ring
      _ ≤ 2 ^ 52 * (2 : ℝ) ^ e' := by gcongr
      _ ≤ k' * (2 : ℝ) ^ e' := by gcongr

theorem isBinary64_neg {x a : ℝ} (h : IsBinary64 x a) : IsBinary64 (-x) (-a) := by
  rcases h with ⟨rfl, rfl⟩ | ⟨e, k, x1, x2, x3, rfl⟩
  · exact Or.inl ⟨by simp, by simp⟩
  · refine Or.inr ⟨e, -k, by rwa [abs_neg], by rwa [abs_neg], ?_, by push_cast; ring⟩
    have e1 : |-x / (2 : ℝ) ^ e - ((-k : ℤ) : ℝ)| = |x / (2 : ℝ) ^ e - k| := by
      rw [← abs_neg]
      congr 1
      push_cast
      ring
    unfold IsRound
    rw [e1]
    exact ⟨x3.1, fun h => (x3.2 h).neg⟩

/-- round to nearest is monotone -/
theorem isBinary64_mono {x y a b : ℝ} (hx : IsBinary64 x a) (hy : IsBinary64 y b) (h : x ≤ y) : a ≤ b := by
  have sgn : ∀ z c : ℝ, IsBinary64 z c → 0 ≤ z → 0 ≤ c := by
    intro z c hc hz
    have := isBinary64_rel hc
    rw [abs_of_nonneg hz, abs_le] at this
    have hu : unitRoundoff * z ≤ z := by
      unfold unitRoundoff
      norm_num
      linarith
    linarith [this.1]
  rcases lt_trichotomy 0 x with h0 | h0 | h0
  · exact isBinary64_mono_pos hx hy h0 h
  · have a0 : a ≤ 0 := by
      have := sgn (-x) (-a) (isBinary64_neg hx) (by linarith)
      linarith
    linarith [sgn y b hy (by linarith)]
  · rcases le_or_gt 0 y with h1 | h1
    · have a0 : a ≤ 0 := by
        have := sgn (-x) (-a) (isBinary64_neg hx) (by linarith)
        linarith
      linarith [sgn y b hy h1]
    · have := isBinary64_mono_pos (isBinary64_neg hy) (isBinary64_neg hx) (by linarith) (by linarith)
      linarith

/-- C116: in IEEE double precision the computed values are the exact values rounded once -/
theorem mtie_phase_fast_binary64 {fl lg : ℝ → ℝ} (hfl : ∀ x, IsBinary64 x (fl x))
    (hlg : ∀ n : ℕ, |lg n - Real.logb 2 n| ≤ 4 * unitRoundoff * Real.logb 2 n)
    (hpow : ∀ k : ℕ, k < 40 → lg ((2 ^ k : ℕ) : ℝ) = k) (x : List ℝ) (hN : x.length < 2 ^ 40) :
    mtie_phase_fast_fl fl lg x =
      (mtie_phase_fast x).map (fun o => { o with devs := o.devs.map fl }) :=
  mtie_phase_fast_float_mono (fun _ _ h => isBinary64_mono (hfl _) (hfl _) h) hlg hpow x hN

/-- a rounding and a logarithm as assumed exist: round to nearest of 53 bits, and the logarithm
rounded in this way -/
theorem exists_lg : ∃ fl : ℝ → ℝ, (∀ x, IsBinary64 x (fl x)) ∧
    (∀ n : ℕ, |fl (Real.logb 2 n) - Real.logb 2 n| ≤ 4 * unitRoundoff * Real.logb 2 n) ∧
    ∀ k : ℕ, k < 40 → fl (Real.logb 2 ((2 ^ k : ℕ) : ℝ)) = k := by
  obtain ⟨fl, h1, h2⟩ := exists_binary64
  refine ⟨fl, h1, ?_, ?_⟩
  · intro n
    have p : 0 ≤ Real.logb 2 n := by
      rcases Nat.eq_zero_or_pos n with rfl | hn
      · simp
      · exact Real.logb_nonneg (by norm_num) (by exact_mod_cast hn)
    have := h2 (Real.logb 2 n)
    rw [abs_of_nonneg p] at this
    have hu := mul_nonneg unitRoundoff_pos.le p
    linarith
  · intro k hk
    have e : Real.logb 2 ((2 ^ k : ℕ) : ℝ) = k := by
      push_cast
      rw [Real.logb_pow, Real.logb_self_eq_one (by norm_num), mul_one]
    rw [e]
    exact binary64_intExact h1 k (by omega)

/-- five samples in double precision -/
example : ∃ fl lg : ℝ → ℝ, (∀ x, IsBinary64 x (fl x)) ∧
    (∀ n : ℕ, |lg n - Real.logb 2 n| ≤ 4 * unitRoundoff * Real.logb 2 n) ∧
    (∀ k : ℕ, k < 40 → lg ((2 ^ k : ℕ) : ℝ) = k) ∧ ([0, 3, 1, 7, 9] : List ℝ).length < 2 ^ 40 ∧
    ∃ d, mtie_phase_fast_fl fl lg [0, 3, 1, 7, 9] = .ok ⟨[1], [fl d], .arr [0], [3]⟩ := by
  obtain ⟨fl, h1, hlg, hpow⟩ := exists_lg
  refine ⟨fl, fun v => fl (Real.logb 2 v), h1, hlg, hpow, by norm_num,
    Spec.mtie (seq [0, 3, 1, 7, 9]) 4 1, ?_⟩
  rw [mtie_phase_fast_binary64 h1 hlg hpow _ (by norm_num), mtie_phase_fast_eq_partial]
  have e : Nat.log 2 ([0, 3, 1, 7, 9] : List ℝ).length = 2 :=
    Nat.log_eq_of_pow_le_of_lt_pow (by norm_num) (by norm_num)
  rw [if_neg (by norm_num), if_neg (by norm_num), e]
  simp [tab, Except.map]

end AT
