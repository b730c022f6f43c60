import Verif.Spec.RealtimeAutoFloat
import Verif.Props.RealtimeFloat
import Verif.Props.RealtimeAuto

/-! # Automatic averaging factors in floating point -/

namespace AT

open Spec Finset Real

variable {fl : ℝ → ℝ}

/-! ## the factors -/

/-- the `i`-th automatic factor as computed -/
noncomputable def autoAfF (fl : ℝ → ℝ) (ts : List ℝ) (p i : ℕ) : ℕ :=
  (npRound (fl (fl ((10 : ℝ) ^ (i / p)) * ts.getD (i % p) 0))).toNat

theorem ideal_pos (p i : ℕ) : (0 : ℝ) < (10 : ℝ) ^ ((i : ℝ) / p) := by positivity

theorem auto_product (hfl : FloatRound fl) {p : ℕ} (hp : 0 < p) {ts : List ℝ} (hts : LogTable p ts) (i : ℕ) :
    |fl (fl ((10 : ℝ) ^ (i / p)) * ts.getD (i % p) 0) - (10 : ℝ) ^ ((i : ℝ) / p)| ≤
      (2 : ℝ) ^ (-49 : ℤ) * (10 : ℝ) ^ ((i : ℝ) / p) := by
  have hr := Nat.mod_lt i hp
  have hlt : i % p < ts.length := by rw [hts.1]; exact hr
  have e : (10 : ℝ) ^ ((i : ℝ) / p) = (10 : ℝ) ^ (i / p) * (10 : ℝ) ^ (((i % p : ℕ) : ℝ) / p) := by
    rw [pow_split p hp, Nat.div_add_mod]
  rw [e, List.getD_eq_getElem _ _ hlt]
  have h1 := hts.2 _ hlt
  have h2 := hfl ((10 : ℝ) ^ (i / p))
  have h3 := hfl (fl ((10 : ℝ) ^ (i / p)) * ts[i % p])
  set P : ℝ := (10 : ℝ) ^ (i / p)
  set Q : ℝ := (10 : ℝ) ^ (((i % p : ℕ) : ℝ) / p)
  have hP : 0 < P := by positivity
  have hQ : 0 < Q := by positivity
  rw [abs_of_pos hP] at h2
  obtain ⟨s, hs, es⟩ : ∃ s, |s| ≤ (2 : ℝ) ^ (-50 : ℤ) ∧ ts[i % p] = Q * (1 + s) := by
    refine ⟨(ts[i % p] - Q) / Q, ?_, by field_simp; ring⟩
    rw [abs_div, abs_of_pos hQ, div_le_iff₀ hQ]
    exact h1
  obtain ⟨t, htt, et⟩ : ∃ t, |t| ≤ unitRoundoff ∧ fl P = P * (1 + t) := by
    refine ⟨(fl P - P) / P, ?_, by field_simp; ring⟩
    rw [abs_div, abs_of_pos hP, div_le_iff₀ hP]
    linarith
  rw [es, et] at h3 ⊢
  have hu : unitRoundoff = (2 : ℝ) ^ (-53 : ℤ) := by unfold unitRoundoff; norm_num
  rw [hu] at h3 htt
  have h50 : (2 : ℝ) ^ (-50 : ℤ) = 1 / 1125899906842624 := by norm_num
  have h49 : (2 : ℝ) ^ (-49 : ℤ) = 1 / 562949953421312 := by norm_num
  have h53 : (2 : ℝ) ^ (-53 : ℤ) = 1 / 9007199254740992 := by norm_num
  rw [h53] at h3 htt
  rw [h50] at hs
  rw [h49]
  have hPQ : 0 < P * Q := by positivity
  set y := fl (P * (1 + t) * (Q * (1 + s)))
  have e2 : P * (1 + t) * (Q * (1 + s)) = P * Q * ((1 + t) * (1 + s)) := by ring
  rw [e2, abs_mul, abs_of_pos hPQ] at h3
  have hst : |(1 + t) * (1 + s) - 1| ≤ 14 / 10 / 1125899906842624 := by
    rw [abs_le] at hs htt ⊢
    constructor <;> nlinarith
  have h4 : |P * Q * ((1 + t) * (1 + s)) - P * Q| ≤ P * Q * (14 / 10 / 1125899906842624) := by
    rw [show P * Q * ((1 + t) * (1 + s)) - P * Q = P * Q * ((1 + t) * (1 + s) - 1) by ring, abs_mul, abs_of_pos hPQ]
    exact mul_le_mul_of_nonneg_left hst hPQ.le
  have h5 : |(1 + t) * (1 + s)| ≤ 2 := by
    rw [abs_le] at hst ⊢
    constructor <;> linarith [hst.1, hst.2]
  have h6 : P * Q * |(1 + t) * (1 + s)| ≤ P * Q * 2 := mul_le_mul_of_nonneg_left h5 hPQ.le
  rw [abs_le] at h3 h4 ⊢
  constructor <;> linarith [h3.1, h3.2, h4.1, h4.2]

theorem npRound_of_near {y : ℝ} {n : ℤ} (h : |y - n| < 1 / 2) : npRound y = n :=
  isRound_unique (npRound_isRound y) ⟨h.le, fun e => absurd e h.ne⟩

/-- the ideal factors of the first twelve decades -/
def afTable : ℕ → List ℕ
  | 1 => [1, 10, 100, 1000, 10000, 100000, 1000000, 10000000, 100000000, 1000000000, 10000000000, 100000000000, 1000000000000]
  | 2 => [1, 3, 10, 32, 100, 316, 1000, 3162, 10000, 31623, 100000, 316228, 1000000, 3162278, 10000000, 31622777, 100000000, 316227766, 1000000000, 3162277660, 10000000000, 31622776602, 100000000000, 316227766017, 1000000000000]
  | 3 => [1, 2, 5, 10, 22, 46, 100, 215, 464, 1000, 2154, 4642, 10000, 21544, 46416, 100000, 215443, 464159, 1000000, 2154435, 4641589, 10000000, 21544347, 46415888, 100000000, 215443469, 464158883, 1000000000, 2154434690, 4641588834, 10000000000, 21544346900, 46415888336, 100000000000, 215443469003, 464158883361, 1000000000000]
  | 4 => [1, 2, 3, 6, 10, 18, 32, 56, 100, 178, 316, 562, 1000, 1778, 3162, 5623, 10000, 17783, 31623, 56234, 100000, 177828, 316228, 562341, 1000000, 1778279, 3162278, 5623413, 10000000, 17782794, 31622777, 56234133, 100000000, 177827941, 316227766, 562341325, 1000000000, 1778279410, 3162277660, 5623413252, 10000000000, 17782794100, 31622776602, 56234132519, 100000000000, 177827941004, 316227766017, 562341325190, 1000000000000]
  | 5 => [1, 2, 3, 4, 6, 10, 16, 25, 40, 63, 100, 158, 251, 398, 631, 1000, 1585, 2512, 3981, 6310, 10000, 15849, 25119, 39811, 63096, 100000, 158489, 251189, 398107, 630957, 1000000, 1584893, 2511886, 3981072, 6309573, 10000000, 15848932, 25118864, 39810717, 63095734, 100000000, 158489319, 251188643, 398107171, 630957344, 1000000000, 1584893192, 2511886432, 3981071706, 6309573445, 10000000000, 15848931925, 25118864315, 39810717055, 63095734448, 100000000000, 158489319246, 251188643151, 398107170553, 630957344480, 1000000000000]
  | _ => []

theorem afTable_check : ∀ p ∈ [1, 2, 3, 4, 5], ∀ i ∈ List.range (12 * p + 1),
    ((2 * (afTable p).getD i 0 - 1) * 2 ^ 49) ^ p < 2 ^ p * 10 ^ i * (2 ^ 49 - 1) ^ p ∧
    2 ^ p * 10 ^ i * (2 ^ 49 + 1) ^ p < ((2 * (afTable p).getD i 0 + 1) * 2 ^ 49) ^ p ∧
    0 < (afTable p).getD i 0 := by
  decide +kernel

/-- the ideal factors of the first twelve decades are far enough from a tie -/
theorem auto_far {p i : ℕ} (hp : 0 < p) (hp5 : p ≤ 5) (hi : i ≤ 12 * p) : ∃ m : ℕ, ∀ y : ℝ,
    |y - (10 : ℝ) ^ ((i : ℝ) / p)| ≤ (2 : ℝ) ^ (-49 : ℤ) * (10 : ℝ) ^ ((i : ℝ) / p) → |y - (m : ℤ)| < 1 / 2 := by
  have hc := afTable_check p (by simp; omega) i (by simp; omega)
  set m := (afTable p).getD i 0
  refine ⟨m, fun y hy => ?_⟩
  have hT := ideal_pos p i
  have hTp : ((10 : ℝ) ^ ((i : ℝ) / p)) ^ p = 10 ^ i := by
    rw [← rpow_natCast, ← rpow_mul (by norm_num), ← rpow_natCast]
    congr 1
    have : (p : ℝ) ≠ 0 := by positivity
    field_simp
  set T := (10 : ℝ) ^ ((i : ℝ) / p)
  obtain ⟨h1, h2, h3⟩ := hc
  have c1 : ((2 * m - 1 : ℕ) : ℝ) = 2 * m - 1 := by
    rw [Nat.cast_sub (by omega)]; push_cast; ring
  have e1 : ((2 * (m : ℝ) - 1) * 2 ^ 49) ^ p < (2 * T * (2 ^ 49 - 1)) ^ p := by
    have : ((2 * m - 1 : ℕ) * 562949953421312 : ℝ) ^ p < 2 ^ p * 10 ^ i * 562949953421311 ^ p := by
      exact_mod_cast h1
    rw [c1] at this
    rw [mul_pow (2 * T), mul_pow 2 T, hTp]
    norm_num
    exact this
  have e2 : (2 * T * (2 ^ 49 + 1)) ^ p < ((2 * (m : ℝ) + 1) * 2 ^ 49) ^ p := by
    have : (2 : ℝ) ^ p * 10 ^ i * 562949953421313 ^ p < ((2 * m + 1) * 562949953421312) ^ p := by
      exact_mod_cast h2
    rw [mul_pow (2 * T), mul_pow 2 T, hTp]
    norm_num
    exact this
  have f1 := lt_of_pow_lt_pow_left₀ p (by positivity) e1
  have f2 := lt_of_pow_lt_pow_left₀ p (by positivity) e2
  rw [show (2 : ℝ) ^ (-49 : ℤ) = 1 / 2 ^ 49 by norm_num] at hy
  rw [abs_le] at hy
  rw [abs_lt]
  push_cast
  norm_num at f1 f2 hy ⊢
  constructor <;> linarith [hy.1, hy.2]

theorem autoAfF_eq (hfl : FloatRound fl) {p : ℕ} (hp : 0 < p) (hp5 : p ≤ 5) {ts : List ℝ} (hts : LogTable p ts) {i : ℕ}
    (hi : i ≤ 12 * p) : autoAfF fl ts p i = autoAf p i := by
  obtain ⟨m, hm⟩ := auto_far hp hp5 hi
  have h1 := npRound_of_near (hm _ (auto_product hfl hp hts i))
  have h2 := npRound_of_near (hm ((10 : ℝ) ^ ((i : ℝ) / p)) (by
    rw [sub_self, abs_zero]
    have := ideal_pos p i
    positivity))
  unfold autoAfF Spec.autoAf
  rw [h1, h2]

theorem autoAfF_ge (hfl : FloatRound fl) {p : ℕ} (hp : 0 < p) {ts : List ℝ} (hts : LogTable p ts) {i : ℕ}
    (hi : 12 * p ≤ i) : 2 ^ 39 ≤ autoAfF fl ts p i ∧ 2 ^ 39 ≤ autoAf p i := by
  have hp' : (0 : ℝ) < p := by exact_mod_cast hp
  have hT : (10 : ℝ) ^ 12 ≤ (10 : ℝ) ^ ((i : ℝ) / p) := by
    rw [← rpow_natCast]
    apply rpow_le_rpow_of_exponent_le (by norm_num)
    rw [le_div_iff₀ hp']
    exact_mod_cast hi
  have key : ∀ y : ℝ, (10 : ℝ) ^ 12 * (1 - (2 : ℝ) ^ (-49 : ℤ)) ≤ y → 2 ^ 39 ≤ (npRound y).toNat := by
    intro y hy
    have h := (abs_le.1 (npRound_isRound y).1).2
    have h2 : ((2 ^ 39 : ℤ) : ℝ) ≤ npRound y := by
      push_cast
      norm_num at hy ⊢
      linarith
    have h3 : (2 ^ 39 : ℤ) ≤ npRound y := by exact_mod_cast h2
    omega
  have h1 := (abs_le.1 (auto_product hfl hp hts i)).1
  have h49 : (2 : ℝ) ^ (-49 : ℤ) = 1 / 562949953421312 := by norm_num
  rw [h49] at h1 key
  refine ⟨key _ ?_, key _ ?_⟩ <;> nlinarith

/-! ## the stream -/

theorem update_af_fl_eq (tau0 : ℝ) (p : ℕ) (hp : 0 < p) (ts : List ℝ) (hl : ts.length = p) (x : List ℝ) (K : ℕ)
    (a : ℕ → ℕ) (E : ℕ → ℝ × ℝ × ℝ) :
    update_af_fl fl ⟨tau0, true, ts⟩ (rtSt x (K + 1) a E (K % p) (K / p)) =
      .ok (if 2 * autoAfF fl ts p (K + 1) + 1 ≤ x.length then
        rtSt x (K + 2) (fun i => if i < K + 1 then a i else autoAfF fl ts p (K + 1))
          (fun i => if i < K + 1 then E i else (0, 0, 0)) ((K + 1) % p) ((K + 1) / p)
        else rtSt x (K + 1) a E (K % p) (K / p)) := by
  have hr := Nat.mod_lt K hp
  have hK := Nat.div_add_mod K p
  have key : ∃ q r, (if K % p + 1 = p then 0 else K % p + 1) = r ∧
      (if K % p + 1 = p then K / p + 1 else K / p) = q ∧ r < p ∧ (K + 1) % p = r ∧ (K + 1) / p = q := by
    by_cases h : K % p + 1 = p
    · have e : K + 1 = p * (K / p + 1) + 0 := by
        rw [Nat.mul_add]
        omega
      refine ⟨K / p + 1, 0, by rw [if_pos h], by rw [if_pos h], hp, ?_, ?_⟩
      · rw [e, Nat.mul_add_mod]
        exact Nat.zero_mod p
      · rw [e, Nat.mul_add_div hp]
        simp
    · have e : K + 1 = p * (K / p) + (K % p + 1) := by omega
      refine ⟨K / p, K % p + 1, by rw [if_neg h], by rw [if_neg h], by omega, ?_, ?_⟩
      · rw [e, Nat.mul_add_mod]
        exact Nat.mod_eq_of_lt (by omega)
      · rw [e, Nat.mul_add_div hp, Nat.div_eq_of_lt (show K % p + 1 < p by omega), Nat.add_zero]
  obtain ⟨q, r, h1, h2, h3, h5, h6⟩ := key
  have hts : ts = tab p (fun i => ts.getD i 0) := by rw [← hl]; exact eq_tab ts 0
  unfold update_af_fl autoAfF
  simp only [rtSt, rtMk, hl]
  rw [h1, h2, h5, h6]
  have hg : pyGet ts ((r : ℕ) : ℤ) = .ok (ts.getD r 0) := by
    conv_lhs => rw [hts]
    exact pyGet_tab_nat p _ r h3
  rw [hg, ok_bind]
  have happ : ∀ {α : Type} (f : ℕ → α) (v : α), tab (K + 1) f ++ [v] =
      tab (K + 2) (fun i => if i < K + 1 then f i else v) := by
    intro α f v
    rw [tab_succ (K + 1), if_neg (lt_irrefl _)]
    congr 1
    exact tab_congr (fun i hi => (if_pos hi).symm)
  simp only [happ]
  congr 1
  split_ifs
  · congr 1 <;> · apply tab_congr; intro i _; split_ifs <;> rfl
  · rfl

/-- the entry for averaging factor `a`, created after `t` samples, after `j` more -/
noncomputable def RtName.entryFT (fl : ℝ → ℝ) (k : RtName) (tau0 : ℝ) (X : ℕ → ℝ) (a t : ℕ) : ℕ → ℝ × ℝ × ℝ
  | 0 => (0, 0, 0)
  | j + 1 => k.updF fl tau0 X (t + j) a (k.entryFT fl tau0 X a t j)

theorem feed_auto_fl_state (hfl : FloatRound fl) (k : RtName) (tau0 : ℝ) (p : ℕ) (hp : 0 < p) (hp5 : p ≤ 5)
    (ts : List ℝ) (hts : LogTable p ts) (a0 : ℕ) (ht : 0 < tau0) (X : ℕ → ℝ) (n : ℕ) (hn : n ≤ 2 ^ 40) :
    k.feed_auto_fl fl ⟨tau0, true, ts⟩ (rt_init [a0] true) (tab n X) =
      .ok (rtSt (tab n X) (autoCount p n) (Spec.autoAf p)
        (fun i => k.entryFT fl tau0 X (Spec.autoAf p i) (Spec.addTime p i) (n - Spec.addTime p i))
        ((autoCount p n - 1) % p) ((autoCount p n - 1) / p)) := by
  unfold RtName.feed_auto_fl
  induction n with
  | zero =>
    simp [rt_init, rtSt, rtMk, autoCount, tab_succ, autoAf_zero, RtName.entryFT, pure_eq_ok]
  | succ n ih =>
    rw [show tab (n + 1) X = tab n X ++ [X n] from tab_succ n X, List.foldlM_append, ih (by omega)]
    simp only [ok_bind, List.foldlM_cons, List.foldlM_nil]
    unfold RtName.add_phase_auto_fl
    rw [add_phase_fl_eq hfl k _ X n _ _ _ _ _ (by exact ht) (fun i _ => autoAf_pos p i), ← tab_succ, ok_bind,
      if_pos rfl]
    have hK : 0 < autoCount p n := (autoCount_spec p n 0).2 (Nat.zero_le _)
    obtain ⟨K, hK'⟩ : ∃ K, autoCount p n = K + 1 := ⟨autoCount p n - 1, by omega⟩
    have hupd : ∀ i < autoCount p n, k.updF fl tau0 X n (Spec.autoAf p i)
        (k.entryFT fl tau0 X (Spec.autoAf p i) (Spec.addTime p i) (n - Spec.addTime p i)) =
        k.entryFT fl tau0 X (Spec.autoAf p i) (Spec.addTime p i) (n + 1 - Spec.addTime p i) := by
      intro i hi
      have := (autoCount_spec p n i).1 hi
      rw [show n + 1 - Spec.addTime p i = n - Spec.addTime p i + 1 by omega]
      conv_rhs => unfold RtName.entryFT
      rw [show Spec.addTime p i + (n - Spec.addTime p i) = n by omega]
    rw [rtSt_congr _ _ _ _ (fun i _ => rfl) hupd, hK', show K + 1 - 1 = K by omega,
      update_af_fl_eq tau0 p hp ts hts.1, tab_length, ok_bind, pure_eq_ok]
    congr 1
    have hiff : 2 * autoAfF fl ts p (K + 1) + 1 ≤ n + 1 ↔ 2 * Spec.autoAf p (K + 1) + 1 ≤ n + 1 := by
      by_cases h : K + 1 ≤ 12 * p
      · rw [autoAfF_eq hfl hp hp5 hts h]
      · have := autoAfF_ge hfl hp hts (show 12 * p ≤ K + 1 by omega)
        omega
    have hc : autoCount p (n + 1) = if 2 * Spec.autoAf p (K + 1) + 1 ≤ n + 1 then K + 2 else K + 1 := by
      conv_lhs => unfold autoCount
      rw [hK']
    by_cases h : 2 * Spec.autoAf p (K + 1) + 1 ≤ n + 1
    · rw [if_pos h] at hc
      rw [if_pos (hiff.2 h), hc, show K + 2 - 1 = K + 1 by omega]
      have hle : K + 1 ≤ 12 * p := by
        by_contra h'
        have := autoAfF_ge hfl hp hts (show 12 * p ≤ K + 1 by omega)
        omega
      have hT : Spec.addTime p (K + 1) = n + 1 := by
        have h1 : Spec.addTime p (K + 1) ≤ n + 1 := (autoCount_spec p (n + 1) (K + 1)).1 (by omega)
        have h2 : ¬ Spec.addTime p (K + 1) ≤ n := fun h => by
          have := (autoCount_spec p n (K + 1)).2 h
          omega
        omega
      apply rtSt_congr
      · intro i hi
        split_ifs with h3
        · rfl
        · rw [show i = K + 1 by omega, autoAfF_eq hfl hp hp5 hts hle]
      · intro i hi
        split_ifs with h3
        · rfl
        · rw [show i = K + 1 by omega, hT, Nat.sub_self]
          rfl
    · rw [if_neg h] at hc
      rw [if_neg (fun h' => h (hiff.1 h')), hc, show K + 1 - 1 = K by omega]

end AT
