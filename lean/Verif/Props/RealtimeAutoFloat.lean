import Verif.Lemmas.RealtimeAutoFloat

/-!
# C113: automatic averaging factors in double precision

Property: with up to five points per decade, in double precision the streaming classes choose the same
averaging factors at the same moments as in exact arithmetic, although the factors come from rounded powers
of ten, and report deviations close to those of exact arithmetic.
-/

namespace AT

open Spec Finset Real

variable {fl : ℝ → ℝ}

/-! ## closed forms of the entries -/

theorem entryFT_zero (k : RtName) (tau0 : ℝ) (X : ℕ → ℝ) (a j : ℕ) :
    k.entryFT fl tau0 X a 0 j = k.entryF fl tau0 X a j := by
  induction j with
  | zero => rfl
  | succ j ih =>
    unfold RtName.entryFT RtName.entryF
    rw [ih, Nat.zero_add]

theorem ohdev_entryFT (tau0 : ℝ) (X : ℕ → ℝ) (a t j : ℕ) (h : t ≤ 3 * a) :
    RtName.entryFT fl .ohdev tau0 X a t j = RtName.entryF fl .ohdev tau0 X a (t + j) := by
  induction j with
  | zero =>
    rw [ohdev_entryF, if_pos (by omega), show t + 0 - 3 * a = 0 by omega]
    rfl
  | succ j ih =>
    rw [← Nat.add_assoc]
    unfold RtName.entryFT
    rw [ih]
    rfl

/-- second differences without the first -/
noncomputable def skipFirst (v : ℕ → ℝ) (i : ℕ) : ℝ := if i = 0 then 0 else v i

theorem fl_zero (hfl : FloatRound fl) : fl 0 = 0 := by
  have := hfl 0
  simpa using this

theorem oadev_entryFT (hfl : FloatRound fl) (tau0 : ℝ) (X : ℕ → ℝ) (a j : ℕ) :
    RtName.entryFT fl .oadev tau0 X a (2 * a + 1) j =
      (if j = 0 then 0 else devF fl 2 tau0 a (j + 1) (accF fl (skipFirst (d2F fl X a)) (j + 1)),
        accF fl (skipFirst (d2F fl X a)) (j + 1), 0) := by
  induction j with
  | zero =>
    have : accF fl (skipFirst (d2F fl X a)) (0 + 1) = 0 := by
      simp [accF, skipFirst, fl_zero hfl]
    rw [this]
    rfl
  | succ j ih =>
    unfold RtName.entryFT
    rw [ih]
    simp only [RtName.updF]
    rw [if_pos (by omega), if_neg (by omega), show 2 * a + 1 + j + 1 - 2 * a = j + 1 + 1 by omega,
      show 2 * a + 1 + j - 2 * a = j + 1 by omega]
    have e : accF fl (skipFirst (d2F fl X a)) (j + 1 + 1) =
        fl (accF fl (skipFirst (d2F fl X a)) (j + 1) + fl (d2F fl X a (j + 1) ^ 2)) := by
      conv_lhs => unfold accF
      simp [skipFirst]
    rw [e]

/-- the growing window sum of tdev_realtime without the first second difference -/
noncomputable def winA1 (fl : ℝ → ℝ) (X : ℕ → ℝ) (a : ℕ) : ℕ → ℝ
  | 0 => 0
  | q + 1 => fl (fl (fl (winA1 fl X a q + X (q + 1 + 2 * a)) - fl (2 * X (q + 1 + a))) + X (q + 1))

/-- the window sums without the first second difference -/
noncomputable def winB1 (fl : ℝ → ℝ) (X : ℕ → ℝ) (a : ℕ) : ℕ → ℝ
  | 0 => winA1 fl X a (a - 1)
  | j + 1 => fl (winB1 fl X a j + d3G fl X a j)

theorem tdev_entryFT (tau0 : ℝ) (X : ℕ → ℝ) (a n : ℕ) (ha : 1 < a) (hn : 2 * a + 1 ≤ n) :
    RtName.entryFT fl .tdev tau0 X a (2 * a + 1) (n - (2 * a + 1)) =
      (if n < 3 * a then 0 else devG fl a (n + 1 - 3 * a) (accB fl (winB1 fl X a) (n - 3 * a)),
        if n < 3 * a then winA1 fl X a (n - 2 * a - 1) else winB1 fl X a (n - 3 * a),
        if n < 3 * a then 0 else accB fl (winB1 fl X a) (n - 3 * a)) := by
  induction n, hn using Nat.le_induction with
  | base =>
    rw [if_pos (by omega), if_pos (by omega), if_pos (by omega), Nat.sub_self,
      show 2 * a + 1 - 2 * a - 1 = 0 by omega]
    rfl
  | succ n hn ih =>
    rw [show n + 1 - (2 * a + 1) = n - (2 * a + 1) + 1 by omega]
    unfold RtName.entryFT
    rw [ih, show 2 * a + 1 + (n - (2 * a + 1)) = n by omega]
    simp only [RtName.updF]
    by_cases h : 3 * a ≤ n
    · rw [if_pos h, if_neg (show ¬ n < 3 * a by omega), if_neg (show ¬ n < 3 * a by omega),
        if_neg (show ¬ n + 1 < 3 * a by omega), if_neg (show ¬ n + 1 < 3 * a by omega),
        if_neg (show ¬ n + 1 < 3 * a by omega), show n + 1 + 1 - 3 * a = n + 2 - 3 * a by omega,
        show n + 1 - 3 * a = n - 3 * a + 1 by omega]
      rfl
    · rw [if_neg h, if_pos (show n < 3 * a by omega), if_pos (show n < 3 * a by omega),
        if_pos (show n < 3 * a by omega), if_pos (show 2 * a ≤ n by omega)]
      have hs : fl (fl (fl (winA1 fl X a (n - 2 * a - 1) + X n) - fl (2 * X (n - a))) + X (n - 2 * a)) =
          winA1 fl X a (n - 2 * a - 1 + 1) := by
        conv_rhs => unfold winA1
        rw [show n - 2 * a - 1 + 1 + 2 * a = n by omega, show n - 2 * a - 1 + 1 + a = n - a by omega,
          show n - 2 * a - 1 + 1 = n - 2 * a by omega]
      rw [hs]
      by_cases h3 : n + 1 = 3 * a
      · rw [if_pos h3, if_neg (show ¬ n + 1 < 3 * a by omega), if_neg (show ¬ n + 1 < 3 * a by omega),
          if_neg (show ¬ n + 1 < 3 * a by omega), show n + 1 + 1 - 3 * a = 1 by omega,
          show n + 1 - 3 * a = 0 by omega, show n - 2 * a - 1 + 1 = a - 1 by omega]
        rfl
      · rw [if_neg h3, if_pos (show n + 1 < 3 * a by omega), if_pos (show n + 1 < 3 * a by omega),
          if_pos (show n + 1 < 3 * a by omega), show n + 1 - 2 * a - 1 = n - 2 * a - 1 + 1 by omega]

/-! ## errors -/

theorem winA1_near (hfl : FloatRound fl) {X Y : ℕ → ℝ} {p N : ℕ} {B : ℝ}
    (h : ∀ i < N, NearA p (X i) (Y i) B) (a q : ℕ) (hq : q + 1 + 2 * a ≤ N) :
    NearA (p + 3 * q + 1) (winA1 fl X a q) (∑ i ∈ range (q + 1), d2 Y a i - d2 Y a 0) (4 * q * B) := by
  induction q with
  | zero => simpa [winA1] using (NearA.exact (b := 0) (G := 0) (by simp)).mono (Nat.zero_le _)
  | succ q ih =>
    have h1 := ih (by omega)
    have h2 := (h1.add ((h (q + 1 + 2 * a) (by omega)).mono (by omega))).fl hfl
    have h3 := (h2.sub ((((h (q + 1 + a) (by omega)).const_mul 2).fl hfl).mono (by omega))).fl hfl
    have h4 := (h3.add ((h (q + 1) (by omega)).mono (by omega))).fl hfl
    have e : 4 * (q : ℝ) * B + B + |(2 : ℝ)| * B + B = 4 * ((q + 1 : ℕ) : ℝ) * B := by
      rw [abs_of_pos (by norm_num)]; push_cast; ring
    have e2 : ∑ i ∈ range (q + 1 + 1), d2 Y a i - d2 Y a 0 =
        ∑ i ∈ range (q + 1), d2 Y a i - d2 Y a 0 + Y (q + 1 + 2 * a) - 2 * Y (q + 1 + a) + Y (q + 1) := by
      rw [sum_range_succ _ (q + 1)]; unfold d2; ring
    rw [e] at h4
    rw [e2]
    exact h4.mono (by omega)

theorem winB1_near (hfl : FloatRound fl) {X Y : ℕ → ℝ} {p N : ℕ} {B : ℝ} (hB : 0 ≤ B)
    (h : ∀ i < N, NearA p (X i) (Y i) B) (a j : ℕ) (ha : 0 < a) (hj : j + 3 * a ≤ N) :
    NearA (p + 3 * a + 1 + j) (winB1 fl X a j) (∑ i ∈ range a, d2 Y a (j + i) - d2 Y a 0) ((4 * a + 8 * j) * B) := by
  induction j with
  | zero =>
    have h1 := winA1_near hfl h a (a - 1) (by omega)
    rw [show a - 1 + 1 = a by omega] at h1
    have h2 : 4 * ((a - 1 : ℕ) : ℝ) * B ≤ (4 * a + 8 * (0 : ℕ)) * B := by
      apply mul_le_mul_of_nonneg_right _ hB
      rw [Nat.cast_sub (by omega)]
      push_cast
      linarith
    have h3 := (h1.mono (show p + 3 * (a - 1) + 1 ≤ p + 3 * a + 1 + 0 by omega)).mono_size h2
    simpa [winB1] using h3
  | succ j ih =>
    have h1 := ih (by omega)
    have h2 := (h1.add ((d3G_near hfl h a j (by omega)).mono (by omega))).fl hfl
    rw [window_succ]
    have e : (4 * (a : ℝ) + 8 * j) * B + 8 * B = (4 * a + 8 * ((j + 1 : ℕ) : ℝ)) * B := by
      push_cast; ring
    rw [e] at h2
    rw [show ∑ i ∈ range a, d2 Y a (j + i) + d3 Y a j - d2 Y a 0 =
      ∑ i ∈ range a, d2 Y a (j + i) - d2 Y a 0 + d3 Y a j by ring]
    exact h2

theorem oadev_auto_close (hfl : FloatRound fl) {tau0 : ℝ} (ht : 0 < tau0) {X Y : ℕ → ℝ} {p N a : ℕ} {B : ℝ}
    (hB : 0 ≤ B) (ha : 0 < a) (hp : p ≤ 2 ^ 47) (hN : N ≤ 2 ^ 47 + 1) (h : ∀ i < N, NearA p (X i) (Y i) B)
    (hn : 2 * a < N) :
    |(RtName.entryFT fl .oadev tau0 X a (2 * a + 1) (N - (2 * a + 1))).1 -
      √((∑ i ∈ Ico 1 (N - 2 * a), d2 Y a i ^ 2) / (2 * (a * tau0) ^ 2 * (N - 2 * a)))| ≤
      rtBound .oadev p N B tau0 a
        (√((∑ i ∈ Ico 1 (N - 2 * a), d2 Y a i ^ 2) / (2 * (a * tau0) ^ 2 * (N - 2 * a)))) := by
  have ha' : (0 : ℝ) < a := by exact_mod_cast ha
  have hn0 : 0 < N - 2 * a := by omega
  have hcast : (N : ℝ) - 2 * a = ((N - 2 * a : ℕ) : ℝ) := by
    rw [Nat.cast_sub (by omega)]; push_cast; ring
  have hu := unitRoundoff_pos
  rw [oadev_entryFT hfl]
  simp only
  by_cases hj : N - (2 * a + 1) = 0
  · rw [if_pos hj, show N - 2 * a = 1 by omega]
    unfold Spec.rtBound
    simp only [Ico_self, sum_empty, zero_div, Real.sqrt_zero, sub_zero, abs_zero, mul_zero, zero_add]
    positivity
  rw [if_neg hj, show N - (2 * a + 1) + 1 = N - 2 * a by omega]
  have hE : 0 ≤ ((1 + unitRoundoff) ^ (p + 3) - 1) * (4 * B) :=
    mul_nonneg (near_eps_nonneg _) (by positivity)
  have hsum : ∑ i ∈ Ico 1 (N - 2 * a), d2 Y a i ^ 2 = ∑ i ∈ range (N - 2 * a), skipFirst (d2 Y a) i ^ 2 := by
    rw [range_eq_Ico, sum_eq_sum_Ico_succ_bot hn0]
    simp only [skipFirst, if_true, zero_add]
    rw [zero_pow (by norm_num), zero_add]
    apply sum_congr rfl
    intro i hi
    rw [if_neg (by have := (mem_Ico.1 hi).1; omega)]
  have hD : √((∑ i ∈ Ico 1 (N - 2 * a), d2 Y a i ^ 2) / (2 * (a * tau0) ^ 2 * (N - 2 * a))) =
      √((∑ i ∈ range (N - 2 * a), skipFirst (d2 Y a) i ^ 2) / (2 * (N - 2 * a : ℕ))) * (1 / (a * tau0)) := by
    rw [hsum, hcast, rt_rms _ _ _ _ (by positivity) two_pos hn0]
  have hr := devF_near hfl two_pos ht ha hn0 (accF_near hfl (skipFirst (d2F fl X a)) (N - 2 * a))
    (sum_nonneg fun i _ => sq_nonneg _)
  have hrow := rt_row hn0 (show N - 2 * a + 1 + 13 ≤ 2 ^ 48 by omega) two_pos
    (show 0 < 1 / (a * tau0) by positivity) hE hr (d := skipFirst (d2 Y a))
    (fun i hi => by
      unfold skipFirst
      split_ifs
      · simpa using hE
      · exact (d2F_near hfl h a i (by omega)).2)
  have heta := rt_eta (k := p + 3) (by omega) (c := 2) (G := 4) (w := 141 / 100) (C := 10 / 3) hB
    (show 0 ≤ 1 / (a * tau0) by positivity) (by norm_num) (by norm_num) sqrt_two_gt' (by norm_num)
  rw [← hD] at hrow
  refine hrow.trans ?_
  unfold Spec.rtBound
  have e : 2 * ((N - 2 * a + 1 + 13 : ℕ) : ℝ) * unitRoundoff = 2 * ((N : ℝ) - 2 * a + 14) * unitRoundoff := by
    rw [hcast]; push_cast; ring
  rw [e]
  have e2 : 10 / 3 * ((p + 3 : ℕ) : ℝ) * unitRoundoff * B * (1 / (a * tau0)) =
      10 / 3 * ((p : ℝ) + 3) * unitRoundoff * B / (a * tau0) := by push_cast; ring
  rw [e2] at heta
  exact add_le_add le_rfl heta

theorem tdev_auto_close (hfl : FloatRound fl) {tau0 : ℝ} {X Y : ℕ → ℝ} {p N a : ℕ} {B : ℝ}
    (hB : 0 ≤ B) (ha : 1 < a) (hp : p ≤ 2 ^ 47) (hN : N ≤ 2 ^ 47 + 1) (h : ∀ i < N, NearA p (X i) (Y i) B)
    (hn : 3 * a ≤ N) :
    |(RtName.entryFT fl .tdev tau0 X a (2 * a + 1) (N - (2 * a + 1))).1 -
      √((∑ q ∈ range (N - 3 * a + 1), (∑ i ∈ range a, d2 Y a (q + i) - d2 Y a 0) ^ 2)
        / (6 * (a : ℝ) ^ 2 * (N - 3 * a + 1)))| ≤
      rtBound .tdev p N B tau0 a
        (√((∑ q ∈ range (N - 3 * a + 1), (∑ i ∈ range a, d2 Y a (q + i) - d2 Y a 0) ^ 2)
          / (6 * (a : ℝ) ^ 2 * (N - 3 * a + 1)))) := by
  have ha0 : 0 < a := by omega
  have ha' : (0 : ℝ) < a := by exact_mod_cast ha0
  have h6 : (0 : ℝ) < 6 := by norm_num
  have hcast : (N : ℝ) - 3 * a + 1 = ((N - 3 * a + 1 : ℕ) : ℝ) := by
    push_cast [Nat.cast_sub hn]; ring
  have hD := rt_rms (N - 3 * a + 1) (fun q => ∑ i ∈ range a, d2 Y a (q + i) - d2 Y a 0) 6 a ha' h6 (Nat.succ_pos _)
  rw [hcast, hD, tdev_entryFT _ _ _ _ ha (by omega)]
  simp only
  rw [if_neg (by omega), show N + 1 - 3 * a = N - 3 * a + 1 by omega]
  have hr := devG_near hfl ha0 (Nat.succ_pos (N - 3 * a)) (accB_near hfl (winB1 fl X a) (N - 3 * a))
    (sum_nonneg fun i _ => sq_nonneg _)
  have hE : 0 ≤ ((1 + unitRoundoff) ^ (p + N + 1) - 1) * (8 * (N * B)) :=
    mul_nonneg (near_eps_nonneg _) (by positivity)
  have ht : (0 : ℝ) < 1 / a := by positivity
  have hrow := rt_row (Nat.succ_pos _) (show N - 3 * a + 1 + 9 ≤ 2 ^ 48 by omega) h6 ht hE hr
    (d := fun j => ∑ i ∈ range a, d2 Y a (j + i) - d2 Y a 0) (by
      intro i hi
      have h1 := (winB1_near hfl hB h a i ha0 (by omega)).mono (show p + 3 * a + 1 + i ≤ p + N + 1 by omega)
      refine (h1.mono_size ?_).2
      have h2 : (4 * (a : ℝ) + 8 * i) ≤ 8 * N := by
        have : 4 * a + 8 * i ≤ 8 * N := by omega
        exact_mod_cast this
      have := mul_le_mul_of_nonneg_right h2 hB
      linarith)
  have heta := rt_eta (k := p + N + 1) (by omega) (c := 6) (G := 8) (w := 244 / 100) (C := 15 / 4)
    (show 0 ≤ N * B by positivity) ht.le (by norm_num) (by norm_num) sqrt_six_gt' (by norm_num)
  refine hrow.trans ((add_le_add le_rfl heta).trans (le_of_eq ?_))
  unfold Spec.rtBound
  simp only
  push_cast [Nat.cast_sub hn]
  ring

/-! ## the property -/

/-- **C113, the factors.** The `i`-th computed factor is a rounded power of ten up to the accuracy of the
table, for any number of points per decade. -/
theorem auto_factor_near (hfl : FloatRound fl) {p : ℕ} (hp : 0 < p) {ts : List ℝ} (hts : LogTable p ts) (i : ℕ) :
    |(autoAfF fl ts p i : ℝ) - (10 : ℝ) ^ ((i : ℝ) / p)| ≤
      1 / 2 + (2 : ℝ) ^ (-49 : ℤ) * (10 : ℝ) ^ ((i : ℝ) / p) := by
  have h1 := auto_product hfl hp hts i
  have hT : (1 : ℝ) ≤ (10 : ℝ) ^ ((i : ℝ) / p) := one_le_rpow (by norm_num) (by positivity)
  unfold autoAfF
  set y := fl (fl ((10 : ℝ) ^ (i / p)) * ts.getD (i % p) 0)
  have h2 := (npRound_isRound y).1
  have h49 : (2 : ℝ) ^ (-49 : ℤ) = 1 / 562949953421312 := by norm_num
  have hpos : (0 : ℝ) < npRound y := by
    rw [h49] at h1
    rw [abs_le] at h1 h2
    nlinarith [h1.1, h2.2]
  have hc : (((npRound y).toNat : ℕ) : ℝ) = npRound y := by
    have : 0 < npRound y := by exact_mod_cast hpos
    exact_mod_cast Int.toNat_of_nonneg this.le
  rw [hc]
  rw [abs_le] at h1 h2 ⊢
  constructor <;> linarith [h1.1, h1.2, h2.1, h2.2]

/-- a rounded stream of phases `X` that are close to `xs`, and the exact stream of `xs` -/
theorem auto_core (hfl : FloatRound fl) (k : RtName) (tau0 : ℝ) (p : ℕ) (hp : 0 < p) (hp5 : p ≤ 5)
    (ts : List ℝ) (hts : LogTable p ts) (a0 : ℕ) (ht : 0 < tau0) (xs : List ℝ) (X : ℕ → ℝ) (q : ℕ) (hq : q ≤ 2 ^ 47)
    (B : ℝ) (hB0 : 0 ≤ B) (hnear : ∀ i < xs.length, NearA q (X i) (seq xs i) B) (hN : xs.length ≤ 2 ^ 40) :
    ∃ st sx, k.feed_auto_fl fl ⟨tau0, true, ts⟩ (rt_init [a0] true) (tab xs.length X) = .ok st ∧
      k.feed (rt_cfg tau0 true p) (rt_init [a0] true) xs = .ok sx ∧
      st.x = tab xs.length X ∧ st.afs = sx.afs ∧ st.dev.length = st.afs.length ∧ sx.dev.length = st.afs.length ∧
      ∀ (i a : ℕ) (d d' : ℝ), st.afs[i]? = some a → st.dev[i]? = some d → sx.dev[i]? = some d' →
        (k.need a ≤ xs.length → |d - d'| ≤ rtBound k q xs.length B tau0 a d') ∧
        (xs.length < k.need a → d = 0 ∧ d' = 0) := by
  have hm := autoAf_strictMono p hp hp5
  have h := feed_auto_fl_state hfl k tau0 p hp hp5 ts hts a0 ht X xs.length hN
  obtain ⟨K, sx, e, hK, _, hafs, hl, _⟩ := realtime_auto k tau0 p hp a0 ht.ne' xs
  have hKc : K = autoCount p xs.length := by
    apply le_antisymm
    · by_contra hc
      have := (autoCount_spec p xs.length _).2 ((hK (autoCount p xs.length)).1 (by omega))
      omega
    · by_contra hc
      have := (hK K).2 ((autoCount_spec p xs.length _).1 (by omega))
      omega
  refine ⟨_, sx, h, e, rfl, ?_, ?_, ?_, ?_⟩
  · rw [hafs, hKc]; rfl
  · simp [rtSt, rtMk]
  · rw [hl, hafs, hKc]; simp [rtSt, rtMk]
  intro i a d d' hi hd hd'
  change (tab _ _)[i]? = _ at hi
  change (tab _ _)[i]? = _ at hd
  have hiK : i < autoCount p xs.length := by
    by_contra hc
    rw [tab_getElem?, if_neg hc] at hi
    exact absurd hi (by simp)
  simp only [tab_getElem?, if_pos hiK, Option.some.injEq] at hi hd
  have hT := (autoCount_spec p xs.length i).1 hiK
  have hpos := autoAf_pos p i
  have h1a : i ≠ 0 → 1 < autoAf p i ∧ addTime p i = 2 * autoAf p i + 1 := by
    intro h0
    obtain ⟨j, rfl⟩ : ∃ j, i = j + 1 := ⟨i - 1, by omega⟩
    have := hm (Nat.succ_pos j)
    rw [autoAf_zero] at this
    exact ⟨this, addTime_eq p hm j⟩
  have hxi : ∀ f : ℕ → ℝ, sx.dev = sx.afs.map f → d' = f a := by
    intro f hf
    rw [hf, hafs, map_tab, tab_getElem?, if_pos (by omega), Option.some.injEq] at hd'
    rw [← hd', hi]
  subst hi
  subst hd
  cases k with
  | oadev =>
    obtain ⟨sx', e', hdev⟩ := oadev_auto_partial tau0 p hp hm a0 ht xs
    rw [e] at e'
    cases e'
    have hd2 := hxi _ hdev
    simp only [RtName.need]
    by_cases h0 : i = 0
    · subst h0
      rw [autoAf_zero] at hd2 ⊢
      simp only [addTime, Nat.sub_zero, entryFT_zero]
      rw [if_pos rfl] at hd2
      refine ⟨fun hle => ?_, fun hlt => ⟨?_, ?_⟩⟩
      · rw [if_neg (by omega)] at hd2
        rw [hd2]
        exact oadev_rt_close hfl ht hB0 one_pos hq (by omega) hnear (by omega)
      · rw [oadev_entryF, if_pos (by omega)]
      · rw [hd2, if_pos (by omega)]
    · obtain ⟨h1, h2⟩ := h1a h0
      rw [h2] at hT ⊢
      rw [if_neg (show ¬ autoAf p i = 1 by omega)] at hd2
      refine ⟨fun hle => ?_, fun hlt => by omega⟩
      rw [if_neg (by omega)] at hd2
      rw [hd2]
      exact oadev_auto_close hfl ht hB0 hpos hq (by omega) hnear (by omega)
  | ohdev =>
    obtain ⟨sx', e', hdev⟩ := ohdev_auto tau0 p hp hm a0 ht xs
    rw [e] at e'
    cases e'
    have hd2 := hxi _ hdev
    simp only [RtName.need]
    have hT3 : addTime p i ≤ 3 * autoAf p i := by
      by_cases h0 : i = 0
      · subst h0; simp [addTime]
      · have := h1a h0
        omega
    rw [ohdev_entryFT _ _ _ _ _ hT3, show addTime p i + (xs.length - addTime p i) = xs.length by omega]
    refine ⟨fun hle => ?_, fun hlt => ⟨?_, ?_⟩⟩
    · rw [if_neg (by omega)] at hd2
      rw [hd2]
      exact ohdev_rt_close hfl ht hB0 hpos hq (by omega) hnear (by omega)
    · rw [ohdev_entryF, if_pos (by omega)]
    · rw [hd2, if_pos (by omega)]
  | tdev =>
    obtain ⟨sx', e', hdev⟩ := tdev_auto_partial tau0 p hp hm a0 ht xs
    rw [e] at e'
    cases e'
    have hd2 := hxi _ hdev
    simp only [RtName.need]
    by_cases h0 : i = 0
    · subst h0
      rw [autoAf_zero] at hd2 ⊢
      simp only [addTime, Nat.sub_zero, entryFT_zero]
      rw [if_pos rfl] at hd2
      refine ⟨fun hle => ?_, fun hlt => ⟨?_, ?_⟩⟩
      · rw [if_neg (by omega)] at hd2
        rw [hd2]
        exact tdev_rt_close hfl ht hB0 one_pos hq (by omega) hnear (by omega)
      · rw [tdev_entryF _ _ _ _ one_pos, if_pos (by omega)]
      · rw [hd2, if_pos (by omega)]
    · obtain ⟨h1, h2⟩ := h1a h0
      rw [h2] at hT ⊢
      rw [if_neg (show ¬ autoAf p i = 1 by omega)] at hd2
      refine ⟨fun hle => ?_, fun hlt => ⟨?_, ?_⟩⟩
      · rw [if_neg (by omega)] at hd2
        rw [hd2]
        exact tdev_auto_close hfl hB0 h1 hq (by omega) hnear (by omega)
      · rw [tdev_entryFT _ _ _ _ h1 hT, if_pos (by omega)]
      · rw [hd2, if_pos (by omega)]

/-- **C113.** Up to five points per decade and `2^40` samples: the rounded and the exact stream have the same
averaging factors; every deviation is within the bound of C91 of the exact one, and zero as long as the exact
one is zero for want of samples. -/
theorem realtime_auto_float (hfl : FloatRound fl) (k : RtName) (tau0 : ℝ) (p : ℕ) (hp : 0 < p) (hp5 : p ≤ 5)
    (ts : List ℝ) (hts : LogTable p ts) (a0 : ℕ) (ht : 0 < tau0) (xs : List ℝ) (B : ℝ) (hB0 : 0 ≤ B)
    (hB : ∀ v ∈ xs, |v| ≤ B) (hN : xs.length ≤ 2 ^ 40) :
    ∃ st sx, k.feed_auto_fl fl ⟨tau0, true, ts⟩ (rt_init [a0] true) xs = .ok st ∧
      k.feed (rt_cfg tau0 true p) (rt_init [a0] true) xs = .ok sx ∧
      st.x = xs ∧ st.afs = sx.afs ∧ st.dev.length = st.afs.length ∧ sx.dev.length = st.afs.length ∧
      ∀ (i a : ℕ) (d d' : ℝ), st.afs[i]? = some a → st.dev[i]? = some d → sx.dev[i]? = some d' →
        (k.need a ≤ xs.length → |d - d'| ≤ rtBound k 0 xs.length B tau0 a d') ∧
        (xs.length < k.need a → d = 0 ∧ d' = 0) := by
  have hx : tab xs.length (seq xs) = xs := (eq_tab xs 0).symm
  have h := auto_core hfl k tau0 p hp hp5 ts hts a0 ht xs (seq xs) 0 (Nat.zero_le _) B hB0 (fun i hi =>
    NearA.exact (hB _ (by rw [seq, List.getD_eq_getElem _ _ hi]; exact List.getElem_mem hi))) hN
  rwa [hx] at h

theorem bind_ok_id {α : Type} (e : Py α) : (e >>= fun a => .ok a) = e := by cases e <;> rfl

theorem feed_frequency_auto_fl_eq (hfl : FloatRound fl) (k : RtName) (tau0 : ℝ) (p : ℕ) (hp : 0 < p) (hp5 : p ≤ 5)
    (ts : List ℝ) (hts : LogTable p ts) (a0 : ℕ) (ht : 0 < tau0) (f : ℕ → ℝ) (n : ℕ) (hn : 0 < n) (hN : n < 2 ^ 40) :
    k.feed_frequency_auto_fl fl ⟨tau0, true, ts⟩ (rt_init [a0] true) (tab n f) =
      k.feed_auto_fl fl ⟨tau0, true, ts⟩ (rt_init [a0] true) (tab (n + 1) (intF fl f)) := by
  have step : ∀ m < n, ∀ st, k.feed_auto_fl fl ⟨tau0, true, ts⟩ (rt_init [a0] true) (tab (m + 1) (intF fl f)) = .ok st →
      k.add_frequency_auto_fl fl ⟨tau0, true, ts⟩ st (f m) =
        k.add_phase_auto_fl fl ⟨tau0, true, ts⟩ st (intF fl f (m + 1)) := by
    intro m hm st hst
    have h := feed_auto_fl_state hfl k tau0 p hp hp5 ts hts a0 ht (intF fl f) (m + 1) (by omega)
    rw [hst] at h
    have hx : st.x = tab m (intF fl f) ++ [intF fl f m] := by
      rw [Except.ok.inj h, ← tab_succ]
      rfl
    unfold RtName.add_frequency_auto_fl
    rw [if_neg (by rw [hx]; simp)]
    simp only [ok_bind]
    rw [hx, pyGet_last, ok_bind]
    rfl
  have succ : ∀ m, k.feed_auto_fl fl ⟨tau0, true, ts⟩ (rt_init [a0] true) (tab (m + 1) (intF fl f)) =
      (k.feed_auto_fl fl ⟨tau0, true, ts⟩ (rt_init [a0] true) (tab m (intF fl f))) >>=
        fun st => k.add_phase_auto_fl fl ⟨tau0, true, ts⟩ st (intF fl f m) := by
    intro m
    unfold RtName.feed_auto_fl
    rw [tab_succ, List.foldlM_append]
    simp [bind_ok_id]
  have ok : ∀ m ≤ n + 1, ∃ st, k.feed_auto_fl fl ⟨tau0, true, ts⟩ (rt_init [a0] true) (tab m (intF fl f)) = .ok st :=
    fun m hm => ⟨_, feed_auto_fl_state hfl k tau0 p hp hp5 ts hts a0 ht (intF fl f) m (by omega)⟩
  have main : ∀ m, 0 < m → m ≤ n → k.feed_frequency_auto_fl fl ⟨tau0, true, ts⟩ (rt_init [a0] true) (tab m f) =
      k.feed_auto_fl fl ⟨tau0, true, ts⟩ (rt_init [a0] true) (tab (m + 1) (intF fl f)) := by
    intro m hm
    induction m, hm using Nat.le_induction with
    | base =>
      intro _
      obtain ⟨st, hst⟩ := ok 1 (by omega)
      rw [succ 1, hst, ok_bind, ← step 0 (by omega) st hst]
      have h1 : k.add_phase_auto_fl fl ⟨tau0, true, ts⟩ (rt_init [a0] true) 0 = .ok st := by
        rw [succ 0] at hst
        simpa [RtName.feed_auto_fl, tab, pure_eq_ok, ok_bind, intF] using hst
      have hne : st.x ≠ [] := by
        have h := feed_auto_fl_state hfl k tau0 p hp hp5 ts hts a0 ht (intF fl f) 1 (by norm_num)
        rw [hst] at h
        rw [Except.ok.inj h]
        intro hc
        have := congrArg List.length hc
        simp [rtSt, rtMk] at this
      unfold RtName.feed_frequency_auto_fl
      rw [show tab (0 + 1) f = [f 0] from rfl, List.foldlM_cons]
      conv_lhs => unfold RtName.add_frequency_auto_fl
      conv_rhs => unfold RtName.add_frequency_auto_fl
      rw [if_pos (show (rt_init [a0] true).x = [] from rfl), if_neg hne, h1]
      simp [bind_ok_id]
    | succ m hm ih =>
      intro hle
      obtain ⟨st, hst⟩ := ok (m + 1) (by omega)
      have ih' := ih (by omega)
      rw [succ (m + 1), hst, ok_bind, ← step m (by omega) st hst]
      rw [hst] at ih'
      unfold RtName.feed_frequency_auto_fl at ih' ⊢
      rw [tab_succ m f, List.foldlM_append, ih', ok_bind]
      simp [bind_ok_id]
  exact main n hn le_rfl

/-- **C113, frequency data.** The same for a stream of frequency values up to `F`, with the bound of C91 for
frequencies. -/
theorem realtime_auto_freq_float (hfl : FloatRound fl) (k : RtName) (tau0 : ℝ) (p : ℕ) (hp : 0 < p) (hp5 : p ≤ 5)
    (ts : List ℝ) (hts : LogTable p ts) (a0 : ℕ) (ht : 0 < tau0) (fs : List ℝ) (hne : fs ≠ []) (F : ℝ)
    (hF : ∀ v ∈ fs, |v| ≤ F) (hN : fs.length < 2 ^ 40) :
    ∃ st sx, k.feed_frequency_auto_fl fl ⟨tau0, true, ts⟩ (rt_init [a0] true) fs = .ok st ∧
      k.feed_frequency (rt_cfg tau0 true p) (rt_init [a0] true) fs = .ok sx ∧
      st.x.length = fs.length + 1 ∧ st.afs = sx.afs ∧ st.dev.length = st.afs.length ∧ sx.dev.length = st.afs.length ∧
      ∀ (i a : ℕ) (d d' : ℝ), st.afs[i]? = some a → st.dev[i]? = some d → sx.dev[i]? = some d' →
        (k.need a ≤ fs.length + 1 →
          |d - d'| ≤ rtBound k fs.length (fs.length + 1) (fs.length * F) tau0 a d') ∧
        (fs.length + 1 < k.need a → d = 0 ∧ d' = 0) := by
  have hpos : 0 < fs.length := List.length_pos_iff.2 hne
  have hF0 : 0 ≤ F := (abs_nonneg _).trans (hF _ (List.getElem_mem hpos))
  have hlen : (Spec.integrated fs).length = fs.length + 1 := by rw [integrated_eq fs hne, tab_length]
  have hnear : ∀ i < (Spec.integrated fs).length,
      NearA fs.length (intF fl (seq fs) i) (seq (Spec.integrated fs) i) (fs.length * F) := by
    intro i hi
    rw [hlen] at hi
    have h1 : NearA i (intF fl (seq fs) i) (∑ j ∈ range i, seq fs j) (i * F) :=
      intF_near hfl (fun j hj => hF _ (by rw [seq, List.getD_eq_getElem _ _ hj]; exact List.getElem_mem hj)) i
        (by omega)
    have h2 : seq (Spec.integrated fs) i = ∑ j ∈ range i, seq fs j := by
      rw [integrated_eq fs hne, seq, List.getD, tab_getElem?, if_pos hi]
      rfl
    rw [h2]
    refine (h1.mono (by omega)).mono_size (mul_le_mul_of_nonneg_right ?_ hF0)
    exact_mod_cast (show i ≤ fs.length by omega)
  obtain ⟨st, sx, h1, h2, h3, h4⟩ := auto_core hfl k tau0 p hp hp5 ts hts a0 ht (Spec.integrated fs)
    (intF fl (seq fs)) fs.length (by omega) (fs.length * F) (by positivity) hnear (by omega)
  have hx : tab fs.length (seq fs) = fs := (eq_tab fs 0).symm
  have he := feed_frequency_auto_fl_eq hfl k tau0 p hp hp5 ts hts a0 ht (seq fs) fs.length hpos hN
  rw [hx] at he
  rw [hlen] at h1 h3 h4
  exact ⟨st, sx, by rw [he, h1], by rw [feed_frequency_eq, h2], by rw [h3, tab_length], h4⟩

/-- **C113 for OHDEV.** In automatic mode the rounded deviations are close to the batch values of the
definition. -/
theorem ohdev_auto_float (hfl : FloatRound fl) (tau0 : ℝ) (p : ℕ) (hp : 0 < p) (hp5 : p ≤ 5)
    (ts : List ℝ) (hts : LogTable p ts) (a0 : ℕ) (ht : 0 < tau0) (xs : List ℝ) (B : ℝ) (hB0 : 0 ≤ B)
    (hB : ∀ v ∈ xs, |v| ≤ B) (hN : xs.length ≤ 2 ^ 40) :
    ∃ st, RtName.feed_auto_fl fl .ohdev ⟨tau0, true, ts⟩ (rt_init [a0] true) xs = .ok st ∧
      ∀ i a : ℕ, st.afs[i]? = some a → 3 * a < xs.length → ∃ d, st.dev[i]? = some d ∧
        |d - Spec.ohdev (seq xs) xs.length a (a * tau0)| ≤
          rtBound .ohdev 0 xs.length B tau0 a (Spec.ohdev (seq xs) xs.length a (a * tau0)) := by
  obtain ⟨st, sx, h1, h2, _, h4, h5, h6, h7⟩ := realtime_auto_float hfl .ohdev tau0 p hp hp5 ts hts a0 ht xs B hB0 hB hN
  obtain ⟨sx', e, hdev⟩ := ohdev_auto tau0 p hp (autoAf_strictMono p hp hp5) a0 ht xs
  rw [h2] at e
  cases e
  refine ⟨st, h1, fun i a hi hn => ?_⟩
  have hlt := (List.getElem?_eq_some_iff.1 hi).1
  have hd : st.dev[i]? = some st.dev[i] := List.getElem?_eq_getElem (by omega)
  have hd' : sx.dev[i]? = some (Spec.ohdev (seq xs) xs.length a (a * tau0)) := by
    rw [hdev, List.getElem?_map, ← h4, hi, Option.map_some, if_neg (by omega)]
  exact ⟨_, hd, (h7 i a _ _ hi hd hd').1 (by simp only [RtName.need]; omega)⟩

/-- the exact table is a table -/
theorem exact_logTable (p : ℕ) : LogTable p (tab p (fun i => (10 : ℝ) ^ ((i : ℝ) / p))) := by
  refine ⟨by simp, fun i h => ?_⟩
  have h' : i < p := by simpa using h
  have : (tab p (fun i => (10 : ℝ) ^ ((i : ℝ) / p)))[i] = (10 : ℝ) ^ ((i : ℝ) / p) := by
    have := tab_getElem? p (fun i => (10 : ℝ) ^ ((i : ℝ) / p)) i
    rw [if_pos h', List.getElem?_eq_getElem h] at this
    exact Option.some.inj this
  rw [this, sub_self, abs_zero]
  positivity

example (hfl : FloatRound fl) (k : RtName) := realtime_auto_float hfl k 2 4 (by norm_num) (by norm_num) _
  (exact_logTable 4) 1 (by norm_num) [0, 1, 5, 2, 2, 7, 9, 4] 9 (by norm_num)
  (by intro v hv; fin_cases hv <;> norm_num [abs_of_nonneg]) (by norm_num)

example (hfl : FloatRound fl) (k : RtName) := realtime_auto_freq_float hfl k 2 4 (by norm_num) (by norm_num) _
  (exact_logTable 4) 1 (by norm_num) [0, 1, 5, 2, 2, 7, 9, 4] (by simp) 9
  (by intro v hv; fin_cases hv <;> norm_num [abs_of_nonneg]) (by norm_num)

/-- a table with rounding errors -/
example : LogTable 1 [1 + (2 : ℝ) ^ (-52 : ℤ)] := by
  refine ⟨rfl, fun i h => ?_⟩
  have : i = 0 := by simpa using h
  subst this
  norm_num [abs_of_pos]

/-- the default configuration after seven samples: factors 1, 2 and 3 -/
example (hfl : FloatRound fl) (ts : List ℝ) (hts : LogTable 4 ts) : autoAfF fl ts 4 1 = 2 ∧ autoAfF fl ts 4 2 = 3 := by
  rw [autoAfF_eq hfl (by norm_num) (by norm_num) hts (by norm_num), autoAfF_eq hfl (by norm_num) (by norm_num) hts (by norm_num)]
  exact autoAf_four

end AT
