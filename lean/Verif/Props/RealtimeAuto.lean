import Verif.Props.RealtimeFreq

/-!
# Automatic averaging factors: C38
-/

namespace AT

open Finset Real Spec

/-- the `i`-th automatic averaging factor with `p` points per decade -/
noncomputable def Spec.autoAf (p i : ℕ) : ℕ := (npRound ((10 : ℝ) ^ ((i : ℝ) / p))).toNat

theorem autoAf_pos (p i : ℕ) : 0 < Spec.autoAf p i := by
  unfold Spec.autoAf
  have h := (npRound_isRound ((10 : ℝ) ^ ((i : ℝ) / p))).1
  have h1 : (1 : ℝ) ≤ (10 : ℝ) ^ ((i : ℝ) / p) := one_le_rpow (by norm_num) (by positivity)
  rw [abs_le] at h
  have h2 : (0 : ℝ) < npRound ((10 : ℝ) ^ ((i : ℝ) / p)) := by linarith
  have : 0 < npRound ((10 : ℝ) ^ ((i : ℝ) / p)) := by exact_mod_cast h2
  omega

/-- the automatic factors are `10^(i/p)` rounded to the nearest integer -/
theorem autoAf_isRound (p i : ℕ) : IsRound ((10 : ℝ) ^ ((i : ℝ) / p)) (Spec.autoAf p i) := by
  have h := npRound_isRound ((10 : ℝ) ^ ((i : ℝ) / p))
  have h0 := autoAf_pos p i
  unfold Spec.autoAf at h0 ⊢
  rwa [Int.toNat_of_nonneg (by omega)]

theorem autoAf_zero (p : ℕ) : Spec.autoAf p 0 = 1 := by
  have := isRound_unique (autoAf_isRound p 0) (show IsRound ((10 : ℝ) ^ (((0 : ℕ) : ℝ) / p)) ((1 : ℕ) : ℤ) by
    norm_num [IsRound])
  exact_mod_cast this

/-- number of samples after which the `i`-th automatic factor is added: one factor at most is
added per sample, and not before `2 m + 1` samples were seen -/
noncomputable def Spec.addTime (p : ℕ) : ℕ → ℕ
  | 0 => 0
  | i + 1 => max (addTime p i + 1) (2 * autoAf p (i + 1) + 1)

theorem addTime_mono (p : ℕ) : StrictMono (Spec.addTime p) := by
  apply strictMono_nat_of_lt_succ
  intro i
  rw [Spec.addTime]
  omega

/-- the number of factors after `n` samples -/
noncomputable def autoCount (p : ℕ) : ℕ → ℕ
  | 0 => 1
  | n + 1 => if 2 * Spec.autoAf p (autoCount p n) + 1 ≤ n + 1 then autoCount p n + 1 else autoCount p n

theorem autoCount_spec (p n i : ℕ) : i < autoCount p n ↔ Spec.addTime p i ≤ n := by
  induction n generalizing i with
  | zero =>
    unfold autoCount
    cases i with
    | zero => simp [Spec.addTime]
    | succ i => simp [Spec.addTime]
  | succ n ih =>
    have hK : 0 < autoCount p n := (ih 0).2 (Nat.zero_le _)
    obtain ⟨K, hK'⟩ : ∃ K, autoCount p n = K + 1 := ⟨autoCount p n - 1, by omega⟩
    have h1 : Spec.addTime p K ≤ n := (ih K).1 (by omega)
    have h2 : ¬ Spec.addTime p (K + 1) ≤ n := fun h => by
      have := (ih (K + 1)).2 h
      omega
    have h3 : Spec.addTime p (K + 1) = max (Spec.addTime p K + 1) (2 * Spec.autoAf p (K + 1) + 1) := rfl
    have hm := addTime_mono p
    unfold autoCount
    rw [hK']
    split_ifs with h
    · have h4 : Spec.addTime p (K + 1) ≤ n + 1 := by omega
      constructor
      · intro hi
        exact le_trans (hm.monotone (show i ≤ K + 1 by omega)) h4
      · intro hi
        by_contra hc
        have := hm (show K + 1 < i by omega)
        omega
    · constructor
      · intro hi
        have := hm.monotone (show i ≤ K by omega)
        omega
      · intro hi
        by_contra hc
        have := hm.monotone (show K + 1 ≤ i by omega)
        omega

theorem af_taus_eq (tau0 : ℝ) (b : Bool) (p : ℕ) (hp : 0 < p) :
    (rt_cfg tau0 b p).af_taus = tab p (fun i => (10 : ℝ) ^ ((i : ℝ) / p)) := by
  unfold rt_cfg npLogspace npLinspace
  simp only
  rw [if_neg (by omega), map_tab, show ((-1 : ℤ)) = -((1 : ℕ) : ℤ) by norm_num,
    sliceTo_neg _ 1 one_pos, tab_length, take_tab]
  rw [show min (p + 1 - 1) (p + 1) = p by omega]
  apply tab_congr
  intro i _
  congr 1
  push_cast
  have : (p : ℝ) ≠ 0 := by positivity
  rw [zero_add, sub_zero, add_sub_cancel_right, mul_one_div]

theorem pow_split (p : ℕ) (hp : 0 < p) (q r : ℕ) :
    (10 : ℝ) ^ q * (10 : ℝ) ^ ((r : ℝ) / p) = (10 : ℝ) ^ (((p * q + r : ℕ) : ℝ) / p) := by
  have hp' : (p : ℝ) ≠ 0 := by positivity
  rw [← rpow_natCast, ← rpow_add (by norm_num)]
  congr 1
  push_cast
  field_simp

theorem update_af_eq (tau0 : ℝ) (p : ℕ) (hp : 0 < p) (x : List ℝ) (K : ℕ) (a : ℕ → ℕ)
    (E : ℕ → ℝ × ℝ × ℝ) :
    update_af (rt_cfg tau0 true p) (rtSt x (K + 1) a E (K % p) (K / p)) =
      .ok (if 2 * Spec.autoAf p (K + 1) + 1 ≤ x.length then
        rtSt x (K + 2) (fun i => if i < K + 1 then a i else Spec.autoAf p (K + 1))
          (fun i => if i < K + 1 then E i else (0, 0, 0)) ((K + 1) % p) ((K + 1) / p)
        else rtSt x (K + 1) a E (K % p) (K / p)) := by
  have hr := Nat.mod_lt K hp
  have hK := Nat.div_add_mod K p
  have key : ∃ q r, (if K % p + 1 = p then 0 else K % p + 1) = r ∧
      (if K % p + 1 = p then K / p + 1 else K / p) = q ∧ r < p ∧ K + 1 = p * q + r ∧
      (K + 1) % p = r ∧ (K + 1) / p = q := by
    by_cases h : K % p + 1 = p
    · have e : K + 1 = p * (K / p + 1) + 0 := by
        rw [Nat.mul_add]
        omega
      refine ⟨K / p + 1, 0, by rw [if_pos h], by rw [if_pos h], hp, e, ?_, ?_⟩
      · rw [e, Nat.mul_add_mod]
        exact Nat.zero_mod p
      · rw [e, Nat.mul_add_div hp]
        simp
    · have e : K + 1 = p * (K / p) + (K % p + 1) := by omega
      refine ⟨K / p, K % p + 1, by rw [if_neg h], by rw [if_neg h], by omega, e, ?_, ?_⟩
      · rw [e, Nat.mul_add_mod]
        exact Nat.mod_eq_of_lt (by omega)
      · rw [e, Nat.mul_add_div hp, Nat.div_eq_of_lt (show K % p + 1 < p by omega), Nat.add_zero]
  obtain ⟨q, r, h1, h2, h3, h4, h5, h6⟩ := key
  unfold update_af
  rw [af_taus_eq tau0 true p hp]
  simp only [rtSt, rtMk, tab_length]
  rw [h1, h2, pyGet_tab_nat p _ r h3, ok_bind, pow_split p hp, ← h4, h5, h6]
  have happ : ∀ {α : Type} (f : ℕ → α) (v : α), tab (K + 1) f ++ [v] =
      tab (K + 2) (fun i => if i < K + 1 then f i else v) := by
    intro α f v
    rw [tab_succ (K + 1), if_neg (lt_irrefl _)]
    congr 1
    exact tab_congr (fun i hi => (if_pos hi).symm)
  simp only [happ]
  unfold Spec.autoAf
  congr 1
  split_ifs
  · congr 1 <;> · apply tab_congr; intro i _; split_ifs <;> rfl
  · rfl

/-- the state in automatic mode after the first `n` samples of `X` -/
theorem feed_auto_state (k : RtName) (tau0 : ℝ) (p : ℕ) (hp : 0 < p) (a0 : ℕ) (ht : tau0 ≠ 0)
    (X : ℕ → ℝ) (n : ℕ) :
    k.feed (rt_cfg tau0 true p) (rt_init [a0] true) (tab n X) =
      .ok (rtSt (tab n X) (autoCount p n) (Spec.autoAf p)
        (fun i => k.entry tau0 X (Spec.autoAf p i) (Spec.addTime p i) (n - Spec.addTime p i))
        ((autoCount p n - 1) % p) ((autoCount p n - 1) / p)) := by
  unfold RtName.feed
  induction n with
  | zero =>
    simp [rt_init, rtSt, rtMk, autoCount, tab_succ, autoAf_zero, RtName.entry, pure_eq_ok]
  | succ n ih =>
    rw [show tab (n + 1) X = tab n X ++ [X n] from tab_succ n X, List.foldlM_append, ih]
    simp only [ok_bind, List.foldlM_cons, List.foldlM_nil]
    rw [add_phase_eq k _ X n _ _ _ _ _ (by exact ht) (fun i _ => autoAf_pos p i), ← tab_succ]
    unfold rt_auto
    rw [if_pos (show (rt_cfg tau0 true p).auto_afs = true from rfl)]
    have hK : 0 < autoCount p n := (autoCount_spec p n 0).2 (Nat.zero_le _)
    obtain ⟨K, hK'⟩ : ∃ K, autoCount p n = K + 1 := ⟨autoCount p n - 1, by omega⟩
    have hupd : ∀ i < autoCount p n, k.upd (rt_cfg tau0 true p).tau0 X n (Spec.autoAf p i)
        (k.entry tau0 X (Spec.autoAf p i) (Spec.addTime p i) (n - Spec.addTime p i)) =
        k.entry tau0 X (Spec.autoAf p i) (Spec.addTime p i) (n + 1 - Spec.addTime p i) := by
      intro i hi
      have := (autoCount_spec p n i).1 hi
      rw [show n + 1 - Spec.addTime p i = n - Spec.addTime p i + 1 by omega]
      conv_rhs => unfold RtName.entry
      rw [show Spec.addTime p i + (n - Spec.addTime p i) = n by omega]
      rfl
    rw [rtSt_congr _ _ _ _ (fun i _ => rfl) hupd, hK', show K + 1 - 1 = K by omega,
      update_af_eq tau0 p hp, tab_length, ok_bind, pure_eq_ok]
    congr 1
    have hc : autoCount p (n + 1) = if 2 * Spec.autoAf p (K + 1) + 1 ≤ n + 1 then K + 2 else K + 1 := by
      conv_lhs => unfold autoCount
      rw [hK']
    by_cases h : 2 * Spec.autoAf p (K + 1) + 1 ≤ n + 1
    · rw [if_pos h] at hc
      rw [if_pos h, hc, show K + 2 - 1 = K + 1 by omega]
      have hT : Spec.addTime p (K + 1) = n + 1 := by
        have h1 : Spec.addTime p (K + 1) ≤ n + 1 := (autoCount_spec p (n + 1) (K + 1)).1 (by omega)
        have h2 : ¬ Spec.addTime p (K + 1) ≤ n := fun h => by
          have := (autoCount_spec p n (K + 1)).2 h
          omega
        omega
      apply rtSt_congr
      · intro i hi
        split_ifs with h3
        · rfl
        · rw [show i = K + 1 by omega]
      · intro i hi
        split_ifs with h3
        · rfl
        · rw [show i = K + 1 by omega, hT, Nat.sub_self]
          rfl
    · rw [if_neg h] at hc
      rw [if_neg h, hc, show K + 1 - 1 = K by omega]

/-- **C38, structure.** In automatic mode, for any stream: no exception; the averaging factors are
the first `K` rounded powers `10^(i/p)`, where factor `i` is present exactly if at least
`addTime p i` samples were seen; the arrays of deviations and sums have the same length; the
entry of factor `i` has seen only the samples after its creation. -/
theorem realtime_auto (k : RtName) (tau0 : ℝ) (p : ℕ) (hp : 0 < p) (a0 : ℕ) (ht : tau0 ≠ 0)
    (xs : List ℝ) :
    ∃ K st, k.feed (rt_cfg tau0 true p) (rt_init [a0] true) xs = .ok st ∧
      (∀ i, i < K ↔ Spec.addTime p i ≤ xs.length) ∧
      st.x = xs ∧ st.afs = tab K (Spec.autoAf p) ∧
      st.dev.length = st.afs.length ∧ st.S.length = st.afs.length ∧ st.So.length = st.afs.length ∧
      st.dev = tab K (fun i => (k.entry tau0 (seq xs) (Spec.autoAf p i) (Spec.addTime p i)
        (xs.length - Spec.addTime p i)).1) := by
  have h := feed_auto_state k tau0 p hp a0 ht (seq xs) xs.length
  have hx : tab xs.length (seq xs) = xs := (eq_tab xs 0).symm
  rw [hx] at h
  refine ⟨_, _, h, fun i => autoCount_spec p xs.length i, rfl, rfl, ?_, ?_, ?_, rfl⟩ <;>
    simp [rtSt, rtMk]

/-- **C38.** Averaging factors are only ever appended. -/
theorem realtime_auto_prefix (k : RtName) (tau0 : ℝ) (p : ℕ) (hp : 0 < p) (a0 : ℕ) (ht : tau0 ≠ 0)
    (xs ys : List ℝ) (st st' : Rt)
    (h : k.feed (rt_cfg tau0 true p) (rt_init [a0] true) xs = .ok st)
    (h' : k.feed (rt_cfg tau0 true p) (rt_init [a0] true) (xs ++ ys) = .ok st') :
    st.afs <+: st'.afs := by
  obtain ⟨K, s, e, hK, _, h1, _⟩ := realtime_auto k tau0 p hp a0 ht xs
  obtain ⟨K', s', e', hK', _, h1', _⟩ := realtime_auto k tau0 p hp a0 ht (xs ++ ys)
  rw [h] at e
  rw [h'] at e'
  cases e
  cases e'
  have hle : K ≤ K' := by
    by_contra hc
    have h2 := (hK K').1 (by omega)
    have h3 := (hK' K').2 (by rw [List.length_append]; omega)
    omega
  rw [h1, h1']
  refine ⟨tab (K' - K) (fun i => Spec.autoAf p (K + i)), ?_⟩
  rw [append_tab, show K + (K' - K) = K' by omega]
  apply tab_congr
  intro i _
  split_ifs with hi
  · rfl
  · rw [show K + (i - K) = i by omega]

/-- with strictly increasing factors each is added as soon as `2 m + 1` samples were seen -/
theorem addTime_eq (p : ℕ) (hm : StrictMono (Spec.autoAf p)) (i : ℕ) :
    Spec.addTime p (i + 1) = 2 * Spec.autoAf p (i + 1) + 1 := by
  rw [Spec.addTime]
  have h1 := hm (Nat.lt_succ_self i)
  cases i with
  | zero =>
    rw [Spec.addTime]
    omega
  | succ i =>
    rw [addTime_eq p hm i]
    simp only [Nat.succ_eq_add_one] at h1
    omega

/-- up to five points per decade (four is the default) the factors are strictly increasing -/
theorem autoAf_strictMono (p : ℕ) (hp : 0 < p) (hp5 : p ≤ 5) : StrictMono (Spec.autoAf p) := by
  apply strictMono_nat_of_lt_succ
  intro i
  set r : ℝ := (10 : ℝ) ^ ((1 : ℝ) / p) with hr
  have hr1 : (15848 / 10000 : ℝ) ≤ r := by
    have h1 : (10 : ℝ) ^ ((1 : ℝ) / 5) ≤ r := by
      apply rpow_le_rpow_of_exponent_le (by norm_num)
      apply one_div_le_one_div_of_le (by positivity)
      exact_mod_cast hp5
    refine le_trans ?_ h1
    have h2 : ((15848 / 10000 : ℝ) ^ (5 : ℕ)) ^ ((1 : ℝ) / 5) ≤ (10 : ℝ) ^ ((1 : ℝ) / 5) := by
      apply rpow_le_rpow (by positivity) (by norm_num) (by norm_num)
    rw [← rpow_natCast, ← rpow_mul (by norm_num)] at h2
    norm_num at h2 ⊢
    exact h2
  have hpow : ∀ j : ℕ, (10 : ℝ) ^ ((j : ℝ) / p) = r ^ j := by
    intro j
    rw [hr, ← rpow_natCast, ← rpow_mul (by norm_num)]
    congr 1
    ring
  have e1 := (autoAf_isRound p i).1
  have e2 := (autoAf_isRound p (i + 1)).1
  rw [hpow, abs_le] at e1 e2
  obtain _ | _ | i := i
  · rw [autoAf_zero]
    have : (1 : ℝ) < Spec.autoAf p 1 := by
      have := e2.2
      rw [zero_add, pow_one] at this
      push_cast at this
      linarith
    exact_mod_cast this
  · have h1 := e1.1
    have h2 := e2.2
    have h1' := e1.2
    rw [zero_add, pow_one] at h1 h1'
    push_cast at h1 h2 h1'
    norm_num at h2 ⊢
    by_cases h : (17 / 10 : ℝ) ≤ r
    · have : (Spec.autoAf p 1 : ℝ) < Spec.autoAf p 2 := by nlinarith
      exact_mod_cast this
    · have h3 : (Spec.autoAf p 1 : ℝ) < (3 : ℕ) := by push_cast; linarith
      have h4 : ((2 : ℕ) : ℝ) < Spec.autoAf p 2 := by push_cast; nlinarith
      have h3' : Spec.autoAf p 1 < 3 := by exact_mod_cast h3
      have h4' : 2 < Spec.autoAf p 2 := by exact_mod_cast h4
      omega
  · have h1 : (5 / 2 : ℝ) ≤ r ^ (i + 1 + 1) := by
      have h0 : r ^ 2 ≤ r ^ (i + 1 + 1) := pow_le_pow_right₀ (by linarith) (by omega)
      nlinarith
    have h2 : r ^ (i + 1 + 1 + 1) = r ^ (i + 1 + 1) * r := pow_succ _ _
    have h3 : r ^ (i + 1 + 1) + 1 < r ^ (i + 1 + 1 + 1) := by
      rw [h2]
      nlinarith
    have key : (Spec.autoAf p (i + 1 + 1) : ℝ) < Spec.autoAf p (i + 1 + 1 + 1) := by
      have := e1.1
      have := e2.2
      push_cast at *
      linarith
    exact_mod_cast key

/-- … and with six or more points per decade they are not: the first two factors are both `1` -/
theorem autoAf_strictMono_iff (p : ℕ) (hp : 0 < p) : StrictMono (Spec.autoAf p) ↔ p ≤ 5 := by
  refine ⟨fun h => ?_, autoAf_strictMono p hp⟩
  by_contra hp6
  have h6 : 6 ≤ p := by omega
  have h01 := h (show 0 < 1 by norm_num)
  rw [autoAf_zero] at h01
  have e := (autoAf_isRound p 1).1
  have hr : (10 : ℝ) ^ ((1 : ℝ) / p) < 3 / 2 := by
    have h1 : (10 : ℝ) ^ ((1 : ℝ) / p) ≤ (10 : ℝ) ^ ((1 : ℝ) / 6) := by
      apply rpow_le_rpow_of_exponent_le (by norm_num)
      apply one_div_le_one_div_of_le (by norm_num)
      exact_mod_cast h6
    refine h1.trans_lt ?_
    have h2 : (10 : ℝ) ^ ((1 : ℝ) / 6) < ((3 / 2 : ℝ) ^ (6 : ℕ)) ^ ((1 : ℝ) / 6) := by
      apply rpow_lt_rpow (by norm_num) (by norm_num) (by norm_num)
    rw [← rpow_natCast, ← rpow_mul (by norm_num)] at h2
    norm_num at h2 ⊢
    exact h2
  rw [abs_le] at e
  have h2 : (2 : ℝ) ≤ Spec.autoAf p 1 := by exact_mod_cast h01
  have := e.1
  push_cast at this
  linarith

example : ¬ StrictMono (Spec.autoAf 6) := by
  rw [autoAf_strictMono_iff 6 (by norm_num)]; norm_num

example : StrictMono (Spec.autoAf 4) := autoAf_strictMono 4 (by norm_num) (by norm_num)

/-- **C38 for OHDEV.** With strictly increasing automatic factors (for instance with the default
four points per decade) every value reported by `ohdev_realtime` is the batch value. -/
theorem ohdev_auto (tau0 : ℝ) (p : ℕ) (hp : 0 < p) (hm : StrictMono (Spec.autoAf p)) (a0 : ℕ)
    (ht : 0 < tau0) (xs : List ℝ) :
    ∃ st, RtName.feed .ohdev (rt_cfg tau0 true p) (rt_init [a0] true) xs = .ok st ∧
      st.dev = st.afs.map (fun (a : ℕ) => if xs.length < 3 * a + 1 then 0
        else Spec.ohdev (seq xs) xs.length a (a * tau0)) := by
  obtain ⟨K, st, h, hK, _, ha, _, _, _, hd⟩ := realtime_auto .ohdev tau0 p hp a0 ht.ne' xs
  refine ⟨st, h, ?_⟩
  rw [hd, ha, map_tab]
  apply tab_congr
  intro i hi
  have hT := (hK i).1 hi
  have hpos := autoAf_pos p i
  have hT3 : Spec.addTime p i ≤ 3 * Spec.autoAf p i := by
    cases i with
    | zero => simp [Spec.addTime]
    | succ i =>
      rw [addTime_eq p hm]
      omega
  rw [ohdev_entry]
  simp only [show Spec.addTime p i + (xs.length - Spec.addTime p i) = xs.length by omega]
  by_cases h1 : xs.length < 3 * Spec.autoAf p i + 1
  · rw [if_pos (by omega), if_pos h1]
  · rw [if_neg (by omega), if_neg h1, show Spec.addTime p i - 3 * Spec.autoAf p i = 0 by omega,
      ← range_eq_Ico]
    rfl

example := ohdev_auto 2 4 (by norm_num) (autoAf_strictMono 4 (by norm_num) (by norm_num)) 1 (by norm_num) [0, 1, 5, 2, 2, 7, 9, 4]

/-- **C38 for OADEV: what the code really reports.** The value for the first factor is the batch
value.  For every automatically added factor the first second difference is missing from the
sum, although it is counted in the normalisation: the factor is added, with the sum 0, after the
sample that completes its first second difference.  The property asks for the batch value. -/
theorem oadev_auto_partial (tau0 : ℝ) (p : ℕ) (hp : 0 < p) (hm : StrictMono (Spec.autoAf p)) (a0 : ℕ)
    (ht : 0 < tau0) (xs : List ℝ) :
    ∃ st, RtName.feed .oadev (rt_cfg tau0 true p) (rt_init [a0] true) xs = .ok st ∧
      st.dev = st.afs.map (fun (a : ℕ) => if xs.length < 2 * a + 1 then 0
        else if a = 1 then Spec.oadev (seq xs) xs.length a (a * tau0)
        else √((∑ i ∈ Ico 1 (xs.length - 2 * a), d2 (seq xs) a i ^ 2)
          / (2 * (a * tau0) ^ 2 * (xs.length - 2 * a)))) := by
  obtain ⟨K, st, h, hK, _, ha, _, _, _, hd⟩ := realtime_auto .oadev tau0 p hp a0 ht.ne' xs
  refine ⟨st, h, ?_⟩
  rw [hd, ha, map_tab]
  apply tab_congr
  intro i hi
  have hT := (hK i).1 hi
  have hpos := autoAf_pos p i
  rw [oadev_entry]
  simp only [show Spec.addTime p i + (xs.length - Spec.addTime p i) = xs.length by omega]
  cases i with
  | zero =>
    rw [autoAf_zero, if_pos rfl]
    simp only [Spec.addTime, Nat.sub_zero, Nat.zero_sub]
    by_cases h1 : xs.length < 2 * 1 + 1
    · rw [if_pos (by omega), if_pos h1]
    · rw [if_neg (by omega), if_neg h1, ← range_eq_Ico]
      rfl
  | succ i =>
    have h1 : 1 < Spec.autoAf p (i + 1) := by
      have := hm (Nat.succ_pos i)
      rw [autoAf_zero] at this
      exact this
    have hT' := addTime_eq p hm i
    rw [hT'] at hT ⊢
    rw [if_neg (show ¬ xs.length < 2 * Spec.autoAf p (i + 1) + 1 by omega),
      if_neg (show ¬ Spec.autoAf p (i + 1) = 1 by omega),
      show 2 * Spec.autoAf p (i + 1) + 1 - 2 * Spec.autoAf p (i + 1) = 1 by omega]
    by_cases h2 : xs.length - (2 * Spec.autoAf p (i + 1) + 1) = 0
    · rw [if_pos (Or.inl h2), show xs.length - 2 * Spec.autoAf p (i + 1) = 1 by omega]
      simp
    · rw [if_neg (by omega)]

example := oadev_auto_partial 2 4 (by norm_num) (autoAf_strictMono 4 (by norm_num) (by norm_num)) 1 (by norm_num) [0, 1, 5, 2, 2, 7]

/-- **C38 for TDEV: what the code really reports.** For every automatically added factor the
second difference 0 is missing from every window sum.  The property asks for the batch value. -/
theorem tdev_auto_partial (tau0 : ℝ) (p : ℕ) (hp : 0 < p) (hm : StrictMono (Spec.autoAf p)) (a0 : ℕ)
    (ht : 0 < tau0) (xs : List ℝ) :
    ∃ st, RtName.feed .tdev (rt_cfg tau0 true p) (rt_init [a0] true) xs = .ok st ∧
      st.dev = st.afs.map (fun (a : ℕ) => if xs.length < 3 * a then 0
        else if a = 1 then Spec.tdev (seq xs) xs.length a (a * tau0)
        else √((∑ q ∈ range (xs.length - 3 * a + 1),
            (∑ i ∈ range a, d2 (seq xs) a (q + i) - d2 (seq xs) a 0) ^ 2)
          / (6 * (a : ℝ) ^ 2 * (xs.length - 3 * a + 1)))) := by
  obtain ⟨K, st, h, hK, _, ha, _, _, _, hd⟩ := realtime_auto .tdev tau0 p hp a0 ht.ne' xs
  refine ⟨st, h, ?_⟩
  rw [hd, ha, map_tab]
  apply tab_congr
  intro i hi
  have hT := (hK i).1 hi
  have hpos := autoAf_pos p i
  cases i with
  | zero =>
    rw [autoAf_zero, if_pos rfl]
    have := entry_dev .tdev tau0 ht (seq xs) 1 xs.length one_pos
    simp only [Spec.addTime, Nat.sub_zero]
    rw [this]
    simp only [RtName.batch, value]
    rw [show ((1 : ℕ) : ℝ) / (1 / tau0) = (1 : ℕ) * tau0 by field_simp]
    rfl
  | succ i =>
    have h1 : 1 < Spec.autoAf p (i + 1) := by
      have := hm (Nat.succ_pos i)
      rw [autoAf_zero] at this
      exact this
    have hT' := addTime_eq p hm i
    rw [hT'] at hT ⊢
    rw [tdev_entry _ _ _ _ _ (by omega)]
    simp only [show 2 * Spec.autoAf p (i + 1) + 1 + (xs.length - (2 * Spec.autoAf p (i + 1) + 1))
      = xs.length by omega]
    rw [if_neg (show ¬ Spec.autoAf p (i + 1) = 1 by omega),
      show 2 * Spec.autoAf p (i + 1) + 1 - 2 * Spec.autoAf p (i + 1) = 1 by omega, sum_range_one]

example := tdev_auto_partial 2 4 (by norm_num) (autoAf_strictMono 4 (by norm_num) (by norm_num)) 1 (by norm_num) [0, 1, 5, 2, 2, 7]

theorem autoAf_four : Spec.autoAf 4 1 = 2 ∧ Spec.autoAf 4 2 = 3 := by
  have hr : ∀ (j : ℕ) (lo hi : ℝ), 0 ≤ lo → 0 ≤ hi → lo ^ 4 ≤ 10 ^ j → 10 ^ j ≤ hi ^ 4 →
      lo ≤ (10 : ℝ) ^ ((j : ℝ) / (4 : ℕ)) ∧ (10 : ℝ) ^ ((j : ℝ) / (4 : ℕ)) ≤ hi := by
    intro j lo hi h0 h1 h2 h3
    have h4 : ((10 : ℝ) ^ ((j : ℝ) / (4 : ℕ))) ^ 4 = 10 ^ j := by
      rw [← rpow_natCast, ← rpow_mul (by norm_num), ← rpow_natCast]
      congr 1
      push_cast
      ring
    have h5 : (0 : ℝ) ≤ (10 : ℝ) ^ ((j : ℝ) / (4 : ℕ)) := by positivity
    constructor
    · exact le_of_pow_le_pow_left₀ (n := 4) (by norm_num) h5 (by rw [h4]; exact h2)
    · exact le_of_pow_le_pow_left₀ (n := 4) (by norm_num) h1 (by rw [h4]; exact h3)
  have key : ∀ (j m : ℕ) (lo hi : ℝ), lo ≤ (10 : ℝ) ^ ((j : ℝ) / (4 : ℕ)) →
      (10 : ℝ) ^ ((j : ℝ) / (4 : ℕ)) ≤ hi → (m : ℝ) - 1 / 2 < lo → hi < m + 1 / 2 →
      Spec.autoAf 4 j = m := by
    intro j m lo hi h1 h2 h3 h4
    have h : |(10 : ℝ) ^ ((j : ℝ) / (4 : ℕ)) - (m : ℤ)| < 1 / 2 := by
      rw [abs_lt]
      push_cast
      constructor <;> linarith
    have := isRound_unique (autoAf_isRound 4 j)
      (show IsRound _ (m : ℤ) from ⟨h.le, fun e => absurd e h.ne⟩)
    exact_mod_cast this
  have a1 := hr 1 (177 / 100) (178 / 100) (by norm_num) (by norm_num) (by norm_num) (by norm_num)
  have a2 := hr 2 (316 / 100) (317 / 100) (by norm_num) (by norm_num) (by norm_num) (by norm_num)
  exact ⟨key 1 2 _ _ a1.1 a1.2 (by norm_num) (by norm_num),
    key 2 3 _ _ a2.1 a2.2 (by norm_num) (by norm_num)⟩

theorem auto_afs_example (k : RtName) (xs : List ℝ) (hl : 5 ≤ xs.length) (hl' : xs.length ≤ 6) (st : Rt)
    (h : k.feed (rt_cfg 1 true 4) (rt_init [1] true) xs = .ok st) : st.afs = [1, 2] := by
  obtain ⟨K, s, e, hK, _, h1, _⟩ := realtime_auto k 1 4 (by norm_num) 1 one_ne_zero xs
  rw [h] at e
  cases e
  have hm := autoAf_strictMono 4 (by norm_num) (by norm_num)
  have hT1 := addTime_eq 4 hm 0
  have hT2 := addTime_eq 4 hm 1
  rw [zero_add, autoAf_four.1] at hT1
  rw [show 1 + 1 = 2 from rfl, autoAf_four.2] at hT2
  have h2 : 1 < K := (hK 1).2 (by omega)
  have h3 : ¬ 2 < K := fun h => by
    have := (hK 2).1 h
    omega
  rw [h1, show K = 2 by omega]
  simp [tab_succ, autoAf_zero, autoAf_four.1]

/-- **C38 is false of the code**, with the default settings: for five (six) samples the automatic
factor 2 of `oadev_realtime` (`tdev_realtime`) reports 0, the batch value is not 0. -/
theorem realtime_auto_wrong :
    (∃ st, RtName.feed .oadev (rt_cfg 1 true 4) (rt_init [1] true) [1, 0, 0, 0, 0] = .ok st ∧
      st.afs = [1, 2] ∧ st.dev[1]? = some 0 ∧ Spec.oadev (seq [1, 0, 0, 0, 0]) 5 2 2 ≠ 0) ∧
    (∃ st, RtName.feed .tdev (rt_cfg 1 true 4) (rt_init [1] true) [1, 0, 0, 0, 0, 0] = .ok st ∧
      st.afs = [1, 2] ∧ st.dev[1]? = some 0 ∧ Spec.tdev (seq [1, 0, 0, 0, 0, 0]) 6 2 2 ≠ 0) := by
  have hm := autoAf_strictMono 4 (by norm_num) (by norm_num)
  constructor
  · obtain ⟨st, h, hd⟩ := oadev_auto_partial 1 4 (by norm_num) hm 1 one_pos [1, 0, 0, 0, 0]
    have ha := auto_afs_example .oadev _ (by simp) (by simp) st h
    refine ⟨st, h, ha, ?_, ?_⟩
    · rw [hd, ha]
      simp
    · simp [Spec.oadev, rms, d2, seq]
      rw [Real.sqrt_eq_zero']
      norm_num
  · obtain ⟨st, h, hd⟩ := tdev_auto_partial 1 4 (by norm_num) hm 1 one_pos [1, 0, 0, 0, 0, 0]
    have ha := auto_afs_example .tdev _ (by simp) (by simp) st h
    refine ⟨st, h, ha, ?_, ?_⟩
    · rw [hd, ha]
      simp [d2, seq, sum_range_succ]
    · simp [Spec.tdev, Spec.mdev, rms, d2, seq, sum_range_succ]
      rw [Real.sqrt_eq_zero']
      norm_num

/-- **C38 needs a one-element `afs` argument.** In automatic mode the list of factors starts as
`[1]` but the arrays get the length of the argument, so that they are misaligned for any other
length. -/
theorem realtime_auto_misaligned (afs : List ℕ) :
    (rt_init afs true).afs.length = (rt_init afs true).dev.length ↔ afs.length = 1 := by
  simp [rt_init]
  omega

end AT
