import Verif.Model.RealtimeFloat
import Verif.Lemmas.Realtime
import Verif.Lemmas.FloatErr

/-!
# Lemmas about the streaming classes in floating point
-/

namespace AT

open Finset Real Spec

variable {fl : ℝ → ℝ}

theorem fl_pos (hfl : FloatRound fl) {v : ℝ} (h : 0 < v) : 0 < fl v := by
  have h1 := hfl v
  rw [abs_of_pos h] at h1
  have h2 : unitRoundoff < 1 := by unfold unitRoundoff; norm_num
  have h3 := (abs_le.1 h1).1
  nlinarith

/-- the rounded second difference -/
noncomputable def d2F (fl : ℝ → ℝ) (X : ℕ → ℝ) (a q : ℕ) : ℝ :=
  fl (fl (X (q + 2 * a) - fl (2 * X (q + a))) + X q)

/-- the rounded third difference of ohdev_realtime -/
noncomputable def d3F (fl : ℝ → ℝ) (X : ℕ → ℝ) (a q : ℕ) : ℝ :=
  fl (fl (fl (X (q + 3 * a) - fl (3 * X (q + 2 * a))) + fl (3 * X (q + a))) - X q)

/-- the rounded third difference of tdev_realtime -/
noncomputable def d3G (fl : ℝ → ℝ) (X : ℕ → ℝ) (a q : ℕ) : ℝ :=
  fl (fl (fl (fl (-1 * X q) + fl (3 * X (q + a))) - fl (3 * X (q + 2 * a))) + X (q + 3 * a))

/-- the rounded deviation of oadev_realtime (`c = 2`) and ohdev_realtime (`c = 6`) -/
noncomputable def devF (fl : ℝ → ℝ) (c tau0 : ℝ) (a n : ℕ) (s : ℝ) : ℝ :=
  fl √(fl (fl (1 / fl (fl (c * fl (fl (a * tau0) ^ 2)) * n)) * s))

/-- the rounded deviation of tdev_realtime -/
noncomputable def devG (fl : ℝ → ℝ) (a n : ℕ) (so : ℝ) : ℝ :=
  fl √(fl (fl (fl (fl (1 / 6) * fl (1 / n)) * fl (1 / fl ((a : ℝ) ^ 2))) * so))

theorem devF_den_ne (hfl : FloatRound fl) {c tau0 : ℝ} (hc : 0 < c) (ht : 0 < tau0) {a n : ℕ}
    (ha : 0 < a) (hn : 0 < n) : fl (fl (c * fl (fl (a * tau0) ^ 2)) * n) ≠ 0 := by
  have ha' : (0 : ℝ) < a := by exact_mod_cast ha
  have hn' : (0 : ℝ) < n := by exact_mod_cast hn
  have h1 := fl_pos hfl (mul_pos ha' ht)
  have h2 := fl_pos hfl (pow_pos h1 2)
  have h3 := fl_pos hfl (mul_pos hc h2)
  exact (fl_pos hfl (mul_pos h3 hn')).ne'

/-- the rounded divisors for averaging factor `a` in streams of up to `N` samples are not zero -/
structure RtDen (fl : ℝ → ℝ) (tau0 : ℝ) (a N : ℕ) : Prop where
  two : ∀ m, 0 < m → m ≤ N → 2 * a ≤ N → fl (fl (2 * fl (fl (a * tau0) ^ 2)) * (m : ℕ)) ≠ 0
  six : ∀ m, 0 < m → m ≤ N → 2 * a ≤ N → fl (fl (6 * fl (fl (a * tau0) ^ 2)) * (m : ℕ)) ≠ 0
  sq : 2 * a ≤ N → fl ((a : ℝ) ^ 2) ≠ 0

theorem RtDen.mono {tau0 : ℝ} {a N M : ℕ} (h : RtDen fl tau0 a N) (hM : M ≤ N) : RtDen fl tau0 a M :=
  ⟨fun m h0 h1 h2 => h.two m h0 (h1.trans hM) (h2.trans hM),
    fun m h0 h1 h2 => h.six m h0 (h1.trans hM) (h2.trans hM), fun h2 => h.sq (h2.trans hM)⟩

theorem rtDen_of_round (hfl : FloatRound fl) {tau0 : ℝ} (ht : 0 < tau0) {a : ℕ} (ha : 0 < a) (N : ℕ) :
    RtDen fl tau0 a N := by
  have ha' : (0 : ℝ) < a := by exact_mod_cast ha
  exact ⟨fun m h0 _ _ => devF_den_ne hfl two_pos ht ha h0, fun m h0 _ _ => devF_den_ne hfl (by norm_num) ht ha h0,
    fun _ => (fl_pos hfl (pow_pos ha' 2)).ne'⟩

/-- new entries (deviation, sum, overall sum) when sample `n` (counted from 0) is added -/
noncomputable def RtName.updF (fl : ℝ → ℝ) (k : RtName) (tau0 : ℝ) (X : ℕ → ℝ) (n a : ℕ)
    (p : ℝ × ℝ × ℝ) : ℝ × ℝ × ℝ :=
  match k with
  | .oadev =>
    if 2 * a ≤ n then
      (devF fl 2 tau0 a (n + 1 - 2 * a) (fl (p.2.1 + fl (d2F fl X a (n - 2 * a) ^ 2))),
        fl (p.2.1 + fl (d2F fl X a (n - 2 * a) ^ 2)), p.2.2)
    else p
  | .ohdev =>
    if 3 * a ≤ n then
      (devF fl 6 tau0 a (n + 1 - 3 * a) (fl (p.2.1 + fl (d3F fl X a (n - 3 * a) ^ 2))),
        fl (p.2.1 + fl (d3F fl X a (n - 3 * a) ^ 2)), p.2.2)
    else p
  | .tdev =>
    if 3 * a ≤ n then
      (devG fl a (n + 2 - 3 * a) (fl (p.2.2 + fl (fl (p.2.1 + d3G fl X a (n - 3 * a)) ^ 2))),
        fl (p.2.1 + d3G fl X a (n - 3 * a)),
        fl (p.2.2 + fl (fl (p.2.1 + d3G fl X a (n - 3 * a)) ^ 2)))
    else if 2 * a ≤ n then
      let s := fl (fl (fl (p.2.1 + X n) - fl (2 * X (n - a))) + X (n - 2 * a))
      if n + 1 = 3 * a then (devG fl a 1 (fl (s ^ 2)), s, fl (s ^ 2))
      else (p.1, s, p.2.2)
    else p

/-- `update_S` of oadev_realtime -/
theorem oadev_body_fl (c : RtCfg) (X : ℕ → ℝ) (n k : ℕ) (a : ℕ → ℕ) (ai ad : ℕ)
    (hd : ∀ i < k, RtDen fl c.tau0 (a i) (n + 1)) (ha : ∀ i < k, 0 < a i) (idx : ℕ) (hi : idx < k) (d S So : ℕ → ℝ) :
    (do
      let af ← pyGet (rtMk (tab (n + 1) X) k a d S So ai ad).afs idx
      if 2 * af + 1 ≤ (rtMk (tab (n + 1) X) k a d S So ai ad).x.length then
        oadev_update_S_fl fl c (rtMk (tab (n + 1) X) k a d S So ai ad) idx
      else .ok (rtMk (tab (n + 1) X) k a d S So ai ad)) =
      .ok (rtMk (tab (n + 1) X) k a
        (Function.update d idx (RtName.updF fl .oadev c.tau0 X n (a idx) (d idx, S idx, So idx)).1)
        (Function.update S idx (RtName.updF fl .oadev c.tau0 X n (a idx) (d idx, S idx, So idx)).2.1)
        (Function.update So idx (RtName.updF fl .oadev c.tau0 X n (a idx) (d idx, S idx, So idx)).2.2)
        ai ad) := by
  have h0 := ha idx hi
  simp only [rtMk, tab_length, pyGet_tab_nat k a idx hi, ok_bind, RtName.updF]
  by_cases h : 2 * a idx ≤ n
  · rw [if_pos (by omega), if_pos h]
    unfold oadev_update_S_fl
    have e0 : pyGet (tab (n + 1) X) (((n + 1 : ℕ) : ℤ) - 1) = .ok (X n) := by
      have := pyGet_tab_sub n X 0 (by omega)
      simpa using this
    have e1 := pyGet_tab_sub n X (a idx) (by omega)
    have e2 := pyGet_tab_sub n X (2 * a idx) h
    have hne := (hd idx hi).two (n + 1 - 2 * a idx) (by omega) (by omega) (by omega)
    have hcast : ((((n + 1 : ℕ) : ℤ) - 1 : ℤ) : ℝ) + 1 - 2 * a idx = ((n + 1 - 2 * a idx : ℕ) : ℝ) := by
      rw [Nat.cast_sub (by omega)]
      push_cast
      ring
    simp only [tab_length, pyGet_tab_nat k a idx hi, ok_bind, e0, e1,
      pyGet_tab_nat k S idx hi, pySet_tab k _ idx hi]
    rw [Nat.cast_mul, Nat.cast_ofNat] at e2
    rw [e2]
    simp only [ok_bind]
    rw [hcast, pyDiv_ne hne]
    simp only [ok_bind, Function.update_eq_self, d2F, devF]
    rw [show n - 2 * a idx + 2 * a idx = n by omega, show n - 2 * a idx + a idx = n - a idx by omega]
  · rw [if_neg (by omega), if_neg h]
    simp only [Function.update_eq_self]

/-- `update_S` of ohdev_realtime -/
theorem ohdev_body_fl (c : RtCfg) (X : ℕ → ℝ) (n k : ℕ) (a : ℕ → ℕ) (ai ad : ℕ)
    (hd : ∀ i < k, RtDen fl c.tau0 (a i) (n + 1)) (ha : ∀ i < k, 0 < a i) (idx : ℕ) (hi : idx < k) (d S So : ℕ → ℝ) :
    (do
      let af ← pyGet (rtMk (tab (n + 1) X) k a d S So ai ad).afs idx
      if 3 * af < (rtMk (tab (n + 1) X) k a d S So ai ad).x.length then
        ohdev_update_S_fl fl c (rtMk (tab (n + 1) X) k a d S So ai ad) idx
      else .ok (rtMk (tab (n + 1) X) k a d S So ai ad)) =
      .ok (rtMk (tab (n + 1) X) k a
        (Function.update d idx (RtName.updF fl .ohdev c.tau0 X n (a idx) (d idx, S idx, So idx)).1)
        (Function.update S idx (RtName.updF fl .ohdev c.tau0 X n (a idx) (d idx, S idx, So idx)).2.1)
        (Function.update So idx (RtName.updF fl .ohdev c.tau0 X n (a idx) (d idx, S idx, So idx)).2.2)
        ai ad) := by
  have h0 := ha idx hi
  simp only [rtMk, tab_length, pyGet_tab_nat k a idx hi, ok_bind, RtName.updF]
  by_cases h : 3 * a idx ≤ n
  · rw [if_pos (by omega), if_pos h]
    unfold ohdev_update_S_fl
    have e0 : pyGet (tab (n + 1) X) (((n + 1 : ℕ) : ℤ) - 1) = .ok (X n) := by
      have := pyGet_tab_sub n X 0 (by omega)
      simpa using this
    have e1 := pyGet_tab_sub n X (a idx) (by omega)
    have e2 := pyGet_tab_sub n X (2 * a idx) (by omega)
    have e3 := pyGet_tab_sub n X (3 * a idx) h
    have hne := (hd idx hi).six (n + 1 - 3 * a idx) (by omega) (by omega) (by omega)
    have hcast : ((((n + 1 : ℕ) : ℤ) - 1 : ℤ) : ℝ) + 1 - 3 * a idx = ((n + 1 - 3 * a idx : ℕ) : ℝ) := by
      rw [Nat.cast_sub (by omega)]
      push_cast
      ring
    simp only [tab_length, pyGet_tab_nat k a idx hi, ok_bind, e0, e1,
      pyGet_tab_nat k S idx hi, pySet_tab k _ idx hi]
    rw [Nat.cast_mul, Nat.cast_ofNat] at e2 e3
    rw [e2]
    simp only [ok_bind]
    rw [e3]
    simp only [ok_bind]
    rw [hcast, pyDiv_ne hne]
    simp only [ok_bind, Function.update_eq_self, d3F, devF]
    rw [show n - 3 * a idx + 3 * a idx = n by omega,
      show n - 3 * a idx + 2 * a idx = n - a idx by omega,
      show n - 3 * a idx + a idx = n - 2 * a idx by omega]
  · rw [if_neg (by omega), if_neg h]
    simp only [Function.update_eq_self]

theorem tdev_dev_fl (x : List ℝ) (N k : ℕ) (a : ℕ → ℕ) (ai ad : ℕ)
    (hx : x.length = N) (idx : ℕ) (hi : idx < k) (d S So : ℕ → ℝ)
    (hd : fl ((a idx : ℝ) ^ 2) ≠ 0) (hN : 3 * a idx ≤ N) :
    tdev_update_dev_fl fl (rtMk x k a d S So ai ad) idx =
      .ok (rtMk x k a (Function.update d idx (devG fl (a idx) (N + 1 - 3 * a idx) (So idx))) S So ai ad) := by
  have hcast : (N : ℝ) - 3 * a idx + 1 = ((N + 1 - 3 * a idx : ℕ) : ℝ) := by
    rw [Nat.cast_sub (by omega)]
    push_cast
    ring
  have hpos : (0 : ℝ) < ((N + 1 - 3 * a idx : ℕ) : ℝ) := by
    exact_mod_cast (show 0 < N + 1 - 3 * a idx by omega)
  simp only [tdev_update_dev_fl, rtMk, pyGet_tab_nat k a idx hi, pyGet_tab_nat k So idx hi, ok_bind, hx]
  rw [hcast, pyDiv_ne hpos.ne', ok_bind, pyDiv_ne hd, ok_bind,
    pySet_tab k _ idx hi, ok_bind]
  rfl

/-- the loop body of tdev_realtime -/
theorem tdev_body_fl (tau0 : ℝ) (X : ℕ → ℝ) (n k : ℕ) (a : ℕ → ℕ) (ai ad : ℕ)
    (hd : ∀ i < k, RtDen fl tau0 (a i) (n + 1)) (ha : ∀ i < k, 0 < a i) (idx : ℕ) (hi : idx < k) (d S So : ℕ → ℝ) :
    (do
      let af ← pyGet (rtMk (tab (n + 1) X) k a d S So ai ad).afs idx
      if 3 * af + 1 ≤ (rtMk (tab (n + 1) X) k a d S So ai ad).x.length then
        tdev_update_S_fl fl (rtMk (tab (n + 1) X) k a d S So ai ad) idx
      else if 2 * af + 1 ≤ (rtMk (tab (n + 1) X) k a d S So ai ad).x.length then
        tdev_update_S3n_fl fl (rtMk (tab (n + 1) X) k a d S So ai ad) idx
      else .ok (rtMk (tab (n + 1) X) k a d S So ai ad)) =
      .ok (rtMk (tab (n + 1) X) k a
        (Function.update d idx (RtName.updF fl .tdev tau0 X n (a idx) (d idx, S idx, So idx)).1)
        (Function.update S idx (RtName.updF fl .tdev tau0 X n (a idx) (d idx, S idx, So idx)).2.1)
        (Function.update So idx (RtName.updF fl .tdev tau0 X n (a idx) (d idx, S idx, So idx)).2.2)
        ai ad) := by
  have h0 := ha idx hi
  have e0 : pyGet (tab (n + 1) X) (((n + 1 : ℕ) : ℤ) - 1) = .ok (X n) := by
    have := pyGet_tab_sub n X 0 (by omega)
    simpa using this
  have hl : (rtMk (tab (n + 1) X) k a d S So ai ad).afs = tab k a := rfl
  have hx : (rtMk (tab (n + 1) X) k a d S So ai ad).x = tab (n + 1) X := rfl
  have hS : (rtMk (tab (n + 1) X) k a d S So ai ad).S = tab k S := rfl
  have hSo : (rtMk (tab (n + 1) X) k a d S So ai ad).So = tab k So := rfl
  rw [hl, hx, pyGet_tab_nat k a idx hi, ok_bind, tab_length]
  simp only [RtName.updF]
  by_cases h : 3 * a idx ≤ n
  · rw [if_pos (by omega), if_pos h]
    have e1 := pyGet_tab_sub n X (a idx) (by omega)
    have e2 := pyGet_tab_sub n X (2 * a idx) (by omega)
    have e3 := pyGet_tab_sub n X (3 * a idx) h
    rw [Nat.cast_mul] at e2 e3
    unfold tdev_update_S_fl
    have hw : fl (fl (fl (fl (-1 * X (n - 3 * a idx)) + fl (3 * X (n - 2 * a idx))) -
        fl (3 * X (n - a idx))) + X n) = d3G fl X (a idx) (n - 3 * a idx) := by
      unfold d3G
      rw [show n - 3 * a idx + 3 * a idx = n by omega,
        show n - 3 * a idx + 2 * a idx = n - a idx by omega,
        show n - 3 * a idx + a idx = n - 2 * a idx by omega]
    simp only [hl, hx, hS, hSo, tab_length, pyGet_tab_nat k a idx hi, ok_bind, e0, e1,
      pyGet_tab_nat k S idx hi, pyGet_tab_nat k So idx hi, pySet_tab k _ idx hi,
      pyAssert_true (show 3 * a idx + 1 ≤ n + 1 by omega)]
    erw [e3]
    rw [ok_bind]
    erw [e2]
    rw [ok_bind]
    have := tdev_dev_fl (fl := fl) (tab (n + 1) X) (n + 1) k a ai ad (tab_length _ _) idx hi d
      (Function.update S idx (fl (S idx + d3G fl X (a idx) (n - 3 * a idx))))
      (Function.update So idx (fl (So idx + fl (fl (S idx + d3G fl X (a idx) (n - 3 * a idx)) ^ 2))))
      ((hd idx hi).sq (by omega)) (by omega)
    simp only [Function.update_self] at this
    simp only [hw]
    exact this
  · rw [if_neg (by omega), if_neg h]
    by_cases h2 : 2 * a idx ≤ n
    · rw [if_pos (by omega), if_pos h2]
      have e1 := pyGet_tab_sub n X (a idx) (by omega)
      have e2 := pyGet_tab_sub n X (2 * a idx) (by omega)
      rw [Nat.cast_mul] at e2
      unfold tdev_update_S3n_fl
      simp only [hl, hx, hS, hSo, tab_length, pyGet_tab_nat k a idx hi, ok_bind, e0, e1,
        pyGet_tab_nat k S idx hi, pySet_tab k _ idx hi]
      erw [e2]
      simp only [ok_bind]
      set s := fl (fl (fl (S idx + X n) - fl (2 * X (n - a idx))) + X (n - 2 * a idx)) with hs
      by_cases h3 : n + 1 = 3 * a idx
      · rw [if_pos h3, if_pos h3]
        unfold tdev_S3n_last_fl
        simp only [pyGet_tab_nat k _ idx hi, ok_bind, pySet_tab k _ idx hi,
          Function.update_self]
        have := tdev_dev_fl (fl := fl) (tab (n + 1) X) (n + 1) k a ai ad (tab_length _ _) idx hi d
          (Function.update S idx s) (Function.update So idx (fl (s ^ 2))) ((hd idx hi).sq (by omega)) (by omega)
        simp only [Function.update_self] at this
        rw [show n + 1 + 1 - 3 * a idx = 1 by omega] at this
        exact this
      · rw [if_neg h3, if_neg h3]
        simp only [Function.update_eq_self]
        rfl
    · rw [if_neg (by omega), if_neg h2]
      simp only [Function.update_eq_self]

theorem add_phase_fl_den (k : RtName) (c : RtCfg) (X : ℕ → ℝ) (n K : ℕ) (a : ℕ → ℕ)
    (E : ℕ → ℝ × ℝ × ℝ) (ai ad : ℕ) (hd : ∀ i < K, RtDen fl c.tau0 (a i) (n + 1)) (ha : ∀ i < K, 0 < a i) :
    k.add_phase_fl fl c (rtSt (tab n X) K a E ai ad) (X n) =
      .ok (rtSt (tab (n + 1) X) K a (fun i => k.updF fl c.tau0 X n (a i) (E i)) ai ad) := by
  have hs : ∀ d S So : ℕ → ℝ, { rtMk (tab n X) K a d S So ai ad with
      x := (rtMk (tab n X) K a d S So ai ad).x ++ [X n] } = rtMk (tab (n + 1) X) K a d S So ai ad := by
    intro d S So
    unfold rtMk
    simp only [tab_succ]
  have hl : ∀ d S So : ℕ → ℝ, (rtMk (tab n X) K a d S So ai ad).afs.length = K := by
    intro d S So
    simp [rtMk]
  cases k
  · simp only [RtName.add_phase_fl, oadev_add_phase_fl, rtSt, hs, hl]
    rw [rt_loop (tab (n + 1) X) K a ai ad _ _ _ _ (fun i p => RtName.updF fl .oadev c.tau0 X n (a i) p)]
    intro idx hi d S So
    exact oadev_body_fl c X n K a ai ad hd ha idx hi d S So
  · simp only [RtName.add_phase_fl, ohdev_add_phase_fl, rtSt, hs, hl]
    rw [rt_loop (tab (n + 1) X) K a ai ad _ _ _ _ (fun i p => RtName.updF fl .ohdev c.tau0 X n (a i) p)]
    intro idx hi d S So
    exact ohdev_body_fl c X n K a ai ad hd ha idx hi d S So
  · simp only [RtName.add_phase_fl, tdev_add_phase_fl, rtSt, hs, hl]
    rw [rt_loop (tab (n + 1) X) K a ai ad _ _ _ _ (fun i p => RtName.updF fl .tdev c.tau0 X n (a i) p)]
    intro idx hi d S So
    exact tdev_body_fl c.tau0 X n K a ai ad hd ha idx hi d S So

theorem add_phase_fl_eq (hfl : FloatRound fl) (k : RtName) (c : RtCfg) (X : ℕ → ℝ) (n K : ℕ) (a : ℕ → ℕ)
    (E : ℕ → ℝ × ℝ × ℝ) (ai ad : ℕ) (ht : 0 < c.tau0) (ha : ∀ i < K, 0 < a i) :
    k.add_phase_fl fl c (rtSt (tab n X) K a E ai ad) (X n) =
      .ok (rtSt (tab (n + 1) X) K a (fun i => k.updF fl c.tau0 X n (a i) (E i)) ai ad) :=
  add_phase_fl_den k c X n K a E ai ad (fun i hi => rtDen_of_round hfl ht (ha i hi) _) ha

/-- the entry for averaging factor `a` after `j` samples -/
noncomputable def RtName.entryF (fl : ℝ → ℝ) (k : RtName) (tau0 : ℝ) (X : ℕ → ℝ) (a : ℕ) :
    ℕ → ℝ × ℝ × ℝ
  | 0 => (0, 0, 0)
  | j + 1 => k.updF fl tau0 X j a (k.entryF fl tau0 X a j)

/-! ## closed forms -/

/-- the running sum of rounded squares -/
noncomputable def accF (fl : ℝ → ℝ) (v : ℕ → ℝ) : ℕ → ℝ
  | 0 => 0
  | m + 1 => fl (accF fl v m + fl (v m ^ 2))

theorem oadev_entryF (tau0 : ℝ) (X : ℕ → ℝ) (a n : ℕ) :
    RtName.entryF fl .oadev tau0 X a n =
      (if n ≤ 2 * a then 0 else devF fl 2 tau0 a (n - 2 * a) (accF fl (d2F fl X a) (n - 2 * a)),
        accF fl (d2F fl X a) (n - 2 * a), 0) := by
  induction n with
  | zero => simp [RtName.entryF, accF]
  | succ n ih =>
    unfold RtName.entryF
    rw [ih]
    simp only [RtName.updF]
    by_cases h : 2 * a ≤ n
    · rw [if_pos h, if_neg (by omega), show n + 1 - 2 * a = n - 2 * a + 1 by omega]
      rfl
    · rw [if_neg h, if_pos (by omega), if_pos (by omega), show n + 1 - 2 * a = 0 by omega,
        show n - 2 * a = 0 by omega]

theorem ohdev_entryF (tau0 : ℝ) (X : ℕ → ℝ) (a n : ℕ) :
    RtName.entryF fl .ohdev tau0 X a n =
      (if n ≤ 3 * a then 0 else devF fl 6 tau0 a (n - 3 * a) (accF fl (d3F fl X a) (n - 3 * a)),
        accF fl (d3F fl X a) (n - 3 * a), 0) := by
  induction n with
  | zero => simp [RtName.entryF, accF]
  | succ n ih =>
    unfold RtName.entryF
    rw [ih]
    simp only [RtName.updF]
    by_cases h : 3 * a ≤ n
    · rw [if_pos h, if_neg (by omega), show n + 1 - 3 * a = n - 3 * a + 1 by omega]
      rfl
    · rw [if_neg h, if_pos (by omega), if_pos (by omega), show n + 1 - 3 * a = 0 by omega,
        show n - 3 * a = 0 by omega]

/-- the sum of second differences of tdev_realtime while the first window fills -/
noncomputable def winA (fl : ℝ → ℝ) (X : ℕ → ℝ) (a : ℕ) : ℕ → ℝ
  | 0 => 0
  | q + 1 => fl (fl (fl (winA fl X a q + X (q + 2 * a)) - fl (2 * X (q + a))) + X q)

/-- the window sums of tdev_realtime -/
noncomputable def winB (fl : ℝ → ℝ) (X : ℕ → ℝ) (a : ℕ) : ℕ → ℝ
  | 0 => winA fl X a a
  | j + 1 => fl (winB fl X a j + d3G fl X a j)

/-- the overall sum of squares of tdev_realtime -/
noncomputable def accB (fl : ℝ → ℝ) (v : ℕ → ℝ) : ℕ → ℝ
  | 0 => fl (v 0 ^ 2)
  | m + 1 => fl (accB fl v m + fl (v (m + 1) ^ 2))

theorem tdev_entryF (tau0 : ℝ) (X : ℕ → ℝ) (a n : ℕ) (ha : 0 < a) :
    RtName.entryF fl .tdev tau0 X a n =
      (if n < 3 * a then 0 else devG fl a (n + 1 - 3 * a) (accB fl (winB fl X a) (n - 3 * a)),
        if n < 3 * a then winA fl X a (n - 2 * a) else winB fl X a (n - 3 * a),
        if n < 3 * a then 0 else accB fl (winB fl X a) (n - 3 * a)) := by
  induction n with
  | zero => simp [RtName.entryF, winA, ha]
  | succ n ih =>
    unfold RtName.entryF
    rw [ih]
    simp only [RtName.updF]
    by_cases h : 3 * a ≤ n
    · rw [if_pos h, if_neg (show ¬ n < 3 * a by omega), if_neg (show ¬ n < 3 * a by omega),
        if_neg (show ¬ n + 1 < 3 * a by omega), if_neg (show ¬ n + 1 < 3 * a by omega),
        if_neg (show ¬ n + 1 < 3 * a by omega), show n + 1 + 1 - 3 * a = n + 2 - 3 * a by omega,
        show n + 1 - 3 * a = n - 3 * a + 1 by omega]
      rfl
    · rw [if_neg h, if_pos (show n < 3 * a by omega), if_pos (show n < 3 * a by omega),
        if_pos (show n < 3 * a by omega)]
      by_cases h2 : 2 * a ≤ n
      · rw [if_pos h2]
        have hs : fl (fl (fl (winA fl X a (n - 2 * a) + X n) - fl (2 * X (n - a))) + X (n - 2 * a)) =
            winA fl X a (n - 2 * a + 1) := by
          conv_rhs => unfold winA
          rw [show n - 2 * a + 2 * a = n by omega, show n - 2 * a + a = n - a by omega]
        rw [hs]
        by_cases h3 : n + 1 = 3 * a
        · rw [if_pos h3, if_neg (show ¬ n + 1 < 3 * a by omega), if_neg (show ¬ n + 1 < 3 * a by omega),
            if_neg (show ¬ n + 1 < 3 * a by omega), show n + 1 + 1 - 3 * a = 1 by omega,
            show n + 1 - 3 * a = 0 by omega, show n - 2 * a + 1 = a by omega]
          rfl
        · rw [if_neg h3, if_pos (show n + 1 < 3 * a by omega), if_pos (show n + 1 < 3 * a by omega),
            if_pos (show n + 1 < 3 * a by omega), show n + 1 - 2 * a = n - 2 * a + 1 by omega]
      · rw [if_neg h2, if_pos (show n + 1 < 3 * a by omega), if_pos (show n + 1 < 3 * a by omega),
            if_pos (show n + 1 < 3 * a by omega), show n + 1 - 2 * a = 0 by omega,
            show n - 2 * a = 0 by omega]

/-! ## errors -/

theorem Near.zero (n : ℕ) : Near n 0 0 := by simp [Near]

theorem accF_near (hfl : FloatRound fl) (v : ℕ → ℝ) (m : ℕ) :
    Near (m + 1) (accF fl v m) (∑ i ∈ range m, v i ^ 2) := by
  induction m with
  | zero => simpa [accF] using Near.zero 1
  | succ m ih =>
    rw [sum_range_succ]
    exact (ih.add ((Near.of_fl hfl (v m ^ 2)).mono (by omega)) (sum_nonneg fun i _ => sq_nonneg _)
      (sq_nonneg _)).fl hfl

theorem accB_near (hfl : FloatRound fl) (v : ℕ → ℝ) (m : ℕ) :
    Near (m + 1) (accB fl v m) (∑ i ∈ range (m + 1), v i ^ 2) := by
  induction m with
  | zero => simpa [accB] using Near.of_fl hfl (v 0 ^ 2)
  | succ m ih =>
    rw [sum_range_succ]
    exact (ih.add ((Near.of_fl hfl (v (m + 1) ^ 2)).mono (by omega)) (sum_nonneg fun i _ => sq_nonneg _)
      (sq_nonneg _)).fl hfl

theorem pow_small {k : ℕ} (hk : k ≤ 2 ^ 40) : (1 + unitRoundoff) ^ k ≤ 3 / 2 := by
  have h := few_roundings (k := k) (hk.trans (by norm_num))
  have h1 : (k : ℝ) ≤ 2 ^ 40 := by exact_mod_cast hk
  have h2 : 2 * (k : ℝ) * unitRoundoff ≤ 1 / 2 := by
    calc 2 * (k : ℝ) * unitRoundoff ≤ 2 * 2 ^ 40 * unitRoundoff :=
          mul_le_mul_of_nonneg_right (by linarith) unitRoundoff_pos.le
      _ ≤ 1 / 2 := by unfold unitRoundoff; norm_num
  linarith

theorem devF_near (hfl : FloatRound fl) {c tau0 : ℝ} (hc : 0 < c) (ht : 0 < tau0) {a n k : ℕ}
    (ha : 0 < a) (hn : 0 < n) {s t : ℝ} (hs : Near k s t) (ht0 : 0 ≤ t) :
    Near (k + 13) (devF fl c tau0 a n s) (√(t / (c * n)) * (1 / (a * tau0))) := by
  have ha' : (0 : ℝ) < a := by exact_mod_cast ha
  have hn' : (0 : ℝ) < n := by exact_mod_cast hn
  have h1 := Near.of_fl hfl (a * tau0)
  have h2 := (h1.mul h1).fl hfl
  rw [← pow_two, ← pow_two] at h2
  have h3 := (h2.const_mul c).fl hfl
  have h4 := (h3.mul_const (n : ℝ)).fl hfl
  have h5 := ((Near.refl 1).div h4 (by positivity) (pow_small (by norm_num))).fl hfl
  have h6 := (((h5.mul hs).fl hfl).sqrt (by positivity)).fl hfl
  have e : √(t / (c * n)) * (1 / (a * tau0)) = √(1 / (c * (a * tau0) ^ 2 * n) * t) := by
    rw [← Real.sqrt_sq (show 0 ≤ 1 / (a * tau0) by positivity), ← Real.sqrt_mul (by positivity)]
    congr 1
    field_simp
  rw [e]
  exact h6.mono (by omega)

theorem devG_near (hfl : FloatRound fl) {a n k : ℕ} (ha : 0 < a) (hn : 0 < n) {s t : ℝ}
    (hs : Near k s t) (ht0 : 0 ≤ t) :
    Near (k + 9) (devG fl a n s) (√(t / (6 * n)) * (1 / a)) := by
  have ha' : (0 : ℝ) < a := by exact_mod_cast ha
  have hn' : (0 : ℝ) < n := by exact_mod_cast hn
  have h1 := ((Near.of_fl hfl (1 / 6)).mul (Near.of_fl hfl (1 / (n : ℝ)))).fl hfl
  have h2 := ((Near.refl 1).div (Near.of_fl hfl ((a : ℝ) ^ 2)) (by positivity)
    (pow_small (by norm_num))).fl hfl
  have h3 := (h1.mul h2).fl hfl
  have h4 := (((h3.mul hs).fl hfl).sqrt (by positivity)).fl hfl
  have e : √(t / (6 * n)) * (1 / a) = √(1 / 6 * (1 / (n : ℝ)) * (1 / (a : ℝ) ^ 2) * t) := by
    rw [← Real.sqrt_sq (show 0 ≤ 1 / (a : ℝ) by positivity), ← Real.sqrt_mul (by positivity)]
    congr 1
    field_simp
  rw [e]
  exact h4.mono (by omega)

theorem d2F_near (hfl : FloatRound fl) {X Y : ℕ → ℝ} {p N : ℕ} {B : ℝ}
    (h : ∀ i < N, NearA p (X i) (Y i) B) (a q : ℕ) (hq : q + 2 * a < N) :
    NearA (p + 3) (d2F fl X a q) (d2 Y a q) (4 * B) := by
  have h1 := ((h (q + a) (by omega)).const_mul 2).fl hfl
  have h2 := (((h _ hq).mono (by omega)).sub h1).fl hfl
  have h3 := (h2.add ((h q (by omega)).mono (by omega))).fl hfl
  have e : B + |(2 : ℝ)| * B + B = 4 * B := by rw [abs_of_pos (by norm_num)]; ring
  rw [e] at h3
  exact h3

theorem d3F_near (hfl : FloatRound fl) {X Y : ℕ → ℝ} {p N : ℕ} {B : ℝ}
    (h : ∀ i < N, NearA p (X i) (Y i) B) (a q : ℕ) (hq : q + 3 * a < N) :
    NearA (p + 4) (d3F fl X a q) (d3 Y a q) (8 * B) := by
  have h1 := ((h (q + 2 * a) (by omega)).const_mul 3).fl hfl
  have h1' := ((h (q + a) (by omega)).const_mul 3).fl hfl
  have h2 := (((h _ hq).mono (by omega)).sub h1).fl hfl
  have h3 := (h2.add (h1'.mono (by omega))).fl hfl
  have h4 := (h3.sub ((h q (by omega)).mono (by omega))).fl hfl
  have e : B + |(3 : ℝ)| * B + |(3 : ℝ)| * B + B = 8 * B := by rw [abs_of_pos (by norm_num)]; ring
  rw [e] at h4
  exact h4

theorem d3G_near (hfl : FloatRound fl) {X Y : ℕ → ℝ} {p N : ℕ} {B : ℝ}
    (h : ∀ i < N, NearA p (X i) (Y i) B) (a q : ℕ) (hq : q + 3 * a < N) :
    NearA (p + 4) (d3G fl X a q) (d3 Y a q) (8 * B) := by
  have h0 := ((h q (by omega)).const_mul (-1)).fl hfl
  have h1 := ((h (q + 2 * a) (by omega)).const_mul 3).fl hfl
  have h1' := ((h (q + a) (by omega)).const_mul 3).fl hfl
  have h2 := (h0.add h1').fl hfl
  have h3 := (h2.sub (h1.mono (by omega))).fl hfl
  have h4 := (h3.add ((h _ hq).mono (by omega))).fl hfl
  have e : |(-1 : ℝ)| * B + |(3 : ℝ)| * B + |(3 : ℝ)| * B + B = 8 * B := by
    rw [abs_of_pos (show (0 : ℝ) < 3 by norm_num), abs_neg, abs_one]; ring
  have e2 : d3 Y a q = -1 * Y q + 3 * Y (q + a) - 3 * Y (q + 2 * a) + Y (q + 3 * a) := by
    unfold d3; ring
  rw [e] at h4
  rw [e2]
  exact h4

theorem winA_near (hfl : FloatRound fl) {X Y : ℕ → ℝ} {p N : ℕ} {B : ℝ}
    (h : ∀ i < N, NearA p (X i) (Y i) B) (a q : ℕ) (hq : q + 2 * a ≤ N) :
    NearA (p + 3 * q + 1) (winA fl X a q) (∑ i ∈ range q, d2 Y a i) (4 * q * B) := by
  induction q with
  | zero => simpa [winA] using (NearA.exact (b := 0) (G := 0) (by simp)).mono (Nat.zero_le _)
  | succ q ih =>
    have h1 := ih (by omega)
    have h2 := (h1.add ((h (q + 2 * a) (by omega)).mono (by omega))).fl hfl
    have h3 := (h2.sub ((((h (q + a) (by omega)).const_mul 2).fl hfl).mono (by omega))).fl hfl
    have h4 := (h3.add ((h q (by omega)).mono (by omega))).fl hfl
    have e : 4 * (q : ℝ) * B + B + |(2 : ℝ)| * B + B = 4 * ((q + 1 : ℕ) : ℝ) * B := by
      rw [abs_of_pos (by norm_num)]; push_cast; ring
    have e2 : ∑ i ∈ range (q + 1), d2 Y a i =
        ∑ i ∈ range q, d2 Y a i + Y (q + 2 * a) - 2 * Y (q + a) + Y q := by
      rw [sum_range_succ]; unfold d2; ring
    rw [e] at h4
    rw [e2]
    exact h4.mono (by omega)

theorem winB_near (hfl : FloatRound fl) {X Y : ℕ → ℝ} {p N : ℕ} {B : ℝ} (hB : 0 ≤ B)
    (h : ∀ i < N, NearA p (X i) (Y i) B) (a j : ℕ) (ha : 0 < a) (hj : j + 3 * a ≤ N) :
    NearA (p + 3 * a + 1 + j) (winB fl X a j) (∑ i ∈ range a, d2 Y a (j + i)) ((4 * a + 8 * j) * B) := by
  induction j with
  | zero =>
    have := winA_near hfl h a a (by omega)
    simpa [winB] using this
  | succ j ih =>
    have h1 := ih (by omega)
    have h2 := (h1.add ((d3G_near hfl h a j (by omega)).mono (by omega))).fl hfl
    rw [window_succ]
    have e : (4 * (a : ℝ) + 8 * j) * B + 8 * B = (4 * a + 8 * ((j + 1 : ℕ) : ℝ)) * B := by
      push_cast; ring
    rw [e] at h2
    exact h2

/-- few roundings, sharper -/
theorem few_roundings' {k : ℕ} (hk : k ≤ 2 ^ 48 + 2 ^ 10) :
    (1 + unitRoundoff) ^ k - 1 ≤ 17 / 16 * k * unitRoundoff := by
  have hu := unitRoundoff_pos
  have hk' : (k : ℝ) * unitRoundoff ≤ 1 / 20 := by
    have : (k : ℝ) ≤ 2 ^ 48 + 2 ^ 10 := by exact_mod_cast hk
    calc (k : ℝ) * unitRoundoff ≤ (2 ^ 48 + 2 ^ 10) * unitRoundoff :=
          mul_le_mul_of_nonneg_right this hu.le
      _ ≤ 1 / 20 := by unfold unitRoundoff; norm_num
  induction k with
  | zero => simp
  | succ k ih =>
    push_cast at hk' ⊢
    have hk0 : (0 : ℝ) ≤ k := by positivity
    have ih' := ih (by omega) (by nlinarith)
    rw [pow_succ]
    have : (1 + unitRoundoff) ^ k * (1 + unitRoundoff) ≤
        (1 + 17 / 16 * k * unitRoundoff) * (1 + unitRoundoff) :=
      mul_le_mul_of_nonneg_right (by linarith) (by linarith)
    nlinarith

end AT
