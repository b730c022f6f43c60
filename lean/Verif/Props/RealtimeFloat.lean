import Verif.Lemmas.RealtimeFloat
import Verif.Props.Realtime
import Verif.Props.RealtimeFreq
import Verif.Props.Float
import Mathlib.Data.List.GetD

/-!
# C91: rounding errors of the streaming classes

Property: in double precision the streaming classes report, after any stream of samples, deviations close
to the exact ones of the samples seen so far: a relative error proportional to the number of terms, and an
absolute error proportional to the largest phase value.
-/

namespace AT

open Spec Finset Real

variable {fl : ℝ → ℝ}

/-- the error after `N` phase samples up to `B` that carry the errors of `p` roundings (`p = 0` for
phase data), for the averaging factor `a` -/
noncomputable def Spec.rtBound (k : RtName) (p N : ℕ) (B tau0 : ℝ) (a : ℕ) (dev : ℝ) : ℝ :=
  match k with
  | .oadev => 2 * ((N : ℝ) - 2 * a + 14) * unitRoundoff * dev +
      10 / 3 * (p + 3) * unitRoundoff * B / (a * tau0)
  | .ohdev => 2 * ((N : ℝ) - 3 * a + 14) * unitRoundoff * dev +
      15 / 4 * (p + 4) * unitRoundoff * B / (a * tau0)
  | .tdev => 2 * ((N : ℝ) - 3 * a + 10) * unitRoundoff * dev +
      15 / 4 * N * (N + 1 + p) * unitRoundoff * B / a

/-- the same for the method `mdev` of tdev_realtime -/
noncomputable def Spec.rtMdevBound (p N : ℕ) (B tau0 : ℝ) (a : ℕ) (dev : ℝ) : ℝ :=
  2 * ((N : ℝ) - 3 * a + 15) * unitRoundoff * dev +
    26 / 4 * N * (N + 1 + p) * unitRoundoff * B / (a * (a * tau0))

/-- a computed root mean square of `n` terms -/
theorem rt_row {K n : ℕ} (hn : 0 < n) (hK : K ≤ 2 ^ 48) {v d : ℕ → ℝ} {c E t r : ℝ} (hc : 0 < c) (ht : 0 < t)
    (hE : 0 ≤ E) (hr : Near K r (√((∑ i ∈ range n, v i ^ 2) / (c * n)) * t))
    (h : ∀ i < n, |v i - d i| ≤ E) :
    |r - √((∑ i ∈ range n, d i ^ 2) / (c * n)) * t| ≤
      2 * K * unitRoundoff * (√((∑ i ∈ range n, d i ^ 2) / (c * n)) * t) + 17 / 16 * (E / √c * t) :=
  (dev_bound K n hn v d c E t r hc ht hr h).trans (simple_bound hK (by positivity) (by positivity))

theorem rt_eta {k : ℕ} (hk : k ≤ 2 ^ 48 + 2 ^ 10) {B t G c w C : ℝ} (hB : 0 ≤ B) (ht : 0 ≤ t) (hw : 0 < w)
    (hG : 0 ≤ G) (hwc : w ≤ √c) (hC : 289 / 256 * G ≤ C * w) :
    17 / 16 * (((1 + unitRoundoff) ^ k - 1) * (G * B) / √c * t) ≤ C * k * unitRoundoff * B * t := by
  have h1 := few_roundings' hk
  have hu := unitRoundoff_pos
  have h2 : ((1 + unitRoundoff) ^ k - 1) * (G * B) / √c ≤ 17 / 16 * k * unitRoundoff * (G * B) / w := by
    apply div_le_div₀ (by positivity) _ hw hwc
    exact mul_le_mul_of_nonneg_right h1 (by positivity)
  have h3 : 17 / 16 * k * unitRoundoff * (G * B) / w * (17 / 16) ≤ C * k * unitRoundoff * B := by
    rw [div_mul_eq_mul_div, div_le_iff₀ hw]
    have : 0 ≤ (k : ℝ) * unitRoundoff * B := by positivity
    nlinarith
  have h4 := mul_le_mul_of_nonneg_right h2 ht
  have h5 := mul_le_mul_of_nonneg_right h3 ht
  nlinarith

theorem sqrt_six_gt' : (244 / 100 : ℝ) ≤ √6 := sqrt_six_gt.le

theorem sqrt_two_gt' : (141 / 100 : ℝ) ≤ √2 := Real.le_sqrt_of_sq_le (by norm_num)

theorem rt_rms (n : ℕ) (f : ℕ → ℝ) (c τ : ℝ) (hτ : 0 < τ) (hc : 0 < c) (hn : 0 < n) :
    √((∑ i ∈ range n, f i ^ 2) / (c * τ ^ 2 * n)) = √((∑ i ∈ range n, f i ^ 2) / (c * n)) * (1 / τ) := by
  have hn' : (0 : ℝ) < n := by exact_mod_cast hn
  have hs : 0 ≤ (∑ i ∈ range n, f i ^ 2) / (c * n) :=
    div_nonneg (sum_nonneg fun i _ => sq_nonneg _) (by positivity)
  rw [← Real.sqrt_sq (show 0 ≤ 1 / τ by positivity), ← Real.sqrt_mul hs]
  congr 1
  field_simp

theorem oadev_rt_close (hfl : FloatRound fl) {tau0 : ℝ} (ht : 0 < tau0) {X Y : ℕ → ℝ} {p N a : ℕ} {B : ℝ}
    (hB : 0 ≤ B) (ha : 0 < a) (hp : p ≤ 2 ^ 47) (hN : N ≤ 2 ^ 47 + 1) (h : ∀ i < N, NearA p (X i) (Y i) B)
    (hn : 2 * a < N) :
    |(RtName.entryF fl .oadev tau0 X a N).1 - Spec.oadev Y N a (a * tau0)| ≤
      rtBound .oadev p N B tau0 a (Spec.oadev Y N a (a * tau0)) := by
  have ha' : (0 : ℝ) < a := by exact_mod_cast ha
  have hn0 : 0 < N - 2 * a := by omega
  have hcast : (N : ℝ) - 2 * a = ((N - 2 * a : ℕ) : ℝ) := by
    rw [Nat.cast_sub (by omega)]; push_cast; ring
  have hE : 0 ≤ ((1 + unitRoundoff) ^ (p + 3) - 1) * (4 * B) :=
    mul_nonneg (near_eps_nonneg _) (by positivity)
  rw [oadev_entryF]
  simp only
  rw [if_neg (by omega)]
  have hD : Spec.oadev Y N a (a * tau0) =
      √((∑ i ∈ range (N - 2 * a), d2 Y a i ^ 2) / (2 * (N - 2 * a : ℕ))) * (1 / (a * tau0)) := by
    unfold Spec.oadev rms
    rw [hcast, rt_rms _ _ _ _ (by positivity) two_pos hn0]
  have hr := devF_near hfl two_pos ht ha hn0 (accF_near hfl (d2F fl X a) (N - 2 * a))
    (sum_nonneg fun i _ => sq_nonneg _)
  have hrow := rt_row hn0 (show N - 2 * a + 1 + 13 ≤ 2 ^ 48 by omega) two_pos
    (show 0 < 1 / (a * tau0) by positivity) hE hr (d := d2 Y a)
    (fun i hi => (d2F_near hfl h a i (by omega)).2)
  have heta := rt_eta (k := p + 3) (by omega) (c := 2) (G := 4) (w := 141 / 100) (C := 10 / 3) hB
    (show 0 ≤ 1 / (a * tau0) by positivity) (by norm_num) (by norm_num) sqrt_two_gt' (by norm_num)
  rw [← hD] at hrow
  refine hrow.trans ?_
  unfold Spec.rtBound
  have e : 2 * ((N - 2 * a + 1 + 13 : ℕ) : ℝ) * unitRoundoff = 2 * ((N : ℝ) - 2 * a + 14) * unitRoundoff := by
    rw [hcast]; push_cast; ring
  rw [e]
  have e2 : 10 / 3 * ((p + 3 : ℕ) : ℝ) * unitRoundoff * B * (1 / (a * tau0)) =
      10 / 3 * ((p : ℝ) + 3) * unitRoundoff * B / (a * tau0) := by push_cast; ring
  rw [e2] at heta
  exact add_le_add le_rfl heta

theorem ohdev_rt_close (hfl : FloatRound fl) {tau0 : ℝ} (ht : 0 < tau0) {X Y : ℕ → ℝ} {p N a : ℕ} {B : ℝ}
    (hB : 0 ≤ B) (ha : 0 < a) (hp : p ≤ 2 ^ 47) (hN : N ≤ 2 ^ 47 + 1) (h : ∀ i < N, NearA p (X i) (Y i) B)
    (hn : 3 * a < N) :
    |(RtName.entryF fl .ohdev tau0 X a N).1 - Spec.ohdev Y N a (a * tau0)| ≤
      rtBound .ohdev p N B tau0 a (Spec.ohdev Y N a (a * tau0)) := by
  have ha' : (0 : ℝ) < a := by exact_mod_cast ha
  have hn0 : 0 < N - 3 * a := by omega
  have hcast : (N : ℝ) - 3 * a = ((N - 3 * a : ℕ) : ℝ) := by
    rw [Nat.cast_sub (by omega)]; push_cast; ring
  have hE : 0 ≤ ((1 + unitRoundoff) ^ (p + 4) - 1) * (8 * B) :=
    mul_nonneg (near_eps_nonneg _) (by positivity)
  have h6 : (0 : ℝ) < 6 := by norm_num
  rw [ohdev_entryF]
  simp only
  rw [if_neg (by omega)]
  have hD : Spec.ohdev Y N a (a * tau0) =
      √((∑ i ∈ range (N - 3 * a), d3 Y a i ^ 2) / (6 * (N - 3 * a : ℕ))) * (1 / (a * tau0)) := by
    unfold Spec.ohdev rms
    rw [hcast, rt_rms _ _ _ _ (by positivity) h6 hn0]
  have hr := devF_near hfl h6 ht ha hn0 (accF_near hfl (d3F fl X a) (N - 3 * a))
    (sum_nonneg fun i _ => sq_nonneg _)
  have hrow := rt_row hn0 (show N - 3 * a + 1 + 13 ≤ 2 ^ 48 by omega) h6
    (show 0 < 1 / (a * tau0) by positivity) hE hr (d := d3 Y a)
    (fun i hi => (d3F_near hfl h a i (by omega)).2)
  have heta := rt_eta (k := p + 4) (by omega) (c := 6) (G := 8) (w := 244 / 100) (C := 15 / 4) hB
    (show 0 ≤ 1 / (a * tau0) by positivity) (by norm_num) (by norm_num) sqrt_six_gt' (by norm_num)
  rw [← hD] at hrow
  refine hrow.trans ?_
  unfold Spec.rtBound
  have e : 2 * ((N - 3 * a + 1 + 13 : ℕ) : ℝ) * unitRoundoff = 2 * ((N : ℝ) - 3 * a + 14) * unitRoundoff := by
    rw [hcast]; push_cast; ring
  rw [e]
  have e2 : 15 / 4 * ((p + 4 : ℕ) : ℝ) * unitRoundoff * B * (1 / (a * tau0)) =
      15 / 4 * ((p : ℝ) + 4) * unitRoundoff * B / (a * tau0) := by push_cast; ring
  rw [e2] at heta
  exact add_le_add le_rfl heta

/-- the window sums of tdev_realtime and any number that is a few roundings away from their scaled root mean
square: the deviation itself and the result of `mdev` -/
theorem tdev_rt_core (hfl : FloatRound fl) {X Y : ℕ → ℝ} {p N a K : ℕ} {B t r : ℝ}
    (hB : 0 ≤ B) (ha : 0 < a) (hp : p ≤ 2 ^ 47) (hN : N ≤ 2 ^ 47 + 1) (h : ∀ i < N, NearA p (X i) (Y i) B)
    (hn : 3 * a ≤ N) (ht : 0 < t) (hK : K ≤ 2 ^ 48)
    (hr : Near K r (√((∑ i ∈ range (N - 3 * a + 1), winB fl X a i ^ 2) / (6 * (N - 3 * a + 1 : ℕ))) * t)) :
    |r - √((∑ j ∈ range (N - 3 * a + 1), (∑ i ∈ range a, d2 Y a (j + i)) ^ 2) / (6 * (N - 3 * a + 1 : ℕ))) * t| ≤
      2 * K * unitRoundoff *
        (√((∑ j ∈ range (N - 3 * a + 1), (∑ i ∈ range a, d2 Y a (j + i)) ^ 2) / (6 * (N - 3 * a + 1 : ℕ))) * t) +
        15 / 4 * N * (N + 1 + p) * unitRoundoff * B * t := by
  have hE : 0 ≤ ((1 + unitRoundoff) ^ (p + N + 1) - 1) * (8 * (N * B)) :=
    mul_nonneg (near_eps_nonneg _) (by positivity)
  have hrow := rt_row (Nat.succ_pos _) hK (show (0 : ℝ) < 6 by norm_num) ht hE hr
    (d := fun j => ∑ i ∈ range a, d2 Y a (j + i)) (by
      intro i hi
      have h1 := (winB_near hfl hB h a i ha (by omega)).mono (show p + 3 * a + 1 + i ≤ p + N + 1 by omega)
      refine (h1.mono_size ?_).2
      have h2 : (4 * (a : ℝ) + 8 * i) ≤ 8 * N := by
        have : 4 * a + 8 * i ≤ 8 * N := by omega
        exact_mod_cast this
      have := mul_le_mul_of_nonneg_right h2 hB
      linarith)
  have heta := rt_eta (k := p + N + 1) (by omega) (c := 6) (G := 8) (w := 244 / 100) (C := 15 / 4)
    (show 0 ≤ N * B by positivity) ht.le (by norm_num) (by norm_num) sqrt_six_gt' (by norm_num)
  refine hrow.trans (add_le_add le_rfl (heta.trans (le_of_eq ?_)))
  push_cast; ring

theorem tdev_spec_eq (Y : ℕ → ℝ) (N a : ℕ) (tau0 : ℝ) (ht : 0 < tau0) (ha : 0 < a) (hn : 3 * a ≤ N) :
    Spec.tdev Y N a (a * tau0) =
      √((∑ j ∈ range (N - 3 * a + 1), (∑ i ∈ range a, d2 Y a (j + i)) ^ 2) / (6 * (N - 3 * a + 1 : ℕ))) * (1 / a) ∧
    Spec.mdev Y N a (a * tau0) =
      √((∑ j ∈ range (N - 3 * a + 1), (∑ i ∈ range a, d2 Y a (j + i)) ^ 2) / (6 * (N - 3 * a + 1 : ℕ))) *
        (1 / a * √3 / (a * tau0)) := by
  have ha' : (0 : ℝ) < a := by exact_mod_cast ha
  have hcast : (N : ℝ) - 3 * a + 1 = ((N - 3 * a + 1 : ℕ) : ℝ) := by
    push_cast [Nat.cast_sub hn]; ring
  have hn0 : (0 : ℝ) < ((N - 3 * a + 1 : ℕ) : ℝ) := by positivity
  have h2 : Spec.mdev Y N a (a * tau0) =
      √((∑ j ∈ range (N - 3 * a + 1), (∑ i ∈ range a, d2 Y a (j + i)) ^ 2) / (6 * (N - 3 * a + 1 : ℕ))) *
        (1 / a * √3 / (a * tau0)) := by
    unfold Spec.mdev rms
    have hs : 0 ≤ (∑ j ∈ range (N - 3 * a + 1), (∑ i ∈ range a, d2 Y a (j + i)) ^ 2) /
        (6 * ((N - 3 * a + 1 : ℕ) : ℝ)) := div_nonneg (sum_nonneg fun i _ => sq_nonneg _) (by positivity)
    rw [hcast, ← Real.sqrt_sq (show 0 ≤ 1 / a * √3 / (a * tau0) by positivity), ← Real.sqrt_mul hs]
    congr 1
    have e : (1 / a * √3 / (a * tau0)) ^ 2 = 3 / (a ^ 2 * (a * tau0) ^ 2) := by
      rw [div_pow, mul_pow, Real.sq_sqrt (by norm_num)]
      field_simp
    rw [e]
    field_simp
    ring
  refine ⟨?_, h2⟩
  unfold Spec.tdev
  rw [h2]
  have h3 : (√3 : ℝ) ≠ 0 := by positivity
  field_simp

theorem tdev_rt_near (hfl : FloatRound fl) {tau0 : ℝ} {X : ℕ → ℝ} {N a : ℕ} (ha : 0 < a) (hn : 3 * a ≤ N) :
    Near (N - 3 * a + 10) (RtName.entryF fl .tdev tau0 X a N).1
      (√((∑ i ∈ range (N - 3 * a + 1), winB fl X a i ^ 2) / (6 * (N - 3 * a + 1 : ℕ))) * (1 / a)) := by
  rw [tdev_entryF _ _ _ _ ha]
  simp only
  rw [if_neg (by omega), show N + 1 - 3 * a = N - 3 * a + 1 by omega]
  exact devG_near hfl ha (Nat.succ_pos _) (accB_near hfl (winB fl X a) (N - 3 * a))
    (sum_nonneg fun i _ => sq_nonneg _)

theorem tdev_rt_close (hfl : FloatRound fl) {tau0 : ℝ} (ht : 0 < tau0) {X Y : ℕ → ℝ} {p N a : ℕ} {B : ℝ}
    (hB : 0 ≤ B) (ha : 0 < a) (hp : p ≤ 2 ^ 47) (hN : N ≤ 2 ^ 47 + 1) (h : ∀ i < N, NearA p (X i) (Y i) B)
    (hn : 3 * a ≤ N) :
    |(RtName.entryF fl .tdev tau0 X a N).1 - Spec.tdev Y N a (a * tau0)| ≤
      rtBound .tdev p N B tau0 a (Spec.tdev Y N a (a * tau0)) := by
  have ha' : (0 : ℝ) < a := by exact_mod_cast ha
  have hcore := tdev_rt_core hfl hB ha hp hN h hn (show (0 : ℝ) < 1 / a by positivity)
    (show N - 3 * a + 10 ≤ 2 ^ 48 by omega) (tdev_rt_near hfl (tau0 := tau0) ha hn)
  rw [← (tdev_spec_eq Y N a tau0 ht ha hn).1] at hcore
  refine hcore.trans (le_of_eq ?_)
  unfold Spec.rtBound
  simp only
  push_cast [Nat.cast_sub hn]
  ring

theorem mdev_rt_close (hfl : FloatRound fl) {tau0 : ℝ} (ht : 0 < tau0) {X Y : ℕ → ℝ} {p N a : ℕ} {B : ℝ}
    (hB : 0 ≤ B) (ha : 0 < a) (hp : p ≤ 2 ^ 47) (hN : N ≤ 2 ^ 47 + 1) (h : ∀ i < N, NearA p (X i) (Y i) B)
    (hn : 3 * a ≤ N) :
    |fl (fl ((RtName.entryF fl .tdev tau0 X a N).1 * fl √3) / fl (a * tau0)) - Spec.mdev Y N a (a * tau0)| ≤
      rtMdevBound p N B tau0 a (Spec.mdev Y N a (a * tau0)) := by
  have ha' : (0 : ℝ) < a := by exact_mod_cast ha
  have h1 := ((tdev_rt_near hfl (tau0 := tau0) (X := X) ha hn).mul (Near.of_fl hfl √3)).fl hfl
  have h2 := (h1.div (Near.of_fl hfl (a * tau0)) (by positivity) (pow_small (by norm_num))).fl hfl
  have e : √((∑ i ∈ range (N - 3 * a + 1), winB fl X a i ^ 2) / (6 * (N - 3 * a + 1 : ℕ))) * (1 / a) * √3 /
      (a * tau0) = √((∑ i ∈ range (N - 3 * a + 1), winB fl X a i ^ 2) / (6 * (N - 3 * a + 1 : ℕ))) *
        (1 / a * √3 / (a * tau0)) := by ring
  rw [e] at h2
  have hcore := tdev_rt_core hfl hB ha hp hN h hn (show (0 : ℝ) < 1 / a * √3 / (a * tau0) by positivity)
    (show N - 3 * a + 10 + 1 + 1 + 2 * 1 + 1 ≤ 2 ^ 48 by omega) h2
  rw [← (tdev_spec_eq Y N a tau0 ht ha hn).2] at hcore
  refine hcore.trans ?_
  unfold Spec.rtMdevBound
  apply add_le_add
  · apply le_of_eq
    push_cast [Nat.cast_sub hn]
    ring
  · have h4 : √3 ≤ 26 / 15 := by
      rw [Real.sqrt_le_left (by norm_num)]; norm_num
    have hP : 0 ≤ 15 / 4 * (N : ℝ) * (N + 1 + p) * unitRoundoff * B / (a * (a * tau0)) := by
      have := unitRoundoff_pos
      positivity
    have e3 : 15 / 4 * (N : ℝ) * (N + 1 + p) * unitRoundoff * B * (1 / a * √3 / (a * tau0)) =
        15 / 4 * (N : ℝ) * (N + 1 + p) * unitRoundoff * B / (a * (a * tau0)) * √3 := by
      field_simp
    rw [e3]
    have := mul_le_mul_of_nonneg_left h4 hP
    calc _ ≤ _ := this
      _ = _ := by ring

/-! ## streams -/

theorem getD_den {afs : List ℕ} {tau0 : ℝ} {n : ℕ} (hd : ∀ a ∈ afs, RtDen fl tau0 a n) (i : ℕ)
    (hi : i < afs.length) : RtDen fl tau0 (afs.getD i 0) n := by
  rw [List.getD_eq_getElem _ _ hi]
  exact hd _ (List.getElem_mem hi)

theorem feed_fl_den (k : RtName) (tau0 : ℝ) (p : ℕ) (afs : List ℕ)
    (ha : ∀ a ∈ afs, 0 < a) (X : ℕ → ℝ) (n : ℕ) (hd : ∀ a ∈ afs, RtDen fl tau0 a n) :
    k.feed_fl fl (rt_cfg tau0 false p) (rt_init afs false) (tab n X) =
      .ok (rtSt (tab n X) afs.length (fun i => afs.getD i 0)
        (fun i => k.entryF fl tau0 X (afs.getD i 0) n) 0 0) := by
  unfold RtName.feed_fl
  induction n with
  | zero =>
    rw [rt_init_eq]
    rfl
  | succ n ih =>
    rw [show tab (n + 1) X = tab n X ++ [X n] from tab_succ n X, List.foldlM_append, ih]
    · simp only [ok_bind, List.foldlM_cons, List.foldlM_nil]
      rw [add_phase_fl_den k _ X n _ _ _ _ _ (getD_den hd) (getD_pos ha), ← tab_succ]
      rfl
    · exact fun a h => (hd a h).mono (by omega)

theorem feed_fl_state (hfl : FloatRound fl) (k : RtName) (tau0 : ℝ) (p : ℕ) (afs : List ℕ) (ht : 0 < tau0)
    (ha : ∀ a ∈ afs, 0 < a) (X : ℕ → ℝ) (n : ℕ) :
    k.feed_fl fl (rt_cfg tau0 false p) (rt_init afs false) (tab n X) =
      .ok (rtSt (tab n X) afs.length (fun i => afs.getD i 0)
        (fun i => k.entryF fl tau0 X (afs.getD i 0) n) 0 0) :=
  feed_fl_den k tau0 p afs ha X n (fun a h => rtDen_of_round hfl ht (ha a h) n)

/-- the phase that `add_frequency` stores -/
noncomputable def intF (fl : ℝ → ℝ) (f : ℕ → ℝ) : ℕ → ℝ
  | 0 => 0
  | i + 1 => fl (intF fl f i + f i)

theorem feed_frequency_fl_den (k : RtName) (tau0 : ℝ) (p : ℕ) (afs : List ℕ)
    (ha : ∀ a ∈ afs, 0 < a) (f : ℕ → ℝ) (n : ℕ) (hn : 0 < n) (hd : ∀ a ∈ afs, RtDen fl tau0 a (n + 1)) :
    k.feed_frequency_fl fl (rt_cfg tau0 false p) (rt_init afs false) (tab n f) =
      .ok (rtSt (tab (n + 1) (intF fl f)) afs.length (fun i => afs.getD i 0)
        (fun i => k.entryF fl tau0 (intF fl f) (afs.getD i 0) (n + 1)) 0 0) := by
  unfold RtName.feed_frequency_fl
  have hlast : ∀ m E, pyGet (rtSt (tab (m + 1) (intF fl f)) afs.length (fun i => afs.getD i 0) E 0 0).x (-1) =
      .ok (intF fl f m) := by
    intro m E
    change pyGet (tab (m + 1) (intF fl f)) (-1) = _
    rw [tab_succ]
    exact pyGet_last _ _
  have hne : ∀ m E, (rtSt (tab (m + 1) (intF fl f)) afs.length (fun i => afs.getD i 0) E 0 0).x ≠ [] := by
    intro m E h
    have := congrArg List.length h
    simp [rtSt, rtMk] at this
  have step : ∀ m E, m < n → k.add_frequency_fl fl (rt_cfg tau0 false p)
      (rtSt (tab (m + 1) (intF fl f)) afs.length (fun i => afs.getD i 0) E 0 0) (f m) =
      .ok (rtSt (tab (m + 2) (intF fl f)) afs.length (fun i => afs.getD i 0)
        (fun i => k.updF fl tau0 (intF fl f) (m + 1) (afs.getD i 0) (E i)) 0 0) := by
    intro m E hm
    unfold RtName.add_frequency_fl
    rw [if_neg (hne m E)]
    simp only [ok_bind]
    rw [hlast, ok_bind]
    exact add_phase_fl_den k _ (intF fl f) (m + 1) _ _ _ _ _
      (fun i hi => (getD_den hd i hi).mono (by omega)) (getD_pos ha)
  induction n, hn using Nat.le_induction with
  | base =>
    rw [show tab (0 + 1) f = [f 0] from rfl, List.foldlM_cons]
    have h0 : k.add_frequency_fl fl (rt_cfg tau0 false p) (rt_init afs false) (f 0) =
        k.add_frequency_fl fl (rt_cfg tau0 false p)
          (rtSt (tab (0 + 1) (intF fl f)) afs.length (fun i => afs.getD i 0)
            (fun i => k.entryF fl tau0 (intF fl f) (afs.getD i 0) 1) 0 0) (f 0) := by
      conv_lhs => unfold RtName.add_frequency_fl
      conv_rhs => unfold RtName.add_frequency_fl
      rw [if_pos (show (rt_init afs false).x = [] from rfl), if_neg (hne 0 _), rt_init_eq]
      have h1 := add_phase_fl_den k (rt_cfg tau0 false p) (intF fl f) 0 afs.length
        (fun i => afs.getD i 0) (fun _ => (0, 0, 0)) 0 0 (fun i hi => (getD_den hd i hi).mono (by omega)) (getD_pos ha)
      rw [show (rtSt [] afs.length (fun i => afs.getD i 0) (fun _ => ((0 : ℝ), (0 : ℝ), (0 : ℝ))) 0 0) =
        rtSt (tab 0 (intF fl f)) afs.length (fun i => afs.getD i 0) (fun _ => (0, 0, 0)) 0 0 from rfl,
        show (0 : ℝ) = intF fl f 0 from rfl]
      rw [show intF fl f 0 = (0 : ℝ) from rfl] at h1 ⊢
      rw [h1]
      rfl
    rw [h0, step 0 _ (by omega)]
    rfl
  | succ n hn ih =>
    rw [show tab (n + 1) f = tab n f ++ [f n] from tab_succ n f, List.foldlM_append,
      ih (fun a h => (hd a h).mono (by omega)) (fun m E hm => step m E (by omega))]
    simp only [ok_bind, List.foldlM_cons, List.foldlM_nil]
    rw [step n _ (by omega)]
    rfl

theorem feed_frequency_fl_state (hfl : FloatRound fl) (k : RtName) (tau0 : ℝ) (p : ℕ) (afs : List ℕ)
    (ht : 0 < tau0) (ha : ∀ a ∈ afs, 0 < a) (f : ℕ → ℝ) (n : ℕ) (hn : 0 < n) :
    k.feed_frequency_fl fl (rt_cfg tau0 false p) (rt_init afs false) (tab n f) =
      .ok (rtSt (tab (n + 1) (intF fl f)) afs.length (fun i => afs.getD i 0)
        (fun i => k.entryF fl tau0 (intF fl f) (afs.getD i 0) (n + 1)) 0 0) :=
  feed_frequency_fl_den k tau0 p afs ha f n hn (fun a h => rtDen_of_round hfl ht (ha a h) _)

theorem intF_near (hfl : FloatRound fl) {f : ℕ → ℝ} {n : ℕ} {F : ℝ} (h : ∀ i < n, |f i| ≤ F) (i : ℕ) (hi : i ≤ n) :
    NearA i (intF fl f i) (∑ j ∈ range i, f j) (i * F) := by
  induction i with
  | zero => simpa [intF] using NearA.exact (b := 0) (G := 0) (by simp)
  | succ i ih =>
    rw [sum_range_succ]
    have h1 := ((ih (by omega)).add ((NearA.exact (h i (by omega))).mono (Nat.zero_le i))).fl hfl
    have e : (i : ℝ) * F + F = ((i + 1 : ℕ) : ℝ) * F := by push_cast; ring
    rw [e] at h1
    exact h1

/-- the deviation a class reports, as a formula for the phase values `x` at the averaging time `tau` -/
noncomputable def Spec.rtDev (k : RtName) (x : ℕ → ℝ) (N a : ℕ) (tau : ℝ) : ℝ :=
  match k with
  | .oadev => Spec.oadev x N a tau
  | .ohdev => Spec.ohdev x N a tau
  | .tdev => Spec.tdev x N a tau

/-- a state holds the deviations of the `N` phase values `x` up to the errors of `rtBound`, and 0 for the
averaging factors that need more samples -/
structure Spec.RtClose (k : RtName) (p : ℕ) (x : ℕ → ℝ) (N : ℕ) (B tau0 : ℝ) (afs : List ℕ) (st : Rt) : Prop where
  factors : st.afs = afs
  len : st.dev.length = afs.length
  early : ∀ (i a : ℕ), afs[i]? = some a → N < k.need a → st.dev[i]? = some 0
  close : ∀ (i a : ℕ), afs[i]? = some a → k.need a ≤ N → ∃ d, st.dev[i]? = some d ∧
    |d - rtDev k x N a (a * tau0)| ≤ rtBound k p N B tau0 a (rtDev k x N a (a * tau0))

/-- the result of the method `mdev` is the modified Allan deviation, with the same kind of error -/
structure Spec.RtMdevClose (p : ℕ) (x : ℕ → ℝ) (N : ℕ) (B tau0 : ℝ) (afs : List ℕ) (m : List ℝ) : Prop where
  len : m.length = afs.length
  close : ∀ (i a : ℕ), afs[i]? = some a → 3 * a ≤ N → ∃ d, m[i]? = some d ∧
    |d - Spec.mdev x N a (a * tau0)| ≤ rtMdevBound p N B tau0 a (Spec.mdev x N a (a * tau0))

theorem entryF_early (k : RtName) (tau0 : ℝ) (X : ℕ → ℝ) (a N : ℕ) (ha : 0 < a) (h : N < k.need a) :
    (k.entryF fl tau0 X a N).1 = 0 := by
  cases k
  · rw [oadev_entryF]
    exact if_pos (by unfold RtName.need at h; simp only at h; omega)
  · rw [ohdev_entryF]
    exact if_pos (by unfold RtName.need at h; simp only at h; omega)
  · rw [tdev_entryF _ _ _ _ ha]
    exact if_pos h

theorem rtSt_close (hfl : FloatRound fl) (k : RtName) {tau0 : ℝ} (ht : 0 < tau0) {X Y : ℕ → ℝ} {p N : ℕ}
    {B : ℝ} (hB : 0 ≤ B) (hp : p ≤ 2 ^ 47) (hN : N ≤ 2 ^ 47 + 1) (h : ∀ i < N, NearA p (X i) (Y i) B)
    (afs : List ℕ) (ha : ∀ a ∈ afs, 0 < a) (l : List ℝ) :
    RtClose k p Y N B tau0 afs (rtSt l afs.length (fun i => afs.getD i 0)
        (fun i => k.entryF fl tau0 X (afs.getD i 0) N) 0 0) := by
  have hd : ∀ (i a : ℕ), afs[i]? = some a → (rtSt l afs.length (fun i => afs.getD i 0)
        (fun i => k.entryF fl tau0 X (afs.getD i 0) N) 0 0).dev[i]? = some (k.entryF fl tau0 X a N).1 := by
    intro i a hi
    have hlt : i < afs.length := (List.getElem?_eq_some_iff.1 hi).1
    change (tab afs.length _)[i]? = _
    rw [tab_getElem?, if_pos hlt]
    simp [List.getD, hi]
  refine ⟨(eq_tab afs 0).symm, by simp [rtSt, rtMk], ?_, ?_⟩
  · intro i a hi hlt
    rw [hd i a hi, entryF_early k tau0 X a N (ha a (List.mem_of_getElem? hi)) hlt]
  · intro i a hi hle
    refine ⟨_, hd i a hi, ?_⟩
    have ha0 := ha a (List.mem_of_getElem? hi)
    cases k
    · exact oadev_rt_close hfl ht hB ha0 hp hN h hle
    · exact ohdev_rt_close hfl ht hB ha0 hp hN h hle
    · exact tdev_rt_close hfl ht hB ha0 hp hN h hle

theorem tdev_mdev_fl_den (tau0 : ℝ) (p : ℕ) (afs : List ℕ)
    (hd : ∀ a ∈ afs, fl ((a : ℕ) * tau0) ≠ 0) (l : List ℝ) (E : ℕ → ℝ × ℝ × ℝ) :
    tdev_mdev_fl fl (rt_cfg tau0 false p) (rtSt l afs.length (fun i => afs.getD i 0) E 0 0) =
      .ok (tab afs.length (fun i => fl (fl ((E i).1 * fl √3) / fl ((afs.getD i 0 : ℕ) * tau0)))) := by
  unfold tdev_mdev_fl rtSt rtMk
  simp only [tab_length]
  set T : ℕ → ℝ := fun i => (E i).1 with hT
  set M : ℕ → ℝ := fun i => fl (fl ((E i).1 * fl √3) / fl ((afs.getD i 0 : ℕ) * tau0)) with hM
  rw [forRange_eq (fun j => tab afs.length (fun i => if i < j then M i else T i)) (by simp [hT])]
  · congr 1
    exact tab_congr (fun i hi => if_pos hi)
  · intro i hi
    rw [pyGet_tab_nat _ _ _ hi]
    simp only [ok_bind, pyGet_tab_nat _ _ _ hi, lt_irrefl, if_false]
    rw [pyDiv_ne (by
      unfold rt_cfg
      rw [List.getD_eq_getElem _ _ hi]
      exact hd _ (List.getElem_mem hi))]
    simp only [ok_bind]
    rw [pySet_tab _ _ _ hi]
    congr 1
    apply tab_congr
    intro q hq
    by_cases hqi : q = i
    · subst hqi
      rw [Function.update_self, if_pos (by omega)]
      rfl
    · rw [Function.update_of_ne hqi]
      by_cases h5 : q < i
      · rw [if_pos h5, if_pos (by omega)]
      · rw [if_neg h5, if_neg (by omega)]

theorem tdev_mdev_fl_eq (hfl : FloatRound fl) (tau0 : ℝ) (p : ℕ) (afs : List ℕ) (ht : 0 < tau0)
    (ha : ∀ a ∈ afs, 0 < a) (l : List ℝ) (E : ℕ → ℝ × ℝ × ℝ) :
    tdev_mdev_fl fl (rt_cfg tau0 false p) (rtSt l afs.length (fun i => afs.getD i 0) E 0 0) =
      .ok (tab afs.length (fun i => fl (fl ((E i).1 * fl √3) / fl ((afs.getD i 0 : ℕ) * tau0)))) :=
  tdev_mdev_fl_den tau0 p afs (fun a h =>
    (fl_pos hfl (mul_pos (by exact_mod_cast ha a h) ht)).ne') l E

theorem mdev_list_close (hfl : FloatRound fl) {tau0 : ℝ} (ht : 0 < tau0) {X Y : ℕ → ℝ} {p N : ℕ}
    {B : ℝ} (hB : 0 ≤ B) (hp : p ≤ 2 ^ 47) (hN : N ≤ 2 ^ 47 + 1) (h : ∀ i < N, NearA p (X i) (Y i) B)
    (afs : List ℕ) (ha : ∀ a ∈ afs, 0 < a) :
    RtMdevClose p Y N B tau0 afs (tab afs.length (fun i =>
      fl (fl ((RtName.entryF fl .tdev tau0 X (afs.getD i 0) N).1 * fl √3) / fl ((afs.getD i 0 : ℕ) * tau0)))) := by
  refine ⟨by simp, ?_⟩
  intro i a hi hle
  have hlt : i < afs.length := (List.getElem?_eq_some_iff.1 hi).1
  refine ⟨_, by rw [tab_getElem?, if_pos hlt], ?_⟩
  have hg : afs.getD i 0 = a := by simp [List.getD, hi]
  rw [hg]
  exact mdev_rt_close hfl ht hB (ha a (List.mem_of_getElem? hi)) hp hN h hle

/-- **C91, phase data.** After any stream of phase values up to `B` a streaming class has raised no
exception, stored the stream, and reports the deviations of all the samples seen so far up to the errors of
`rtBound`. -/
theorem realtime_float (hfl : FloatRound fl) (k : RtName) (tau0 : ℝ) (p : ℕ) (afs : List ℕ) (ht : 0 < tau0)
    (ha : ∀ a ∈ afs, 0 < a) (xs : List ℝ) (B : ℝ) (hB0 : 0 ≤ B) (hB : ∀ v ∈ xs, |v| ≤ B) (hN : xs.length ≤ 2 ^ 47) :
    ∃ st, k.feed_fl fl (rt_cfg tau0 false p) (rt_init afs false) xs = .ok st ∧ st.x = xs ∧
      RtClose k 0 (seq xs) xs.length B tau0 afs st := by
  have h := feed_fl_state hfl k tau0 p afs ht ha (seq xs) xs.length
  have hx : tab xs.length (seq xs) = xs := (eq_tab xs 0).symm
  rw [hx] at h
  refine ⟨_, h, rfl, rtSt_close hfl k ht hB0 (Nat.zero_le _) (by omega) ?_ afs ha _⟩
  intro i hi
  exact NearA.exact (hB _ (by rw [seq, List.getD_eq_getElem _ _ hi]; exact List.getElem_mem hi))

example (hfl : FloatRound fl) := realtime_float hfl .ohdev 2 4 [1, 3] (by norm_num) (by simp) [0, 1, 5, 2, 2, 7] 7
  (by norm_num) (by intro v hv; fin_cases hv <;> norm_num [abs_of_nonneg]) (by norm_num)

/-- **C91, method `mdev` of tdev_realtime.** -/
theorem tdev_realtime_mdev_float (hfl : FloatRound fl) (tau0 : ℝ) (p : ℕ) (afs : List ℕ) (ht : 0 < tau0)
    (ha : ∀ a ∈ afs, 0 < a) (xs : List ℝ) (B : ℝ) (hB0 : 0 ≤ B) (hB : ∀ v ∈ xs, |v| ≤ B) (hN : xs.length ≤ 2 ^ 47) :
    ∃ st m, RtName.feed_fl fl .tdev (rt_cfg tau0 false p) (rt_init afs false) xs = .ok st ∧
      tdev_mdev_fl fl (rt_cfg tau0 false p) st = .ok m ∧
      RtMdevClose 0 (seq xs) xs.length B tau0 afs m := by
  have h := feed_fl_state hfl .tdev tau0 p afs ht ha (seq xs) xs.length
  have hx : tab xs.length (seq xs) = xs := (eq_tab xs 0).symm
  rw [hx] at h
  refine ⟨_, _, h, tdev_mdev_fl_eq hfl tau0 p afs ht ha _ _,
    mdev_list_close hfl ht hB0 (Nat.zero_le _) (by omega) ?_ afs ha⟩
  intro i hi
  exact NearA.exact (hB _ (by rw [seq, List.getD_eq_getElem _ _ hi]; exact List.getElem_mem hi))

example (hfl : FloatRound fl) := tdev_realtime_mdev_float hfl 2 4 [1, 2] (by norm_num) (by simp) [0, 1, 5, 2, 2, 7] 7
  (by norm_num) (by intro v hv; fin_cases hv <;> norm_num [abs_of_nonneg]) (by norm_num)

/-- **C91, frequency data.** After any stream of `M` frequency values up to `F` the deviations are those of the
exact integrated phase up to the same errors, with the phase bounded by `M F` and carrying `M` roundings. -/
theorem realtime_freq_float (hfl : FloatRound fl) (k : RtName) (tau0 : ℝ) (p : ℕ) (afs : List ℕ) (ht : 0 < tau0)
    (ha : ∀ a ∈ afs, 0 < a) (fs : List ℝ) (hne : fs ≠ []) (F : ℝ) (hF : ∀ v ∈ fs, |v| ≤ F)
    (hN : fs.length ≤ 2 ^ 47) :
    ∃ st, k.feed_frequency_fl fl (rt_cfg tau0 false p) (rt_init afs false) fs = .ok st ∧
      RtClose k fs.length (seq (Spec.integrated fs)) (fs.length + 1) (fs.length * F) tau0 afs st := by
  have hpos : 0 < fs.length := List.length_pos_iff.2 hne
  have h := feed_frequency_fl_state hfl k tau0 p afs ht ha (seq fs) fs.length hpos
  have hx : tab fs.length (seq fs) = fs := (eq_tab fs 0).symm
  rw [hx] at h
  have hF0 : 0 ≤ F := (abs_nonneg _).trans (hF _ (List.getElem_mem hpos))
  refine ⟨_, h, rtSt_close hfl k ht (by positivity) hN (by omega) ?_ afs ha _⟩
  intro i hi
  have h1 : NearA i (intF fl (seq fs) i) (∑ j ∈ range i, seq fs j) (i * F) :=
    intF_near hfl (fun j hj => hF _ (by rw [seq, List.getD_eq_getElem _ _ hj]; exact List.getElem_mem hj)) i
      (by omega)
  have h2 : seq (Spec.integrated fs) i = ∑ j ∈ range i, seq fs j := by
    rw [integrated_eq fs hne, seq, List.getD, tab_getElem?, if_pos hi]
    rfl
  rw [h2]
  refine (h1.mono (by omega)).mono_size (mul_le_mul_of_nonneg_right ?_ hF0)
  exact_mod_cast (show i ≤ fs.length by omega)

example (hfl : FloatRound fl) := realtime_freq_float hfl .tdev 2 4 [1, 2] (by norm_num) (by simp)
  [0, 1, 5, 2, 2, 7] (by simp) 7 (by intro v hv; fin_cases hv <;> norm_num [abs_of_nonneg]) (by norm_num)

/-! ## an error that stays -/

/-- a phase record with one outlier -/
def outlier : ℕ → ℝ := fun i => if i = 2 then 1 else if i = 3 then 2 ^ 53 else 0

theorem outlier_winB (hfl : ∀ x, IsBinary64 x (fl x)) (j : ℕ) : winB fl outlier 1 (j + 4) = 2 := by
  have z : fl 0 = 0 := isBinary64_unique (hfl 0) (Or.inl ⟨rfl, rfl⟩)
  have f1 : fl 1 = 1 := by
    rw [binary64_eq hfl 1 (-52) (2 ^ 52) (by norm_num) (by norm_num) (by norm_num)]; norm_num
  have fm1 : fl (-1) = -1 := by
    rw [binary64_eq hfl (-1) (-52) (-2 ^ 52) (by norm_num) (by norm_num) (by norm_num)]; norm_num
  have f2 : fl 2 = 2 := by
    rw [binary64_eq hfl 2 (-51) (2 ^ 52) (by norm_num) (by norm_num) (by norm_num)]; norm_num
  have f3 : fl 3 = 3 := by
    rw [binary64_eq hfl 3 (-51) (3 * 2 ^ 51) (by norm_num) (by norm_num) (by norm_num)]; norm_num
  have fm3 : fl (-3) = -3 := by
    rw [binary64_eq hfl (-3) (-51) (-3 * 2 ^ 51) (by norm_num) (by norm_num) (by norm_num)]; norm_num
  have g1 : fl (2 ^ 53 - 3) = 2 ^ 53 - 3 := by
    rw [binary64_eq hfl (2 ^ 53 - 3) 0 (2 ^ 53 - 3) (by norm_num) (by norm_num) (by norm_num)]; norm_num
  have g2 : fl (2 ^ 53 - 2) = 2 ^ 53 - 2 := by
    rw [binary64_eq hfl (2 ^ 53 - 2) 0 (2 ^ 53 - 2) (by norm_num) (by norm_num) (by norm_num)]; norm_num
  have g3 : fl (3 * 2 ^ 53) = 3 * 2 ^ 53 := by
    rw [binary64_eq hfl (3 * 2 ^ 53) 2 (3 * 2 ^ 51) (by norm_num) (by norm_num) (by norm_num)]; norm_num
  have g4 : fl (3 - 3 * 2 ^ 53) = 4 - 3 * 2 ^ 53 := by
    rw [binary64_eq hfl (3 - 3 * 2 ^ 53) 2 (1 - 3 * 2 ^ 51) (by norm_num [abs_of_neg])
      (by norm_num [abs_of_neg]) (by norm_num [abs_of_neg])]; norm_num
  have g4' : fl (4 - 3 * 2 ^ 53) = 4 - 3 * 2 ^ 53 := by
    rw [binary64_eq hfl (4 - 3 * 2 ^ 53) 2 (1 - 3 * 2 ^ 51) (by norm_num [abs_of_neg])
      (by norm_num [abs_of_neg]) (by norm_num [abs_of_neg])]; norm_num
  have g5 : fl (2 - 2 ^ 54) = 2 - 2 ^ 54 := by
    rw [binary64_eq hfl (2 - 2 ^ 54) 1 (1 - 2 ^ 53) (by norm_num [abs_of_neg])
      (by norm_num [abs_of_neg]) (by norm_num [abs_of_neg])]; norm_num
  have g6 : fl (-1 + 3 * 2 ^ 53) = 3 * 2 ^ 53 := by
    rw [binary64_eq hfl (-1 + 3 * 2 ^ 53) 2 (3 * 2 ^ 51) (by norm_num) (by norm_num)
      (by norm_num [abs_of_neg])]; norm_num
  have g7 : fl (2 ^ 53 + 2) = 2 ^ 53 + 2 := by
    rw [binary64_eq hfl (2 ^ 53 + 2) 1 (2 ^ 52 + 1) (by norm_num) (by norm_num) (by norm_num)]; norm_num
  have g8 : fl (-2 ^ 53) = -2 ^ 53 := by
    rw [binary64_eq hfl (-2 ^ 53) 1 (-2 ^ 52) (by norm_num [abs_of_neg]) (by norm_num [abs_of_neg])
      (by norm_num)]; norm_num
  norm_num at g1 g2 g3 g4 g4' g5 g6 g7 g8
  have w0 : winB fl outlier 1 0 = 1 := by
    simp only [winB, winA, outlier]
    norm_num [z, f1]
  have w1 : winB fl outlier 1 1 = 2 ^ 53 - 2 := by
    rw [winB, w0, d3G]
    have : fl (fl (fl (fl (-1 * outlier 0) + fl (3 * outlier (0 + 1))) - fl (3 * outlier (0 + 2 * 1))) +
        outlier (0 + 3 * 1)) = 2 ^ 53 - 3 := by
      simp only [outlier]
      norm_num [z, f3, fm3, g1]
    rw [this]
    norm_num [g2]
  have w2 : winB fl outlier 1 2 = 2 - 2 ^ 54 := by
    rw [winB, w1, d3G]
    have : fl (fl (fl (fl (-1 * outlier 1) + fl (3 * outlier (1 + 1))) - fl (3 * outlier (1 + 2 * 1))) +
        outlier (1 + 3 * 1)) = 4 - 3 * 2 ^ 53 := by
      simp only [outlier]
      norm_num [z, f3, g3, g4, g4']
    rw [this]
    norm_num [g5]
  have w3 : winB fl outlier 1 3 = 2 ^ 53 + 2 := by
    rw [winB, w2, d3G]
    have : fl (fl (fl (fl (-1 * outlier 2) + fl (3 * outlier (2 + 1))) - fl (3 * outlier (2 + 2 * 1))) +
        outlier (2 + 3 * 1)) = 3 * 2 ^ 53 := by
      simp only [outlier]
      norm_num [z, fm1, g3, g6]
    rw [this]
    norm_num [g7]
  induction j with
  | zero =>
    rw [winB, w3, d3G]
    have : fl (fl (fl (fl (-1 * outlier 3) + fl (3 * outlier (3 + 1))) - fl (3 * outlier (3 + 2 * 1))) +
        outlier (3 + 3 * 1)) = -2 ^ 53 := by
      simp only [outlier]
      norm_num [z, g8]
    rw [this]
    norm_num [f2]
  | succ j ih =>
    rw [show j + 1 + 4 = j + 4 + 1 by omega, winB, ih, d3G]
    have e : ∀ i, outlier (j + 4 + i) = 0 := by
      intro i
      unfold outlier
      rw [if_neg (by omega), if_neg (by omega)]
    have e0 : outlier (j + 4) = 0 := e 0
    rw [e0, e, e, e]
    simp [z, f2]

/-- In double precision a single outlier leaves an error in the running sum of tdev_realtime for ever: after
`0, 0, 1, 2^53, 0, 0, 0` and any number of zeros the sum of second differences of the last window is 0, but
the class goes on with 2, and adds its square to the overall sum with every sample. -/
theorem tdev_realtime_residue (hfl : ∀ x, IsBinary64 x (fl x)) (k : ℕ) :
    (∃ st, RtName.feed_fl fl .tdev (rt_cfg 1 false 4) (rt_init [1] false)
      ([0, 0, 1, 2 ^ 53, 0, 0, 0] ++ List.replicate k 0) = .ok st ∧ st.S = [2]) ∧
    ∃ st, RtName.feed .tdev (rt_cfg 1 false 4) (rt_init [1] false)
      ([0, 0, 1, 2 ^ 53, 0, 0, 0] ++ List.replicate k 0) = .ok st ∧ st.S = [0] := by
  have hx : ([0, 0, 1, 2 ^ 53, 0, 0, 0] ++ List.replicate k 0 : List ℝ) = tab (7 + k) outlier := by
    apply tab_ext (by simp; omega)
    intro i hi
    rcases Nat.lt_or_ge i 7 with h | h
    · rw [List.getElem?_append_left (by simpa using h)]
      interval_cases i <;> simp [outlier]
    · rw [List.getElem?_append_right (by simpa using h), List.getElem?_replicate, if_pos (by simp; omega)]
      unfold outlier
      rw [if_neg (by omega), if_neg (by omega)]
  rw [hx]
  constructor
  · refine ⟨_, feed_fl_state (fun x => isBinary64_rel (hfl x)) .tdev 1 4 [1] one_pos (by simp) outlier (7 + k), ?_⟩
    change [(RtName.entryF fl .tdev 1 outlier 1 (7 + k)).2.1] = [2]
    rw [tdev_entryF _ _ _ _ one_pos]
    simp only
    rw [if_neg (by omega), show 7 + k - 3 * 1 = k + 4 by omega, outlier_winB hfl]
  · refine ⟨_, feed_fixed_state .tdev 1 4 [1] one_ne_zero (by simp) outlier (7 + k), ?_⟩
    change [(RtName.entry .tdev 1 outlier 1 0 (7 + k)).2.1] = [0]
    rw [tdev_entry _ _ _ _ _ (by norm_num)]
    simp only
    rw [if_neg (by omega)]
    have e : ∀ i, outlier (k + 4 + i) = 0 := by
      intro i
      unfold outlier
      rw [if_neg (by omega), if_neg (by omega)]
    have e0 : outlier (k + 4) = 0 := e 0
    simp only [Nat.zero_add, Nat.zero_sub, range_zero, sum_empty, sub_zero, sum_range_one, add_zero, d2,
      show 7 + k - 3 * 1 = k + 4 by omega, e, e0]
    norm_num

end AT
