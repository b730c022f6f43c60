import Verif.Props.RealtimeAutoFloat

/-!
# C113: the method `mdev` of `tdev_realtime` with automatic averaging factors in double precision
-/

namespace AT

open Spec

variable {fl : ℝ → ℝ}

/-- the method on any state with as many deviations as factors -/
theorem tdev_mdev_fl_gen (c : RtCfg) (st : Rt) (hl : st.dev.length = st.afs.length)
    (hd : ∀ a ∈ st.afs, fl ((a : ℕ) * c.tau0) ≠ 0) :
    tdev_mdev_fl fl c st = .ok (tab st.afs.length (fun i =>
      fl (fl (seq st.dev i * fl √3) / fl ((st.afs.getD i 0 : ℕ) * c.tau0)))) := by
  unfold tdev_mdev_fl
  set M : ℕ → ℝ := fun i => fl (fl (seq st.dev i * fl √3) / fl ((st.afs.getD i 0 : ℕ) * c.tau0)) with hM
  have hafs : st.afs = tab st.afs.length (fun i => st.afs.getD i 0) := eq_tab st.afs 0
  have hdev : st.dev = tab st.afs.length (seq st.dev) := by
    rw [← hl]; exact eq_tab_seq st.dev
  rw [forRange_eq (fun j => tab st.afs.length (fun i => if i < j then M i else seq st.dev i)) (by
    simp only [Nat.not_lt_zero, if_false]; exact hdev.symm)]
  · congr 1
    exact tab_congr (fun i hi => if_pos hi)
  · intro i hi
    rw [show pyGet st.afs (i : ℤ) = .ok (st.afs.getD i 0) by
      conv_lhs => rw [hafs]
      exact pyGet_tab_nat _ _ _ hi]
    simp only [ok_bind, pyGet_tab_nat _ _ _ hi, lt_irrefl, if_false]
    rw [pyDiv_ne (by
      rw [List.getD_eq_getElem _ _ hi]
      exact hd _ (List.getElem_mem hi))]
    simp only [ok_bind]
    rw [pySet_tab _ _ _ hi]
    congr 1
    apply tab_congr
    intro q hq
    by_cases hqi : q = i
    · subst hqi
      rw [Function.update_self, if_pos (by omega)]
    · rw [Function.update_of_ne hqi]
      by_cases h5 : q < i
      · rw [if_pos h5, if_pos (by omega)]
      · rw [if_neg h5, if_neg (by omega)]

/-- a rounded and an exact state with the same positive factors -/
theorem tdev_mdev_close (hfl : FloatRound fl) {tau0 : ℝ} (ht : 0 < tau0) (c c' : RtCfg) (hc : c.tau0 = tau0)
    (hc' : c'.tau0 = tau0) (st sx : Rt) (h4 : st.afs = sx.afs) (hpos : ∀ a ∈ st.afs, 0 < a)
    (h5 : st.dev.length = st.afs.length) (h6 : sx.dev.length = st.afs.length) :
    ∃ m m', tdev_mdev_fl fl c st = .ok m ∧ tdev_mdev c' sx = .ok m' ∧
      m.length = st.afs.length ∧ m'.length = st.afs.length ∧
      ∀ (i a : ℕ) (d d' v v' : ℝ), st.afs[i]? = some a → st.dev[i]? = some d → sx.dev[i]? = some d' →
        m[i]? = some v → m'[i]? = some v' → v' = d' * √3 / (a * tau0) ∧
          |v - v'| ≤ √3 / (a * tau0) * ((1 + 8 * unitRoundoff) * |d - d'| + 8 * unitRoundoff * |d'|) := by
  have e1 := tdev_mdev_fl_gen (fl := fl) c st h5 (fun a ha => by
    rw [hc]; exact (fl_pos hfl (mul_pos (by exact_mod_cast hpos a ha) ht)).ne')
  have e2 : tdev_mdev c' sx = .ok (tab sx.afs.length (fun i =>
      seq sx.dev i * √3 / ((sx.afs.getD i 0 : ℕ) * c'.tau0))) :=
    tdev_mdev_fl_gen (fl := fun v => v) c' sx (by rw [← h4, h6]) (fun a ha => by
      rw [hc']
      have : 0 < a := hpos a (by rw [h4]; exact ha)
      positivity)
  refine ⟨_, _, e1, e2, by simp, by rw [h4]; simp, ?_⟩
  intro i a d d' v v' hi hd hd' hv hv'
  have hlt : i < st.afs.length := (List.getElem?_eq_some_iff.1 hi).1
  rw [← h4] at hv'
  simp only [tab_getElem?, if_pos hlt, Option.some.injEq] at hv hv'
  have ga : st.afs.getD i 0 = a := by simp [List.getD, hi]
  have gd : seq st.dev i = d := by simp [seq, List.getD, hd]
  have gd' : seq sx.dev i = d' := by simp [seq, List.getD, hd']
  rw [ga, gd, hc] at hv
  rw [ga, gd', hc'] at hv'
  refine ⟨hv'.symm, ?_⟩
  have ha : 0 < a := hpos a (List.mem_of_getElem? hi)
  have hat : 0 < (a : ℝ) * tau0 := by positivity
  have hu := unitRoundoff_pos
  have n1 := (((Near.refl d).mul (Near.of_fl hfl √3)).fl hfl)
  have n2 := (n1.div (Near.of_fl hfl (a * tau0)) hat.ne' (pow_small (by norm_num))).fl hfl
  unfold Near at n2
  rw [hv] at n2
  have hc8 : (1 + unitRoundoff) ^ (0 + 1 + 1 + 2 * 1 + 1) - 1 ≤ 8 * unitRoundoff := by
    unfold unitRoundoff; norm_num
  have ea : |d * √3 / (a * tau0)| = √3 / (a * tau0) * |d| := by
    rw [abs_div, abs_mul, abs_of_nonneg (Real.sqrt_nonneg 3), abs_of_pos hat]
    ring
  rw [ea] at n2
  have hk : 0 ≤ √3 / ((a : ℝ) * tau0) := by positivity
  have n3 : |v - d * √3 / (a * tau0)| ≤ 8 * unitRoundoff * (√3 / (a * tau0) * |d|) :=
    n2.trans (mul_le_mul_of_nonneg_right hc8 (by positivity))
  have n4 : |d * √3 / (a * tau0) - v'| = √3 / (a * tau0) * |d - d'| := by
    rw [← hv', show d * √3 / (a * tau0) - d' * √3 / (a * tau0) = √3 / (a * tau0) * (d - d') by ring, abs_mul,
      abs_of_nonneg hk]
  have n5 : |d| ≤ |d - d'| + |d'| := by
    have := abs_add_le (d - d') d'
    simpa using this
  calc |v - v'| ≤ |v - d * √3 / (a * tau0)| + |d * √3 / (a * tau0) - v'| := abs_sub_le _ _ _
    _ ≤ 8 * unitRoundoff * (√3 / (a * tau0) * |d|) + √3 / (a * tau0) * |d - d'| := add_le_add n3 n4.le
    _ ≤ 8 * unitRoundoff * (√3 / (a * tau0) * (|d - d'| + |d'|)) + √3 / (a * tau0) * |d - d'| := by
      gcongr
    _ = _ := by ring

theorem auto_afs_pos (k : RtName) (tau0 : ℝ) (p : ℕ) (hp : 0 < p) (a0 : ℕ) (ht : 0 < tau0) (xs : List ℝ) {sx : Rt}
    (h : k.feed (rt_cfg tau0 true p) (rt_init [a0] true) xs = .ok sx) : ∀ a ∈ sx.afs, 0 < a := by
  obtain ⟨K, sx', e, hK, _, hafs, _⟩ := realtime_auto k tau0 p hp a0 ht.ne' xs
  rw [h] at e
  cases e
  rw [hafs]
  intro a ha
  obtain ⟨i, hi⟩ := List.mem_iff_getElem?.1 ha
  rw [tab_getElem?] at hi
  split_ifs at hi
  rw [← Option.some.inj hi]
  exact autoAf_pos p i

/-- **C113, method `mdev`.** With automatic averaging factors the result of `mdev` in double precision is close to
that of exact arithmetic: relative to the deviations of `realtime_auto_float` there are five more roundings. -/
theorem tdev_auto_mdev_float (hfl : FloatRound fl) (tau0 : ℝ) (p : ℕ) (hp : 0 < p) (hp5 : p ≤ 5)
    (ts : List ℝ) (hts : LogTable p ts) (a0 : ℕ) (ht : 0 < tau0) (xs : List ℝ) (B : ℝ) (hB0 : 0 ≤ B)
    (hB : ∀ v ∈ xs, |v| ≤ B) (hN : xs.length ≤ 2 ^ 40) :
    ∃ st sx m m', RtName.feed_auto_fl fl .tdev ⟨tau0, true, ts⟩ (rt_init [a0] true) xs = .ok st ∧
      RtName.feed .tdev (rt_cfg tau0 true p) (rt_init [a0] true) xs = .ok sx ∧
      tdev_mdev_fl fl ⟨tau0, true, ts⟩ st = .ok m ∧ tdev_mdev (rt_cfg tau0 true p) sx = .ok m' ∧
      st.afs = sx.afs ∧ m.length = st.afs.length ∧ m'.length = st.afs.length ∧
      ∀ (i a : ℕ) (d' v v' : ℝ), st.afs[i]? = some a → sx.dev[i]? = some d' → m[i]? = some v → m'[i]? = some v' →
        v' = d' * √3 / (a * tau0) ∧
        (3 * a ≤ xs.length → |v - v'| ≤ √3 / (a * tau0) *
          ((1 + 8 * unitRoundoff) * rtBound .tdev 0 xs.length B tau0 a d' + 8 * unitRoundoff * |d'|)) ∧
        (xs.length < 3 * a → v = 0 ∧ v' = 0) := by
  obtain ⟨st, sx, h1, h2, _, h4, h5, h6, h7⟩ := realtime_auto_float hfl .tdev tau0 p hp hp5 ts hts a0 ht xs B hB0 hB hN
  have hpos : ∀ a ∈ st.afs, 0 < a := by
    rw [h4]; exact auto_afs_pos .tdev tau0 p hp a0 ht xs h2
  obtain ⟨m, m', e1, e2, l1, l2, H⟩ := tdev_mdev_close hfl ht ⟨tau0, true, ts⟩ (rt_cfg tau0 true p) rfl rfl st sx h4 hpos
    h5 h6
  refine ⟨st, sx, m, m', h1, h2, e1, e2, h4, l1, l2, fun i a d' v v' hi hd' hv hv' => ?_⟩
  have hlt := (List.getElem?_eq_some_iff.1 hi).1
  have hd : st.dev[i]? = some st.dev[i] := List.getElem?_eq_getElem (by omega)
  obtain ⟨k1, k2⟩ := H i a _ d' v v' hi hd hd' hv hv'
  obtain ⟨g1, g2⟩ := h7 i a _ d' hi hd hd'
  have ha : 0 < a := hpos a (List.mem_of_getElem? hi)
  have hu := unitRoundoff_pos
  refine ⟨k1, fun hle => k2.trans ?_, fun hlt => ?_⟩
  · have := g1 hle
    gcongr
  · obtain ⟨z1, z2⟩ := g2 hlt
    rw [z2] at k1
    have hv0 : v' = 0 := by rw [k1]; simp
    rw [z1, z2, hv0] at k2
    simp only [sub_self, abs_zero, mul_zero, add_zero, sub_zero] at k2
    exact ⟨abs_nonpos_iff.1 k2, hv0⟩

/-- **C113, method `mdev`, frequency data.** -/
theorem tdev_auto_mdev_freq_float (hfl : FloatRound fl) (tau0 : ℝ) (p : ℕ) (hp : 0 < p) (hp5 : p ≤ 5)
    (ts : List ℝ) (hts : LogTable p ts) (a0 : ℕ) (ht : 0 < tau0) (fs : List ℝ) (hne : fs ≠ []) (F : ℝ)
    (hF : ∀ v ∈ fs, |v| ≤ F) (hN : fs.length < 2 ^ 40) :
    ∃ st sx m m', RtName.feed_frequency_auto_fl fl .tdev ⟨tau0, true, ts⟩ (rt_init [a0] true) fs = .ok st ∧
      RtName.feed_frequency .tdev (rt_cfg tau0 true p) (rt_init [a0] true) fs = .ok sx ∧
      tdev_mdev_fl fl ⟨tau0, true, ts⟩ st = .ok m ∧ tdev_mdev (rt_cfg tau0 true p) sx = .ok m' ∧
      st.afs = sx.afs ∧ m.length = st.afs.length ∧ m'.length = st.afs.length ∧
      ∀ (i a : ℕ) (d' v v' : ℝ), st.afs[i]? = some a → sx.dev[i]? = some d' → m[i]? = some v → m'[i]? = some v' →
        v' = d' * √3 / (a * tau0) ∧
        (3 * a ≤ fs.length + 1 → |v - v'| ≤ √3 / (a * tau0) *
          ((1 + 8 * unitRoundoff) * rtBound .tdev fs.length (fs.length + 1) (fs.length * F) tau0 a d' +
            8 * unitRoundoff * |d'|)) ∧
        (fs.length + 1 < 3 * a → v = 0 ∧ v' = 0) := by
  obtain ⟨st, sx, h1, h2, _, h4, h5, h6, h7⟩ := realtime_auto_freq_float hfl .tdev tau0 p hp hp5 ts hts a0 ht fs hne F hF hN
  have hpos : ∀ a ∈ st.afs, 0 < a := by
    rw [h4]
    refine auto_afs_pos .tdev tau0 p hp a0 ht (Spec.integrated fs) ?_
    rw [← feed_frequency_eq, h2]
  obtain ⟨m, m', e1, e2, l1, l2, H⟩ := tdev_mdev_close hfl ht ⟨tau0, true, ts⟩ (rt_cfg tau0 true p) rfl rfl st sx h4 hpos
    h5 h6
  refine ⟨st, sx, m, m', h1, h2, e1, e2, h4, l1, l2, fun i a d' v v' hi hd' hv hv' => ?_⟩
  have hlt := (List.getElem?_eq_some_iff.1 hi).1
  have hd : st.dev[i]? = some st.dev[i] := List.getElem?_eq_getElem (by omega)
  obtain ⟨k1, k2⟩ := H i a _ d' v v' hi hd hd' hv hv'
  obtain ⟨g1, g2⟩ := h7 i a _ d' hi hd hd'
  have ha : 0 < a := hpos a (List.mem_of_getElem? hi)
  have hu := unitRoundoff_pos
  refine ⟨k1, fun hle => k2.trans ?_, fun hlt => ?_⟩
  · have := g1 hle
    gcongr
  · obtain ⟨z1, z2⟩ := g2 hlt
    rw [z2] at k1
    have hv0 : v' = 0 := by rw [k1]; simp
    rw [z1, z2, hv0] at k2
    simp only [sub_self, abs_zero, mul_zero, add_zero, sub_zero] at k2
    exact ⟨abs_nonpos_iff.1 k2, hv0⟩

example (hfl : FloatRound fl) := tdev_auto_mdev_float hfl 2 4 (by norm_num) (by norm_num) _
  (exact_logTable 4) 1 (by norm_num) [0, 1, 5, 2, 2, 7, 9, 4] 9 (by norm_num)
  (by intro v hv; fin_cases hv <;> norm_num [abs_of_nonneg]) (by norm_num)

end AT
