import Verif.Lemmas.RealtimeNan
import Verif.Props.RealtimeFreq

/-!
# C109: what NaN in the stream does to the streaming classes
-/

namespace AT

open Finset Real Spec Classical

/-- the batch function of a streaming class, on data with NaN -/
def RtName.nanFn : RtName → NanFn
  | .oadev => .oadev
  | .ohdev => .ohdev
  | .tdev => .tdev

/-- an entry that was there from the start has read what the batch function reads -/
theorem streamClean_zero (k : RtName) (d : List NV) (a : ℕ) (hn : k.need a ≤ d.length) :
    StreamClean k (fun i => d[i]? ≠ some none) a 0 d.length ↔ Clean k.nanFn d a := by
  unfold StreamClean Clean
  cases k with
  | oadev =>
    simp only [RtName.nanFn, Reads, StreamReads]
    constructor
    · rintro H i ⟨q, hq, h⟩
      refine H (q + 2 * a) (by omega) hq i ⟨by omega, ?_⟩
      omega
    · rintro H t _ ht i ⟨h1, h⟩
      exact H i ⟨t - 2 * a, by omega, by omega⟩
  | ohdev =>
    simp only [RtName.nanFn, Reads, StreamReads]
    constructor
    · rintro H i ⟨q, hq, h⟩
      refine H (q + 3 * a) (by omega) hq i ⟨by omega, ?_⟩
      omega
    · rintro H t _ ht i ⟨h1, h⟩
      exact H i ⟨t - 3 * a, by omega, by omega⟩
  | tdev =>
    simp only [RtName.nanFn, Reads, StreamReads]
    simp only [RtName.need] at hn
    constructor
    · intro H i hi
      rcases Nat.lt_or_ge i (2 * a) with h | h
      · rcases Nat.lt_or_ge i a with h' | h'
        · exact H (i + 2 * a) (by omega) (by omega) i ⟨by omega, by omega⟩
        · exact H (i + a) (by omega) (by omega) i ⟨by omega, by omega⟩
      · exact H i (by omega) hi i ⟨h, Or.inl rfl⟩
    · rintro H t _ ht i ⟨h1, h⟩
      exact H i (by omega)

/-- **C109, fixed averaging factors.** A stream `d` that may contain NaN, and the stream `x` in which
the NaN were replaced by any numbers: neither raises.  The entry of factor `a` is that of the stream
`x` while it is still 0 for lack of samples, and as long as no sample that the batch function reads
for `a` is NaN; otherwise it is NaN. -/
theorem nan_realtime (k : RtName) (tau0 : ℝ) (p : ℕ) (afs : List ℕ) (ht : 0 < tau0)
    (ha : ∀ a ∈ afs, 0 < a) (d : List NV) (x : List ℝ) (h : Completes d x) :
    ∃ st sn, k.feed (rt_cfg tau0 false p) (rt_init afs false) x = .ok st ∧
      k.feed_nv (rt_cfg tau0 false p) (rt_init_nv afs false) d = .ok sn ∧
      sn.x = d ∧ sn.afs = afs ∧ st.afs = afs ∧ st.dev.length = afs.length ∧
      sn.dev = (afs.zip st.dev).map (fun q =>
        if d.length < k.need q.1 ∨ Clean k.nanFn d q.1 then some q.2 else none) := by
  have hl := h.length_eq
  have h1 := feed_fixed_state k tau0 p afs ht.ne' ha (seq x) x.length
  have hx : tab x.length (seq x) = x := (eq_tab x 0).symm
  have h2 := feed_fixed_state_nv k tau0 p afs ht.ne' ha
    (fun i => nanUnless (d[i]? ≠ some none) (seq x i)) x.length
  rw [hx] at h1
  rw [← h.eq_tab] at h2
  have hafs := (eq_tab afs 0).symm
  refine ⟨_, _, h1, h2, rfl, hafs, hafs, by simp [rtSt, rtMk], ?_⟩
  unfold rtStNv rtMkNv rtSt rtMk
  simp only
  symm
  apply tab_ext (by simp)
  intro i hi
  have ha0 := getD_pos ha i hi
  rw [List.getElem?_map, List.getElem?_zip_eq_some (z := (afs.getD i 0,
    (k.entry tau0 (seq x) (afs.getD i 0) 0 x.length).1)) |>.2 ⟨by simp [hi], by rw [tab_getElem?, if_pos hi]⟩]
  simp only [Option.map_some, Option.some.injEq]
  rw [entryNv_eq k tau0 _ _ _ 0 _ ha0, zero_add]
  unfold nanUnless
  simp only
  rw [← hl]
  by_cases hn : d.length < k.need (afs.getD i 0)
  · rw [if_pos (Or.inl hn), if_pos (Or.inl hn)]
  · have := streamClean_zero k d (afs.getD i 0) (not_lt.1 hn)
    simp only [hn, false_or, this]

/-- five samples with a NaN at index 3: with `a = 1` the value is NaN, with `a = 2` there is none yet -/
example : ∃ sn, RtName.feed_nv .ohdev (rt_cfg 1 false 4) (rt_init_nv [1, 2] false)
    [some 0, some 1, some 3, none, some 2] = .ok sn ∧ sn.dev = [none, some 0] := by
  obtain ⟨st, sn, h1, h2, _, _, _, hl, h3⟩ := nan_realtime .ohdev 1 4 [1, 2] one_pos (by simp)
    [some 0, some 1, some 3, none, some 2] _ (completes_fill _)
  obtain ⟨st', h4, _, _, h5⟩ := realtime_eq .ohdev 1 4 [1, 2] one_pos (by simp)
    ([some 0, some 1, some 3, none, some 2].map (fun v : NV => v.getD 0))
  rw [h1] at h4
  cases h4
  refine ⟨sn, h2, ?_⟩
  rw [h3, h5]
  simp [RtName.need]
  intro h
  exact h 3 ⟨0, by simp, by omega⟩ (by simp)

/-- **C109.** On a stream without NaN the model that carries NaN agrees with that of
`Model/Realtime.lean`. -/
theorem nan_realtime_free (k : RtName) (tau0 : ℝ) (p : ℕ) (afs : List ℕ) (ht : 0 < tau0)
    (ha : ∀ a ∈ afs, 0 < a) (x : List ℝ) :
    ∃ st sn, k.feed (rt_cfg tau0 false p) (rt_init afs false) x = .ok st ∧
      k.feed_nv (rt_cfg tau0 false p) (rt_init_nv afs false) (x.map some) = .ok sn ∧
      sn.afs = st.afs ∧ sn.dev = st.dev.map some := by
  have hc : Completes (x.map some) x := by
    unfold Completes
    rw [List.forall₂_map_left_iff, List.forall₂_same]
    exact fun v _ => Or.inr rfl
  obtain ⟨st, sn, h1, h2, _, h3, h4, hl, h5⟩ := nan_realtime k tau0 p afs ht ha _ x hc
  refine ⟨st, sn, h1, h2, by rw [h3, h4], ?_⟩
  rw [h5]
  have hcl : ∀ a, Clean k.nanFn (x.map some) a := by
    intro m i _
    rw [List.getElem?_map]
    cases x[i]? <;> simp
  simp only [hcl, or_true, if_true]
  conv_rhs => rw [← List.map_snd_zip (l₁ := afs) (l₂ := st.dev) (by omega)]
  rw [List.map_map]
  rfl

/-- **C109: streaming and batch agree on NaN too.** Where the batch function for the samples fed so
far, with any request of averaging times, and the streaming class report the same averaging time,
both report the same number or both report NaN. -/
theorem nan_realtime_batch (k : RtName) (tau0 : ℝ) (p : ℕ) (afs : List ℕ) (ht : 0 < tau0)
    (ha : ∀ a ∈ afs, 0 < a) (d : List NV) (sn : RtNv)
    (hsn : k.feed_nv (rt_cfg tau0 false p) (rt_init_nv afs false) d = .ok sn)
    (taus : TausArg) (o : NanOut) (ho : k.nanFn.runNv d (1 / tau0) "phase" taus = .ok o)
    (i j : ℕ) (t : ℝ) (hi : (rt_taus_nv (rt_cfg tau0 false p) sn)[i]? = some t)
    (hj : o.taus[j]? = some t) :
    sn.dev[i]? = o.devs[j]? := by
  have hc := completes_fill d
  obtain ⟨st, sn', h1, h2, _, h3, h4, hl, h5⟩ := nan_realtime k tau0 p afs ht ha d _ hc
  rw [hsn] at h2
  cases h2
  rcases nan_dev k.nanFn d _ hc (1 / tau0) taus with ⟨e, _, h⟩ | ⟨rows, hx, h⟩
  · rw [ho] at h; cases h
  · rw [ho] at h
    injection h with h
    subst h
    have hrun : k.batch.run (d.map (fun v => v.getD 0)) (1 / tau0) "phase" taus =
        k.nanFn.run (d.map (fun v => v.getD 0)) (1 / tau0) "phase" taus := by cases k <;> rfl
    have hb := realtime_batch k tau0 p afs ht ha _ st h1 taus _ (hrun.trans hx) i j t
      (by unfold rt_taus; unfold rt_taus_nv at hi; rw [h4]; rw [h3] at hi; exact hi) hj
    simp only [List.getElem?_map] at hj hb ⊢
    unfold rt_taus_nv at hi
    rw [h3, List.getElem?_map] at hi
    cases hr : rows[j]? with
    | none => rw [hr] at hj; cases hj
    | some w =>
      cases hai : afs[i]? with
      | none => rw [hai] at hi; cases hi
      | some a =>
        rw [hr] at hj hb
        rw [hai] at hi
        simp only [Option.map_some, Option.some.injEq] at hi hj hb
        have hwa : w.1 = a := by
          rw [← hi] at hj
          simp only [rt_cfg] at hj
          have : (w.1 : ℝ) = a := by
            field_simp at hj
            exact hj
          exact_mod_cast this
        have hf := rows_facts k.nanFn _ (1 / tau0) taus rows _ _ _ hx w (List.mem_of_getElem? hr)
        rw [List.length_map] at hf
        have hn : ¬ d.length < k.need a := by
          rw [← hwa]
          have := hf.2.2
          cases k <;> simp only [RtName.nanFn, NanFn.name, count, RtName.need] at this ⊢ <;> omega
        rw [h5, List.getElem?_map, List.getElem?_zip_eq_some (z := (a, w.2.1)) |>.2 ⟨hai, hb⟩]
        subst hwa
        simp only [Option.map_some, hn, false_or]

/-- six samples with a NaN at index 0, for `a = 1` and `a = 2`: the batch function does return a table
for the averaging time 2, and the streaming class reports the same NaN -/
example (sn : RtNv) (hsn : RtName.feed_nv .oadev (rt_cfg 1 false 4) (rt_init_nv [1, 2] false)
      [none, some 1, some 0, some 3, some (-9), some 1] = .ok sn) :
    ∃ o, oadev_nv [none, some 1, some 0, some 3, some (-9), some 1] (1 / 1) "phase"
      (.list [(2 : ℕ) / (1 / 1)]) = .ok o ∧ sn.dev[1]? = o.devs[0]? := by
  have hx : Completes [none, some 1, some 0, some 3, some (-9), some 1] [0, 1, 0, 3, -9, 1] := by
    simp [Completes]
  have hr := oadev_phase_eq [0, 1, 0, 3, -9, 1] (1 / 1) (by norm_num) (.list [(2 : ℕ) / (1 / 1)])
  rw [table_single _ _ (by norm_num) _ _ _ _ _ 2 (by norm_num) (by simp) (by norm_num) (by simp)
    (by norm_num)] at hr
  have h := nan_single .oadev _ _ hx (1 / 1) (.list [(2 : ℕ) / (1 / 1)]) 2 _ _ _ hr (by norm_num)
  obtain ⟨st, sn', _, h2, _, h3, _⟩ := nan_realtime .oadev 1 4 [1, 2] one_pos (by simp) _ _ hx
  rw [hsn] at h2
  cases h2
  refine ⟨_, h, nan_realtime_batch .oadev 1 4 [1, 2] one_pos (by simp) _ sn hsn _ _ h 1 0 2 ?_ (by simp)⟩
  simp [rt_taus_nv, h3, rt_cfg]

theorem StreamClean.mono {k : RtName} {g : ℕ → Prop} {a s N M : ℕ} (h : StreamClean k g a s M)
    (hNM : N ≤ M) : StreamClean k g a s N :=
  fun t h1 h2 => h t h1 (by omega)

theorem streamReads_lt {k : RtName} {a t i : ℕ} (h : StreamReads k a t i) : i ≤ t := by
  cases k <;> simp only [StreamReads] at h <;> omega

theorem streamClean_append (k : RtName) (d e : List NV) (a s : ℕ)
    (h : StreamClean k (fun i => (d ++ e)[i]? ≠ some none) a s (d ++ e).length) :
    StreamClean k (fun i => d[i]? ≠ some none) a s d.length := by
  intro t h1 h2 i hi
  have := h t h1 (by rw [List.length_append]; omega) i hi
  have hil := streamReads_lt hi
  simp only at this
  rwa [List.getElem?_append_left (by omega)] at this

/-- **C109: a streaming class never recovers from NaN.** Once the value of a factor is NaN it stays
NaN, whatever samples follow. -/
theorem nan_realtime_forever (k : RtName) (tau0 : ℝ) (p : ℕ) (afs : List ℕ) (ht : 0 < tau0)
    (ha : ∀ a ∈ afs, 0 < a) (d e : List NV) (sn sn' : RtNv)
    (h : k.feed_nv (rt_cfg tau0 false p) (rt_init_nv afs false) d = .ok sn)
    (h' : k.feed_nv (rt_cfg tau0 false p) (rt_init_nv afs false) (d ++ e) = .ok sn')
    (i : ℕ) (hi : sn.dev[i]? = some none) : sn'.dev[i]? = some none := by
  obtain ⟨st, s1, _, h2, _, _, _, hl, h5⟩ := nan_realtime k tau0 p afs ht ha d _ (completes_fill d)
  obtain ⟨st', s2, _, h2', _, _, _, hl', h5'⟩ :=
    nan_realtime k tau0 p afs ht ha (d ++ e) _ (completes_fill (d ++ e))
  rw [h] at h2
  rw [h'] at h2'
  cases h2
  cases h2'
  rw [h5, List.getElem?_map] at hi
  have hia : i < afs.length := by
    by_contra hc
    rw [List.getElem?_eq_none (by rw [List.length_zip]; omega)] at hi
    cases hi
  have hz : ∀ l : List ℝ, l.length = afs.length → (afs.zip l)[i]? = some (afs.getD i 0, l.getD i 0) := by
    intro l hll
    exact List.getElem?_zip_eq_some.2 ⟨by simp [hia], by simp [hll, hia]⟩
  rw [hz _ hl] at hi
  rw [h5', List.getElem?_map, hz _ hl']
  simp only [Option.map_some, Option.some.injEq, ite_eq_right_iff, reduceCtorEq, imp_false, not_or,
    not_lt] at hi ⊢
  refine ⟨by rw [List.length_append]; omega, fun hc => hi.2 ?_⟩
  rw [← streamClean_zero k _ _ (by rw [List.length_append]; omega)] at hc
  rw [← streamClean_zero k _ _ hi.1]
  exact streamClean_append k d e _ 0 hc

/-- **C109.** A single NaN anywhere in the stream makes the value of every factor NaN once there are
enough samples: `3 a` for `tdev_realtime`, `3 a` and at least `2 a + 1` for `oadev_realtime`, `4 a`
for `ohdev_realtime`. -/
theorem nan_realtime_spreads (k : RtName) (tau0 : ℝ) (p : ℕ) (afs : List ℕ) (ht : 0 < tau0)
    (ha : ∀ a ∈ afs, 0 < a) (d : List NV) (j : ℕ) (hj : d[j]? = some none) (sn : RtNv)
    (h : k.feed_nv (rt_cfg tau0 false p) (rt_init_nv afs false) d = .ok sn) (i a : ℕ)
    (hi : afs[i]? = some a) (hn : k.need a ≤ d.length) (hs : k.nanFn.span * a ≤ d.length) :
    sn.dev[i]? = some none := by
  obtain ⟨st, s1, _, h2, _, _, _, hl, h5⟩ := nan_realtime k tau0 p afs ht ha d _ (completes_fill d)
  rw [h] at h2
  cases h2
  have hia : i < afs.length := (List.getElem?_eq_some_iff.1 hi).1
  rw [h5, List.getElem?_map, List.getElem?_zip_eq_some (z := (a, st.dev.getD i 0)) |>.2
    ⟨hi, by simp [hl, hia]⟩]
  simp only [Option.map_some, Option.some.injEq, ite_eq_right_iff, reduceCtorEq, imp_false, not_or,
    not_lt]
  refine ⟨hn, fun hc => ?_⟩
  have hjl : j < d.length := (List.getElem?_eq_some_iff.1 hj).1
  exact hc j (reads_of_span k.nanFn _ a j (by cases k <;> simp [RtName.nanFn])
    (by cases k <;> simp [RtName.nanFn]) hjl hs) hj

/-- three samples make the value of factor 1 NaN, for ever -/
example (e : List NV) (sn' : RtNv)
    (h' : RtName.feed_nv .oadev (rt_cfg 1 false 4) (rt_init_nv [1] false)
      ([some 0, none, some 1] ++ e) = .ok sn') : sn'.dev[0]? = some none := by
  obtain ⟨st, sn, _, h, _⟩ := nan_realtime .oadev 1 4 [1] one_pos (by simp) [some 0, none, some 1] _
    (completes_fill _)
  exact nan_realtime_forever .oadev 1 4 [1] one_pos (by simp) _ e sn sn' h h' 0
    (nan_realtime_spreads .oadev 1 4 [1] one_pos (by simp) _ 1 rfl sn h 0 1 rfl
      (by simp [RtName.need]) (by simp [RtName.nanFn, NanFn.span]))

/-- **C109, automatic averaging factors.** The same for the automatically added factors: the entry of
a factor is NaN exactly if there are enough samples and one of the samples that were used since the
factor was added is NaN; otherwise it is that of the stream without the NaN.  The factors themselves
do not depend on the samples. -/
theorem nan_realtime_auto (k : RtName) (tau0 : ℝ) (p : ℕ) (hp : 0 < p) (a0 : ℕ) (ht : tau0 ≠ 0)
    (d : List NV) (x : List ℝ) (h : Completes d x) :
    ∃ K st sn, k.feed (rt_cfg tau0 true p) (rt_init [a0] true) x = .ok st ∧
      k.feed_nv (rt_cfg tau0 true p) (rt_init_nv [a0] true) d = .ok sn ∧
      (∀ i, i < K ↔ Spec.addTime p i ≤ d.length) ∧
      sn.x = d ∧ sn.afs = tab K (Spec.autoAf p) ∧ st.afs = sn.afs ∧
      st.dev.length = K ∧ sn.dev.length = K ∧
      ∀ i < K, sn.dev[i]? = (st.dev[i]?).map (fun v =>
        if d.length < k.need (Spec.autoAf p i) ∨
          StreamClean k (fun q => d[q]? ≠ some none) (Spec.autoAf p i) (Spec.addTime p i) d.length
        then some v else none) := by
  have hl := h.length_eq
  have h1 := feed_auto_state k tau0 p hp a0 ht (seq x) x.length
  have hx : tab x.length (seq x) = x := (eq_tab x 0).symm
  have h2 := feed_auto_state_nv k tau0 p hp a0 ht
    (fun i => nanUnless (d[i]? ≠ some none) (seq x i)) x.length
  rw [hx] at h1
  rw [← h.eq_tab] at h2
  refine ⟨autoCount p x.length, _, _, h1, h2, fun i => ?_, rfl, rfl, rfl, by simp [rtSt, rtMk],
    by simp [rtStNv, rtMkNv], fun i hi => ?_⟩
  · rw [hl]
    exact autoCount_spec p x.length i
  · unfold rtStNv rtMkNv rtSt rtMk
    simp only
    rw [tab_getElem?, if_pos hi, tab_getElem?, if_pos hi, entryNv_eq k tau0 _ _ _ _ _ (autoAf_pos p i)]
    have := (autoCount_spec p x.length i).1 hi
    simp only [Option.map_some, Option.some.injEq]
    rw [show Spec.addTime p i + (x.length - Spec.addTime p i) = x.length by omega, hl]
    unfold nanUnless
    congr

/-- **C109.** In automatic mode a factor of `oadev_realtime` does not use the second difference that
is complete when the factor is added.  With at most five factors per decade (the default is four) a
NaN in the very first sample therefore makes only the value of factor 1 NaN: every other factor
reports what it reports for any number in its place, whereas the batch function returns NaN for all
of them. -/
theorem nan_realtime_auto_first (tau0 : ℝ) (p : ℕ) (hp : 0 < p) (hp5 : p ≤ 5) (a0 : ℕ) (ht : tau0 ≠ 0)
    (v : ℝ) (x : List ℝ) :
    ∃ st sn, RtName.feed .oadev (rt_cfg tau0 true p) (rt_init [a0] true) (v :: x) = .ok st ∧
      RtName.feed_nv .oadev (rt_cfg tau0 true p) (rt_init_nv [a0] true) (none :: x.map some) = .ok sn ∧
      (2 ≤ x.length → sn.dev[0]? = some none) ∧
      ∀ i, 0 < i → sn.dev[i]? = (st.dev[i]?).map some := by
  have hc : Completes (none :: x.map some) (v :: x) := by
    unfold Completes
    rw [List.forall₂_cons]
    refine ⟨Or.inl rfl, ?_⟩
    rw [List.forall₂_map_left_iff, List.forall₂_same]
    exact fun v _ => Or.inr rfl
  obtain ⟨K, st, sn, h1, h2, hK, _, _, _, hl1, hl2, h3⟩ := nan_realtime_auto .oadev tau0 p hp a0 ht _ _ hc
  refine ⟨st, sn, h1, h2, fun hx => ?_, fun i hi => ?_⟩
  · have hK0 : 0 < K := (hK 0).2 (Nat.zero_le _)
    rw [h3 0 hK0, List.getElem?_eq_getElem (by omega)]
    simp only [Option.map_some, Option.some.injEq, ite_eq_right_iff, reduceCtorEq, imp_false, not_or,
      not_lt, RtName.need, autoAf_zero]
    refine ⟨by simp; omega, fun hcl => ?_⟩
    exact hcl 2 (by simp [Spec.addTime]) (by simp; omega) 0 ⟨by omega, by simp⟩ (by simp)
  · rcases Nat.lt_or_ge i K with hiK | hiK
    · rw [h3 i hiK, List.getElem?_eq_getElem (by omega)]
      simp only [Option.map_some, Option.some.injEq]
      rw [if_pos]
      right
      intro t ht1 ht2 q hq
      obtain ⟨i', rfl⟩ : ∃ i', i = i' + 1 := ⟨i - 1, by omega⟩
      rw [addTime_eq p (autoAf_strictMono p hp hp5)] at ht1
      have hq0 : 0 < q := by
        obtain ⟨_, hq⟩ := hq
        omega
      obtain ⟨q', rfl⟩ : ∃ q', q = q' + 1 := ⟨q - 1, by omega⟩
      rw [List.getElem?_cons_succ, List.getElem?_map]
      cases x[q']? <;> simp
    · rw [List.getElem?_eq_none (by omega), List.getElem?_eq_none (by omega)]
      rfl

example := nan_realtime_auto .tdev 2 4 (by norm_num) 1 two_ne_zero [some 0, none, some 5, some 2] _
  (completes_fill _)

example := nan_realtime_auto_first 1 4 (by norm_num) (by norm_num) 1 one_ne_zero 7 [1, 2, 4, 3, 5, 6]

/-! ## frequency data -/

/-- running sums with NaN -/
noncomputable def Spec.runSumsNv (s : NV) : List NV → List NV
  | [] => []
  | f :: fs => nv2 (· + ·) s f :: runSumsNv (nv2 (· + ·) s f) fs

/-- the phase samples `0, f₁, f₁+f₂, …` of the frequency samples `f₁, f₂, …` -/
noncomputable def Spec.integratedNv (fs : List NV) : List NV :=
  if fs = [] then [] else some 0 :: runSumsNv (some 0) fs

theorem runSumsNv_length (s : NV) (fs : List NV) : (runSumsNv s fs).length = fs.length := by
  induction fs generalizing s with
  | nil => rfl
  | cons f fs ih => simp [runSumsNv, ih]

theorem runSumsNv_none (s : NV) (fs : List NV) (i j : ℕ) (hi : fs[i]? = some none) (hij : i ≤ j)
    (hj : j < fs.length) : (runSumsNv s fs)[j]? = some none := by
  induction fs generalizing s i j with
  | nil => simp at hj
  | cons f fs ih =>
    have hnone : ∀ fs : List NV, ∀ j < fs.length, (runSumsNv none fs)[j]? = some none := by
      intro fs
      induction fs with
      | nil => intro j hj; simp at hj
      | cons f fs ih =>
        intro j hj
        have e : nv2 (· + ·) none f = none := by cases f <;> rfl
        cases j with
        | zero => simp [runSumsNv, e]
        | succ j =>
          simp only [runSumsNv, e, List.getElem?_cons_succ]
          exact ih j (by simpa using hj)
    cases i with
    | zero =>
      simp only [List.getElem?_cons_zero, Option.some.injEq] at hi
      subst hi
      have e : nv2 (· + ·) s none = none := by cases s <;> rfl
      cases j with
      | zero => simp [runSumsNv, e]
      | succ j =>
        simp only [runSumsNv, e, List.getElem?_cons_succ]
        exact hnone fs j (by simpa using hj)
    | succ i =>
      obtain ⟨j', rfl⟩ : ∃ j', j = j' + 1 := ⟨j - 1, by omega⟩
      simp only [runSumsNv, List.getElem?_cons_succ] at hi ⊢
      exact ih _ i j' hi (by omega) (by simpa using hj)

theorem update_af_x_nv (c : RtCfg) (st st' : RtNv) (h : rt_auto_nv c st = .ok st') : st'.x = st.x := by
  unfold rt_auto_nv update_af_nv at h
  split_ifs at h
  · simp only [bind_ok_iff] at h
    obtain ⟨t, -, h⟩ := h
    cases h
    split_ifs <;> rfl
  · cases h
    rfl

/-- `add_phase` appends its argument to the stored samples -/
theorem add_phase_x_nv (k : RtName) (c : RtCfg) (st st' : RtNv) (v : NV)
    (h : k.add_phase_nv c st v = .ok st') : st'.x = st.x ++ [v] := by
  cases k
  · simp only [RtName.add_phase_nv, oadev_add_phase_nv, bind_ok_iff] at h
    obtain ⟨s1, h1, h2⟩ := h
    rw [update_af_x_nv c _ _ h2]
    refine forRange_pres (fun s => s.x = st.x ++ [v]) _ _ ?_ _ _ rfl h1
    intro s i s' hs hb
    rw [bind_ok_iff] at hb
    obtain ⟨af, -, hb⟩ := hb
    split_ifs at hb
    · simp only [oadev_update_S_nv, bind_ok_iff] at hb
      obtain ⟨_, -, _, -, _, -, _, -, _, -, _, -, _, -, _, -, hb⟩ := hb
      cases hb
      exact hs
    · cases hb
      exact hs
  · simp only [RtName.add_phase_nv, ohdev_add_phase_nv, bind_ok_iff] at h
    obtain ⟨s1, h1, h2⟩ := h
    rw [update_af_x_nv c _ _ h2]
    refine forRange_pres (fun s => s.x = st.x ++ [v]) _ _ ?_ _ _ rfl h1
    intro s i s' hs hb
    rw [bind_ok_iff] at hb
    obtain ⟨af, -, hb⟩ := hb
    split_ifs at hb
    · simp only [ohdev_update_S_nv, bind_ok_iff] at hb
      obtain ⟨_, -, _, -, _, -, _, -, _, -, _, -, _, -, _, -, _, -, hb⟩ := hb
      cases hb
      exact hs
    · cases hb
      exact hs
  · simp only [RtName.add_phase_nv, tdev_add_phase_nv, bind_ok_iff] at h
    obtain ⟨s1, h1, h2⟩ := h
    rw [update_af_x_nv c _ _ h2]
    refine forRange_pres (fun s => s.x = st.x ++ [v]) _ _ ?_ _ _ rfl h1
    have hdev : ∀ (s : RtNv) (i : ℕ) (s' : RtNv), tdev_update_dev_nv s i = .ok s' → s'.x = s.x := by
      intro s i s' hb
      simp only [tdev_update_dev_nv, bind_ok_iff] at hb
      obtain ⟨_, -, _, -, _, -, _, -, _, -, hb⟩ := hb
      cases hb
      rfl
    intro s i s' hs hb
    rw [bind_ok_iff] at hb
    obtain ⟨af, -, hb⟩ := hb
    split_ifs at hb
    · simp only [tdev_update_S_nv, bind_ok_iff] at hb
      obtain ⟨_, -, _, -, _, -, _, -, _, -, _, -, _, -, _, -, _, -, _, -, hb⟩ := hb
      rw [hdev _ _ _ hb]
      exact hs
    · simp only [tdev_update_S3n_nv, bind_ok_iff] at hb
      obtain ⟨_, -, _, -, _, -, _, -, _, -, _, -, hb⟩ := hb
      split_ifs at hb
      · simp only [tdev_S3n_last_nv, bind_ok_iff] at hb
        obtain ⟨_, -, _, -, hb⟩ := hb
        rw [hdev _ _ _ hb]
        exact hs
      · cases hb
        exact hs
    · cases hb
      exact hs

theorem pyGet_last_nv (l : List NV) (v : NV) : pyGet (l ++ [v]) (-1) = .ok v := by
  unfold pyGet
  simp

theorem feed_frequency_from_nv (k : RtName) (c : RtCfg) (fs : List NV) (st : RtNv) (l : List NV) (s : NV)
    (hx : st.x = l ++ [s]) : k.feed_frequency_nv c st fs = k.feed_nv c st (Spec.runSumsNv s fs) := by
  induction fs generalizing st l s with
  | nil => rfl
  | cons f fs ih =>
    unfold RtName.feed_frequency_nv RtName.feed_nv Spec.runSumsNv
    rw [List.foldlM_cons, List.foldlM_cons]
    have h1 : k.add_frequency_nv c st f = k.add_phase_nv c st (nv2 (· + ·) s f) := by
      unfold RtName.add_frequency_nv
      rw [if_neg (by rw [hx]; simp)]
      simp only [ok_bind]
      rw [hx, pyGet_last_nv, ok_bind]
    rw [h1]
    cases h : k.add_phase_nv c st (nv2 (· + ·) s f) with
    | error e => rfl
    | ok st' =>
      simp only [ok_bind]
      exact ih st' st.x (nv2 (· + ·) s f) (add_phase_x_nv k c st st' _ h)

/-- **C109.** From a fresh object, feeding the frequencies `f₁, f₂, …` is feeding the
phases `0, f₁, f₁+f₂, …`, for every class, every configuration (also automatic averaging
factors) and whatever happens (also exceptions). -/
theorem feed_frequency_eq_nv (k : RtName) (c : RtCfg) (afs : List ℕ) (b : Bool) (fs : List NV) :
    k.feed_frequency_nv c (rt_init_nv afs b) fs = k.feed_nv c (rt_init_nv afs b) (Spec.integratedNv fs) := by
  cases fs with
  | nil => rfl
  | cons f fs =>
    unfold Spec.integratedNv
    rw [if_neg (by simp)]
    unfold RtName.feed_nv
    rw [List.foldlM_cons]
    unfold RtName.feed_frequency_nv
    rw [List.foldlM_cons]
    unfold RtName.add_frequency_nv
    rw [if_pos (show (rt_init_nv afs b).x = [] from rfl)]
    cases h : k.add_phase_nv c (rt_init_nv afs b) (some 0) with
    | error e => rfl
    | ok st =>
      have hx := add_phase_x_nv k c _ _ _ h
      simp only [ok_bind]
      rw [hx, pyGet_last_nv]
      simp only [ok_bind]
      have := feed_frequency_from_nv k c (f :: fs) st (rt_init_nv afs b).x (some 0) hx
      unfold RtName.feed_frequency_nv RtName.feed_nv at this
      rw [← this, List.foldlM_cons]
      unfold RtName.add_frequency_nv
      rw [if_neg (by rw [hx]; simp)]
      simp only [ok_bind]
      rw [hx, pyGet_last_nv, ok_bind]


/-- **C109: a NaN frequency sample.** Every phase sample after it is NaN, so that the value of every
factor is NaN as soon as there are enough samples (`need`), and stays NaN. -/
theorem nan_realtime_freq (k : RtName) (tau0 : ℝ) (p : ℕ) (afs : List ℕ) (ht : 0 < tau0)
    (ha : ∀ a ∈ afs, 0 < a) (fs : List NV) (j : ℕ) (hj : fs[j]? = some none) :
    ∃ sn, k.feed_frequency_nv (rt_cfg tau0 false p) (rt_init_nv afs false) fs = .ok sn ∧
      sn.afs = afs ∧ sn.x.length = fs.length + 1 ∧
      (∀ i, j < i → i ≤ fs.length → sn.x[i]? = some none) ∧
      sn.dev = afs.map (fun a => if fs.length + 1 < k.need a then some 0 else none) := by
  have hjl : j < fs.length := (List.getElem?_eq_some_iff.1 hj).1
  have hne : fs ≠ [] := by rintro rfl; simp at hjl
  have hint : integratedNv fs = some 0 :: runSumsNv (some 0) fs := if_neg hne
  have hlen : (integratedNv fs).length = fs.length + 1 := by rw [hint]; simp [runSumsNv_length]
  obtain ⟨st, sn, h1, h2, hx, h3, _, hl, h5⟩ := nan_realtime k tau0 p afs ht ha (integratedNv fs) _
    (completes_fill _)
  have hnone : ∀ i, j < i → i ≤ fs.length → (integratedNv fs)[i]? = some none := by
    intro i h1 h2
    obtain ⟨i', rfl⟩ : ∃ i', i = i' + 1 := ⟨i - 1, by omega⟩
    rw [hint, List.getElem?_cons_succ]
    exact runSumsNv_none _ _ j i' hj (by omega) (by omega)
  refine ⟨sn, (feed_frequency_eq_nv k _ afs false fs).trans h2, h3, by rw [hx, hlen],
    by rw [hx]; exact hnone, ?_⟩
  obtain ⟨st', h1', _, _, hd⟩ := realtime_eq k tau0 p afs ht ha
    ((integratedNv fs).map (fun v => v.getD 0))
  rw [h1] at h1'
  cases h1'
  rw [h5, hd, List.length_map, hlen]
  apply List.ext_getElem (by simp)
  intro i hi1 hi2
  simp only [List.length_map] at hi2
  simp only [List.getElem_map, List.getElem_zip]
  by_cases hn : fs.length + 1 < k.need afs[i]
  · rw [if_pos (Or.inl hn), if_pos hn, if_pos hn]
  · rw [if_neg hn, if_neg hn, if_neg]
    rintro (h | h)
    · exact hn h
    · have ha0 := ha _ (List.getElem_mem hi2)
      refine h fs.length ?_ (hnone _ hjl le_rfl)
      rw [hlen]
      cases k <;> simp only [RtName.nanFn, Reads, RtName.need] at hn ⊢
      · exact ⟨fs.length - 2 * afs[i], by omega, by omega⟩
      · exact ⟨fs.length - 3 * afs[i], by omega, by omega⟩
      · omega

/-- three frequency samples, the second NaN: the phases are `0, 1, NaN, NaN`, the value of factor 1 is
NaN and factor 2 has no value yet -/
example : ∃ sn, RtName.feed_frequency_nv .oadev (rt_cfg 1 false 4) (rt_init_nv [1, 2] false)
    [some 1, none, some 2] = .ok sn ∧ sn.dev = [none, some 0] := by
  obtain ⟨sn, h, _, _, _, h2⟩ := nan_realtime_freq .oadev 1 4 [1, 2] one_pos (by simp)
    [some 1, none, some 2] 1 rfl
  refine ⟨sn, h, ?_⟩
  rw [h2]
  simp [RtName.need]

/-! ## the method `mdev` -/

/-- **C109: `tdev_realtime.mdev()`** is NaN exactly where the time deviation is NaN; elsewhere it is
the modified Allan deviation of the stream without the NaN. -/
theorem nan_realtime_mdev (tau0 : ℝ) (p : ℕ) (afs : List ℕ) (ht : 0 < tau0)
    (ha : ∀ a ∈ afs, 0 < a) (d : List NV) (x : List ℝ) (h : Completes d x) :
    ∃ sn, RtName.feed_nv .tdev (rt_cfg tau0 false p) (rt_init_nv afs false) d = .ok sn ∧
      tdev_mdev_nv (rt_cfg tau0 false p) sn = .ok (afs.map (fun (a : ℕ) =>
        if d.length < 3 * a then some 0
        else if ∀ i : ℕ, d[i]? ≠ some none then some (Spec.mdev (seq x) x.length a (a * tau0))
        else none)) := by
  obtain ⟨st, sn, h1, h2, _, h3, _, hl, h5⟩ := nan_realtime .tdev tau0 p afs ht ha d x h
  obtain ⟨st', h1', hd, _⟩ := tdev_realtime_eq tau0 p afs ht ha x
  rw [h1] at h1'
  cases h1'
  refine ⟨sn, h2, ?_⟩
  have hlx := h.length_eq
  set A : ℕ → ℕ := fun i => afs.getD i 0 with hA
  have hafs : afs = tab afs.length A := eq_tab afs 0
  have e : ∀ g : ℕ → NV, afs.map g = tab afs.length (fun i => g (A i)) := by
    intro g
    conv_lhs => rw [eq_tab afs 0, map_tab]
  have hcl : ∀ a, Clean (RtName.nanFn .tdev) d a ↔ ∀ i : ℕ, d[i]? ≠ some none := by
    intro a
    unfold Clean
    simp only [RtName.nanFn, Reads]
    constructor
    · intro H i hi
      exact H i (List.getElem?_eq_some_iff.1 hi).1 hi
    · intro H i _
      exact H i
  have hdev : sn.dev = afs.map (fun (a : ℕ) => if d.length < 3 * a then some 0
      else if ∀ i : ℕ, d[i]? ≠ some none then some (Spec.tdev (seq x) x.length a (a * tau0)) else none) := by
    rw [h5, hd]
    apply List.ext_getElem (by simp)
    intro i hi1 hi2
    simp only [List.getElem_map, List.getElem_zip, RtName.need, hcl, ← hlx]
    have hi3 : i < afs.length := by simpa using hi2
    by_cases c1 : d.length < 3 * afs[i]
    · simp only [c1, true_or, if_true]
    · simp only [c1, false_or, if_false]
  unfold tdev_mdev_nv
  rw [h3, hdev, e, e]
  set T : ℕ → NV := fun i => if d.length < 3 * A i then some 0
      else if ∀ i : ℕ, d[i]? ≠ some none then some (Spec.tdev (seq x) x.length (A i) (A i * tau0))
      else none with hT
  set M : ℕ → NV := fun i => if d.length < 3 * A i then some 0
      else if ∀ i : ℕ, d[i]? ≠ some none then some (Spec.mdev (seq x) x.length (A i) (A i * tau0))
      else none with hM
  have hi0 : ∀ i < afs.length, nvScale (√3 / (A i * tau0)) (T i) = M i := by
    intro i hi
    have ha0 : (0 : ℝ) < A i := by
      exact_mod_cast getD_pos ha i hi
    simp only [hT, hM]
    split_ifs
    · simp [nvScale]
    · unfold nvScale Spec.tdev
      simp only [Option.map_some, Option.some.injEq]
      field_simp
    · rfl
  rw [forRange_eq (fun j => tab afs.length (fun i => if i < j then M i else T i)) (by simp)]
  · congr 1
    exact tab_congr (fun i hi => if_pos hi)
  · intro i hi
    have ha0 : (0 : ℝ) < A i := by
      exact_mod_cast getD_pos ha i hi
    rw [show pyGet afs (i : ℤ) = .ok (A i) by
      conv_lhs => rw [hafs]
      exact pyGet_tab_nat _ _ _ hi]
    simp only [ok_bind, pyGet_tab_nat _ _ _ hi, lt_irrefl, if_false]
    rw [pyDiv_ne (by unfold rt_cfg; positivity)]
    simp only [ok_bind]
    rw [pySet_tab _ _ _ hi]
    congr 1
    apply tab_congr
    intro q hq
    by_cases hqi : q = i
    · subst hqi
      rw [Function.update_self, if_pos (by omega)]
      exact hi0 q hi
    · rw [Function.update_of_ne hqi]
      by_cases h5 : q < i
      · rw [if_pos h5, if_pos (by omega)]
      · rw [if_neg h5, if_neg (by omega)]

example := nan_realtime_mdev 2 4 [1, 3] (by norm_num) (by simp) [some 0, none, some 5, some 2] _
  (completes_fill _)

end AT
