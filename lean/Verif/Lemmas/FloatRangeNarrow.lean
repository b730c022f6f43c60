import Verif.Lemmas.FloatRangeTot
import Verif.Lemmas.FloatRangeFreq

/-!
# No overflow and no underflow in `mtotdev` and `ttotdev` of frequency data

As `Lemmas/FloatRangeTot`, for phases computed from frequencies.
-/

namespace AT

open Spec

variable {fl r : ℝ → ℝ} {sum sum' : List ℝ → ℝ}

theorem RangePair.freq_narrow (P : RangePair fl r sum sum') {y : List ℝ} {rate : ℝ} (hy : ∀ v ∈ y, Grid (-116) 64 v)
    (hN : y.length ≤ 2 ^ 22) (hr : Mag (-10) 10 rate) :
    Same (Arr (-253) 170) (frequency2phase_fl fl sum y rate) (frequency2phase_fl r sum' y rate) := by
  unfold frequency2phase_fl
  split_ifs
  · exact Same.error _
  · exact Same.error _
  have ha : Arr (-116) 64 y := ⟨hN.trans (by norm_num), hy⟩
  obtain ⟨e1, h1⟩ := P.m (Mag.one.div hr) (by norm_num) (by norm_num)
  have h1' := (Mag.one.div hr).round_grid (P.binary _)
  obtain ⟨e2, h2⟩ := P.s ha (by norm_num) (by norm_num)
  have n1 : Mag 0 22 (y.length : ℝ) := Mag.natCast hN
  obtain ⟨e3, _⟩ := P.m (h2.mag.div n1) (by norm_num) (by norm_num)
  have h3 := (h2.mag.div n1).round_grid (P.binary _)
  rw [e1, e2, e3]
  dsimp only
  set mean := r (sum' y / y.length)
  obtain ⟨e4, h4⟩ := map_agree (g' := -190) (b' := 112) (f := fun v => fl (v - mean)) (f' := fun v => r (v - mean)) ha
    (fun u hu => P.g (((hu.mono (g' := -190) (b' := 111) (by norm_num) (by norm_num)).sub
      (h3.mono (by norm_num) (by norm_num))).mono (by norm_num) (by norm_num)) (by norm_num) (by norm_num))
  rw [e4]
  obtain ⟨e5, h5⟩ := P.cumsum h4 (by norm_num) (by norm_num)
  rw [e5]
  obtain ⟨e6, h6⟩ := map_agree (g' := -253) (b' := 170) (f := fun v => fl (v * r (1 / rate)))
    (f' := fun v => r (v * r (1 / rate))) h5
    (fun u hu => P.g ((hu.mul h1').mono (by norm_num) (by norm_num)) (by norm_num) (by norm_num))
  rw [e6]
  refine Same.ok rfl ⟨?_, fun v hv => ?_⟩
  · have hlen : ∀ l : List ℝ, (npCumsum_fl r l).length = l.length := by
      intro l
      cases l with
      | nil => rfl
      | cons a l => simp [npCumsum_fl, cumsum_fl_length]
    rw [List.length_cons, List.length_map, hlen, List.length_map]
    omega
  · rcases List.mem_cons.1 hv with rfl | hv
    · exact Grid.zero _ _
    · exact h6.2 v hv

theorem RangePair.calc_mtotdev_narrow (P : RangePair fl r sum sum') {phase : List ℝ} {rate : ℝ}
    (hp : Arr (-253) 170 phase) (hN : phase.length ≤ 2 ^ 23) (hr : Mag (-10) 10 rate) (m : ℕ) (hm : m ≤ 2 ^ 23) :
    Same (fun row => Mag (-511) 430 row.1 ∧ Mag 0 48 (row.2.2 : ℝ)) (calc_mtotdev_phase_fl fl sum phase rate m)
      (calc_mtotdev_phase_fl r sum' phase rate m) := by
  unfold calc_mtotdev_phase_fl
  dsimp only
  obtain ⟨et, ht⟩ := P.m (Mag.one.div hr) (by norm_num) (by norm_num)
  replace ht : Mag (-10) 10 (r (1 / rate)) := ht.mono (by norm_num) (by norm_num)
  simp only [et]
  generalize hK : (phase.length : ℤ) - 3 * m + 1 = K
  have hK' : K.toNat ≤ 2 ^ 24 := by omega
  refine (forRange_same (fun i (st : ℝ × ℕ) => PAcc (-922) 790 i st.1) (PAcc.zero _ _) fun i hi st hst => ?_).bind
    fun st hst => ?_
  · have hxs := hp.slice (i : ℕ) (i + 3 * m : ℕ)
    have hl := (slice_len_le phase (i : ℕ) (i + 3 * m : ℕ)).trans hN
    generalize slice phase (i : ℕ) (i + 3 * m : ℕ) = xs at hxs hl ⊢
    refine (pyAssert_same _).bind fun _ _ => ?_
    obtain ⟨es, hs⟩ := P.tot_slope (L := 23) (s := -10) (t := 35) hxs hl m hm
      (scale := fun d => fl (d * r (1 / rate))) (scale' := fun d => r (d * r (1 / rate)))
      (fun d hd => by
        obtain ⟨e, h⟩ := P.m (hd.mul ht) (by norm_num) (by norm_num)
        exact ⟨e, h.mono (by norm_num) (by norm_num)⟩)
      (by norm_num) (by norm_num) (by norm_num) (by norm_num) (by norm_num)
    rw [es]
    generalize tot_slope_fl r sum' (fun d => r (d * r (1 / rate))) xs m = slope at hs
    obtain ⟨ex, hx⟩ := tot_extend (g' := -425) (b' := 280) hxs (hl.trans (by norm_num))
      (f := fun v i => fl (v - fl (fl (slope * (i : ℕ)) * r (1 / rate))))
      (f' := fun v i => r (v - r (r (slope * (i : ℕ)) * r (1 / rate))))
      (fun v i hv hi => by
        obtain ⟨e1, h1⟩ := P.m (hs.mul (Mag.natCast (b := 23) (hi.le.trans hl))) (by norm_num) (by norm_num)
        have h2 := h1.mul ht
        obtain ⟨e2, _⟩ := P.m h2 (by norm_num) (by norm_num)
        have h3 := h2.round_grid (P.binary _)
        obtain ⟨e4, h4⟩ := P.g ((hv.mono (g' := -425) (b' := 279) (by norm_num) (by norm_num)).sub
          (h3.mono (by norm_num) (by norm_num))) (by norm_num) (by norm_num)
        rw [e1, e2, e4]
        exact ⟨rfl, h4⟩)
    rw [ex]
    refine (pyAssert_same _).bind fun _ _ => ?_
    refine (P.tot_inner (L := 23) hx m hm (by norm_num) (by norm_num) (by norm_num)).bind fun q hq => ?_
    have h6 : Mag 0 26 (6 * (m : ℝ)) := by
      have := Mag.nat_mul (k := 3) (c := 6) (by norm_num) hm
      simpa using this
    have hq' := hq.mag (k := 26) (by omega)
    obtain ⟨e1, h1⟩ := P.m h6 (by norm_num) (by norm_num)
    obtain ⟨e2, h2⟩ := P.m (Mag.one.div h1) (by norm_num) (by norm_num)
    obtain ⟨e3, h3⟩ := P.m (h2.mul hq') (by norm_num) (by norm_num)
    have hnn : 0 ≤ r (r (1 / r (6 * (m : ℝ))) * q) :=
      P.nonneg (mul_nonneg (P.nonneg (div_nonneg zero_le_one (P.nonneg (by positivity)))) hq.nonneg)
    obtain ⟨e4, h4⟩ := P.pacc hst (h3.mono (by norm_num) (by norm_num)) hnn (by omega) (by norm_num) (by norm_num)
    simp only [e1, e2, e3, e4]
    exact Same.ok rfl h4
  · obtain ⟨dev, n⟩ := st
    dsimp only at hst ⊢
    refine (pyAssert_same _).bind fun _ hn => ?_
    have hn' : n ≤ 2 ^ 24 := by omega
    have hd := hst.mag hK'
    have k1 : Mag 0 24 (K : ℝ) := by
      rw [← hn, Int.cast_natCast]; exact Mag.natCast hn'
    have m1 := Mag.natCast hm
    obtain ⟨e1, h1⟩ := P.m (m1.mul ht) (by norm_num) (by norm_num)
    obtain ⟨e2, h2⟩ := P.m (h1.mul h1) (by norm_num) (by norm_num)
    obtain ⟨e3, h3⟩ := P.m (Mag.two.mul h2) (by norm_num) (by norm_num)
    obtain ⟨e4, h4⟩ := P.m (h3.mul k1) (by norm_num) (by norm_num)
    obtain ⟨e5, h5⟩ := P.m (hd.mul Mag.one) (by norm_num) (by norm_num)
    obtain ⟨e6, h6⟩ := P.m (h5.div h4) (by norm_num) (by norm_num)
    obtain ⟨e7, h7⟩ := P.m (Mag.sqrt (a := -511) (b := 430) (h6.mono (by norm_num) (by norm_num)))
      (by norm_num) (by norm_num)
    obtain ⟨e8, h8⟩ := P.m (Mag.sqrt (a := 0) (b := 24) ((Mag.natCast hn').mono (by norm_num) (by norm_num)))
      (by norm_num) (by norm_num)
    obtain ⟨e9, h9⟩ := P.m (h7.div h8) (by norm_num) (by norm_num)
    rw [e1, e2, e3, e4, e5, e6, e7, e8, e9]
    refine Same.ok rfl ⟨h7, ?_⟩
    rw [Int.cast_natCast]
    exact (Mag.natCast hn').mono (by norm_num) (by norm_num)

theorem RangePair.mtotdev_narrow (P : RangePair fl r sum sum') (log10grid : List ℝ) {x : List ℝ} {rate : ℝ}
    {taus : TausArg} (hx : Arr (-253) 170 x) (hN : x.length ≤ 2 ^ 23) (hr : Mag (-10) 10 rate)
    (ht : SafeTaus rate taus) (hR : RangeTaus rate taus) :
    Same (fun o => (∀ t ∈ o.taus, Mag (-40) 87 t) ∧ (∀ d ∈ o.devs, Mag (-511) 430 d) ∧
      ∀ k : ℤ, k ∈ o.ns → Mag 0 48 (k : ℝ)) (mtotdev_fl fl sum log10grid x rate taus)
      (mtotdev_fl r sum' log10grid x rate taus) := by
  unfold mtotdev_fl
  rw [P.third hx.1]
  refine (P.tau log10grid x false _ hx.1 (hr.mono (by norm_num) (by norm_num)) ht hR).bind fun o ho => ?_
  obtain ⟨d, ms, ts⟩ := o
  obtain ⟨rfl, h2, h3⟩ := ho
  exact runTaus_same (D := Mag (-511) 430) (n := fun k => Mag 0 48 (k : ℝ)) h3
    fun i m hm => P.calc_mtotdev_narrow hx hN hr m ((h2 m hm).le.trans hN)

theorem RangePair.mtotdev_freq (P : RangePair fl r sum sum') (log10grid : List ℝ) {y : List ℝ} {rate : ℝ}
    {taus : TausArg} (hy : ∀ v ∈ y, Grid (-116) 64 v) (hN : y.length < 2 ^ 22) (hr : Mag (-10) 10 rate)
    (ht : SafeTaus rate taus) (hR : RangeTaus rate taus) :
    Same (fun o => (∀ t ∈ o.taus, Mag (-40) 87 t) ∧ (∀ d ∈ o.devs, Mag (-511) 430 d) ∧
      ∀ k : ℤ, k ∈ o.ns → Mag 0 48 (k : ℝ)) (mtotdev_freq_fl fl sum log10grid y rate taus)
      (mtotdev_freq_fl r sum' log10grid y rate taus) := by
  unfold mtotdev_freq_fl
  have h := P.freq_narrow hy hN.le hr
  refine (Same.bind (R := fun x => Arr (-253) 170 x ∧ x.length = y.length + 1)
    ⟨h.1, fun x hx => ⟨h.2 x hx, frequency2phase_fl_length hx⟩⟩ fun x hx => ?_)
  exact P.mtotdev_narrow log10grid hx.1 (by have := hx.2; omega) hr ht hR

theorem RangePair.ttotdev_freq (P : RangePair fl r sum sum') (log10grid : List ℝ) {y : List ℝ} {rate : ℝ}
    {taus : TausArg} (hy : ∀ v ∈ y, Grid (-116) 64 v) (hN : y.length < 2 ^ 22) (hr : Mag (-10) 10 rate)
    (ht : SafeTaus rate taus) (hR : RangeTaus rate taus) :
    ttotdev_freq_fl fl sum log10grid y rate taus = ttotdev_freq_fl r sum' log10grid y rate taus :=
  ((P.mtotdev_freq log10grid hy hN hr ht hR).bind fun _ ho => P.scale_tdev ho.1 ho.2.1 ho.2.2).1

end AT
