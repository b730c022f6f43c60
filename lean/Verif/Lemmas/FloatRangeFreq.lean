import Verif.Lemmas.FloatRangeMore
import Verif.Model.FloatMoreFreq

/-!
# The other rounded deviations stay in the normal range, for frequency data
-/

namespace AT

open Spec

variable {fl r : ℝ → ℝ} {sum sum' : List ℝ → ℝ}

theorem frequency2phase_fl_length {y x : List ℝ} {rate : ℝ} (h : frequency2phase_fl r sum y rate = .ok x) :
    x.length = y.length + 1 := by
  unfold frequency2phase_fl at h
  split_ifs at h
  have hlen : ∀ l : List ℝ, (npCumsum_fl r l).length = l.length := by
    intro l
    cases l with
    | nil => rfl
    | cons a l => simp [npCumsum_fl, cumsum_fl_length]
  cases h
  simp [hlen]

/-- the phase of frequency data, with its length -/
theorem RangePair.freq_len (P : RangePair fl r sum sum') {y : List ℝ} {rate : ℝ} (hy : ∀ v ∈ y, Grid (-152) 100 v)
    (hN : y.length ≤ 2 ^ 46) (hr : Mag (-40) 40 rate) :
    Same (fun x => Arr (-343) 240 x ∧ x.length = y.length + 1) (frequency2phase_fl fl sum y rate)
      (frequency2phase_fl r sum' y rate) :=
  ⟨(P.freq hy hN hr).1, fun x hx => ⟨(P.freq hy hN hr).2 x hx, frequency2phase_fl_length hx⟩⟩

/-! ## `pdev` -/

theorem RangePair.calc_pdev_wide (P : RangePair fl r sum sum') {phase : List ℝ} {rate : ℝ}
    (hp : Arr (-343) 240 phase) (hl : phase.length ≤ 2 ^ 33) (hr : Mag (-40) 40 rate) (m : ℕ) (hm : m ≤ 2 ^ 47) :
    Same (fun _ => True) (calc_pdev_phase_fl fl sum phase rate m) (calc_pdev_phase_fl r sum' phase rate m) := by
  unfold calc_pdev_phase_fl
  by_cases h1 : m = 1
  · simp only [if_pos h1]
    refine sliceStep_bind hp _ _ fun d2 h2 => ?_
    refine sliceStep_bind hp _ _ fun d1 h1 => ?_
    refine sliceStep_bind hp _ _ fun d0 h0 => ?_
    generalize hn : (if min (min d0.length d1.length) d2.length = 0 then 1
      else min (min d0.length d1.length) d2.length) = n
    have hn' : n ≤ 2 ^ 47 := by
      have := h0.len_le
      split_ifs at hn <;> omega
    obtain ⟨e, h1'⟩ := P.vscale2 (h1.sliceTo n)  (by norm_num) (by norm_num)
    rw [e]
    refine P.vsub ((h2.sliceTo n).mono le_rfl (by norm_num)) h1' (by norm_num) (by norm_num) fun a ha => ?_
    refine P.vadd ha ((h0.sliceTo n).mono le_rfl (by norm_num)) (by norm_num) (by norm_num) fun v hv => ?_
    refine P.vmul hv hv (by norm_num) (by norm_num) fun sq hsq => ?_
    obtain ⟨es, hs⟩ := P.s hsq (by norm_num) (by norm_num)
    obtain ⟨t1, t2⟩ := P.adev_tail (hs.mono (by norm_num) (by norm_num)) n m hn' hm hr
    rw [es, t2, t1]
    exact Same.ok rfl trivial
  · simp only [if_neg h1]
    generalize hM : (phase.length : ℤ) - 2 * m = M
    by_cases hM1 : M < 1
    · rw [if_pos hM1, if_pos hM1]; exact Same.ok rfl trivial
    rw [if_neg hM1, if_neg hM1]
    have hM' : |M| ≤ 2 ^ 33 := by rw [abs_le]; omega
    have hM2 : M.toNat ≤ 2 ^ 33 := by omega
    have hm2 : m ≤ 2 ^ 32 := by omega
    obtain ⟨ew, hw⟩ := P.pdev_weights m hm
    refine (forRange_same (Acc (-688) 674) (Acc.zero _ _) fun i hi s hs => ?_).bind fun s hs => ?_
    · rw [ew]
      refine P.vsub (hp.slice _ _) (hp.slice _ _) (by norm_num) (by norm_num) fun dx hdx => ?_
      refine P.vmul hw hdx (by norm_num) (by norm_num) fun p hpp => ?_
      obtain ⟨e1, h1⟩ := P.pySum hpp (by norm_num) (by norm_num)
      obtain ⟨e2, h2⟩ := P.g (h1.mul h1) (by norm_num) (by norm_num)
      obtain ⟨e3, h3⟩ := P.acc hs (h2.mono (by norm_num) (by norm_num)) (by omega) (by norm_num) (by norm_num)
      rw [e1, e2, e3]
      exact Same.ok rfl h3
    · have s1 := (hs.grid hM2).mag
      have m1 := Mag.natCast hm2
      have M1 : Mag 0 33 (M : ℝ) := (Grid.intCast hM').mag
      have c72 : Mag 0 7 (72 : ℝ) := Or.inr (by norm_num)
      have m4 : Mag 0 128 ((m : ℝ) ^ 4) := by
        have := (m1.mul m1).mul (m1.mul m1)
        rw [show (m : ℝ) ^ 4 = m * m * (m * m) by ring]
        exact this.mono (by norm_num) (by norm_num)
      obtain ⟨f1, g1⟩ := P.m (Mag.one.div hr) (by norm_num) (by norm_num)
      obtain ⟨f2, g2⟩ := P.m (m1.mul g1) (by norm_num) (by norm_num)
      obtain ⟨f3, g3⟩ := P.m (g2.mul g2) (by norm_num) (by norm_num)
      obtain ⟨f4, g4⟩ := P.m (M1.mul m4) (by norm_num) (by norm_num)
      obtain ⟨f5, g5⟩ := P.m (g4.mul g3) (by norm_num) (by norm_num)
      obtain ⟨f6, g6⟩ := P.m (c72.mul s1) (by norm_num) (by norm_num)
      obtain ⟨f7, g7⟩ := P.m (g6.div g5) (by norm_num) (by norm_num)
      obtain ⟨f8, g8⟩ := P.m (Mag.sqrt (a := -505) (b := 410) (g7.mono (by norm_num) (by norm_num)))
        (by norm_num) (by norm_num)
      obtain ⟨f9, g9⟩ := P.m (Mag.sqrt (a := 0) (b := 24) (M1.mono (by norm_num) (by norm_num)))
        (by norm_num) (by norm_num)
      obtain ⟨f10, g10⟩ := P.m (g8.div g9) (by norm_num) (by norm_num)
      rw [f1, f2, f3, f4, f5, f6, f7, f8, f9, f10]
      exact Same.ok rfl trivial

/-! ## `theo1` -/

theorem RangePair.theo1_body_wide (P : RangePair fl r sum sum') {phase : List ℝ} {tau0 : ℝ}
    (hp : Arr (-343) 240 phase) (ht : Mag (-40) 40 tau0) (m : ℕ) (hm : m ≤ 2 ^ 47) :
    Same (fun _ => True) (theo1_body_fl fl phase tau0 m) (theo1_body_fl r phase tau0 m) := by
  unfold theo1_body_fl
  have hN := hp.1
  refine Same.bind (R := fun _ => True) (Same.refl fun _ _ => trivial) fun _ _ => ?_
  have m1 : Grid 0 47 (m : ℝ) := Grid.natCast hm
  obtain ⟨em, gm⟩ := P.g m1.half (by norm_num) (by norm_num)
  have hk : |(phase.length : ℤ) - m| ≤ 2 ^ 48 := by rw [abs_le]; omega
  have n1 : Grid 0 48 ((phase.length : ℝ) - m) := by
    have := Grid.intCast hk
    push_cast at this
    exact this
  refine (forRange_same (fun i st => Acc (-790) 585 i st.1) (Acc.zero _ _) fun i hi st hst => ?_).bind
    fun st hst => ?_
  · refine Same.bind (R := fun st => Grid (-790) 585 st.1) ?_ fun st' hst' => ?_
    · refine (forRange_same (fun d st => Acc (-790) 538 d st.1) (Acc.zero _ _) fun d hd st hst => ?_).mono
        fun st hst => (show Acc (-790) 538 (m / 2) st.1 from hst).grid (k := 47) (by omega)
      refine (pyGet_same hp.2 _).bind fun a ha => ?_
      refine (pyGet_same hp.2 _).bind fun b hb => ?_
      refine (pyGet_same hp.2 _).bind fun c hc => ?_
      refine (pyGet_same hp.2 _).bind fun e he => ?_
      have d1 : Grid 0 47 (d : ℝ) := Grid.natCast (b := 47) (by omega)
      obtain ⟨f1, g1⟩ := P.g (gm.sub (d1.mono (by norm_num) le_rfl)) (by norm_num) (by norm_num)
      obtain ⟨f2, g2⟩ := P.m (Mag.one.div g1.mag) (by norm_num) (by norm_num)
      have g2' := (Mag.one.div g1.mag).round_grid (P.binary _)
      obtain ⟨f3, g3⟩ := P.g (ha.sub hb) (by norm_num) (by norm_num)
      obtain ⟨f4, g4⟩ := P.g (g3.add (hc.mono le_rfl (by norm_num))) (by norm_num) (by norm_num)
      obtain ⟨f5, g5⟩ := P.g (g4.sub (he.mono le_rfl (by norm_num))) (by norm_num) (by norm_num)
      obtain ⟨f6, g6⟩ := P.g (g5.mul g5) (by norm_num) (by norm_num)
      obtain ⟨f7, g7⟩ := P.g (g2'.mul g6) (by norm_num) (by norm_num)
      obtain ⟨f8, g8⟩ := P.acc hst (g7.mono (by norm_num) (by norm_num)) (by omega) (by norm_num) (by norm_num)
      dsimp only
      rw [em, f1, f2, f3, f4, f5, f6, f7, f8]
      exact Same.ok rfl g8
    · obtain ⟨f1, g1⟩ := P.acc hst hst' (by omega) (by norm_num) (by norm_num)
      simp only [f1]
      exact Same.ok rfl g1
  · obtain ⟨dev, n⟩ := st
    dsimp only at hst ⊢
    have s1 := (hst.grid (k := 47) (by omega)).mag
    have c34 : Mag (-1) 0 (0.75 : ℝ) := Or.inr (by norm_num)
    obtain ⟨f0, g0⟩ := P.g (n1.mul m1).half (by norm_num) (by norm_num)
    obtain ⟨f1, g1⟩ := P.m (m1.mag.mul ht) (by norm_num) (by norm_num)
    obtain ⟨f2, g2⟩ := P.m (g1.mul g1) (by norm_num) (by norm_num)
    obtain ⟨f3, g3⟩ := P.m (c34.mul n1.mag) (by norm_num) (by norm_num)
    obtain ⟨f4, g4⟩ := P.m (g3.mul g2) (by norm_num) (by norm_num)
    obtain ⟨f5, g5⟩ := P.m (s1.div g4) (by norm_num) (by norm_num)
    obtain ⟨f6, g6⟩ := P.m (Mag.sqrt (a := -510) (b := 400) (g5.mono (by norm_num) (by norm_num)))
      (by norm_num) (by norm_num)
    obtain ⟨f7, g7⟩ := P.m (Mag.sqrt (a := 0) (b := 24) (n1.mag.mono (by norm_num) (by norm_num)))
      (by norm_num) (by norm_num)
    obtain ⟨f8, g8⟩ := P.m (g6.div g7) (by norm_num) (by norm_num)
    simp only [f0, f1, f2, f3, f4, f5, f6, f7, f8]
    exact Same.refl fun _ _ => trivial

/-! ## Whole runs -/

theorem RangePair.pdev_wide (P : RangePair fl r sum sum') (log10grid : List ℝ) {x : List ℝ} {rate : ℝ} {taus : TausArg}
    (hx : Arr (-343) 240 x) (hl : x.length ≤ 2 ^ 33) (hr : Mag (-40) 40 rate) (ht : SafeTaus rate taus)
    (hR : RangeTaus rate taus) :
    pdev_fl fl sum log10grid x rate taus = pdev_fl r sum' log10grid x rate taus :=
  (P.run log10grid x false (-1) (D := fun _ => True) (n := fun _ => True) hx.1 hr ht hR
    (body := fun x _ _ m => calc_pdev_phase_fl fl sum x rate m)
    (body' := fun x _ _ m => calc_pdev_phase_fl r sum' x rate m)
    fun _ _ _ m hm => (P.calc_pdev_wide hx hl hr m hm).mono fun _ _ => ⟨trivial, trivial⟩).1

theorem RangePair.theo1_wide (P : RangePair fl r sum sum') (log10grid : List ℝ) {x : List ℝ} {rate : ℝ} {taus : TausArg}
    (hx : Arr (-343) 240 x) (hr : Mag (-40) 40 rate) (ht : SafeTaus rate taus) (hR : RangeTaus rate taus) :
    theo1_fl fl log10grid x rate taus = theo1_fl r log10grid x rate taus := by
  unfold theo1_fl
  split_ifs
  · rfl
  obtain ⟨e, h⟩ := P.m (Mag.one.div hr) (by norm_num) (by norm_num)
  rw [e]
  exact (P.run log10grid x true (-1) (D := fun _ => True) (n := fun _ => True) hx.1 hr ht hR
    (body := fun x _ _ m => theo1_body_fl fl x (r (1 / rate)) m)
    (body' := fun x _ _ m => theo1_body_fl r x (r (1 / rate)) m)
    fun _ _ _ m hm => (P.theo1_body_wide hx (h.mono (by norm_num) (by norm_num)) m hm).mono
      fun _ _ => ⟨trivial, trivial⟩).1

end AT
