import Verif.Props.FloatHat
import Verif.Props.FloatRange
import Verif.Lemmas.FloatRangeMore

/-!
# The three-cornered hat with a limited range of exponents

The deviations are multiples of `2^-316` and below `2^170`, so that their squares neither overflow
nor underflow.
-/

namespace AT

open Spec

variable {fl r : ℝ → ℝ} {sum sum' : List ℝ → ℝ}

/-- bounds of a table: the deviations and the counts -/
def HatIn (o : DevOut ℝ) : Prop := (∀ d ∈ o.devs, Grid (-316) 170 d) ∧ ∀ k ∈ o.ns, Mag 0 48 ((k : ℤ) : ℝ)

theorem RangePair.calc_adev_mod (P : RangePair fl r sum sum') {phase : List ℝ} {rate : ℝ}
    (hp : Arr (-152) 100 phase) (hr : Mag (-40) 40 rate) (m s : ℕ) (hm : m ≤ 2 ^ 47) :
    Same (fun row => Grid (-316) 170 row.1 ∧ Mag 0 48 ((row.2.2 : ℤ) : ℝ))
      (calc_adev_phase_fl fl sum phase rate m s) (calc_adev_phase_fl r sum' phase rate m s) := by
  unfold calc_adev_phase_fl
  refine sliceStep_bind hp _ _ fun d2 h2 => ?_
  refine sliceStep_bind hp _ _ fun d1 h1 => ?_
  refine sliceStep_bind hp _ _ fun d0 h0 => ?_
  dsimp only
  generalize hn : (if min (min d0.length d1.length) d2.length = 0 then 1
    else min (min d0.length d1.length) d2.length) = n
  have hn' : n ≤ 2 ^ 47 := by
    have := h0.len_le
    split_ifs at hn <;> omega
  obtain ⟨e, h1'⟩ := P.vscale2 (h1.sliceTo n)  (by norm_num) (by norm_num)
  rw [e]
  refine P.vsub ((h2.sliceTo n).mono le_rfl (by norm_num)) h1' (by norm_num) (by norm_num) fun a ha => ?_
  refine P.vadd ha ((h0.sliceTo n).mono le_rfl (by norm_num)) (by norm_num) (by norm_num) fun v hv => ?_
  refine P.vmul hv hv (by norm_num) (by norm_num) fun sq hsq => ?_
  obtain ⟨es, hs⟩ := P.s hsq (by norm_num) (by norm_num)
  have n1 := Mag.natCast hn'
  have m1 := Mag.natCast hm
  obtain ⟨e1, g1⟩ := P.m (Mag.two.mul n1) (by norm_num) (by norm_num)
  obtain ⟨e2, g2⟩ := P.m (hs.mag.div g1) (by norm_num) (by norm_num)
  obtain ⟨e3, g3⟩ := P.m (Mag.sqrt (a := -176) (b := 128) (g2.mono (by norm_num) (by norm_num)))
    (by norm_num) (by norm_num)
  obtain ⟨e4, g4⟩ := P.m (g3.div m1) (by norm_num) (by norm_num)
  obtain ⟨e5, g5⟩ := P.m (g4.mul hr) (by norm_num) (by norm_num)
  have g5' := (g4.mul hr).round_grid (P.binary _)
  obtain ⟨e6, g6⟩ := P.m (Mag.sqrt (a := 0) (b := 24) (n1.mono (by norm_num) (by norm_num)))
    (by norm_num) (by norm_num)
  obtain ⟨e7, g7⟩ := P.m (g5.div g6) (by norm_num) (by norm_num)
  rw [es, e1, e2, e3, e4, e5, e6, e7]
  refine Same.ok rfl ⟨g5'.mono (by norm_num) (by norm_num), ?_⟩
  have := n1.mono (a' := 0) (b' := 48) le_rfl (by norm_num)
  simpa using this

/-- the hat of a deviation function whose results are not too large or small -/
theorem RangePair.hat (P : RangePair fl r sum sum') {f f' : List ℝ → ℝ → TausArg → Py (DevOut ℝ)}
    {ab bc ca : List ℝ} {rate : ℝ} {taus : TausArg}
    (H : ∀ x ∈ [ab, bc, ca], Same HatIn (f x rate taus) (f' x rate taus)) :
    three_cornered_hat_phase_fl fl ab bc ca rate taus f =
      three_cornered_hat_phase_fl r ab bc ca rate taus f' := by
  unfold three_cornered_hat_phase_fl
  refine ((H ab (by simp)).bind (Q := fun _ => True) fun a ha => ?_).1
  refine (H bc (by simp)).bind fun b hb => ?_
  refine (H ca (by simp)).bind fun c hc => ?_
  have sq : ∀ {l : List ℝ}, (∀ d ∈ l, Grid (-316) 170 d) →
      Same (fun s => ∀ v ∈ s, Grid (-632) 340 v) (vmul_fl fl l l) (vmul_fl r l l) := fun {l} h =>
    (vop_same (le_max_left _ _) (le_max_right _ _) h h
      (fun _ _ hu hv => P.g ((hu.mul hv).mono (g' := -632) (b' := 340) (by norm_num) (by norm_num))
        (by norm_num) (by norm_num))).mono fun _ h => h.2
  refine (sq ha.1).bind fun va hva => ?_
  refine (sq hb.1).bind fun vb hvb => ?_
  refine (sq hc.1).bind fun vc hvc => ?_
  refine (Same.refl (Q := fun _ => True) fun _ _ => trivial).bind fun _ _ => ?_
  refine (vop_same (C := Grid (-632) 341) (le_max_left _ _) (le_max_right _ _) hva hvc
    (fun _ _ hu hv => P.g (hu.add hv) (by norm_num) (by norm_num))).bind fun s hs => ?_
  refine (vop_same (C := Grid (-632) 342) (le_max_left _ _) (le_max_right _ _) hs.2
    (fun v hv => (hvb v hv).mono (g' := -632) (b' := 341) le_rfl (by norm_num))
    (fun _ _ hu hv => P.g (hu.sub hv) (by norm_num) (by norm_num))).bind fun s hs => ?_
  have half : Mag (-1) 0 (0.5 : ℝ) := Or.inr (by norm_num)
  have key : ∀ v ∈ s, fl (0.5 * v) = r (0.5 * v) ∧ Mag (-633) 342 (r (0.5 * v)) := fun v hv =>
    P.m ((half.mul (hs.2 v hv).mag).mono (by norm_num) (by norm_num)) (by norm_num) (by norm_num)
  have e1 : vscale_fl fl 0.5 s = vscale_fl r 0.5 s := List.map_congr_left fun v hv => (key v hv).1
  rw [e1]
  have k1 : ∀ w ∈ (vscale_fl r 0.5 s).map (fun v => if v < 0 then 0 else v), Mag (-634) 342 w := by
    intro w hw
    obtain ⟨v, hv, rfl⟩ := List.mem_map.1 hw
    obtain ⟨u, hu, rfl⟩ := List.mem_map.1 hv
    split_ifs
    · exact Or.inl rfl
    · exact (key u hu).2.mono (by norm_num) le_rfl
  dsimp only
  generalize (vscale_fl r 0.5 s).map (fun v => if v < 0 then 0 else v) = l at k1
  have k2 : ∀ v ∈ l, fl √v = r √v ∧ Mag (-317) 171 (r √v) := fun v hv =>
    P.m (Mag.sqrt (a := -317) (b := 171) ((k1 v hv).mono (by norm_num) (by norm_num)))
      (by norm_num) (by norm_num)
  have e2 : l.map (fun v => fl √v) = l.map (fun v => r √v) := List.map_congr_left fun v hv => (k2 v hv).1
  rw [e2]
  have k3 : ∀ w ∈ l.map (fun v => r √v), Mag (-317) 171 w := by
    intro w hw
    obtain ⟨v, hv, rfl⟩ := List.mem_map.1 hw
    exact (k2 v hv).2
  generalize l.map (fun v => r √v) = d at k3
  have e3 : List.zipWith (fun d (nn : ℤ) => fl (d / fl √(nn : ℝ))) d a.ns =
      List.zipWith (fun d (nn : ℤ) => r (d / r √(nn : ℝ))) d a.ns := by
    apply List.ext_getElem
    · simp
    · intro i h1 h2
      rw [List.getElem_zipWith, List.getElem_zipWith]
      simp only [List.length_zipWith, lt_min_iff] at h1
      obtain ⟨a1, b1⟩ := P.m (Mag.sqrt (a := 0) (b := 24)
        ((ha.2 _ (List.getElem_mem h1.2)).mono (by norm_num) (by norm_num))) (by norm_num) (by norm_num)
      obtain ⟨a2, _⟩ := P.m ((k3 _ (List.getElem_mem h1.1)).div b1) (by norm_num) (by norm_num)
      rw [a1, a2]
  rw [e3]
  exact Same.ok rfl trivial

theorem arr_of_moderate' {x : List ℝ} (hx : ∀ v ∈ x, Moderate v) (hN : x.length ≤ 2 ^ 47) : Arr (-152) 100 x :=
  ⟨hN, fun v hv => Moderate.grid (hx v hv)⟩

theorem RangePair.oadev_mod (P : RangePair fl r sum sum') (log10grid : List ℝ) {x : List ℝ} {rate : ℝ}
    {taus : TausArg} (hx : Arr (-152) 100 x) (hr : Mag (-40) 40 rate) (ht : SafeTaus rate taus)
    (hR : RangeTaus rate taus) :
    Same HatIn (oadev_fl fl sum log10grid x rate taus) (oadev_fl r sum' log10grid x rate taus) :=
  (P.run log10grid x false (-1) (D := Grid (-316) 170) (n := fun k => Mag 0 48 (k : ℝ)) hx.1 hr ht hR
    (body := fun x _ _ m => calc_adev_phase_fl fl sum x rate m 1)
    (body' := fun x _ _ m => calc_adev_phase_fl r sum' x rate m 1)
    fun _ _ _ m hm => P.calc_adev_mod hx hr m 1 hm).mono fun _ h => h.2

/-- C119: the hat of `oadev` with a limited range of exponents keeps the bound of C110 -/
theorem hat_oadev_range (hfl : Binary64Range fl) (hsum : ∀ l, FloatSum fl l (sum l)) (log10grid : List ℝ)
    (ab bc ca : List ℝ) (hm : ∀ x ∈ [ab, bc, ca], x.length ≤ 2 ^ 47 ∧ ∀ v ∈ x, Moderate v) (B : ℝ)
    (hB : ∀ x ∈ [ab, bc, ca], ∀ v ∈ x, |v| ≤ B) (rate : ℝ) (hr : ModerateRate rate) (taus : TausArg)
    (ht : SafeTaus rate taus) (hR : RangeTaus rate taus) :
    (∃ e, three_cornered_hat_phase_fl fl ab bc ca rate taus (oadev_fl fl sum log10grid) = .error e ∧
      three_cornered_hat_phase ab bc ca rate taus .oadev = .error e) ∨
    ∃ oab obc oca o o', oadev ab rate "phase" taus = .ok oab ∧ oadev bc rate "phase" taus = .ok obc ∧
      oadev ca rate "phase" taus = .ok oca ∧
      three_cornered_hat_phase_fl fl ab bc ca rate taus (oadev_fl fl sum log10grid) = .ok o ∧
      three_cornered_hat_phase ab bc ca rate taus .oadev = .ok o' ∧
      HatClose (fun i => hatErr
        (adevBound B (oab.taus.getD i 0) (oab.devs.getD i 0) (oab.ns.getD i 0)) (oab.devs.getD i 0)
        (adevBound B (obc.taus.getD i 0) (obc.devs.getD i 0) (obc.ns.getD i 0)) (obc.devs.getD i 0)
        (adevBound B (oca.taus.getD i 0) (oca.devs.getD i 0) (oca.ns.getD i 0)) (oca.devs.getD i 0)) o o' := by
  obtain ⟨r, sum', P⟩ := exists_rangePair hfl hsum
  rw [P.hat (f' := oadev_fl r sum' log10grid) fun x hx =>
    P.oadev_mod log10grid (arr_of_moderate' (hm x hx).2 (hm x hx).1) (ModerateRate.mag hr) ht hR]
  exact hat_oadev_float P.floatRound P.hsum log10grid ab bc ca B (hB ab (by simp)) (hB bc (by simp))
    (hB ca (by simp)) rate (ModerateRate.pos hr) taus ht (hm ab (by simp)).1 (hm bc (by simp)).1 (hm ca (by simp)).1

/-- a rounding with limited exponents, three series and an averaging time that meet the hypotheses
of `hat_oadev_range` -/
example : ∃ (fl : ℝ → ℝ) (sum : List ℝ → ℝ) (o : DevOut ℝ), Binary64Range fl ∧ ¬ FloatRound fl ∧
    (∀ l, FloatSum fl l (sum l)) ∧
    three_cornered_hat_phase_fl fl [0, 1, 0, 1, 2, 2] [0, 1, 0, 0, 1, 2] [1, 0, 0, 2, 0, 1] 2
      (.list [(2 : ℕ) / 2]) (oadev_fl fl sum []) = .ok o ∧ o.devs ≠ [] := by
  obtain ⟨fl, h1, h2, _⟩ := exists_binary64Range
  obtain ⟨sum, hsum⟩ := exists_floatSum fl
  have m0 : Moderate 0 := Or.inl rfl
  have m1 : Moderate 1 := Or.inr ⟨by simpa using (isBinary64_pow 0).1, by norm_num⟩
  have m2 : Moderate 2 := Or.inr ⟨by simpa using (isBinary64_pow 1).1, by norm_num⟩
  have all : ∀ x ∈ [[0, 1, 0, 1, 2, 2], [0, 1, 0, 0, 1, 2], [1, 0, 0, 2, 0, (1 : ℝ)]], ∀ v ∈ x,
      v = 0 ∨ v = 1 ∨ v = 2 := by
    intro x hx v hv
    simp only [List.mem_cons, List.not_mem_nil, or_false] at hx
    rcases hx with rfl | rfl | rfl <;> simp only [List.mem_cons, List.not_mem_nil, or_false] at hv <;> tauto
  have ok : ∀ x : List ℝ, x.length = 6 → ∃ o', oadev x 2 "phase" (.list [(2 : ℕ) / 2]) = .ok o' := by
    intro x hx
    rw [oadev_phase_eq _ _ (by norm_num), table_single _ _ (by norm_num) _ _ _ _ _ 2 (by norm_num) (by simp [hx])
      (by rw [hx]; norm_num) (by simp) (by simp [hx])]
    exact ⟨_, rfl⟩
  have h := hat_oadev_range h1 hsum [] [0, 1, 0, 1, 2, 2] [0, 1, 0, 0, 1, 2] [1, 0, 0, 2, 0, 1]
    (fun x hx => ⟨by
      simp only [List.mem_cons, List.not_mem_nil, or_false] at hx
      rcases hx with rfl | rfl | rfl <;> norm_num, fun v hv => by
      rcases all x hx v hv with rfl | rfl | rfl
      exacts [m0, m1, m2]⟩) 2
    (fun x hx v hv => by rcases all x hx v hv with rfl | rfl | rfl <;> norm_num)
    2 (by constructor <;> norm_num) (.list [(2 : ℕ) / 2]) (by
      intro t ht
      rw [List.mem_singleton] at ht
      exact ⟨2, by norm_num, by rw [ht]; norm_num⟩) (by
      intro t ht
      rw [List.mem_singleton] at ht
      rw [ht, show ((2 : ℕ) : ℝ) / 2 * 2 = 2 by norm_num]
      exact (show Mag 0 1 2 from Or.inr (by norm_num)).range (by norm_num) (by norm_num))
  rcases hat_eq .oadev [0, 1, 0, 1, 2, 2] [0, 1, 0, 0, 1, 2] [1, 0, 0, 2, 0, 1] rfl rfl 2
    (.list [(2 : ℕ) / 2]) with ⟨e, k, _⟩ | ⟨kept, k0, _, _, k⟩
  · obtain ⟨o', ho⟩ := ok [0, 1, 0, 1, 2, 2] rfl
    change oadev _ _ _ _ = _ at k
    rw [ho] at k
    cases k
  rcases h with ⟨e, _, h⟩ | ⟨_, _, _, o, o', _, _, _, h3, h4, h5⟩
  · rw [k] at h; cases h
  rw [k] at h4
  cases h4
  refine ⟨fl, sum, o, h1, h2, hsum, h3, fun h => k0 ?_⟩
  have := h5.devs_len.1
  rw [h] at this
  simpa using this.symm

end AT
