import Verif.Props.RealtimeBatchFloat
import Verif.Props.RealtimeRange
import Verif.Props.FloatRange

/-!
# C107: streaming and batch deviations in arithmetic of limited range

The comparison of C107 holds where only the results in the range of the normal doubles are known to be
rounded correctly, for phases from `2^-100` to `2^100` in magnitude (or zero) and rates and sampling
intervals from `2^-40` to `2^40`.
-/

namespace AT

open Spec

variable {fl : ℝ → ℝ} {sum : List ℝ → ℝ}

theorem range_single {rate : ℝ} (hr : 0 < rate) {a : ℕ} (ha : a ≤ 2 ^ 46) :
    RangeTaus rate (.list [(a : ℝ) / rate]) := by
  intro t ht
  rw [List.mem_singleton] at ht
  rw [ht, div_mul_cancel₀ _ hr.ne']
  exact (Mag.natCast ha).range (by norm_num) (by norm_num)

/-- **C107, limited range.** The streaming class and the batch function of the same name. -/
theorem realtime_batch_range (hfl : Binary64Range fl) (hsum : ∀ l, FloatSum fl l (sum l)) (k : RtName) (rate tau0 : ℝ)
    (hr : ModerateRate rate) (ht : ModerateRate tau0) (hrt : |tau0 * rate - 1| ≤ unitRoundoff) (p : ℕ) (afs : List ℕ)
    (ha : ∀ a ∈ afs, 0 < a) (xs : List ℝ) (hx : ∀ v ∈ xs, Moderate v) (B : ℝ) (hB0 : 0 ≤ B)
    (hB : ∀ v ∈ xs, |v| ≤ B) (hN : xs.length ≤ 2 ^ 45) (log10grid : List ℝ) (i a : ℕ)
    (hi : afs[i]? = some a) (hn : k.need a < xs.length) :
    ∃ st o d d', k.feed_fl fl (rt_cfg tau0 false p) (rt_init afs false) xs = .ok st ∧ st.dev[i]? = some d ∧
      k.batch_fl fl sum log10grid xs rate (.list [(a : ℝ) / rate]) = .ok o ∧ o.devs = [d'] ∧
      |d - d'| ≤ rtBatchBound k xs.length B rate a (rtDev k (seq xs) xs.length a (a / rate)) := by
  obtain ⟨r, sum', P⟩ := exists_rangePair hfl hsum
  have hr0 := ModerateRate.pos hr
  have ha46 : a ≤ 2 ^ 46 := by cases k <;> simp only [RtName.need] at hn <;> omega
  have hs := safe_single rate hr0 a (by omega)
  have hR := range_single hr0 ha46
  have hA : Arr (-343) 240 xs := ⟨by omega, fun v hv => (Moderate.grid (hx v hv)).mono (by norm_num) (by norm_num)⟩
  have e : k.batch_fl fl sum log10grid xs rate (.list [(a : ℝ) / rate]) =
      k.batch_fl r sum' log10grid xs rate (.list [(a : ℝ) / rate]) := by
    cases k
    · exact P.oadev log10grid hA (ModerateRate.mag hr) hs hR
    · exact P.ohdev log10grid hA (ModerateRate.mag hr) hs hR
    · exact P.tdev log10grid hA (ModerateRate.mag hr) hs hR
  rw [e, P.feed k ht p afs ha xs hx hN]
  exact realtime_batch_float P.floatRound P.hsum k rate tau0 hr0 (ModerateRate.pos ht) hrt p afs ha xs B hB0 hB
    (by omega) log10grid i a hi hn

/-- **C107, method `mdev`, limited range.** -/
theorem realtime_mdev_batch_range (hfl : Binary64Range fl) (hsum : ∀ l, FloatSum fl l (sum l)) (rate tau0 : ℝ)
    (hr : ModerateRate rate) (ht : ModerateRate tau0) (hrt : |tau0 * rate - 1| ≤ unitRoundoff) (p : ℕ) (afs : List ℕ)
    (ha : ∀ a ∈ afs, 0 < a) (ha' : ∀ a ∈ afs, a ≤ 2 ^ 46) (xs : List ℝ) (hx : ∀ v ∈ xs, Moderate v) (B : ℝ)
    (hB0 : 0 ≤ B) (hB : ∀ v ∈ xs, |v| ≤ B) (hN : xs.length ≤ 2 ^ 45) (log10grid : List ℝ) (i a : ℕ)
    (hi : afs[i]? = some a) (hn : 3 * a < xs.length) :
    ∃ st ms o d d', RtName.feed_fl fl .tdev (rt_cfg tau0 false p) (rt_init afs false) xs = .ok st ∧
      tdev_mdev_fl fl (rt_cfg tau0 false p) st = .ok ms ∧ ms[i]? = some d ∧
      mdev_fl fl sum log10grid xs rate (.list [(a : ℝ) / rate]) = .ok o ∧ o.devs = [d'] ∧
      |d - d'| ≤ rtMdevBatchBound xs.length B rate a (Spec.mdev (seq xs) xs.length a (a / rate)) := by
  obtain ⟨r, sum', P⟩ := exists_rangePair hfl hsum
  have hr0 := ModerateRate.pos hr
  have hs := safe_single rate hr0 a (by omega)
  have hR := range_single hr0 (a := a) (by omega)
  have hA : Arr (-343) 240 xs := ⟨by omega, fun v hv => (Moderate.grid (hx v hv)).mono (by norm_num) (by norm_num)⟩
  obtain ⟨st, ms, o, d, d', h1, h2, h3, h4, h5⟩ := realtime_mdev_batch_float P.floatRound P.hsum rate tau0 hr0
    (ModerateRate.pos ht) hrt p afs ha xs B hB0 hB (by omega) log10grid i a hi hn
  refine ⟨st, ms, o, d, d', ?_, ?_, h3, ?_, h5⟩
  · rw [P.feed .tdev ht p afs ha xs hx hN, h1]
  · rw [P.rt_mdev ht p afs ha ha' xs hx hN st h1, h2]
  · rw [(P.mdev log10grid hA (ModerateRate.mag hr) hs hR).1, h4]

/-- arithmetic of limited range: six samples at 1 Hz and factor 1 -/
example : ∃ (fl : ℝ → ℝ) (sum : List ℝ → ℝ), Binary64Range fl ∧ ¬ FloatRound fl ∧
    (∀ k : RtName, ∃ st o d d', k.feed_fl fl (rt_cfg 1 false 4) (rt_init [1, 100] false) [0, 1, 2, 0, 2, 1] = .ok st ∧
      st.dev[0]? = some d ∧ k.batch_fl fl sum [] [0, 1, 2, 0, 2, 1] 1 (.list [((1 : ℕ) : ℝ) / 1]) = .ok o ∧
      o.devs = [d'] ∧
      |d - d'| ≤ rtBatchBound k 6 2 1 1 (rtDev k (seq [0, 1, 2, 0, 2, 1]) 6 1 ((1 : ℕ) / 1))) ∧
    ∃ st ms d, RtName.feed_fl fl .tdev (rt_cfg 1 false 4) (rt_init [1, 100] false) [0, 1, 2, 0, 2, 1] = .ok st ∧
      tdev_mdev_fl fl (rt_cfg 1 false 4) st = .ok ms ∧ ms[0]? = some d := by
  obtain ⟨fl, h1, h2, _⟩ := exists_binary64Range
  obtain ⟨sum, hsum⟩ := exists_floatSum fl
  have m0 : Moderate 0 := Or.inl rfl
  have m1 : Moderate 1 := Or.inr ⟨by simpa using (isBinary64_pow 0).1, by norm_num⟩
  have m2 : Moderate 2 := Or.inr ⟨by simpa using (isBinary64_pow 1).1, by norm_num⟩
  have hr : ModerateRate 1 := by constructor <;> norm_num
  have hx : ∀ v ∈ [(0 : ℝ), 1, 2, 0, 2, 1], Moderate v := by
    intro v hv
    simp only [List.mem_cons, List.not_mem_nil, or_false] at hv
    rcases hv with rfl | rfl | rfl | rfl | rfl | rfl <;> assumption
  have hB : ∀ v ∈ [(0 : ℝ), 1, 2, 0, 2, 1], |v| ≤ 2 := by norm_num
  refine ⟨fl, sum, h1, h2, fun k => ?_, ?_⟩
  · exact realtime_batch_range h1 hsum k 1 1 hr hr (by simpa using unitRoundoff_pos.le) 4 [1, 100] (by simp) _ hx 2
      (by norm_num) hB (by simp) [] 0 1 rfl (by cases k <;> simp [RtName.need])
  · obtain ⟨st, ms, _, d, _, a, b, c, _⟩ := realtime_mdev_batch_range h1 hsum 1 1 hr hr
      (by simpa using unitRoundoff_pos.le) 4 [1, 100] (by simp) (by simp) _ hx 2 (by norm_num) hB (by simp) [] 0 1 rfl
      (by simp)
    exact ⟨st, ms, d, a, b, c⟩

end AT
