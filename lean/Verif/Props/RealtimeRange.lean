import Verif.Lemmas.RealtimeRange
import Verif.Props.FloatRange

/-!
# C106: no overflow and no underflow in the streaming classes

Property: for phases or frequencies from `2^-100` to `2^100` in magnitude (or zero) and a sampling interval
`tau0` from `2^-40` to `2^40` the error bounds of C91 for the streaming classes of realtime.py need correct
rounding in the normal range only: no operation of a stream of up to `2^45` samples overflows or
underflows, and no divisor is rounded to zero.  The method `mdev` also divides by the averaging times of the
factors that wait for more samples, so these must be limited too.
-/

namespace AT

open Spec

variable {fl : ℝ → ℝ}

/-- **C106, phase data.** -/
theorem realtime_range (hfl : Binary64Range fl) (k : RtName) (tau0 : ℝ) (p : ℕ) (afs : List ℕ)
    (ht : ModerateRate tau0) (ha : ∀ a ∈ afs, 0 < a) (xs : List ℝ) (hx : ∀ v ∈ xs, Moderate v) (B : ℝ) (hB0 : 0 ≤ B)
    (hB : ∀ v ∈ xs, |v| ≤ B) (hN : xs.length ≤ 2 ^ 45) :
    ∃ st, k.feed_fl fl (rt_cfg tau0 false p) (rt_init afs false) xs = .ok st ∧ st.x = xs ∧
      RtClose k 0 (seq xs) xs.length B tau0 afs st := by
  obtain ⟨sum, hsum⟩ := exists_floatSum fl
  obtain ⟨r, sum', P⟩ := exists_rangePair hfl hsum
  rw [P.feed k ht p afs ha xs hx hN]
  exact realtime_float P.floatRound k tau0 p afs (ModerateRate.pos ht) ha xs B hB0 hB (by omega)

/-- **C106, method `mdev` of tdev_realtime.** -/
theorem tdev_realtime_mdev_range (hfl : Binary64Range fl) (tau0 : ℝ) (p : ℕ) (afs : List ℕ)
    (ht : ModerateRate tau0) (ha : ∀ a ∈ afs, 0 < a) (ha' : ∀ a ∈ afs, a ≤ 2 ^ 46) (xs : List ℝ)
    (hx : ∀ v ∈ xs, Moderate v) (B : ℝ) (hB0 : 0 ≤ B) (hB : ∀ v ∈ xs, |v| ≤ B) (hN : xs.length ≤ 2 ^ 45) :
    ∃ st m, RtName.feed_fl fl .tdev (rt_cfg tau0 false p) (rt_init afs false) xs = .ok st ∧
      tdev_mdev_fl fl (rt_cfg tau0 false p) st = .ok m ∧
      RtMdevClose 0 (seq xs) xs.length B tau0 afs m := by
  obtain ⟨sum, hsum⟩ := exists_floatSum fl
  obtain ⟨r, sum', P⟩ := exists_rangePair hfl hsum
  obtain ⟨st, m, h1, h2, h3⟩ := tdev_realtime_mdev_float P.floatRound tau0 p afs (ModerateRate.pos ht) ha xs B hB0 hB
    (by omega)
  refine ⟨st, m, ?_, ?_, h3⟩
  · rw [P.feed .tdev ht p afs ha xs hx hN, h1]
  · rw [P.rt_mdev ht p afs ha ha' xs hx hN st h1, h2]

/-- **C106, frequency data.** -/
theorem realtime_freq_range (hfl : Binary64Range fl) (k : RtName) (tau0 : ℝ) (p : ℕ) (afs : List ℕ)
    (ht : ModerateRate tau0) (ha : ∀ a ∈ afs, 0 < a) (fs : List ℝ) (hne : fs ≠ []) (hf : ∀ v ∈ fs, Moderate v) (F : ℝ)
    (hF : ∀ v ∈ fs, |v| ≤ F) (hN : fs.length < 2 ^ 45) :
    ∃ st, k.feed_frequency_fl fl (rt_cfg tau0 false p) (rt_init afs false) fs = .ok st ∧
      RtClose k fs.length (seq (Spec.integrated fs)) (fs.length + 1) (fs.length * F) tau0 afs st := by
  obtain ⟨sum, hsum⟩ := exists_floatSum fl
  obtain ⟨r, sum', P⟩ := exists_rangePair hfl hsum
  rw [P.feed_frequency k ht p afs ha fs hne hf hN]
  exact realtime_freq_float P.floatRound k tau0 p afs (ModerateRate.pos ht) ha fs hne F hF (by omega)

/-- arithmetic of limited range: 6 samples, averaging factors 1, 2 and one that waits for more samples -/
example : ∃ fl : ℝ → ℝ, Binary64Range fl ∧ ¬ FloatRound fl ∧
    (∀ k : RtName, ∃ st, k.feed_fl fl (rt_cfg 2 false 4) (rt_init [1, 2, 100] false) [0, 1, 2, 0, 2, 1] = .ok st ∧
      st.dev.length = 3) ∧
    (∃ st m, RtName.feed_fl fl .tdev (rt_cfg 2 false 4) (rt_init [1, 2, 100] false) [0, 1, 2, 0, 2, 1] = .ok st ∧
      tdev_mdev_fl fl (rt_cfg 2 false 4) st = .ok m ∧ m.length = 3) ∧
    ∀ k : RtName, ∃ st,
      k.feed_frequency_fl fl (rt_cfg 2 false 4) (rt_init [1, 2, 100] false) [0, 1, 2, 0, 2, 1] = .ok st ∧
        st.dev.length = 3 := by
  obtain ⟨fl, h1, h2, _⟩ := exists_binary64Range
  have m0 : Moderate 0 := Or.inl rfl
  have m1 : Moderate 1 := Or.inr ⟨by simpa using (isBinary64_pow 0).1, by norm_num⟩
  have m2 : Moderate 2 := Or.inr ⟨by simpa using (isBinary64_pow 1).1, by norm_num⟩
  have hr : ModerateRate 2 := by constructor <;> norm_num
  have hx : ∀ v ∈ [(0 : ℝ), 1, 2, 0, 2, 1], Moderate v := by
    intro v hv
    simp only [List.mem_cons, List.not_mem_nil, or_false] at hv
    rcases hv with rfl | rfl | rfl | rfl | rfl | rfl <;> assumption
  have hB : ∀ v ∈ [(0 : ℝ), 1, 2, 0, 2, 1], |v| ≤ 2 := by norm_num
  have ha : ∀ a ∈ [1, 2, 100], 0 < a := by simp
  refine ⟨fl, h1, h2, fun k => ?_, ?_, fun k => ?_⟩
  · obtain ⟨st, e, _, h⟩ := realtime_range h1 k 2 4 _ hr ha _ hx 2 (by norm_num) hB (by simp)
    exact ⟨st, e, by simpa using h.len⟩
  · obtain ⟨st, m, e, e', h⟩ := tdev_realtime_mdev_range h1 2 4 _ hr ha (by simp) _ hx 2 (by norm_num) hB (by simp)
    exact ⟨st, m, e, e', by simpa using h.len⟩
  · obtain ⟨st, e, h⟩ := realtime_freq_range h1 k 2 4 _ hr ha _ (by simp) hx 2 hB (by simp)
    exact ⟨st, e, by simpa using h.len⟩

end AT
