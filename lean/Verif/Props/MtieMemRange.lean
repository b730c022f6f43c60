import Verif.Props.MtieMemFloat
import Verif.Props.MtieFastFloat
import Verif.Props.FloatRangeMore

/-!
# C118: `mtie` with its low-memory loop, and `mtie_phase_fast`, with a limited range of exponents
-/

namespace AT

open Spec

variable {fl r : ℝ → ℝ} {sum sum' : List ℝ → ℝ}

theorem slide_max_same {phase : List ℝ} (hp : Arr (-343) 240 phase) (s e : ℕ) {c o n : ℝ}
    (hc : Grid (-343) 240 c) (hn : Grid (-343) 240 n) :
    Same (Grid (-343) 240) (slide_max phase s e c o n) (slide_max phase s e c o n) := by
  unfold slide_max
  split_ifs
  · exact npMax_same (hp.slice _ _).2
  · exact Same.ok rfl hn
  · exact Same.ok rfl hc

theorem slide_min_same {phase : List ℝ} (hp : Arr (-343) 240 phase) (s e : ℕ) {c o n : ℝ}
    (hc : Grid (-343) 240 c) (hn : Grid (-343) 240 n) :
    Same (Grid (-343) 240) (slide_min phase s e c o n) (slide_min phase s e c o n) := by
  unfold slide_min
  split_ifs
  · exact npMin_same (hp.slice _ _).2
  · exact Same.ok rfl hn
  · exact Same.ok rfl hc

theorem RangePair.mtie_fallback (P : RangePair fl r sum sum') {phase : List ℝ} (hp : Arr (-343) 240 phase) (m : ℕ) :
    Same (Grid (-343) 241) (mtie_fallback_fl fl phase m) (mtie_fallback_fl r phase m) := by
  unfold mtie_fallback_fl
  split_ifs
  · exact Same.error _
  · exact Same.error _
  refine (npMax_same (hp.slice _ _).2).bind fun a ha => ?_
  refine (npMin_same (hp.slice _ _).2).bind fun c hc => ?_
  obtain ⟨e1, h1⟩ := P.g (ha.sub hc) (by norm_num) (by norm_num)
  replace h1 := h1.mono (g' := -343) (b' := 241) le_rfl (by norm_num)
  rw [e1]
  refine (forRange_same (fun _ (st : ℝ × ℝ × ℝ) => Grid (-343) 240 st.1 ∧ Grid (-343) 240 st.2.1 ∧ Grid (-343) 241 st.2.2)
    ⟨ha, hc, h1⟩ fun i _ st hst => ?_).bind fun st hst => Same.ok rfl hst.2.2
  unfold mtie_fallback_step_fl
  refine (pyGet_same hp.2 _).bind fun o ho => ?_
  refine (pyGet_same hp.2 _).bind fun n hn => ?_
  refine (slide_max_same hp _ _ hst.1 hn).bind fun a' ha' => ?_
  refine (slide_min_same hp _ _ hst.2.1 hn).bind fun c' hc' => ?_
  obtain ⟨e2, h2⟩ := P.g (ha'.sub hc') (by norm_num) (by norm_num)
  replace h2 := h2.mono (g' := -343) (b' := 241) le_rfl (by norm_num)
  rw [e2]
  refine Same.ok rfl ⟨ha', hc', ?_⟩
  simp only
  split_ifs
  · exact h2
  · exact hst.2.2

theorem RangePair.mtie_windows (P : RangePair fl r sum sum') {phase : List ℝ} (hp : Arr (-343) 240 phase) (m : ℕ) :
    Same (Grid (-343) 241) (mtie_windows_fl fl phase m) (mtie_windows_fl r phase m) := by
  unfold mtie_windows_fl
  have hw : Same (fun rw => rw.length ≤ 2 ^ 47 ∧ ∀ l ∈ rw, ∀ v ∈ l, Grid (-343) 240 v)
      (mtie_rolling_window phase ((m : ℤ) + 1)) (mtie_rolling_window phase ((m : ℤ) + 1)) := by
    refine Same.refl fun rw hrw => ?_
    unfold mtie_rolling_window at hrw
    split_ifs at hrw
    cases hrw
    refine ⟨?_, fun l hl v hv => ?_⟩
    · have := hp.1
      unfold tab
      rw [List.length_map, List.length_range]
      omega
    · obtain ⟨i, _, rfl⟩ := List.mem_map.1 hl
      exact (hp.slice _ _).2 v hv
  refine hw.bind fun rw hrw => ?_
  have mx : ∀ {f : List ℝ → Py ℝ}, (∀ l ∈ rw, Same (Grid (-343) 240) (f l) (f l)) →
      Same (Arr (-343) 240) (rw.mapM f) (rw.mapM f) := by
    intro f hf
    refine Same.refl fun v hv => ⟨?_, (mapM_same rw hf).2 v hv⟩
    have hl : ∀ (l : List (List ℝ)) (v : List ℝ), l.mapM f = .ok v → v.length = l.length := by
      intro l
      induction l with
      | nil => intro v hv; cases hv; rfl
      | cons a l ih =>
        intro v hv
        rw [List.mapM_cons] at hv
        cases h1 : f a with
        | error e => rw [h1, error_bind] at hv; cases hv
        | ok b =>
        cases h2 : l.mapM f with
        | error e => rw [h1, ok_bind, h2, error_bind] at hv; cases hv
        | ok bs =>
          rw [h1, ok_bind, h2, ok_bind] at hv
          cases hv
          simp [ih bs h2]
    rw [hl rw v hv]
    exact hrw.1
  refine (mx fun l hl => npMax_same (hrw.2 l hl)).bind fun a ha => ?_
  refine (mx fun l hl => npMin_same (hrw.2 l hl)).bind fun c hc => ?_
  have e := P.vsub (F := npMax) (G := npMax) (Q := Grid (-343) 241) ha hc (by norm_num) (by norm_num)
    fun t ht => npMax_same ht.2
  exact e

theorem RangePair.mtie_body_mem (P : RangePair fl r sum sum') (fails : ℕ → Bool) {phase : List ℝ}
    (hp : Arr (-343) 240 phase) (m : ℕ) (hm : m ≤ 2 ^ 47) :
    Same (fun _ => True) (mtie_body_mem_fl fl fails phase m) (mtie_body_mem_fl r fails phase m) := by
  unfold mtie_body_mem_fl
  obtain ⟨w1, w2⟩ := P.mtie_windows hp m
  have tail : ∀ d, Grid (-343) 241 d → Same (fun _ => True)
      (Except.ok (d, fl (d / fl √(((phase.length : ℤ) - m : ℤ) : ℝ)), (phase.length : ℤ) - m) : Py (ℝ × ℝ × ℤ))
      (Except.ok (d, r (d / r √(((phase.length : ℤ) - m : ℤ) : ℝ)), (phase.length : ℤ) - m)) := by
    intro d hd
    have hk : |(phase.length : ℤ) - m| ≤ 2 ^ 48 := by
      have := hp.1
      rw [abs_le]; omega
    obtain ⟨e3, h3⟩ := P.m (Mag.sqrt (a := 0) (b := 24) ((Grid.intCast hk).mag.mono (by norm_num) (by norm_num)))
      (by norm_num) (by norm_num)
    obtain ⟨e4, h4⟩ := P.m (hd.mag.div h3) (by norm_num) (by norm_num)
    simp only [e3, e4]
    exact Same.ok rfl trivial
  by_cases hf : fails m = true
  · simp only [hf, if_true]
    exact (P.mtie_fallback hp m).bind tail
  · simp only [hf]
    rw [w1]
    cases h : mtie_windows_fl r phase m with
    | ok v => exact tail v (w2 v h)
    | error e =>
      cases e
      case valueError => exact (P.mtie_fallback hp m).bind tail
      all_goals exact Same.error _

theorem RangePair.mtie_mem (P : RangePair fl r sum sum') (fails : ℕ → Bool) (log10grid : List ℝ) {x : List ℝ}
    {rate : ℝ} {taus : TausArg} (hx : Arr (-343) 240 x) (hr : Mag (-40) 40 rate) (ht : SafeTaus rate taus)
    (hR : RangeTaus rate taus) :
    mtie_mem_fl fl fails log10grid x rate taus = mtie_mem_fl r fails log10grid x rate taus :=
  (P.run log10grid x false (-1) (D := fun _ => True) (n := fun _ => True) hx.1 hr ht hR
    (body := fun x _ _ m => mtie_body_mem_fl fl fails x m) (body' := fun x _ _ m => mtie_body_mem_fl r fails x m)
    fun _ _ _ m hm => (P.mtie_body_mem fails hx m hm).mono fun _ _ => ⟨trivial, trivial⟩).1

/-- C118: `mtie` in double precision with a limited range of exponents, whichever rolling windows fail for
lack of memory -/
theorem mtie_mem_range (hfl : Binary64Range fl) (fails : ℕ → Bool) (log10grid x : List ℝ)
    (hx : ∀ v ∈ x, Moderate v) (rate : ℝ) (hr : ModerateRate rate)
    (taus : TausArg) (hN : x.length ≤ 2 ^ 47) (ht : SafeTaus rate taus) (hR : RangeTaus rate taus) :
    (∃ e, mtie_mem_fl fl fails log10grid x rate taus = .error e ∧
      mtie_mem fails x rate "phase" taus = .error e) ∨
    ∃ o o', mtie_mem_fl fl fails log10grid x rate taus = .ok o ∧
      mtie_mem fails x rate "phase" taus = .ok o' ∧ FloatClose Spec.mtieBound o o' := by
  obtain ⟨sum, hsum⟩ := exists_floatSum fl
  obtain ⟨r, sum', P⟩ := exists_rangePair hfl hsum
  rw [P.mtie_mem fails log10grid (arr_of_moderate hx (hN.trans (by norm_num))) (ModerateRate.mag hr) ht hR]
  exact mtie_mem_float P.floatRound fails log10grid x rate taus hN ht

theorem pySet_same {R : ℝ → Prop} {l : List ℝ} (hl : ∀ v ∈ l, R v) (i : ℕ) {v : ℝ} (hv : R v) :
    Same (fun l => ∀ v ∈ l, R v) (pySet l i v) (pySet l i v) := by
  refine Same.refl fun l' h => ?_
  unfold pySet at h
  split_ifs at h
  cases h
  intro w hw
  rcases List.mem_or_eq_of_mem_set hw with h | rfl
  · exact hl w h
  · exact hv

theorem grid_max {g b : ℤ} {u v : ℝ} (hu : Grid g b u) (hv : Grid g b v) : Grid g b (max u v) := by
  rcases max_choice u v with h | h <;> rw [h] <;> assumption

theorem grid_min {g b : ℤ} {u v : ℝ} (hu : Grid g b u) (hv : Grid g b v) : Grid g b (min u v) := by
  rcases min_choice u v with h | h <;> rw [h] <;> assumption

theorem RangePair.mtie_fast_column (P : RangePair fl r sum sum') {phase pmax pmin : List ℝ}
    (hp : ∀ v ∈ phase, Grid (-343) 240 v) (hx : ∀ v ∈ pmax, Grid (-343) 240 v)
    (hn : ∀ v ∈ pmin, Grid (-343) 240 v) (k : ℕ) :
    Same (fun st => (∀ v ∈ st.1, Grid (-343) 240 v) ∧ ∀ v ∈ st.2.1, Grid (-343) 240 v)
      (mtie_fast_column_fl fl phase pmax pmin k) (mtie_fast_column_fl r phase pmax pmin k) := by
  have hz : ∀ n : ℕ, ∀ v ∈ List.replicate n (0 : ℝ), Grid (-343) 240 v := by
    intro n v hv
    rw [List.eq_of_mem_replicate hv]
    exact ⟨⟨0, by simp⟩, by simp⟩
  unfold mtie_fast_column_fl
  refine forRange_same (fun _ (st : List ℝ × List ℝ × List ℝ) => (∀ v ∈ st.1, Grid (-343) 240 v) ∧ ∀ v ∈ st.2.1, Grid (-343) 240 v)
    ⟨hz _, hz _⟩ fun i _ st hst => ?_
  have he : Same (fun ab => Grid (-343) 240 ab.1 ∧ Grid (-343) 240 ab.2)
      (mtie_fast_entry phase pmax pmin k i) (mtie_fast_entry phase pmax pmin k i) := by
    unfold mtie_fast_entry
    split_ifs
    · refine (pyGet_same hp _).bind fun u hu => ?_
      refine (pyGet_same hp _).bind fun v hv => ?_
      exact Same.ok rfl ⟨grid_max hu hv, grid_min hu hv⟩
    · refine (pyGet_same hx _).bind fun u hu => ?_
      refine (pyGet_same hx _).bind fun v hv => ?_
      refine (pyGet_same hn _).bind fun u' hu' => ?_
      refine (pyGet_same hn _).bind fun v' hv' => ?_
      exact Same.ok rfl ⟨grid_max hu hv, grid_min hu' hv'⟩
  refine he.bind fun ab hab => ?_
  refine (pySet_same hst.1 i hab.1).bind fun c hc => ?_
  refine (pySet_same hst.2 i hab.2).bind fun c' hc' => ?_
  obtain ⟨e, _⟩ := P.g (hab.1.sub hab.2) (by norm_num) (by norm_num)
  rw [e]
  refine Same.bind (R := fun _ => True) (Same.refl fun _ _ => trivial) fun t _ => ?_
  exact Same.ok rfl ⟨hc, hc'⟩

theorem RangePair.mtie_fast (P : RangePair fl r sum sum') (lg : ℝ → ℝ) {x : List ℝ}
    (hx : Arr (-343) 240 x) : mtie_phase_fast_fl fl lg x = mtie_phase_fast_fl r lg x := by
  unfold mtie_phase_fast_fl
  split_ifs
  · rfl
  have hs := (hx.slice (0 : ℕ) ((2 ^ ⌊lg x.length⌋.toNat : ℕ) : ℤ)).2
  refine (Same.bind (Q := fun _ => True) (R := fun _ => True) (Same.refl fun _ _ => trivial) fun _ _ => ?_).1
  refine Same.bind (R := fun _ => True) ?_ fun _ _ => Same.refl fun _ _ => trivial
  refine (forRange_same (fun _ (st : List ℝ × List ℝ × List (ℝ × ℤ)) => (∀ v ∈ st.1, Grid (-343) 240 v) ∧ ∀ v ∈ st.2.1, Grid (-343) 240 v)
    ⟨by simp, by simp⟩ fun i _ st hst => ?_).mono fun _ _ => trivial
  refine (P.mtie_fast_column hs hst.1 hst.2 (i + 1)).bind fun c hc => ?_
  refine Same.bind (R := fun _ => True) (Same.refl fun _ _ => trivial) fun t _ => ?_
  exact Same.ok rfl hc

/-- C118: `mtie_phase_fast` in double precision with a limited range of exponents: the exact values
rounded once -/
theorem mtie_phase_fast_range (hfl : Binary64Range fl) {lg : ℝ → ℝ}
    (hlg : ∀ n : ℕ, |lg n - Real.logb 2 n| ≤ 4 * unitRoundoff * Real.logb 2 n)
    (hpow : ∀ k : ℕ, k < 40 → lg ((2 ^ k : ℕ) : ℝ) = k) (x : List ℝ) (hx : ∀ v ∈ x, Moderate v)
    (hN : x.length < 2 ^ 40) :
    mtie_phase_fast_fl fl lg x =
      (mtie_phase_fast x).map (fun o => { o with devs := o.devs.map fl }) := by
  obtain ⟨sum, hsum⟩ := exists_floatSum fl
  obtain ⟨r, sum', P⟩ := exists_rangePair hfl hsum
  have hA := arr_of_moderate hx ((by omega : x.length ≤ 2 ^ 47).trans (by norm_num))
  rw [P.mtie_fast lg hA, mtie_phase_fast_binary64 P.binary hlg hpow x hN, mtie_phase_fast_eq_partial]
  by_cases h0 : x.length = 0
  · rw [if_pos h0]; rfl
  by_cases h4 : x.length < 4
  · rw [if_neg h0, if_pos h4]; rfl
  rw [if_neg h0, if_neg h4]
  simp only [Except.map]
  congr 2
  unfold tab
  rw [List.map_map, List.map_map]
  apply List.map_congr_left
  intro k hk
  simp only [Function.comp]
  have hlen : 2 ^ Nat.log 2 x.length ≤ x.length := Nat.pow_log_le_self 2 h0
  obtain ⟨i, j, _, _, hj, e⟩ := (mtie_greatest (x := seq x) (N := 2 ^ Nat.log 2 x.length)
    (m := 2 ^ (k + 1) - 1) (by positivity)).1
  rw [e]
  have gi := hA.2 _ (seq_mem x i (by omega))
  have gj := hA.2 _ (seq_mem x j (by omega))
  rcases abs_choice (seq x j - seq x i) with h | h <;> rw [h]
  · exact (P.g (gj.sub gi) (by norm_num) (by norm_num)).1.symm
  · exact (P.g (gj.sub gi).neg (by norm_num) (by norm_num)).1.symm

/-- the hypotheses are met by a rounding with overflow and underflow and four moderate samples; the
second call runs the low-memory loop -/
example : ∃ (fl lg : ℝ → ℝ) (o o' : DevOut ℝ), Binary64Range fl ∧ ¬ FloatRound fl ∧
    mtie_phase_fast_fl fl lg [0, 1, 0, 2] = .ok o ∧ o.ns = [3] ∧
    mtie_mem_fl fl (fun _ => true) [] [0, 1, 0, 2] 2 (.list [(2 : ℕ) / 2]) = .ok o' ∧ o'.ns = [2] := by
  obtain ⟨fl, h1, h2, _⟩ := exists_binary64Range
  obtain ⟨fl', _, h3, h4⟩ := exists_lg
  have m0 : Moderate 1 := Or.inr ⟨by simpa using (isBinary64_pow 0).1, by norm_num⟩
  have m1 : Moderate 2 := Or.inr ⟨by simpa using (isBinary64_pow 1).1, by norm_num⟩
  have mx : ∀ v ∈ ([0, 1, 0, 2] : List ℝ), Moderate v := by
    intro v hv
    simp only [List.mem_cons, List.not_mem_nil, or_false] at hv
    rcases hv with rfl | rfl | rfl | rfl
    · exact Or.inl rfl
    · exact m0
    · exact Or.inl rfl
    · exact m1
  have e1 := mtie_phase_fast_range h1 (lg := fun v => fl' (Real.logb 2 v)) h3 h4 [0, 1, 0, 2] mx (by norm_num)
  have hlog : Nat.log 2 4 = 2 := Nat.log_eq_of_pow_le_of_lt_pow (by norm_num) (by norm_num)
  rw [mtie_phase_fast_eq_partial, if_neg (by norm_num), if_neg (by norm_num)] at e1
  have ex : ∃ o', mtie [0, 1, 0, 2] 2 "phase" (.list [(2 : ℕ) / 2]) = .ok o' ∧ o'.ns = [2] := by
    rw [mtie_phase_eq, table_single _ _ (by norm_num) _ _ _ _ _ 2 (by norm_num) (by simp)
      (by norm_num) (by simp) (by norm_num)]
    exact ⟨_, rfl, by norm_num⟩
  obtain ⟨o', ex, en⟩ := ex
  have h := mtie_mem_range h1 (fun _ => true) [] [0, 1, 0, 2] mx
    2 (by constructor <;> norm_num) (.list [(2 : ℕ) / 2]) (by norm_num) (by
      intro t ht
      rw [List.mem_singleton] at ht
      exact ⟨2, by norm_num, by rw [ht]; norm_num⟩) (by
      intro t ht
      rw [List.mem_singleton] at ht
      rw [ht, show ((2 : ℕ) : ℝ) / 2 * 2 = 2 by norm_num]
      exact (show Mag 0 1 2 from Or.inr (by norm_num)).range (by norm_num) (by norm_num))
  rcases mtie_mem_partial (fun _ => true) [0, 1, 0, 2] 2 (.list [(2 : ℕ) / 2]) with ⟨e, _, k⟩ | ⟨p, q, k1, k2, _, k3, _⟩
  · rw [ex] at k; cases k
  rw [ex] at k2
  cases k2
  rw [k1] at h
  rcases h with ⟨e, _, h⟩ | ⟨o, o'', h5, h6, h7⟩
  · cases h
  cases h6
  refine ⟨fl, _, _, o, h1, h2, e1, ?_, h5, by rw [h7.ns, k3, en]⟩
  simp [hlog, tab]

end AT
