import Verif.Model.FloatGradevFreq
import Verif.Props.GradevRange
import Verif.Props.FloatFreq

/-!
# C120: gradev without gaps in double precision

Property: without NaN, `gradev` returns the very numbers of `oadev` also in double precision; for
frequency data its deviations have the error bound of `oadev`.
-/

namespace AT

open Spec Finset Real

variable {fl : ℝ → ℝ} {sum : List ℝ → ℝ}

/-- the deviation that `oadev` and `gradev` compute -/
noncomputable def devFl (fl : ℝ → ℝ) (sum : List ℝ → ℝ) (x : List ℝ) (rate : ℝ) (m : ℕ) : ℝ :=
  let w := fun i => fl (fl (seq x (i + 2 * m) - fl (2 * seq x (i + m))) + seq x i)
  fl (fl (fl √(fl (sum (tab (x.length - 2 * m) (fun i => fl (w i * w i))) /
    fl (2 * ((x.length - 2 * m : ℕ) : ℝ)))) / m) * rate)

theorem calc_adev_phase_fl_devFl (x : List ℝ) (rate : ℝ) (m : ℕ) (h : 2 * m < x.length) :
    ∃ err, calc_adev_phase_fl fl sum x rate m 1 =
      .ok (devFl fl sum x rate m, err, ((x.length - 2 * m : ℕ) : ℤ)) := by
  unfold calc_adev_phase_fl devFl
  set N := x.length with hNx
  set X := seq x with hX
  rw [show x = tab N X from eq_tab_seq x]
  rw [sliceStep_tab _ _ _ _ one_pos, sliceStep_tab _ _ _ _ one_pos, sliceStep_tab _ _ _ _ one_pos]
  simp only [ok_bind, tab_length, one_mul, mul_one, Nat.div_one, Nat.add_sub_cancel, Nat.sub_zero]
  have hmin : min (min N (N - m)) (N - 2 * m) = N - 2 * m := by omega
  have hn : (if N - 2 * m = 0 then 1 else N - 2 * m) = N - 2 * m := by rw [if_neg (by omega)]
  simp only [hmin, hn, sliceTo_nat, take_tab]
  have q1 : min (N - 2 * m) (N - 2 * m) = N - 2 * m := min_self _
  have q2 : min (N - 2 * m) (N - m) = N - 2 * m := by omega
  have q3 : min (N - 2 * m) N = N - 2 * m := by omega
  simp only [q1, q2, q3, vscale_fl, vsub_fl, vadd_fl, vmul_fl, map_tab, vop_tab, ok_bind]
  have e : ∀ i, fl (fl (X (2 * m + i) - fl (2 * X (m + i))) + X (0 + i)) =
      fl (fl (X (i + 2 * m) - fl (2 * X (i + m))) + X i) := by
    intro i
    rw [Nat.zero_add, Nat.add_comm m i, Nat.add_comm (2 * m) i]
  simp only [e]
  exact ⟨_, rfl⟩

theorem calc_gradev_phase_fl_devFl (ppf : ℝ → ℝ → NV) (x : List ℝ) (rate : ℝ) (m : ℕ) (h : 2 * m < x.length)
    (c : ℝ) (nt : String) :
    calc_gradev_phase_fl fl sum ppf (x.map some) rate m 1 c nt =
      (do
        let e ← gradev_err ppf (devFl fl sum x rate m) c x.length m (x.length - 2 * m) nt
        .ok (devFl fl sum x rate m, e, ((x.length - 2 * m : ℕ) : ℤ))) := by
  unfold calc_gradev_phase_fl devFl
  set N := x.length with hNx
  set X := seq x with hX
  rw [show x = tab N X from eq_tab_seq x, map_tab]
  rw [sliceStep_tab _ _ _ _ one_pos, sliceStep_tab _ _ _ _ one_pos, sliceStep_tab _ _ _ _ one_pos]
  simp only [ok_bind, tab_length, one_mul, mul_one, Nat.div_one, Nat.add_sub_cancel, Nat.sub_zero]
  have hmin : min (min N (N - m)) (N - 2 * m) = N - 2 * m := by omega
  simp only [hmin, sliceTo_nat, take_tab]
  have q1 : min (N - 2 * m) (N - 2 * m) = N - 2 * m := min_self _
  have q2 : min (N - 2 * m) (N - m) = N - 2 * m := by omega
  have q3 : min (N - 2 * m) N = N - 2 * m := by omega
  have num : ∀ (n : ℕ) (f : ℕ → ℝ), numbers (tab n (fun i => some (f i))) = tab n f := by
    intro n f
    unfold numbers tab
    rw [List.filterMap_map]
    exact congrFun (List.filterMap_eq_map (f := f)) _
  simp only [q1, q2, q3, map_tab, vop_tab, ok_bind, filter_length_tab, Option.map_some, nv2, num,
    Option.isSome_some, Finset.filter_true, Finset.card_range]
  have e : ∀ i, fl (fl (X (2 * m + i) - fl (2 * X (m + i))) + X (0 + i)) =
      fl (fl (X (i + 2 * m) - fl (2 * X (i + m))) + X i) := by
    intro i
    rw [Nat.zero_add, Nat.add_comm m i, Nat.add_comm (2 * m) i]
  have hn : (if N - 2 * m = 0 then 1 else N - 2 * m) = N - 2 * m := by rw [if_neg (by omega)]
  simp only [e, hn]

theorem gradev_err_ok (ppf : ℝ → ℝ → NV) (dev c : ℝ) {N m : ℕ} (h0 : 0 < m) (h : m < N) (n : ℕ)
    (hn : 1 < n → 4 ≤ N) (nt : String) :
    ∃ e, gradev_err ppf dev c N m n nt = .ok e := by
  unfold gradev_err
  split_ifs with h2
  · obtain ⟨v, hv⟩ := (edf_simple_gradev N m (hn h2) h0 nt).2 (fun hh => by omega)
    rw [hv]
    exact ⟨_, rfl⟩
  · exact ⟨_, rfl⟩

/-- C120: without gaps `gradev` fails exactly as `oadev` in floating point, or returns the same
taus, deviations and counts, bit for bit -/
theorem gradev_fl_eq_oadev (hfl : FloatRound fl) (hsum : ∀ l, FloatSum fl l (sum l)) (ppf : ℝ → ℝ → NV)
    (log10grid x : List ℝ) (rate : ℝ) (hr : 0 < rate) (taus : TausArg) (hN : x.length ≤ 2 ^ 47)
    (ht : SafeTaus rate taus) (c : ℝ) (nt : String) :
    SameCurve (gradev_fl fl sum ppf log10grid (x.map some) rate taus c nt) (oadev_fl fl sum log10grid x rate taus) := by
  obtain ⟨B, hB⟩ : ∃ B : ℝ, ∀ v ∈ x, |v| ≤ B := ⟨(x.map abs).sum, fun v hv =>
    List.single_le_sum (by simp) _ (List.mem_map_of_mem hv)⟩
  have hB' : ∀ v, some v ∈ x.map some → |v| ≤ B := by
    intro v hv
    obtain ⟨w, hw, e⟩ := List.mem_map.1 hv
    cases e
    exact hB _ hw
  have e1 : gradev_fl fl sum ppf log10grid (x.map some) rate taus c nt =
      (factors x.length rate taus false x.length >>= fun ms =>
        gradevTaus (ms.map (fun (m : ℕ) => fl ((m : ℝ) / rate))) ms
          (fun mj => calc_gradev_phase_fl fl sum ppf (x.map some) rate mj 1 c nt)) := by
    unfold gradev_fl
    rw [tau_generator_float_safe hfl log10grid (x.map some) rate taus false (-1) (by simpa using hN) ht, effMax_default,
      List.length_map]
    cases factors x.length rate taus false x.length <;> simp only [ok_bind, error_bind]
  have e2 : oadev_fl fl sum log10grid x rate taus =
      (factors x.length rate taus false x.length >>= fun ms =>
        runTaus (ms.map (fun (m : ℕ) => fl ((m : ℝ) / rate))) ms
          (fun _ mj => calc_adev_phase_fl fl sum x rate mj 1)) := by
    unfold oadev_fl
    rw [tau_generator_float_safe hfl log10grid x rate taus false (-1) hN ht, effMax_default]
    cases factors x.length rate taus false x.length <;> simp only [ok_bind, error_bind]
  rw [e1, e2]
  rcases factors_cases (N := x.length) (rate := rate) (taus := taus) (even := false)
    (mx := x.length) with ⟨e, he⟩ | ⟨ms, hms⟩
  · left
    rw [he]
    exact ⟨e, rfl, rfl⟩
  rw [hms, ok_bind, ok_bind]
  have A : ∀ m : ℕ, ∃ err : ℝ, 2 * m < x.length → calc_adev_phase_fl fl sum x rate m 1 =
      .ok (devFl fl sum x rate m, err, ((x.length - 2 * m : ℕ) : ℤ)) := by
    intro m
    by_cases h : 2 * m < x.length
    · obtain ⟨err, h'⟩ := calc_adev_phase_fl_devFl (fl := fl) (sum := sum) x rate m h
      exact ⟨err, fun _ => h'⟩
    · exact ⟨0, fun h' => absurd h' h⟩
  choose err hA using A
  have G : ∀ m : ℕ, ∃ bars : NV × NV, 0 < m → 2 * m < x.length →
      calc_gradev_phase_fl fl sum ppf (x.map some) rate m 1 c nt =
      .ok (devFl fl sum x rate m, bars, ((x.length - 2 * m : ℕ) : ℤ)) := by
    intro m
    by_cases h : 0 < m ∧ 2 * m < x.length
    · obtain ⟨e, he⟩ := gradev_err_ok ppf (devFl fl sum x rate m) c h.1 (by omega : m < x.length) (x.length - 2 * m)
        (by omega) nt
      refine ⟨e, fun _ _ => ?_⟩
      rw [calc_gradev_phase_fl_devFl ppf x rate m h.2 c nt, he]
      rfl
    · exact ⟨(none, none), fun h1 h2 => absurd ⟨h1, h2⟩ h⟩
  choose bars hG using G
  rw [gradevTaus_eq ms _ (fun m => fl ((m : ℝ) / rate)) (fun m => devFl fl sum x rate m) bars
    (fun m => ((x.length - 2 * m : ℕ) : ℤ)) ?_,
    runTaus_eq' ms _ (fun m => fl ((m : ℝ) / rate)) (fun m => devFl fl sum x rate m) err
    (fun m => ((x.length - 2 * m : ℕ) : ℤ)) ?_]
  · unfold sweep sweep2
    simp only
    split_ifs
    · exact Or.inl ⟨_, rfl, rfl⟩
    · exact Or.inr ⟨_, _, rfl, rfl, rfl, rfl, rfl⟩
  · intro m hm
    obtain ⟨h0, hmN, -⟩ := factors_mem hms hm
    by_cases h : 2 * m < x.length
    · exact ⟨_, hA m h, Iff.rfl, fun _ => rfl⟩
    · obtain ⟨row, r1, r2, _⟩ := oadev_row_float hfl hsum x B hB rate hr hN m h0 hmN
      exact ⟨row, r1, by rw [r2]; omega, fun h' => by omega⟩
  · intro m hm
    obtain ⟨h0, hmN, -⟩ := factors_mem hms hm
    by_cases h : 2 * m < x.length
    · exact ⟨_, hG m h0 h, Iff.rfl, fun _ => rfl⟩
    · obtain ⟨dev, r1, _⟩ := calc_gradev_phase_fl_eq hfl hsum ppf (x.map some) B hB' rate hr m h0
        (by simpa using hN) c nt
      have hc : complete (seqNV (x.map some)) (x.map some).length m = ∅ := by
        unfold complete
        rw [List.length_map, show x.length - 2 * m = 0 by omega]
        rfl
      rw [hc] at r1
      obtain ⟨e, he⟩ := (show ∃ e, gradev_err ppf dev c (present (seqNV (x.map some)) (x.map some).length) m
        (max 1 (∅ : Finset ℕ).card) nt = .ok e from ⟨_, rfl⟩)
      rw [he] at r1
      refine ⟨_, r1, ?_, fun h' => by omega⟩
      simp
      omega

theorem CurveClose.of_float {bound : ℝ → ℝ → ℤ → ℝ} {o o' : DevOut ℝ} (h : FloatClose bound o o')
    {β : Type} {a a' : DevOut β} (h1 : a.taus = o.taus ∧ a.devs = o.devs ∧ a.ns = o.ns)
    (h2 : a'.taus = o'.taus ∧ a'.devs = o'.devs ∧ a'.ns = o'.ns) : CurveClose bound a a' := by
  obtain ⟨t1, d1, n1⟩ := h1
  obtain ⟨t2, d2, n2⟩ := h2
  constructor
  · rw [n1, n2]; exact h.ns
  · rw [t1, t2]; exact h.taus
  · rw [d1, d2, t2, n2]; exact h.devs_len
  · rw [d1, d2, t2, n2]; exact h.devs

/-- C120: `gradev` of frequency data without NaN in floating point -/
theorem gradev_freq_float (hfl : FloatRound fl) (hsum : ∀ l, FloatSum fl l (sum l)) (ppf : ℝ → ℝ → NV)
    (log10grid y : List ℝ) (Y Z : ℝ) (hY : ∀ v ∈ y, |v| ≤ Y) (hZ : ∀ v ∈ y, |v - Spec.mean y| ≤ Z) (rate : ℝ)
    (hr : 0 < rate) (taus : TausArg) (hN : y.length ≤ 2 ^ 46) (ht : SafeTaus rate taus) (c : ℝ) (nt : String) :
    (∃ e, gradev_freq_fl fl sum ppf log10grid y rate taus c nt = .error e ∧
      gradev ppf (y.map some) rate "freq" taus c nt = .error e) ∨
    ∃ o o', gradev_freq_fl fl sum ppf log10grid y rate taus c nt = .ok o ∧
      gradev ppf (y.map some) rate "freq" taus c nt = .ok o' ∧
      CurveClose (freqBound 6 30 y.length rate (Z + 2 * y.length * unitRoundoff * Y)) o o' := by
  have key := oadev_freq_float hfl hsum log10grid y Y Z hY hZ rate hr taus hN ht
  by_cases hy : y = []
  · left
    subst hy
    refine ⟨.indexError, ?_, ?_⟩
    · simp only [gradev_freq_fl, frequency2phase_fl, if_neg hr.ne', if_true, error_bind]
    · simp only [gradev, input_to_phase_nv, frequency2phase_nv_some, frequency2phase, if_neg hr.ne', if_true,
        if_neg freq_ne_phase, Except.map, error_bind]
  obtain ⟨x', x, b, h1, h2, h3', h3, _⟩ := frequency2phase_float hfl hsum y hy Y Z hY hZ rate hr hN
  have e1 : gradev_freq_fl fl sum ppf log10grid y rate taus c nt =
      gradev_fl fl sum ppf log10grid (x'.map some) rate taus c nt := by
    simp only [gradev_freq_fl, h1, ok_bind]
  have e2 : gradev ppf (y.map some) rate "freq" taus c nt = gradev ppf (x.map some) rate "phase" taus c nt := by
    simp only [gradev, input_to_phase_nv, if_neg freq_ne_phase, if_true, frequency2phase_nv_some, h2, Except.map,
      ok_bind]
  have e3 : oadev_freq_fl fl sum log10grid y rate taus = oadev_fl fl sum log10grid x' rate taus := by
    simp only [oadev_freq_fl, h1, ok_bind]
  have e4 : oadev y rate "freq" taus = oadev x rate "phase" taus := by
    simp only [oadev, input_to_phase, if_neg freq_ne_phase, if_true, h2, ok_bind]
  rw [e3, e4] at key
  rw [e1, e2]
  have s1 := gradev_fl_eq_oadev hfl hsum ppf log10grid x' rate hr taus (by omega) ht c nt
  have s2 := gradev_eq_oadev ppf x rate taus c nt
  rcases key with ⟨e, k1, k2⟩ | ⟨o, o', k1, k2, k3⟩
  · left
    rcases s1 with ⟨f, f1, f2⟩ | ⟨_, _, _, f2, _⟩
    · rcases s2 with ⟨g, g1, g2⟩ | ⟨_, _, _, g2, _⟩
      · rw [k1] at f2; rw [k2] at g2
        cases f2; cases g2
        exact ⟨_, f1, g1⟩
      · rw [k2] at g2; cases g2
    · rw [k1] at f2; cases f2
  · right
    rcases s1 with ⟨f, f1, f2⟩ | ⟨a, b, f1, f2, f3⟩
    · rw [k1] at f2; cases f2
    rcases s2 with ⟨g, g1, g2⟩ | ⟨a', b', g1, g2, g3⟩
    · rw [k2] at g2; cases g2
    rw [k1] at f2; rw [k2] at g2
    cases f2; cases g2
    exact ⟨a, a', f1, g1, CurveClose.of_float k3 f3 g3⟩

theorem RangePair.gradev_freq {r : ℝ → ℝ} {sum' : List ℝ → ℝ} (P : RangePair fl r sum sum') (ppf : ℝ → ℝ → NV)
    (log10grid : List ℝ) {y : List ℝ} {rate : ℝ} {taus : TausArg} (hy : ∀ v ∈ y, Grid (-152) 100 v)
    (hN : y.length ≤ 2 ^ 46) (hr : Mag (-40) 40 rate) (ht : SafeTaus rate taus) (hR : RangeTaus rate taus)
    (c : ℝ) (nt : String) :
    gradev_freq_fl fl sum ppf log10grid y rate taus c nt = gradev_freq_fl r sum' ppf log10grid y rate taus c nt := by
  unfold gradev_freq_fl
  refine ((P.freq hy hN hr).bind (Q := fun _ => True) fun x hx => ?_).1
  refine ⟨P.gradev ppf log10grid ⟨by simpa using hx.1, fun o ho v e => ?_⟩ hr ht hR c nt, fun _ _ => trivial⟩
  obtain ⟨w, hw, rfl⟩ := List.mem_map.1 ho
  cases e
  exact hx.2 _ hw

/-- C120: `gradev` of frequency data without NaN with a limited range of exponents -/
theorem gradev_freq_range (hfl : Binary64Range fl) (hsum : ∀ l, FloatSum fl l (sum l)) (ppf : ℝ → ℝ → NV)
    (log10grid y : List ℝ) (hy : ∀ v ∈ y, Moderate v) (Y Z : ℝ) (hY : ∀ v ∈ y, |v| ≤ Y)
    (hZ : ∀ v ∈ y, |v - Spec.mean y| ≤ Z) (rate : ℝ) (hr : ModerateRate rate) (taus : TausArg)
    (hN : y.length ≤ 2 ^ 46) (ht : SafeTaus rate taus) (hR : RangeTaus rate taus) (c : ℝ) (nt : String) :
    (∃ e, gradev_freq_fl fl sum ppf log10grid y rate taus c nt = .error e ∧
      gradev ppf (y.map some) rate "freq" taus c nt = .error e) ∨
    ∃ o o', gradev_freq_fl fl sum ppf log10grid y rate taus c nt = .ok o ∧
      gradev ppf (y.map some) rate "freq" taus c nt = .ok o' ∧
      CurveClose (freqBound 6 30 y.length rate (Z + 2 * y.length * unitRoundoff * Y)) o o' := by
  obtain ⟨r, sum', P⟩ := exists_rangePair hfl hsum
  rw [P.gradev_freq ppf log10grid (fun v hv => Moderate.grid (hy v hv)) hN (ModerateRate.mag hr) ht hR]
  exact gradev_freq_float P.floatRound P.hsum ppf log10grid y Y Z hY hZ rate (ModerateRate.pos hr) taus hN ht c nt

/-- a rounding and frequency data that meet the hypotheses of `gradev_freq_range` -/
example (ppf : ℝ → ℝ → NV) : ∃ (fl : ℝ → ℝ) (sum : List ℝ → ℝ) (o : DevOut NV), Binary64Range fl ∧
    ¬ FloatRound fl ∧ (∀ l, FloatSum fl l (sum l)) ∧
    gradev_freq_fl fl sum ppf [] [0, 1, 2, 0, 1] 2 (.list [(2 : ℕ) / 2]) 0.68 "wf" = .ok o ∧ o.ns = [2] := by
  obtain ⟨fl, h1, h2, _⟩ := exists_binary64Range
  obtain ⟨sum, hsum⟩ := exists_floatSum fl
  have m1 : Moderate 1 := Or.inr ⟨by simpa using (isBinary64_pow 0).1, by norm_num⟩
  have m2 : Moderate 2 := Or.inr ⟨by simpa using (isBinary64_pow 1).1, by norm_num⟩
  have all : ∀ v ∈ [0, 1, 2, 0, (1 : ℝ)], v = 0 ∨ v = 1 ∨ v = 2 := by
    intro v hv
    simp only [List.mem_cons, List.not_mem_nil, or_false] at hv
    tauto
  have hs : SafeTaus 2 (.list [(2 : ℕ) / 2]) := by
    intro t ht
    rw [List.mem_singleton] at ht
    exact ⟨2, by norm_num, by rw [ht]; norm_num⟩
  have h := gradev_freq_range h1 hsum ppf [] [0, 1, 2, 0, 1]
    (fun v hv => by
      rcases all v hv with rfl | rfl | rfl
      exacts [Or.inl rfl, m1, m2]) 2 2
    (fun v hv => by rcases all v hv with rfl | rfl | rfl <;> norm_num)
    (fun v hv => by rcases all v hv with rfl | rfl | rfl <;> norm_num [Spec.mean])
    2 (by constructor <;> norm_num) (.list [(2 : ℕ) / 2]) (by norm_num) hs (by
      intro t ht
      rw [List.mem_singleton] at ht
      rw [ht, show ((2 : ℕ) : ℝ) / 2 * 2 = 2 by norm_num]
      exact (show Mag 0 1 2 from Or.inr (by norm_num)).range (by norm_num) (by norm_num)) 0.68 "wf"
  have ok : ∀ x : List ℝ, x.length = 6 → ∃ o', oadev x 2 "phase" (.list [(2 : ℕ) / 2]) = .ok o' ∧ o'.ns = [2] := by
    intro x hx
    rw [oadev_phase_eq _ _ (by norm_num), table_single _ _ (by norm_num) _ _ _ _ _ 2 (by norm_num) (by simp [hx])
      (by rw [hx]; norm_num) (by simp) (by simp [hx])]
    exact ⟨_, rfl, by simp [hx]⟩
  obtain ⟨x, hx, hl⟩ : ∃ x, frequency2phase [0, 1, 2, 0, 1] 2 = .ok x ∧ x.length = 6 := by
    unfold frequency2phase
    rw [if_neg (by norm_num), if_neg (by simp)]
    exact ⟨_, rfl, by simp [npCumsum]⟩
  have e : gradev ppf ([0, 1, 2, 0, 1].map some) 2 "freq" (.list [(2 : ℕ) / 2]) 0.68 "wf" =
      gradev ppf (x.map some) 2 "phase" (.list [(2 : ℕ) / 2]) 0.68 "wf" := by
    simp only [gradev, input_to_phase_nv, if_neg freq_ne_phase, if_true, frequency2phase_nv_some, hx, Except.map,
      ok_bind]
  obtain ⟨o', k1, k2⟩ := ok x hl
  rw [e] at h
  rcases gradev_eq_oadev ppf x 2 (.list [(2 : ℕ) / 2]) 0.68 "wf" with ⟨_, _, g⟩ | ⟨a, b, g1, g2, _, _, g3⟩
  · rw [k1] at g; cases g
  rw [k1] at g2
  cases g2
  rw [g1] at h
  rcases h with ⟨_, _, h⟩ | ⟨o, a', f1, f2, f3⟩
  · cases h
  cases f2
  exact ⟨fl, sum, o, h1, h2, hsum, f1, by rw [f3.ns, g3, k2]⟩

end AT
