import Verif.Lemmas.Convert
import Verif.Props.Invar

/-!
# C29–C32: conversions between phase and frequency
-/

namespace AT

open Spec Finset Real

/-! ## C31: trimming -/

/-- C31: `trim_data x` returns `t` exactly when `x` is `t` with NaN margins and `t` starts and
ends with a number. -/
theorem trim_data_iff (x t : List NV) :
    trim_data x = .ok t ↔
      (∃ a b, x = List.replicate a none ++ t ++ List.replicate b none) ∧
      (∃ v : ℝ, t.head? = some (some v)) ∧ (∃ v : ℝ, t.getLast? = some (some v)) := by
  constructor
  · intro h
    by_cases hx : ∃ v : ℝ, some v ∈ x
    · obtain ⟨a, s, b, rfl, ⟨v, hv⟩, ⟨w, hw⟩⟩ := trim_split x hx
      rw [trim_data_split a b s v w hv hw] at h
      injection h with h
      subst h
      exact ⟨⟨a, b, rfl⟩, ⟨v, hv⟩, ⟨w, hw⟩⟩
    · have : x = List.replicate x.length none := by
        rw [List.eq_replicate_iff]
        refine ⟨rfl, fun y hy => ?_⟩
        cases y with
        | none => rfl
        | some v => exact absurd ⟨v, hy⟩ hx
      rw [this] at h
      unfold trim_data at h
      rw [trimFirst_none] at h
      cases h
  · rintro ⟨⟨a, b, rfl⟩, ⟨v, hv⟩, ⟨w, hw⟩⟩
    exact trim_data_split a b t v w hv hw

/-- C31: the only failure is IndexError, and it occurs exactly when there is no number. -/
theorem trim_data_error (x : List NV) :
    (∀ v : ℝ, some v ∉ x) ↔ ∃ e, trim_data x = .error e := by
  constructor
  · intro hx
    have : x = List.replicate x.length none := by
      rw [List.eq_replicate_iff]
      refine ⟨rfl, fun y hy => ?_⟩
      cases y with
      | none => rfl
      | some v => exact absurd hy (hx v)
    rw [this]
    unfold trim_data
    rw [trimFirst_none]
    exact ⟨.indexError, rfl⟩
  · rintro ⟨e, h⟩ v hv
    obtain ⟨a, s, b, rfl, ⟨v, hv⟩, ⟨w, hw⟩⟩ := trim_split x ⟨v, hv⟩
    rw [trim_data_split a b s v w hv hw] at h
    cases h

theorem trim_data_none (x : List NV) (hx : ∀ v : ℝ, some v ∉ x) :
    trim_data x = .error .indexError := by
  have : x = List.replicate x.length none := by
    rw [List.eq_replicate_iff]
    refine ⟨rfl, fun y hy => ?_⟩
    cases y with
    | none => rfl
    | some v => exact absurd hy (hx v)
  rw [this]
  unfold trim_data
  rw [trimFirst_none]
  rfl

example : trim_data [none, none] = .error .indexError := trim_data_none _ (by simp)

/-- C31: trimming twice is trimming once. -/
theorem trim_data_idem (x t : List NV) (h : trim_data x = .ok t) : trim_data t = .ok t := by
  obtain ⟨_, h1, h2⟩ := (trim_data_iff x t).1 h
  exact (trim_data_iff t t).2 ⟨⟨0, 0, by simp⟩, h1, h2⟩

/-- the hypotheses are met by data with margins and an interior gap -/
example : trim_data [none, none, some 1, none, some 2, none] = .ok [some 1, none, some 2] :=
  (trim_data_iff _ _).2 ⟨⟨2, 1, rfl⟩, ⟨1, rfl⟩, ⟨2, rfl⟩⟩

/-! ## C30: integration and differentiation -/

/-- arithmetic mean -/
noncomputable def Spec.mean (y : List ℝ) : ℝ := y.sum / y.length

theorem mean_eq (y : List ℝ) : Spec.mean y = (∑ k ∈ range y.length, seq y k) / y.length := by
  unfold Spec.mean
  rw [sum_eq]; rfl

theorem frequency2phase_eq (y : List ℝ) (hy : y ≠ []) (rate : ℝ) (hr : rate ≠ 0) :
    frequency2phase y rate = .ok (tab (y.length + 1) (fun i =>
      (∑ j ∈ range i, (seq y j - Spec.mean y)) / rate)) := by
  conv_lhs => rw [eq_tab_seq y]
  rw [frequency2phase_tab y.length (List.length_pos_iff.2 hy) (seq y) rate hr]
  simp only [mean_eq]

/-- the frequencies 1, 2, 6 with mean 3 at 2 samples per second -/
example : frequency2phase [1, 2, 6] 2 = .ok [0, -1, -3 / 2, 0] := by
  rw [frequency2phase_eq _ (by simp) 2 two_ne_zero]
  norm_num [tab, List.range_succ, sum_range_succ, Spec.mean, seq]

/-- C30: the phase has one more point, starts at 0 and ends at 0. -/
theorem frequency2phase_ends (y : List ℝ) (hy : y ≠ []) (rate : ℝ) (hr : rate ≠ 0) :
    ∃ x, frequency2phase y rate = .ok x ∧ x.length = y.length + 1 ∧
      x.head? = some 0 ∧ x.getLast? = some 0 := by
  refine ⟨_, frequency2phase_eq y hy rate hr, by simp, ?_, ?_⟩
  · rw [tab_succ']; simp
  · rw [tab_succ]
    have hn : (y.length : ℝ) ≠ 0 := by
      have := List.length_pos_iff.2 hy
      positivity
    have : (∑ j ∈ range y.length, (seq y j - Spec.mean y)) = 0 := by
      rw [Finset.sum_sub_distrib, Finset.sum_const, Finset.card_range, nsmul_eq_mul, mean_eq]
      field_simp
      ring
    rw [this]; simp

/-- C30: differentiating the integrated frequency gives the frequency without its mean. -/
theorem phase2frequency_frequency2phase (y : List ℝ) (hy : y ≠ []) (rate : ℝ) (hr : rate ≠ 0) :
    (frequency2phase y rate).map (fun x => phase2frequency x rate)
      = .ok (y.map (fun v => v - Spec.mean y)) := by
  rw [frequency2phase_eq y hy rate hr]
  unfold phase2frequency
  simp only [Except.map, npDiff_tab, vscale_tab]
  congr 1
  conv_rhs => rw [eq_tab_seq y, map_tab, ← eq_tab_seq y]
  rw [Nat.add_sub_cancel]
  apply tab_congr
  intro i _
  rw [Finset.sum_range_succ]
  field_simp
  ring

/-- C30: integrating the derivative of the phase gives the phase minus the straight line
through its end points. -/
theorem frequency2phase_phase2frequency (x : List ℝ) (hx : 2 ≤ x.length) (rate : ℝ) (hr : rate ≠ 0) :
    frequency2phase (phase2frequency x rate) rate =
      .ok (x.mapIdx (fun i v => v - (seq x 0 +
        (seq x (x.length - 1) - seq x 0) / ((x.length : ℝ) - 1) * i))) := by
  obtain ⟨n, hn⟩ : ∃ n, x.length = n + 1 := ⟨x.length - 1, by omega⟩
  have hn0 : 0 < n := by omega
  have h1 : phase2frequency x rate = tab n (fun i => rate * (seq x (i + 1) - seq x i)) := by
    unfold phase2frequency
    conv_lhs => rw [eq_tab_seq x]
    rw [npDiff_tab, vscale_tab, hn, Nat.add_sub_cancel]
  have htel : ∀ i, ∑ k ∈ range i, rate * (seq x (k + 1) - seq x k) = rate * (seq x i - seq x 0) := by
    intro i
    rw [← Finset.mul_sum, Finset.sum_range_sub]
  rw [h1, frequency2phase_tab n hn0 _ rate hr]
  congr 1
  symm
  apply tab_ext
  · simp [hn]
  · intro i hi
    have hi' : i < x.length := by omega
    rw [List.getElem?_mapIdx, List.getElem?_eq_getElem hi']
    simp only [Option.map_some]
    congr 1
    have e : x[i] = seq x i := by simp [seq, hi']
    rw [e, Finset.sum_sub_distrib, Finset.sum_const, Finset.card_range, nsmul_eq_mul, htel, htel, hn]
    have : (n : ℝ) ≠ 0 := by positivity
    push_cast
    rw [add_sub_cancel_right]
    field_simp
    ring

example : frequency2phase (phase2frequency [5, 4, 9] 2) 2 = .ok [0, -3, 0] := by
  rw [frequency2phase_phase2frequency _ (by simp) 2 two_ne_zero]
  norm_num [seq]

/-! ### data with gaps -/

theorem trim_data_some (y : List ℝ) (hy : y ≠ []) : trim_data (y.map some) = .ok (y.map some) := by
  rw [trim_data_iff]
  refine ⟨⟨0, 0, by simp⟩, ?_, ?_⟩
  · exact ⟨y.head hy, by rw [List.head?_map, List.head?_eq_some_head hy]; rfl⟩
  · exact ⟨y.getLast hy, by rw [List.getLast?_map, List.getLast?_eq_some_getLast hy]; rfl⟩

theorem nvCumsum_tab (n : ℕ) (f : ℕ → NV) (acc : NV) :
    nvCumsum acc (tab n f) = tab n (fun i =>
      if acc.isSome ∧ ∀ j ≤ i, (f j).isSome then
        some (acc.getD 0 + ∑ j ∈ range (i + 1), (f j).getD 0) else none) := by
  induction n generalizing f acc with
  | zero => rfl
  | succ n ih =>
    rw [tab_succ', tab_succ']
    unfold nvCumsum
    simp only
    rw [ih]
    congr 1
    · cases acc <;> cases h : f 0 <;> simp [h]
    · apply tab_congr
      intro i _
      cases acc with
      | none => simp
      | some s =>
        have hall : (∀ j ≤ i + 1, (f j).isSome = true) ↔
            ((f 0).isSome = true ∧ ∀ j ≤ i, (f (j + 1)).isSome = true) := by
          constructor
          · intro h; exact ⟨h 0 (by omega), fun j hj => h _ (by omega)⟩
          · rintro ⟨h0, h⟩ j hj
            cases j with
            | zero => exact h0
            | succ j => exact h j (by omega)
        rw [Finset.sum_range_succ' (fun j => (f j).getD 0) (i + 1)]
        cases h : f 0 with
        | none => simp [hall, h]
        | some v =>
          simp only [hall, h, Option.isSome_some, true_and, Option.getD_some]
          split_ifs
          · congr 1; ring
          · rfl

/-- C30 for data with NaN: the margins are dropped, the phase sample `i` is a number exactly
when the first `i` remaining frequencies are numbers, and then it is the integral of the
frequencies minus the mean of the numbers among them. -/
theorem frequency2phase_nv_eq (y t : List NV) (ht : trim_data y = .ok t) (rate : ℝ) (hr : rate ≠ 0) :
    frequency2phase_nv y rate = .ok (tab (t.length + 1) (fun i =>
      if ∀ j < i, (t.getD j none).isSome then
        some ((∑ j ∈ range i, ((t.getD j none).getD 0 - Spec.mean (t.filterMap id))) / rate)
      else none)) := by
  unfold frequency2phase_nv
  rw [if_neg hr, ht]
  simp only [ok_bind]
  congr 1
  have hm : npNanmean t = Spec.mean (t.filterMap id) := rfl
  rw [hm]
  set μ := Spec.mean (t.filterMap id)
  conv_lhs => rw [eq_tab t none]
  rw [map_tab, nvCumsum_tab, map_tab, tab_succ']
  congr 1
  · simp
  · apply tab_congr
    intro i hi
    have e1 : (∀ j ≤ i, (Option.map (fun v => v - μ) (t.getD j none)).isSome = true) ↔
        ∀ j < i + 1, (t.getD j none).isSome = true := by
      constructor
      · intro h j hj; have := h j (by omega); rwa [Option.isSome_map] at this
      · intro h j hj; rw [Option.isSome_map]; exact h j (by omega)
    simp only [Option.isSome_some, true_and, e1]
    split_ifs with h
    · simp only [Option.map_some, Option.getD_some, zero_add]
      congr 1
      rw [one_div, ← div_eq_mul_inv]
      congr 1
      apply Finset.sum_congr rfl
      intro j hj
      have := h j (Finset.mem_range.1 hj)
      obtain ⟨v, hv⟩ := Option.isSome_iff_exists.1 this
      rw [hv]; rfl
    · rfl

/-- C30: from the first interior NaN on every phase sample is NaN. -/
theorem frequency2phase_nv_gap (y t x : List NV) (ht : trim_data y = .ok t) (rate : ℝ) (hr : rate ≠ 0)
    (hx : frequency2phase_nv y rate = .ok x) (j : ℕ) (hj : t[j]? = some none) (i : ℕ) (hi : j < i)
    (hi' : i < x.length) : x[i]? = some none := by
  rw [frequency2phase_nv_eq y t ht rate hr] at hx
  injection hx with hx
  subst hx
  rw [tab_length] at hi'
  rw [tab_getElem?, if_pos hi', if_neg]
  intro h
  have := h j hi
  rw [List.getD_eq_getElem?_getD, hj] at this
  simp at this

/-- every phase after the gap is missing -/
example (x : List NV) (h : frequency2phase_nv [none, some 1, none, some 3] 1 = .ok x) (hl : x.length = 4) :
    x[2]? = some none ∧ x[3]? = some none :=
  have ht : trim_data [none, some 1, none, some 3] = .ok [some 1, none, some 3] :=
    (trim_data_iff _ _).2 ⟨⟨1, 0, rfl⟩, ⟨1, rfl⟩, ⟨3, rfl⟩⟩
  ⟨frequency2phase_nv_gap _ _ x ht 1 one_ne_zero h 1 rfl 2 (by norm_num) (by omega),
   frequency2phase_nv_gap _ _ x ht 1 one_ne_zero h 1 rfl 3 (by norm_num) (by omega)⟩

/-- `frequency2phase` is the restriction of `frequency2phase_nv` to data without NaN. -/
theorem frequency2phase_nv_some (y : List ℝ) (rate : ℝ) :
    frequency2phase_nv (y.map some) rate = (frequency2phase y rate).map (List.map some) := by
  by_cases hr : rate = 0
  · simp [frequency2phase_nv, frequency2phase, hr, Except.map]
  by_cases hy : y = []
  · subst hy
    simp [frequency2phase_nv, frequency2phase, hr, Except.map, trim_data, trimFirst, error_bind]
  rw [frequency2phase_nv_eq _ _ (trim_data_some y hy) rate hr, frequency2phase_eq y hy rate hr]
  simp only [Except.map, map_tab]
  congr 1
  rw [List.length_map]
  apply tab_congr
  intro i hi
  have h1 : ∀ j < i, ((y.map some).getD j none) = some (seq y j) := by
    intro j hj
    have : j < y.length := by omega
    simp [seq, this]
  rw [if_pos (fun j hj => by rw [h1 j hj]; rfl)]
  congr 2
  apply Finset.sum_congr rfl
  intro j hj
  rw [h1 j (Finset.mem_range.1 hj)]
  simp

/-! ## C29: frequency input -/

theorem input_phase (x : List ℝ) (rate : ℝ) : input_to_phase x rate "phase" = .ok x := by
  simp [input_to_phase]

theorem input_freq (y : List ℝ) (rate : ℝ) :
    input_to_phase y rate "freq" = frequency2phase y rate := by
  simp [input_to_phase]

/-- C29: for frequency data every deviation function returns what it returns for the phase
data `frequency2phase(data, rate)`. -/
theorem run_freq (fn : DevName) (y : List ℝ) (rate : ℝ) (taus : TausArg) :
    fn.run y rate "freq" taus =
      (do let x ← frequency2phase y rate; fn.run x rate "phase" taus) := by
  by_cases hht : fn = .htotdev
  · subst hht
    by_cases hr : rate = 0
    · simp [DevName.run, htotdev, frequency2phase, hr, error_bind]
    by_cases hy : y = []
    · simp [DevName.run, htotdev, frequency2phase, hr, hy, error_bind]
    obtain ⟨x, h1, h2, h3⟩ := htotdev_freq_any y hy rate hr taus
    rw [h1]
    simp only [ok_bind, DevName.run]
    rw [h3, htotdev_phase_any]
    have hl : x.length - 1 = y.length := by omega
    rw [hl]
    refine table_congr (fun m hm hmN hmax _ => ⟨rfl, fun _ => ?_⟩)
    have hv : Spec.htotdev' (seq x) (seq y) x.length y.length m (m / rate)
        = Spec.htotdev' (seq x) (freqOf (seq x) rate) x.length y.length m (m / rate) := by
      unfold htotdev'
      split_ifs with hm1
      · rfl
      · rw [← htotdev_affine (freqOf (seq x) rate) (Spec.mean y) 0 _ m hm]
        refine htotdev_congr _ _ _ _ hm (third_le hmax) (fun i hi => ?_)
        rw [frequency2phase_eq y hy rate hr] at h1
        injection h1 with h1
        unfold freqOf
        rw [← h1, seq_tab _ _ (by omega), seq_tab _ _ (by omega), Finset.sum_range_succ]
        field_simp
        ring
    rw [hv]
    exact ⟨rfl, rfl⟩
  · cases fn <;> first
      | exact absurd rfl hht
      | (simp only [DevName.run, adev, oadev, mdev, tdev, hdev, ohdev, pdev, totdev, mtotdev, ttotdev,
          theo1, tierms, mtie, mtie_mem, input_phase, input_freq, ok_bind]; done)
      | (simp only [DevName.run, ttotdev, mtotdev, input_phase, input_freq, ok_bind]
         cases frequency2phase y rate <;> rfl)

/-- C29: a constant added to all frequency samples never changes any result. -/
theorem run_freq_offset (fn : DevName) (y : List ℝ) (c rate : ℝ) (taus : TausArg) :
    fn.run (y.map (fun v => v + c)) rate "freq" taus = fn.run y rate "freq" taus := by
  have h : frequency2phase (y.map (fun v => v + c)) rate = frequency2phase y rate := by
    by_cases hr : rate = 0
    · simp [frequency2phase, hr]
    by_cases hy : y = []
    · simp [hy]
    have hy' : y.map (fun v => v + c) ≠ [] := by simpa using hy
    rw [frequency2phase_eq y hy rate hr, frequency2phase_eq _ hy' rate hr, List.length_map]
    congr 1
    apply tab_congr
    intro i hi
    have hm : Spec.mean (y.map (fun v => v + c)) = Spec.mean y + c := by
      rw [mean_eq, mean_eq, List.length_map,
        Finset.sum_congr rfl (fun k hk => seq_map y _ (Finset.mem_range.1 hk)),
        Finset.sum_add_distrib, Finset.sum_const, Finset.card_range, nsmul_eq_mul]
      have : (y.length : ℝ) ≠ 0 := by
        have := List.length_pos_iff.2 hy
        positivity
      field_simp
    congr 1
    apply Finset.sum_congr rfl
    intro j hj
    rw [Finset.mem_range] at hj
    rw [hm, seq_map y _ (by omega)]
    ring
  rw [run_freq, run_freq, h]

/-! ## C32: units -/

/-- C32: `phase2radians` multiplies sample by sample with `2π v0`. -/
theorem phase2radians_eq (x : List ℝ) (v0 : ℝ) :
    phase2radians x v0 = tab x.length (fun i => 2 * π * v0 * seq x i) := by
  unfold phase2radians
  conv_lhs => rw [eq_tab_seq x]
  rw [map_tab]

/-- C32: `phase2radians` of a difference of clocks is the difference of the results. -/
theorem phase2radians_linear (x y : List ℝ) (a b v0 : ℝ) :
    phase2radians (List.zipWith (fun u v => a * u + b * v) x y) v0
      = List.zipWith (fun u v => a * u + b * v) (phase2radians x v0) (phase2radians y v0) := by
  unfold phase2radians
  rw [List.map_zipWith, List.zipWith_map]
  congr 1
  funext u v
  ring

/-- C32: with an explicit mean `μ` (other than the marker -1) the result is `(f-μ)/μ`. -/
theorem frequency2fractional_explicit (f : List ℝ) (μ : ℝ) (hμ : μ ≠ -1) :
    frequency2fractional f μ = tab f.length (fun i => (seq f i - μ) / μ) := by
  unfold frequency2fractional
  simp only [if_neg hμ]
  conv_lhs => rw [eq_tab_seq f]
  rw [map_tab]

example : frequency2fractional [10, 11] 10 = [0, 1 / 10] := by
  rw [frequency2fractional_explicit _ _ (by norm_num)]
  norm_num [tab, List.range_succ, seq]

/-- C32: by default the arithmetic mean is used and the result has mean zero. -/
theorem frequency2fractional_default (f : List ℝ) :
    frequency2fractional f = tab f.length (fun i => (seq f i - Spec.mean f) / Spec.mean f) ∧
      (frequency2fractional f).sum = 0 := by
  have h : frequency2fractional f = tab f.length (fun i => (seq f i - Spec.mean f) / Spec.mean f) := by
    unfold frequency2fractional
    simp only [if_true]
    conv_lhs => rw [eq_tab_seq f, map_tab, ← eq_tab_seq f]
    rfl
  refine ⟨h, ?_⟩
  rw [h, sum_tab, ← Finset.sum_div, Finset.sum_sub_distrib, Finset.sum_const, Finset.card_range,
    nsmul_eq_mul]
  by_cases hf : f = []
  · simp [hf]
  have hn : (f.length : ℝ) ≠ 0 := by
    have := List.length_pos_iff.2 hf
    positivity
  have : ∑ k ∈ range f.length, seq f k = f.length * Spec.mean f := by
    rw [mean_eq]; field_simp
  rw [this, sub_self, zero_div]

example : frequency2fractional [1, 3] = [-1 / 2, 1 / 2] := by
  rw [(frequency2fractional_default _).1]
  norm_num [tab, List.range_succ, seq, Spec.mean]

end AT
