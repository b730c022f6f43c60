import Verif.Props.Convert

/-!
# C04, C05, C60: shape of the results, rejected calls, signs
-/

namespace AT

open Spec Finset Real

/-- The averaging factor `m` is one for which `fn` has to report a point: it is positive,
below the length, not above the limit of the function, even for theo1, requested, and has
more than one term. -/
def Spec.Reported (fn : DevName) (N : ℕ) (rate : ℝ) (taus : TausArg) (m : ℕ) : Prop :=
  0 < m ∧ m < lenOf fn N ∧ (m : ℝ) ≤ maxOf fn N ∧ (fn = .theo1 → Even m) ∧
    Requested (lenOf fn N) rate taus m ∧ 1 < count fn N m

/-- every deviation function first converts its input to phase -/
theorem run_input (fn : DevName) (data : List ℝ) (rate : ℝ) (dt : String) (taus : TausArg) :
    fn.run data rate dt taus =
      (do let x ← input_to_phase data rate dt; fn.run x rate "phase" taus) := by
  by_cases h1 : dt = "phase"
  · subst h1; rw [input_phase]; rfl
  by_cases h2 : dt = "freq"
  · subst h2; rw [input_freq, run_freq]
  have hi : ∀ x : List ℝ, input_to_phase x rate dt = .error .exception := by
    intro x; simp [input_to_phase, h1, h2]
  rw [hi]
  cases fn <;> simp only [DevName.run, adev, oadev, mdev, tdev, hdev, ohdev, pdev, totdev, mtotdev,
    ttotdev, htotdev, theo1, tierms, mtie, mtie_mem, hi, error_bind, if_neg h1, if_neg h2]

theorem factors_mem_iff {N : ℕ} {rate : ℝ} {taus : TausArg} {even : Bool} {mx : ℝ} {ms : List ℕ}
    (h : factors N rate taus even mx = .ok ms) (m : ℕ) : m ∈ ms ↔
      0 < m ∧ m < N ∧ (m : ℝ) ≤ mx ∧ (even = true → Even m) ∧ Requested N rate taus m := by
  refine ⟨fun hm => factors_mem h hm, fun hm => ?_⟩
  unfold factors at h
  split_ifs at h
  split at h
  · cases h
  · cases h
    rw [List.mem_filter, List.mem_range, admissible_iff]
    exact ⟨hm.2.1, hm⟩

theorem reported_iff (fn : DevName) (N : ℕ) (rate : ℝ) (taus : TausArg) (ms : List ℕ)
    (h : factors (lenOf fn N) rate taus (decide (fn = .theo1)) (maxOf fn N) = .ok ms) (m : ℕ) :
    m ∈ ms.filter (fun m => decide (1 < count fn N m)) ↔ Reported fn N rate taus m := by
  rw [List.mem_filter, factors_mem_iff h]
  simp only [decide_eq_true_eq]
  unfold Reported
  constructor
  · rintro ⟨⟨a, b, c, d, e⟩, f⟩
    exact ⟨a, b, c, fun hf => d (by simp [hf]), e, f⟩
  · rintro ⟨a, b, c, d, e, f⟩
    exact ⟨⟨a, b, c, fun hf => d (by simpa using hf), e⟩, f⟩

/-- the complete outcome of a call with phase data -/
theorem run_cases (fn : DevName) (x : List ℝ) (rate : ℝ) (taus : TausArg) :
    (fn.run x rate "phase" taus =
      if fn = .theo1 ∧ rate = 0 then .error .zeroDivisionError
      else if rate = 0 then .error .runtimeError
      else match tausError (lenOf fn x.length) taus with
        | some e => .error e
        | none =>
          if fn = .totdev ∧ x.length < 2 then .error (if x = [] then .indexError else .valueError)
          else fn.run x rate "phase" taus) ∧
    (rate ≠ 0 → tausError (lenOf fn x.length) taus = none → ¬ (fn = .totdev ∧ x.length < 2) →
      ∃ kept : List ℕ, kept.Pairwise (· < ·) ∧
        (∀ m, m ∈ kept ↔ Reported fn x.length rate taus m) ∧
        fn.run x rate "phase" taus =
          if kept = [] then .error .userWarning
          else .ok ⟨kept.map (fun (m : ℕ) => (m : ℝ) / rate),
            kept.map (fun m => sign fn rate m * value fn (seq x) x.length rate m),
            .arr (kept.map (fun m => errOf fn x.length m
              (sign fn rate m * value fn (seq x) x.length rate m))),
            kept.map (count fn x.length)⟩) := by
  constructor
  · by_cases h1 : fn = .theo1 ∧ rate = 0
    · rw [run_phase]; unfold result; simp only [if_pos h1]
    by_cases h2 : rate = 0
    · rw [if_neg h1, if_pos h2, run_phase]
      unfold result Stat.table table factors
      simp only [if_neg h1, if_pos h2, error_bind]
      split_ifs <;> rfl
    rw [if_neg h1, if_neg h2]
    cases h3 : tausError (lenOf fn x.length) taus with
    | some e =>
      rw [run_phase]
      unfold result Stat.table table factors
      simp only [if_neg h1, if_neg h2]
      by_cases h4 : fn = .totdev ∧ x.length < 2
      · have : lenOf fn x.length = x.length := by simp [lenOf, h4.1]
        rw [this] at h3
        simp only [if_pos h4, h3, error_bind]
      · have : (stat fn (seq x) x.length rate).len = lenOf fn x.length := rfl
        simp only [if_neg h4, this, h3, error_bind]
    | none =>
      simp only
      split_ifs with h4 h5
      · rw [run_phase]; unfold result factors
        have : lenOf fn x.length = x.length := by simp [lenOf, h4.1]
        rw [this] at h3
        simp only [if_neg h1, if_neg h2, if_pos h4, h3, ok_bind, if_pos h5]
      · rw [run_phase]; unfold result factors
        have : lenOf fn x.length = x.length := by simp [lenOf, h4.1]
        rw [this] at h3
        simp only [if_neg h1, if_neg h2, if_pos h4, h3, ok_bind, if_neg h5]
      · rfl
  · intro hr ht h4
    obtain ⟨ms, hms⟩ : ∃ ms, factors (lenOf fn x.length) rate taus (decide (fn = .theo1))
        (maxOf fn x.length) = .ok ms := by
      unfold factors
      rw [if_neg hr, ht]
      exact ⟨_, rfl⟩
    refine ⟨ms.filter (fun m => decide (1 < count fn x.length m)), ?_, ?_, ?_⟩
    · exact (factors_sorted hms).filter _
    · exact reported_iff fn x.length rate taus ms hms
    · rw [run_phase]
      unfold result
      rw [if_neg (fun h => hr h.2), if_neg h4]
      unfold Stat.table table
      have e : factors (stat fn (seq x) x.length rate).len rate taus
        (stat fn (seq x) x.length rate).even (stat fn (seq x) x.length rate).maxM = .ok ms := hms
      rw [e]
      rfl

/-- C04: the result arrays are aligned, have one entry for each factor to be reported and no
other, in increasing order; the exact counts, taus, deviations and errors. -/
theorem run_ok (fn : DevName) (x : List ℝ) (rate : ℝ) (taus : TausArg) (o : DevOut ℝ)
    (h : fn.run x rate "phase" taus = .ok o) :
    ∃ kept : List ℕ, kept ≠ [] ∧ kept.Pairwise (· < ·) ∧
      (∀ m, m ∈ kept ↔ Reported fn x.length rate taus m) ∧
      o.taus = kept.map (fun (m : ℕ) => (m : ℝ) / rate) ∧
      o.devs = kept.map (fun m => sign fn rate m * value fn (seq x) x.length rate m) ∧
      o.errs = .arr (kept.map (fun m => errOf fn x.length m
        (sign fn rate m * value fn (seq x) x.length rate m))) ∧
      o.ns = kept.map (count fn x.length) := by
  obtain ⟨hA, hB⟩ := run_cases fn x rate taus
  rw [h] at hA
  by_cases h1 : fn = .theo1 ∧ rate = 0
  · rw [if_pos h1] at hA; cases hA
  by_cases h2 : rate = 0
  · rw [if_neg h1, if_pos h2] at hA; cases hA
  rw [if_neg h1, if_neg h2] at hA
  cases h3 : tausError (lenOf fn x.length) taus with
  | some e => rw [h3] at hA; cases hA
  | none =>
    rw [h3] at hA
    by_cases h4 : fn = .totdev ∧ x.length < 2
    · simp only [if_pos h4] at hA; cases hA
    obtain ⟨kept, k1, k2, k3⟩ := hB h2 h3 h4
    rw [h] at k3
    split_ifs at k3 with k4
    injection k3 with k3
    subst k3
    exact ⟨kept, k4, k1, k2, rfl, rfl, rfl, rfl⟩

/-- C04: no returned point has fewer than two terms. -/
theorem run_ns (fn : DevName) (x : List ℝ) (rate : ℝ) (taus : TausArg) (o : DevOut ℝ)
    (h : fn.run x rate "phase" taus = .ok o) : ∀ n ∈ o.ns, 1 < n := by
  obtain ⟨kept, _, _, k2, _, _, _, k3⟩ := run_ok fn x rate taus o h
  rw [k3]
  intro n hn
  obtain ⟨m, hm, rfl⟩ := List.mem_map.1 hn
  exact ((k2 m).1 hm).2.2.2.2.2

/-- C04: taus are strictly increasing for a positive rate. -/
theorem run_taus_sorted (fn : DevName) (x : List ℝ) (rate : ℝ) (hr : 0 < rate) (taus : TausArg)
    (o : DevOut ℝ) (h : fn.run x rate "phase" taus = .ok o) : o.taus.Pairwise (· < ·) := by
  obtain ⟨kept, _, k1, _, k3, _⟩ := run_ok fn x rate taus o h
  rw [k3, List.pairwise_map]
  refine k1.imp (fun {a b} hab => ?_)
  have : (a : ℝ) < b := by exact_mod_cast hab
  exact div_lt_div_of_pos_right this hr

/-- C04: UserWarning is raised exactly when the call is otherwise legal and no factor is to
be reported. -/
theorem run_userWarning (fn : DevName) (x : List ℝ) (rate : ℝ) (taus : TausArg) :
    fn.run x rate "phase" taus = .error .userWarning ↔
      rate ≠ 0 ∧ tausError (lenOf fn x.length) taus = none ∧ ¬ (fn = .totdev ∧ x.length < 2) ∧
        ∀ m, ¬ Reported fn x.length rate taus m := by
  obtain ⟨hA, hB⟩ := run_cases fn x rate taus
  constructor
  · intro h
    rw [h] at hA
    by_cases h1 : fn = .theo1 ∧ rate = 0
    · rw [if_pos h1] at hA; cases hA
    by_cases h2 : rate = 0
    · rw [if_neg h1, if_pos h2] at hA; cases hA
    rw [if_neg h1, if_neg h2] at hA
    have h3 : tausError (lenOf fn x.length) taus = none := by
      cases h3 : tausError (lenOf fn x.length) taus with
      | none => rfl
      | some e =>
        rw [h3] at hA
        injection hA with hA
        subst hA
        unfold tausError at h3
        split at h3 <;> (try split_ifs at h3) <;> cases h3
    rw [h3] at hA
    by_cases h4 : fn = .totdev ∧ x.length < 2
    · simp only [if_pos h4] at hA
      split_ifs at hA <;> cases hA
    refine ⟨h2, h3, h4, ?_⟩
    obtain ⟨kept, _, k2, k3⟩ := hB h2 h3 h4
    rw [h] at k3
    split_ifs at k3 with k4
    intro m hm
    rw [← k2, k4] at hm
    cases hm
  · rintro ⟨h2, h3, h4, h5⟩
    obtain ⟨kept, _, k2, k3⟩ := hB h2 h3 h4
    rw [k3, if_pos]
    rw [List.eq_nil_iff_forall_not_mem]
    intro m hm
    exact h5 m ((k2 m).1 hm)

/-- three phase values are too few for the Hadamard deviation -/
example : DevName.hdev.run [0, 1, 5] 1 "phase" (.list [1]) = .error .userWarning := by
  rw [run_userWarning]
  refine ⟨one_ne_zero, by simp [tausError], by simp, fun m h => ?_⟩
  obtain ⟨h1, h0, -, -, -, h2⟩ := h
  have h0 : m < 3 := h0
  interval_cases m <;> revert h2 <;> simp [count, decimated]

/-! ## C05 -/

/-- C05: with rate 0 no deviation function returns, whatever the data, data type and taus. -/
theorem run_rate_zero (fn : DevName) (data : List ℝ) (dt : String) (taus : TausArg) :
    ∃ e, fn.run data 0 dt taus = .error e := by
  rw [run_input]
  cases h : input_to_phase data 0 dt with
  | error e => exact ⟨e, rfl⟩
  | ok x =>
    simp only [ok_bind]
    rw [(run_cases fn x 0 taus).1]
    by_cases h1 : fn = .theo1 ∧ (0 : ℝ) = 0
    · rw [if_pos h1]; exact ⟨_, rfl⟩
    · rw [if_neg h1, if_pos rfl]; exact ⟨_, rfl⟩

/-- C05: an unknown data type raises `Exception`. -/
theorem run_unknown_type (fn : DevName) (data : List ℝ) (rate : ℝ) (dt : String) (taus : TausArg)
    (h1 : dt ≠ "phase") (h2 : dt ≠ "freq") : fn.run data rate dt taus = .error .exception := by
  rw [run_input]
  simp [input_to_phase, h1, h2, error_bind]

/-- C05: an unknown tau keyword makes every call fail. -/
theorem run_unknown_taus (fn : DevName) (data : List ℝ) (rate : ℝ) (dt : String) (s : String)
    (hs : s ≠ "all" ∧ s ≠ "octave" ∧ s ≠ "decade" ∧ s ≠ "log10") :
    ∃ e, fn.run data rate dt (.str s) = .error e := by
  rw [run_input]
  cases h : input_to_phase data rate dt with
  | error e => exact ⟨e, rfl⟩
  | ok x =>
    simp only [ok_bind]
    rw [(run_cases fn x rate (.str s)).1]
    have : tausError (lenOf fn x.length) (.str s) = some .typeError := by
      simp [tausError, hs.1, hs.2.1, hs.2.2.1, hs.2.2.2]
    rw [this]
    split_ifs <;> exact ⟨_, rfl⟩

/-- the hypotheses can be met -/
example : "Phase" ≠ "phase" ∧ "Phase" ≠ "freq" ∧ "All" ≠ "all" := by decide

/-! ## C60 -/

theorem value_nonneg (fn : DevName) (x : ℕ → ℝ) (N : ℕ) (rate : ℝ) (hr : 0 < rate) (m : ℕ) :
    0 ≤ value fn x N rate m := by
  have hτ : 0 ≤ (m : ℝ) / rate := by positivity
  cases fn <;> simp only [value, Spec.adev, Spec.oadev, Spec.mdev, Spec.tdev, Spec.hdev, Spec.ohdev,
    Spec.pdev, Spec.totdev, Spec.mtotdev, Spec.htotdev', Spec.htotdev, Spec.theo1, Spec.tierms, rms]
  all_goals first
    | (apply Real.sSup_nonneg; rintro d ⟨i, j, _, _, _, rfl⟩; exact abs_nonneg _)
    | exact Real.sqrt_nonneg _
    | exact mul_nonneg (div_nonneg hτ (Real.sqrt_nonneg _)) (Real.sqrt_nonneg _)
    | (split_ifs <;> exact Real.sqrt_nonneg _)

theorem sign_pos_rate (fn : DevName) (rate : ℝ) (hr : 0 < rate) (m : ℕ) : sign fn rate m = 1 := by
  have : rateSign rate = 1 := by unfold rateSign; rw [if_neg (not_lt.2 hr.le)]
  cases fn <;> simp [sign, this]

/-- C60: for positive rates no deviation is negative, for phase and for frequency data. -/
theorem run_devs_nonneg (fn : DevName) (data : List ℝ) (rate : ℝ) (hr : 0 < rate) (dt : String)
    (taus : TausArg) (o : DevOut ℝ) (h : fn.run data rate dt taus = .ok o) :
    ∀ d ∈ o.devs, 0 ≤ d := by
  rw [run_input] at h
  cases hx : input_to_phase data rate dt with
  | error e => rw [hx] at h; cases h
  | ok x =>
    rw [hx, ok_bind] at h
    obtain ⟨kept, _, _, _, _, k4, _⟩ := run_ok fn x rate taus o h
    rw [k4]
    intro d hd
    obtain ⟨m, _, rfl⟩ := List.mem_map.1 hd
    rw [sign_pos_rate fn rate hr, one_mul]
    exact value_nonneg fn _ _ rate hr m

/-- C60: the error bar is the deviation over the root of the number of terms for all
functions except tierms and theo1. -/
theorem run_errs (fn : DevName) (h1 : fn ≠ .tierms) (h2 : fn ≠ .theo1) (x : List ℝ) (rate : ℝ)
    (taus : TausArg) (o : DevOut ℝ) (h : fn.run x rate "phase" taus = .ok o) :
    o.errs = .arr (List.zipWith (fun d (n : ℤ) => d / √(n : ℝ)) o.devs o.ns) := by
  obtain ⟨kept, _, _, _, _, k4, k5, k6⟩ := run_ok fn x rate taus o h
  rw [k4, k5, k6, List.zipWith_map, List.zipWith_self]
  congr 1
  apply List.map_congr_left
  intro m _
  cases fn <;> first | exact absurd rfl h1 | exact absurd rfl h2 | rfl

/-- C60: tierms reports 0 as error bar, theo1 the deviation over `√(N-m)`. -/
theorem run_errs_special (x : List ℝ) (rate : ℝ) (taus : TausArg) (o : DevOut ℝ) :
    (DevName.tierms.run x rate "phase" taus = .ok o →
      o.errs = .arr (o.taus.map (fun _ => 0))) ∧
    (DevName.theo1.run x rate "phase" taus = .ok o →
      o.errs = .arr (List.zipWith (fun d τ => d / √((x.length : ℝ) - τ * rate)) o.devs o.taus)) := by
  constructor
  · intro h
    obtain ⟨kept, _, _, _, k3, _, k5, _⟩ := run_ok _ x rate taus o h
    rw [k3, k5, List.map_map]
    rfl
  · intro h
    have hr : rate ≠ 0 := by
      rintro rfl
      obtain ⟨e, he⟩ := run_rate_zero .theo1 x "phase" taus
      rw [he] at h; cases h
    obtain ⟨kept, _, _, _, k3, k4, k5, _⟩ := run_ok _ x rate taus o h
    rw [k3, k4, k5, List.zipWith_map, List.zipWith_self]
    congr 1
    apply List.map_congr_left
    intro m _
    have : (m : ℝ) / rate * rate = m := div_mul_cancel₀ _ hr
    simp only [errOf, errCount, this]
    push_cast
    rfl

/-- a call that returns: the hypotheses of the theorems above can be met -/
example : ∃ o, DevName.oadev.run [0, 1, 0, 1, 5] 1 "phase" (.str "all") = .ok o := by
  obtain ⟨kept, _, k2, k3⟩ := (run_cases .oadev [0, 1, 0, 1, 5] 1 (.str "all")).2 one_ne_zero rfl
    (by simp)
  rw [k3, if_neg]
  · exact ⟨_, rfl⟩
  · intro h
    have : (1 : ℕ) ∈ kept := (k2 1).2 ⟨by norm_num, by simp [lenOf], by norm_num [maxOf], by simp,
      Or.inl rfl, by norm_num [count]⟩
    rw [h] at this; cases this

end AT
