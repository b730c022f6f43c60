import Verif.Lemmas.Reverse

/-!
# C23–C28: what changes of the data and of the rate do to the results
-/

namespace AT

open Spec Finset Real

theorem seq_mapIdx (x : List ℝ) (f : ℕ → ℝ → ℝ) {i : ℕ} (h : i < x.length) :
    seq (x.mapIdx f) i = f i (seq x i) := by
  unfold seq
  simp [List.getD_eq_getElem?_getD, h]

theorem seq_map (x : List ℝ) (f : ℝ → ℝ) {i : ℕ} (h : i < x.length) :
    seq (x.map f) i = f (seq x i) := by
  unfold seq
  simp [List.getD_eq_getElem?_getD, h]

theorem seq_reverse (x : List ℝ) {i : ℕ} (h : i < x.length) :
    seq x.reverse i = seq x (x.length - 1 - i) := by
  unfold seq
  simp [List.getD_eq_getElem?_getD, List.getElem?_reverse h]

theorem seq_tab (N : ℕ) (g : ℕ → ℝ) {i : ℕ} (h : i < N) : seq (tab N g) i = g i := by
  unfold seq; rw [tab_getD, if_pos h]

theorem Usable.pos {fn : DevName} {N m : ℕ} (h : Usable fn N m) : 0 < N := by
  have h1 := h.1
  have h2 := h.2.1
  unfold lenOf at h2
  split_ifs at h2 <;> omega

/-! ## C23: time and frequency offset -/

/-- C23: adding `a + b·i` to the phase samples leaves the complete result (taus, deviations,
errors, n, or the exception) of every frequency-stability statistic unchanged. -/
theorem run_affine (fn : DevName) (h1 : fn ≠ .tierms) (h2 : fn ≠ .mtie) (x : List ℝ) (a b : ℝ)
    (rate : ℝ) (taus : TausArg) :
    fn.run (x.mapIdx (fun i v => v + (a + b * i))) rate "phase" taus
      = fn.run x rate "phase" taus := by
  rw [run_phase, run_phase]
  refine result_congr fn (by simp) rate taus (fun _ m hu => ?_)
  rw [List.length_mapIdx] at hu ⊢
  rw [← value_affine fn h1 h2 (seq x) a b rate hu]
  exact value_congr fn rate hu (fun i hi => seq_mapIdx x _ hi)

example : DevName.oadev.run [0 + (5 + 2 * 0), 1 + (5 + 2 * 1), 0 + (5 + 2 * 2), 3 + (5 + 2 * 3), 1 + (5 + 2 * 4)] 1 "phase" .none
    = DevName.oadev.run [0, 1, 0, 3, 1] 1 "phase" .none := by
  have := run_affine .oadev (by simp) (by simp) [0, 1, 0, 3, 1] 5 2 1 .none
  rw [← this]
  congr 1
  simp [List.mapIdx_cons]
  norm_num

/-! ## C24: frequency drift -/

/-- C24: adding a quadratic to the phase samples (a frequency drift) leaves the complete result
of the Hadamard statistics unchanged. -/
theorem run_quadratic (fn : DevName) (h : fn = .hdev ∨ fn = .ohdev ∨ fn = .htotdev) (x : List ℝ)
    (a b c : ℝ) (rate : ℝ) (taus : TausArg) :
    fn.run (x.mapIdx (fun i v => v + (a + b * i + c * i ^ 2))) rate "phase" taus
      = fn.run x rate "phase" taus := by
  rw [run_phase, run_phase]
  refine result_congr fn (by simp) rate taus (fun _ m hu => ?_)
  rw [List.length_mapIdx] at hu ⊢
  rw [← value_quadratic fn h (seq x) a b c rate hu.1]
  exact value_congr fn rate hu (fun i hi => seq_mapIdx x _ hi)

example : DevName.ohdev.run [0 + 7, 1 + 10, 0 + 17, 3 + 28, 1 + 43] 1 "phase" .none
    = DevName.ohdev.run [0, 1, 0, 3, 1] 1 "phase" .none := by
  have := run_quadratic .ohdev (by simp) [0, 1, 0, 3, 1] 7 1 2 1 .none
  norm_num at this ⊢
  exact this

theorem rms_drift (n : ℕ) (f : ℕ → ℝ) (c K L A : ℝ) (hn : 0 < n) (hA : 0 < A) (hL : 0 ≤ L)
    (hf : ∀ i < n, f i = K) (h : K ^ 2 = 2 * c ^ 2 * L ^ 2 * A) :
    rms n f (A * n) = √2 * |c| * L := by
  unfold rms
  rw [Finset.sum_congr rfl (fun i hi => by rw [hf i (Finset.mem_range.1 hi)]),
    Finset.sum_const, Finset.card_range, nsmul_eq_mul, h]
  have hn' : (n : ℝ) ≠ 0 := by positivity
  rw [show (n : ℝ) * (2 * c ^ 2 * L ^ 2 * A) / (A * n) = 2 * (|c| * L) ^ 2 by
    rw [mul_pow, sq_abs]; field_simp,
    Real.sqrt_mul (by norm_num), Real.sqrt_sq (by positivity)]
  ring

/-- the Allan statistics of a pure drift `x i = c i²` -/
theorem value_drift (fn : DevName) (hfn : fn = .adev ∨ fn = .oadev ∨ fn = .mdev) (c : ℝ)
    {N m : ℕ} (rate : ℝ) (hr : 0 < rate) (hu : Usable fn N m) :
    value fn (fun i => c * (i : ℝ) ^ 2) N rate m = √2 * |c| * (m * rate) := by
  obtain ⟨hm, hl, hx, he, hc⟩ := hu
  have hm' : (0 : ℝ) < m := by exact_mod_cast hm
  have hd2 : ∀ k, d2 (fun i : ℕ => c * (i : ℝ) ^ 2) m k = 2 * c * m ^ 2 := by
    intro k; unfold d2; push_cast; ring
  rcases hfn with rfl | rfl | rfl <;>
    simp only [count, lenOf, reduceCtorEq, if_false] at hl hc <;> simp only [value]
  · have hc1 : ((decimated N m - 2 : ℕ) : ℝ) = (decimated N m : ℝ) - 2 := by
      rw [Nat.cast_sub (by omega)]; norm_num
    have := rms_drift (decimated N m - 2) (d2 (fun k => c * ((k * m : ℕ) : ℝ) ^ 2) 1) c (2 * c * m ^ 2)
      (m * rate) (2 * (m / rate) ^ 2) (by omega) (by positivity) (by positivity)
      (fun i _ => by unfold d2; push_cast; ring) (by field_simp)
    rw [hc1] at this
    exact this
  · have hc1 : ((N - 2 * m : ℕ) : ℝ) = (N : ℝ) - 2 * m := by
      rw [Nat.cast_sub (by omega)]; push_cast; ring
    have := rms_drift (N - 2 * m) (d2 (fun i => c * (i : ℝ) ^ 2) m) c (2 * c * m ^ 2)
      (m * rate) (2 * (m / rate) ^ 2) (by omega) (by positivity) (by positivity)
      (fun i _ => hd2 i) (by field_simp)
    rw [hc1] at this
    exact this
  · have hc1 : ((N - 3 * m + 1 : ℕ) : ℝ) = (N : ℝ) - 3 * m + 1 := by
      rw [Nat.cast_add, Nat.cast_sub (by omega)]; push_cast; ring
    have := rms_drift (N - 3 * m + 1) (fun j => ∑ i ∈ range m, d2 (fun i => c * (i : ℝ) ^ 2) m (j + i))
      c (m * (2 * c * m ^ 2)) (m * rate) (2 * m ^ 2 * (m / rate) ^ 2) (by omega) (by positivity)
      (by positivity)
      (fun i _ => by simp only [hd2, Finset.sum_const, Finset.card_range, nsmul_eq_mul])
      (by field_simp)
    rw [hc1] at this
    exact this

/-- C24: for a pure frequency drift `x[i] = c·i²` ADEV, OADEV and MDEV return exactly
`√2·|c|·m·rate` at every reported factor (and the error bar is that over `√n`). -/
theorem run_drift (fn : DevName) (hfn : fn = .adev ∨ fn = .oadev ∨ fn = .mdev) (c : ℝ) (N : ℕ)
    (rate : ℝ) (hr : 0 < rate) (taus : TausArg) :
    fn.run (tab N (fun i => c * (i : ℝ) ^ 2)) rate "phase" taus =
      table N rate taus false N (fun m => √2 * |c| * (m * rate))
        (fun m => √2 * |c| * (m * rate) / √(count fn N m : ℝ)) (count fn N) := by
  rw [run_phase]
  unfold result
  have h1 : fn ≠ .theo1 := by rcases hfn with rfl | rfl | rfl <;> simp
  have h2 : fn ≠ .totdev := by rcases hfn with rfl | rfl | rfl <;> simp
  have h3 : lenOf fn N = N := by rcases hfn with rfl | rfl | rfl <;> simp [lenOf]
  have h4 : maxOf fn N = N := by rcases hfn with rfl | rfl | rfl <;> simp [maxOf]
  rw [if_neg (by simp [h1]), if_neg (by simp [h2])]
  unfold Stat.table stat
  simp only [tab_length, h1, decide_false, h3, h4]
  refine table_congr (fun m a b d _ => ⟨rfl, fun e => ?_⟩)
  have hu : Usable fn N m := ⟨a, by rw [h3]; exact b, by rw [h4]; exact d, fun h => absurd h h1, e⟩
  have hs : sign fn rate m = 1 := by
    rcases hfn with rfl | rfl | rfl <;> simp [sign, rateSign_of_nonneg hr.le]
  have he : ∀ d, errOf fn N m d = d / √(count fn N m : ℝ) := by
    intro d
    rcases hfn with rfl | rfl | rfl <;> simp [errOf, errCount]
  rw [hs, one_mul, he, value_congr fn rate hu (fun i hi => seq_tab N _ hi),
    value_drift fn hfn c rate hr hu]
  exact ⟨rfl, rfl⟩

example := run_drift .mdev (by simp) (-3) 20 2 (by norm_num) .none

/-! ## C25: homogeneity -/

/-- C25: multiplying the data by `c` multiplies every deviation and error bar of every
deviation function by `|c|` and leaves taus, n and the failures unchanged. -/
theorem run_scale (fn : DevName) (x : List ℝ) (c rate : ℝ) (taus : TausArg) :
    fn.run (x.map (fun v => c * v)) rate "phase" taus
      = (fn.run x rate "phase" taus).map (DevOut.scale |c|) := by
  rw [run_phase, run_phase]
  refine result_scale fn (by simp) rate taus _ (fun _ m hu => ?_)
  rw [List.length_map] at hu ⊢
  rw [← value_scale fn (seq x) c rate hu.pos]
  exact value_congr fn rate hu (fun i hi => seq_map x _ hi)

/-! ## C26: time reversal -/

/-- C26 for all listed functions but `pdev`: reversing the data leaves the complete result
unchanged. -/
theorem run_reverse_partial (fn : DevName)
    (hfn : fn = .oadev ∨ fn = .mdev ∨ fn = .tdev ∨ fn = .ohdev ∨ fn = .totdev ∨ fn = .tierms ∨
      fn = .mtie) (x : List ℝ) (rate : ℝ) (taus : TausArg) :
    fn.run x.reverse rate "phase" taus = fn.run x rate "phase" taus := by
  rw [run_phase, run_phase]
  refine result_congr fn (by simp) rate taus (fun _ m hu => ?_)
  rw [List.length_reverse] at hu ⊢
  rw [← value_rev fn hfn (seq x) rate hu]
  exact value_congr fn rate hu (fun i hi => seq_reverse x hi)

example : DevName.totdev.run [4, 0, 1, 5, 2] 3 "phase" (.str "all") = DevName.totdev.run [2, 5, 1, 0, 4] 3 "phase" (.str "all") :=
  run_reverse_partial .totdev (by simp) [2, 5, 1, 0, 4] 3 _

/-- C26 fails for `pdev`: it uses `N - 2m` windows although `N - 2m + 1` fit, and drops the
one at the end; the last sample of a series is never looked at. -/
theorem pdev_reverse_wrong :
    DevName.pdev.run [0, 0, 0, 0, 0, 1] 1 "phase" (.list [2]) ≠
      DevName.pdev.run [0, 0, 0, 0, 0, 1].reverse 1 "phase" (.list [2]) := by
  have hr : ∀ k : ℕ, IsRound 2 (k : ℤ) ↔ k = 2 := by
    intro k
    have := isRound_natCast_iff 2 k
    rw [Nat.cast_ofNat] at this
    rw [this, eq_comm]
  have hf : factors 6 1 (.list [2]) false (6 : ℕ) = .ok [2] := by
    unfold factors
    rw [if_neg one_ne_zero]
    simp only [tausError]
    congr 1
    apply sorted_ext (List.pairwise_lt_range.filter _) (by simp)
    intro m
    rw [List.mem_filter, List.mem_range, admissible_iff]
    simp only [Requested, List.mem_singleton, exists_eq_left, mul_one, hr]
    constructor
    · rintro ⟨_, _, _, _, _, h⟩; exact h
    · rintro rfl; norm_num
  have key : ∀ x : List ℝ, x.length = 6 → DevName.pdev.run x 1 "phase" (.list [2]) =
      .ok ⟨[2], [Spec.pdev (seq x) 6 2 2], .arr [Spec.pdev (seq x) 6 2 2 / √2], [2]⟩ := by
    intro x hx
    simp only [DevName.run, pdev_phase_eq x 1 zero_le_one, hx, table, hf, ok_bind, sweep]
    norm_num
  rw [key _ rfl, key _ rfl]
  intro h
  injection h with h
  injection h with _ h _ _
  injection h with h _
  have h1 : Spec.pdev (seq [0, 0, 0, 0, 0, 1]) 6 2 2 = 0 := by
    norm_num [Spec.pdev, Finset.sum_range_succ, seq]
  have h2 : Spec.pdev (seq [0, 0, 0, 0, 0, 1].reverse) 6 2 2 = √(9 / 64) := by
    norm_num [Spec.pdev, Finset.sum_range_succ, seq]
  rw [h1, h2] at h
  have : (0 : ℝ) < √(9 / 64) := Real.sqrt_pos.2 (by norm_num)
  linarith

/-! ## C27: rate -/

/-- explicit taus given in units of `1/r`; keywords do not change -/
noncomputable def TausArg.times (t : TausArg) (r : ℝ) : TausArg :=
  match t with
  | .list l => .list (l.map (· * r))
  | .array l => .array (l.map (· * r))
  | t => t

/-- the result with all taus divided by `r` -/
noncomputable def DevOut.retime (r : ℝ) (o : DevOut ℝ) : DevOut ℝ :=
  ⟨o.taus.map (· / r), o.devs, o.errs, o.ns⟩

theorem requested_times (N m : ℕ) (r : ℝ) (t : TausArg) :
    Requested N r t m ↔ Requested N 1 (t.times r) m := by
  unfold TausArg.times
  rcases t with _ | s | l | l
  · rfl
  · rfl
  · cases l <;> simp [Requested]
  · simp [Requested]

theorem factors_times (N : ℕ) (r : ℝ) (hr : r ≠ 0) (t : TausArg) (even : Bool) (mx : ℝ) :
    factors N r t even mx = factors N 1 (t.times r) even mx := by
  have h1 : tausError N (t.times r) = tausError N t := by
    unfold TausArg.times
    rcases t with _ | s | l | l
    · rfl
    · rfl
    · cases l <;> rfl
    · rfl
  have h2 : admissible N r t even mx = admissible N 1 (t.times r) even mx := by
    funext m
    rw [Bool.eq_iff_iff, admissible_iff, admissible_iff, requested_times]
  unfold factors
  rw [if_neg hr, if_neg one_ne_zero, h1, h2]

/-- C27: the result at rate `r > 0` is the result at rate 1 for the taus measured in samples,
with taus divided by `r` and deviations and errors multiplied by `r` — or unchanged for the
time statistics `tdev`, `ttotdev`, `tierms` and `mtie` (`rateFactor`). -/
theorem run_rate (fn : DevName) (x : List ℝ) (r : ℝ) (hr : 0 < r) (taus : TausArg) :
    fn.run x r "phase" taus =
      (fn.run x 1 "phase" (taus.times r)).map
        (fun o => (o.scale (rateFactor fn r)).retime r) := by
  rw [run_phase, run_phase]
  have hs : ∀ m, sign fn r m = 1 ∧ sign fn 1 m = 1 := by
    intro m
    cases fn <;> simp [sign, rateSign_of_nonneg hr.le, rateSign_of_nonneg (zero_le_one' ℝ)]
  unfold result
  simp only [hr.ne', and_false, if_false, one_ne_zero]
  split_ifs
  · rw [factors_times _ r hr.ne']
    cases factors x.length 1 (taus.times r) false x.length <;> rfl
  · rw [factors_times _ r hr.ne']
    cases factors x.length 1 (taus.times r) false x.length <;> rfl
  · unfold Stat.table stat table
    simp only
    rw [factors_times _ r hr.ne']
    cases factors (lenOf fn x.length) 1 (taus.times r) (decide (fn = .theo1)) (maxOf fn x.length) with
    | error e => rfl
    | ok ms =>
      simp only [ok_bind]
      unfold sweep
      simp only
      split_ifs with h0
      · rfl
      · have herr : ∀ m, errOf fn x.length m (value fn (seq x) x.length r m)
            = rateFactor fn r * errOf fn x.length m (value fn (seq x) x.length 1 m) := by
          intro m
          rw [value_rate fn (seq x) _ _ r hr]
          unfold errOf
          cases errCount fn x.length m <;> simp only <;> ring
        simp only [Except.map, DevOut.scale, DevOut.retime, List.map_map, Function.comp_def,
          (hs _).1, (hs _).2, one_mul, herr, div_one]
        simp only [value_rate fn (seq x) _ _ r hr]

example := run_rate .tdev [0, 2, 1, 5, 4, 4, 2] 10 (by norm_num) (.list [0.1, 0.2])

/-- C27 for keywords: the same factors, whatever the rate -/
theorem times_keyword (s : String) (r : ℝ) : (TausArg.str s).times r = .str s := rfl

/-! ## C28: shortest averaging time -/

theorem isRound_one (k : ℕ) : IsRound 1 (k : ℤ) ↔ k = 1 := by
  have := isRound_natCast_iff 1 k
  rw [Nat.cast_one] at this
  rw [this, eq_comm]

/-- the table for the single averaging time `1/rate` -/
theorem table_tau0 (N : ℕ) (rate : ℝ) (hr : rate ≠ 0) (maxM : ℝ) (dev err : ℕ → ℝ) (n : ℕ → ℤ) :
    table N rate (.list [1 / rate]) false maxM dev err n =
      if 1 < N ∧ 1 ≤ maxM ∧ 1 < n 1 then .ok ⟨[1 / rate], [dev 1], .arr [err 1], [n 1]⟩
      else .error .userWarning := by
  have hadm : ∀ m, admissible N rate (.list [1 / rate]) false maxM m = true ↔
      m = 1 ∧ 1 < N ∧ 1 ≤ maxM := by
    intro m
    rw [admissible_iff]
    simp only [Requested, List.mem_singleton, exists_eq_left, div_mul_cancel₀ _ hr, isRound_one]
    constructor
    · rintro ⟨_, h2, h3, _, rfl⟩
      exact ⟨rfl, h2, by simpa using h3⟩
    · rintro ⟨rfl, h2, h3⟩
      exact ⟨one_pos, h2, by simpa using h3, by simp, rfl⟩
  have hf : factors N rate (.list [1 / rate]) false maxM
      = .ok (if 1 < N ∧ 1 ≤ maxM then [1] else []) := by
    unfold factors
    rw [if_neg hr]
    simp only [tausError]
    congr 1
    apply sorted_ext (List.pairwise_lt_range.filter _) (by split_ifs <;> simp)
    intro m
    rw [List.mem_filter, List.mem_range, hadm]
    split_ifs with h
    · simp only [List.mem_singleton]
      constructor
      · exact fun h => h.2.1
      · rintro rfl; exact ⟨h.1, rfl, h⟩
    · simp only [List.not_mem_nil, iff_false]
      exact fun h' => h h'.2.2
  unfold table
  rw [hf]
  simp only [ok_bind]
  unfold sweep
  by_cases h1 : 1 < N ∧ 1 ≤ maxM
  · rw [if_pos h1]
    by_cases h2 : 1 < n 1
    · simp [h1, h2]
    · simp [h2]
  · rw [if_neg h1]
    have h2 : ¬ (1 < N ∧ 1 ≤ maxM ∧ 1 < n 1) := by tauto
    rw [if_neg h2]
    rfl

/-- at `m = 1` the two-sample statistics are the same number -/
theorem value_one (x : ℕ → ℝ) (N : ℕ) (hN : 2 ≤ N) (rate : ℝ) :
    value .adev x N rate 1 = value .oadev x N rate 1 ∧
    value .mdev x N rate 1 = value .oadev x N rate 1 ∧
    value .pdev x N rate 1 = value .oadev x N rate 1 ∧
    value .totdev x N rate 1 = value .oadev x N rate 1 ∧
    value .hdev x N rate 1 = value .ohdev x N rate 1 ∧
    value .htotdev x N rate 1 = value .ohdev x N rate 1 := by
  have hd : decimated N 1 = N := by unfold decimated; rw [Nat.div_one]; omega
  simp only [value, Spec.adev, Spec.oadev, Spec.mdev, Spec.pdev, Spec.totdev, Spec.hdev, Spec.ohdev,
    htotdev', hd, if_true, Nat.cast_one, mul_one, and_true]
  refine ⟨trivial, ?_, trivial, ?_⟩
  · simp only [one_pow, Finset.sum_range_one, add_zero, mul_one]
    rcases Nat.lt_or_ge 2 N with h | h
    · rw [show N - 3 + 1 = N - 2 by omega, show (N : ℝ) - 3 + 1 = N - 2 by ring]
    · have : N = 2 := by omega
      subst this
      norm_num [rms]
  · refine rms_congr _ (fun i hi => ?_)
    unfold reflect d2
    rw [if_neg (by omega), if_pos (by omega), if_neg (by omega), if_pos (by omega),
      if_neg (by omega), if_pos (by omega)]
    rw [show ((i : ℤ) + 1 - 1).toNat = i by omega, show ((i : ℤ) + 1).toNat = i + 1 by omega,
      show ((i : ℤ) + 1 + 1).toNat = i + 2 * 1 by omega]
    ring

/-- C28: asked for `tau = 1/rate`, `adev`, `mdev`, `pdev` and `totdev` return exactly what
`oadev` returns (all four arrays, or the same failure). -/
theorem run_tau0_allan (fn : DevName) (hfn : fn = .adev ∨ fn = .mdev ∨ fn = .pdev ∨ fn = .totdev)
    (x : List ℝ) (hN : 2 ≤ x.length) (rate : ℝ) (hr : 0 < rate) :
    fn.run x rate "phase" (.list [1 / rate]) = DevName.oadev.run x rate "phase" (.list [1 / rate]) := by
  obtain ⟨h1, h2, h3, h4, _⟩ := value_one (seq x) x.length hN rate
  have hd : decimated x.length 1 = x.length := by unfold decimated; rw [Nat.div_one]; omega
  rw [run_phase, run_phase]
  rcases hfn with rfl | rfl | rfl | rfl <;>
    simp only [result, reduceCtorEq, false_and, true_and, if_false, Stat.table, stat, lenOf, maxOf,
      decide_false, table_tau0 _ rate hr.ne', sign, rateSign_of_nonneg hr.le, ite_self, one_mul, h1,
      h2, h3, h4, count, hd, errOf, errCount, not_lt.2 hN, Nat.cast_one, mul_one]
  all_goals simp only [show (x.length : ℤ) - 3 + 1 = x.length - 2 by ring]

example : DevName.totdev.run [0, 2, 1, 5] 10 "phase" (.list [1 / 10]) = DevName.oadev.run [0, 2, 1, 5] 10 "phase" (.list [1 / 10]) :=
  run_tau0_allan _ (by simp) _ (by simp) 10 (by norm_num)

/-- C28: asked for `tau = 1/rate`, `hdev` and `htotdev` return exactly what `ohdev` returns. -/
theorem run_tau0_hadamard (fn : DevName) (hfn : fn = .hdev ∨ fn = .htotdev)
    (x : List ℝ) (hN : 2 ≤ x.length) (rate : ℝ) (hr : 0 < rate) :
    fn.run x rate "phase" (.list [1 / rate]) = DevName.ohdev.run x rate "phase" (.list [1 / rate]) := by
  obtain ⟨_, _, _, _, h1, h2⟩ := value_one (seq x) x.length hN rate
  have hd : decimated x.length 1 = x.length := by unfold decimated; rw [Nat.div_one]; omega
  rw [run_phase, run_phase]
  rcases hfn with rfl | rfl <;>
    simp only [result, reduceCtorEq, false_and, if_false, if_true, Stat.table, stat, lenOf,
      maxOf, decide_false, table_tau0 _ rate hr.ne', sign, rateSign_of_nonneg hr.le, ite_self, one_mul,
      h1, h2, count, htotCount, hd, errOf, errCount, Nat.cast_one, mul_one]
  by_cases h : 1 < (x.length : ℤ) - 3
  · have h5 : (5 : ℝ) ≤ x.length := by exact_mod_cast (by omega : 5 ≤ x.length)
    have h6 : (1 : ℝ) ≤ ((x.length - 1 : ℕ) : ℝ) / 3 := by
      rw [Nat.cast_sub (by omega)]; push_cast; linarith
    rw [if_pos ⟨by omega, h6, h⟩, if_pos ⟨by omega, by linarith, h⟩]
  · rw [if_neg (by tauto), if_neg (by tauto)]

example : DevName.htotdev.run [0, 2, 1, 5, 3, 3] 10 "phase" (.list [1 / 10]) = DevName.ohdev.run [0, 2, 1, 5, 3, 3] 10 "phase" (.list [1 / 10]) :=
  run_tau0_hadamard _ (by simp) _ (by simp) 10 (by norm_num)

end AT
