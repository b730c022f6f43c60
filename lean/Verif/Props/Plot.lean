import Verif.Model.Plot
import Verif.Props.Dataset
import Verif.Props.Gradev

/-!
# C68: plot.py

Property: whatever was done with a data set before, `plot` draws the result of the last successful
`compute` under its name, and the arrays it passes to matplotlib are accepted.
-/

namespace AT

open Spec

/-- the calls that draw the result `r` of the function `f` -/
def Spec.drawing (r : Res) (f : String) (errorbars grid : Bool) : List AxCall :=
  [if errorbars then .errorbar r.taus r.devs r.errs else .line r.taus r.devs, .xlabel "Tau",
    .ylabel (some f)] ++
  (if grid then [.grid "minor" "0.65", .grid "major" "0.25"] else [.gridOff])

/-- what matplotlib accepts: as many deviations as taus, as many error bars, none negative -/
structure Spec.Drawable (r : Res) : Prop where
  devs : r.devs.length = r.taus.length
  errs : (∃ l, r.errs = .arr l ∧ l.length = r.taus.length ∧ ∀ v ∈ l, ∀ a, v = some a → 0 ≤ a) ∨
    (∃ l u, r.errs = .lst [l, u] ∧ l.length = r.taus.length ∧ u.length = r.taus.length ∧
      ∀ v ∈ l ++ u, ∀ a, v = some a → 0 ≤ a)

theorem plot_filled (mplNone : Py Unit) (ax : List AxCall) (s : Dataset) (r : Res) (f : String)
    (hs : s.out = .filled r f) (h : Spec.Drawable r) (eb g : Bool) :
    plot mplNone ax s eb g = .ok (ax ++ Spec.drawing r f eb g) := by
  have h1 : mplLine r.taus r.devs = .ok () := by unfold mplLine; rw [if_pos h.devs.symm]
  have h2 : mplYerr r.taus.length r.errs = .ok () := by
    rcases h.errs with ⟨l, h1, h2, h3⟩ | ⟨l, u, h1, h2, h3, h4⟩
    · rw [h1]; unfold mplYerr mplYerr.nonneg; simp only; rw [if_pos h2, if_pos h3]
    · rw [h1]; unfold mplYerr mplYerr.nonneg; simp only; rw [if_pos ⟨h2, h3⟩, if_pos h4]
  unfold plot
  rw [hs]
  cases eb <;> simp [h1, h2, ok_bind, Spec.drawing]

/-- the results of the fourteen functions for a positive rate can be drawn -/
theorem drawable_dev (fn : DevName) (data : List ℝ) (rate : ℝ) (hr : 0 < rate) (dt : String)
    (taus : TausArg) (o : DevOut ℝ) (h : fn.run data rate dt taus = .ok o) :
    Spec.Drawable (toRes o) := by
  rw [run_input] at h
  cases hx : input_to_phase data rate dt with
  | error e => rw [hx] at h; cases h
  | ok x =>
    rw [hx, ok_bind] at h
    obtain ⟨kept, _, _, _, k3, k4, k5, _⟩ := run_ok fn x rate taus o h
    refine ⟨by simp [toRes, k3, k4], Or.inl ⟨(kept.map (fun m => errOf fn x.length m
      (sign fn rate m * value fn (seq x) x.length rate m))).map some, by simp only [toRes, k5],
      by simp [toRes, k3], ?_⟩⟩
    intro v hv a ha
    rw [List.map_map, List.mem_map] at hv
    obtain ⟨m, _, rfl⟩ := hv
    simp only [Function.comp, Option.some.injEq] at ha
    rw [← ha, sign_pos_rate fn rate hr, one_mul]
    have := value_nonneg fn (seq x) x.length rate hr m
    unfold errOf
    split
    · exact le_rfl
    · exact div_nonneg this (Real.sqrt_nonneg _)

theorem nvSqrt_nonneg (v : NV) (a : ℝ) (h : nvSqrt v = some a) : 0 ≤ a := by
  unfold nvSqrt at h
  split at h
  · split_ifs at h
    cases h
    exact Real.sqrt_nonneg _
  · cases h

/-- the results of gradev can be drawn -/
theorem drawable_gradev (ppf : ℝ → ℝ → NV) (data : List NV) (rate : ℝ) (dt : String)
    (taus : TausArg) (c : ℝ) (nt : String) (o : Res) (h : gradev ppf data rate dt taus c nt = .ok o) :
    Spec.Drawable o := by
  have key : ∀ x : List NV, gradev ppf x rate "phase" taus c nt = .ok o → Spec.Drawable o := by
    intro x hx
    obtain ⟨kept, _, _, _, k3, k4, _, k5⟩ := gradev_ok ppf x rate taus c nt o hx
    refine ⟨by rw [k3, k4]; simp, Or.inr ⟨_, _, k5, by rw [k3]; simp, by rw [k3]; simp, ?_⟩⟩
    intro v hv a ha
    have hb : ∀ m, (∀ a, (gradevBars ppf x rate c nt m).1 = some a → 0 ≤ a) ∧
        (∀ a, (gradevBars ppf x rate c nt m).2 = some a → 0 ≤ a) := by
      intro m
      unfold gradevBars
      split
      · exact ⟨fun a h => nvSqrt_nonneg _ a h, fun a h => nvSqrt_nonneg _ a h⟩
      · constructor <;> intro b hb <;> simp at hb
    rw [List.mem_append, List.mem_map, List.mem_map] at hv
    rcases hv with ⟨m, _, rfl⟩ | ⟨m, _, rfl⟩
    · exact (hb m).1 a ha
    · exact (hb m).2 a ha
  by_cases h1 : dt = "phase"
  · subst h1; exact key _ h
  by_cases h2 : dt = "freq"
  · subst h2
    rw [gradev_freq] at h
    cases hx : frequency2phase_nv data rate with
    | error e => rw [hx] at h; cases h
    | ok x => rw [hx, ok_bind] at h; exact key x h
  · simp [gradev, input_to_phase_nv, h1, h2, error_bind] at h

/-- **C68.** After any sequence of `set_input` and `compute` calls with positive rates, either no
`compute` has succeeded, or `plot`, with or without error bars, succeeds and draws the result and
the name of the last successful `compute`. -/
theorem plot_history (ppf : ℝ → ℝ → NV) (mplNone : Py Unit) (i : Inp) (ops : List Op)
    (hi : 0 < i.rate) (hops : ∀ j, Op.set_input j ∈ ops → 0 < j.rate) (ax : List AxCall)
    (eb g : Bool) :
    (∀ pre f post r, ops = pre ++ .compute f :: post →
      ¬ Spec.Succeeds (callStd ppf) f (Spec.inputAfter i pre) r) ∨
    (∃ pre f post r, ops = pre ++ .compute f :: post ∧
      Spec.Succeeds (callStd ppf) f (Spec.inputAfter i pre) r ∧
      (∀ mid g post' r', post = mid ++ .compute g :: post' →
          ¬ Spec.Succeeds (callStd ppf) g (Spec.inputAfter i (pre ++ .compute f :: mid)) r') ∧
      plot mplNone ax ((Dataset.init i).uses (callStd ppf) ops) eb g =
        .ok (ax ++ Spec.drawing r f eb g)) := by
  have hin : ∀ (l : List Op) (k : Inp), 0 < k.rate → (∀ j, Op.set_input j ∈ l → 0 < j.rate) →
      0 < (Spec.inputAfter k l).rate := by
    intro l
    induction l with
    | nil => exact fun k hk _ => hk
    | cons o l ih =>
      intro k hk hl
      cases o with
      | set_input j => exact ih j (hl j (by simp)) (fun j' h => hl j' (by simp [h]))
      | compute f => exact ih k hk (fun j' h => hl j' (by simp [h]))
  rcases (dataset_history (callStd ppf) i ops).2 with ⟨_, h⟩ | ⟨pre, f, post, r, h1, h2, h3, h4⟩
  · exact Or.inl h
  refine Or.inr ⟨pre, f, post, r, h1, h2, h4, plot_filled mplNone ax _ r f h3 ?_ eb g⟩
  have hr : 0 < (Spec.inputAfter i pre).rate :=
    hin pre i hi (fun j h => hops j (by rw [h1]; simp [h]))
  have hc := h2.2.2
  unfold callStd at hc
  cases hd : (Spec.inputAfter i pre).data with
  | none => rw [hd] at hc; cases hc
  | some data =>
    rw [hd] at hc
    simp only at hc
    cases hn : devOfName f with
    | some fn =>
      rw [hn] at hc
      simp only at hc
      cases ho : fn.run data (Spec.inputAfter i pre).rate (Spec.inputAfter i pre).data_type
          (Spec.inputAfter i pre).taus with
      | error e => rw [ho] at hc; cases hc
      | ok o =>
        rw [ho] at hc
        cases hc
        exact drawable_dev fn data _ hr _ _ o ho
    | none =>
      rw [hn] at hc
      simp only at hc
      split_ifs at hc
      exact drawable_gradev ppf _ _ _ _ _ _ r hc

/-- the data set of six phase values at 2 Hz, after `compute("oadev")` -/
example (ppf : ℝ → ℝ → NV) (mplNone : Py Unit) :
    plot mplNone plotInit ((Dataset.init ⟨some [0, 1, 0, 1, 3, -9], 2, "phase",
      .list [(2 : ℕ) / 2]⟩).uses (callStd ppf) [.compute "oadev"]) true false =
    .ok [.xscale "log", .yscale "log",
      .errorbar [(2 : ℕ) / 2] [√(109 / 4)] (.arr [some (√(109 / 4) / √2)]),
      .xlabel "Tau", .ylabel (some "oadev"), .gridOff] := by
  have ho : DevName.oadev.run [0, 1, 0, 1, 3, -9] 2 "phase" (.list [(2 : ℕ) / 2])
      = .ok ⟨[(2 : ℕ) / 2], [√(109 / 4)], .arr [√(109 / 4) / √2], [2]⟩ := by
    show oadev _ _ _ _ = _
    rw [oadev_phase_eq _ _ (by norm_num), table_single _ _ (by norm_num) _ _ _ _ _ 2 (by norm_num) (by simp)
      (by norm_num) (by simp) (by norm_num)]
    simp [Spec.oadev, rms, d2, seq, Finset.sum_range_succ]
    norm_num
  have hc : callStd ppf "oadev" ⟨some [0, 1, 0, 1, 3, -9], 2, "phase", .list [(2 : ℕ) / 2]⟩ = .ok
      (toRes ⟨[(2 : ℕ) / 2], [√(109 / 4)], .arr [√(109 / 4) / √2], [2]⟩) := by
    unfold callStd
    simp only [devOfName]
    rw [ho]
    rfl
  have hs : ((Dataset.init ⟨some [0, 1, 0, 1, 3, -9], 2, "phase",
      .list [(2 : ℕ) / 2]⟩).uses (callStd ppf) [.compute "oadev"]).out = .filled
      (toRes ⟨[(2 : ℕ) / 2], [√(109 / 4)], .arr [√(109 / 4) / √2], [2]⟩) "oadev" := by
    simp only [Dataset.uses, List.foldl_cons, List.foldl_nil, Dataset.step, Dataset.compute, Dataset.init]
    rw [if_neg (by decide), if_neg (by decide), hc]
  rw [plot_filled mplNone plotInit _ _ _ hs (drawable_dev .oadev _ 2 two_pos _ _ _ ho)]
  rfl

/-- **C68 needs the positive rate.** For a negative rate the deviations of `adev`, `oadev`, `hdev`
and `ohdev` are negative, and so are their error bars: drawing them raises ValueError as soon as
one of them is not zero. -/
theorem plot_negative_rate (fn : DevName) (hfn : fn = .adev ∨ fn = .oadev ∨ fn = .hdev ∨ fn = .ohdev)
    (x : List ℝ) (rate : ℝ) (hr : rate < 0) (taus : TausArg) (o : DevOut ℝ)
    (h : fn.run x rate "phase" taus = .ok o) (h0 : ∃ d ∈ o.devs, d ≠ 0) (mplNone : Py Unit)
    (ax : List AxCall) (s : Dataset) (f : String) (hs : s.out = .filled (toRes o) f) (g : Bool) :
    plot mplNone ax s true g = .error .valueError := by
  obtain ⟨kept, _, _, kr, k3, k4, k5, _⟩ := run_ok fn x rate taus o h
  have hsg : ∀ m, sign fn rate m = -1 := by
    intro m
    rcases hfn with rfl | rfl | rfl | rfl <;> simp [sign, rateSign, hr]
  obtain ⟨d, hd, hd0⟩ := h0
  rw [k4] at hd
  obtain ⟨m, hm, rfl⟩ := List.mem_map.1 hd
  rw [hsg] at hd0
  have hv : 0 < value fn (seq x) x.length rate m := by
    have : 0 ≤ value fn (seq x) x.length rate m := by
      rcases hfn with rfl | rfl | rfl | rfl <;> exact Real.sqrt_nonneg _
    exact this.lt_of_ne (fun h => hd0 (by rw [← h]; ring))
  have hcount : 1 < count fn x.length m := ((kr m).1 hm).2.2.2.2.2
  have h1 : mplLine (toRes o).taus (toRes o).devs = .ok () := by
    unfold mplLine toRes; rw [if_pos (by rw [k3, k4]; simp)]
  have h2 : mplYerr (toRes o).taus.length (toRes o).errs = .error .valueError := by
    unfold toRes
    simp only [k5]
    unfold mplYerr mplYerr.nonneg
    simp only
    rw [if_pos (by rw [k3]; simp), if_neg]
    intro hall
    have := hall _ (List.mem_map.2 ⟨_, List.mem_map.2 ⟨m, hm, rfl⟩, rfl⟩) _ rfl
    rw [hsg] at this
    have hc : (0 : ℝ) < √(count fn x.length m : ℝ) := Real.sqrt_pos.2 (by
      have : (0 : ℤ) < count fn x.length m := by omega
      exact_mod_cast this)
    have he : errOf fn x.length m (-1 * value fn (seq x) x.length rate m) =
        -1 * value fn (seq x) x.length rate m / √(count fn x.length m : ℝ) := by
      rcases hfn with rfl | rfl | rfl | rfl <;> rfl
    rw [he, le_div_iff₀ hc] at this
    linarith
  unfold plot
  rw [hs]
  simp [h1, h2, ok_bind, error_bind]

/-- the same values at -2 Hz -/
example (mplNone : Py Unit) (i : Inp) : ∃ o, oadev [0, 1, 0, 1, 3, -9] (-2) "phase"
      (.list [(2 : ℕ) / (-2)]) = .ok o ∧
    plot mplNone plotInit ⟨i, .filled (toRes o) "oadev"⟩ true false = .error .valueError := by
  have ho : DevName.oadev.run [0, 1, 0, 1, 3, -9] (-2) "phase" (.list [(2 : ℕ) / (-2)])
      = .ok ⟨[(2 : ℕ) / (-2)], [-√(109 / 4)], .arr [-√(109 / 4) / √2], [2]⟩ := by
    show oadev _ _ _ _ = _
    rw [oadev_phase_any, table_single _ _ (by norm_num) _ _ _ _ _ 2 (by norm_num) (by simp)
      (by norm_num) (by simp) (by norm_num)]
    simp [Spec.oadev, rms, d2, seq, Finset.sum_range_succ, rateSign]
    norm_num
  refine ⟨_, ho, plot_negative_rate .oadev (by simp) _ (-2) (by norm_num) _ _ ho
    ⟨-√(109 / 4), List.mem_singleton.2 rfl, ?_⟩ mplNone _ _ _ rfl _⟩
  have : (0 : ℝ) < √(109 / 4) := Real.sqrt_pos.2 (by norm_num)
  linarith

end AT
