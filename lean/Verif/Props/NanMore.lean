import Verif.Lemmas.NanMore
import Verif.Props.Simple

/-!
# C108: what NaN in the data does to pdev, totdev, theo1, mtotdev, ttotdev and htotdev
-/

namespace AT

open Spec Finset Real Classical

theorem three_le_of_effMax (N : ℕ) (m : ℕ) (h : (m : ℝ) ≤ effMax N ((N : ℝ) / 3)) : 3 * m ≤ N := by
  unfold effMax at h
  have h0 : (0 : ℝ) ≤ (N : ℝ) / 3 := by positivity
  rw [if_neg (by linarith)] at h
  have : (3 : ℝ) * m ≤ N := by linarith
  exact_mod_cast this

theorem phase2frequency_nan {d : List NV} {x : List ℝ} (h : Completes d x) (rate : ℝ) :
    Completes (phase2frequency_nv d rate) (phase2frequency x rate) ∧
      ∀ i, (phase2frequency_nv d rate)[i]? ≠ some none ↔
        (i + 1 < x.length → d[i]? ≠ some none ∧ d[i + 1]? ≠ some none) := by
  obtain ⟨g, hg, hd⟩ := nan_tabs h
  have hp : x = tab x.length (seq x) := eq_tab_seq x
  have e : phase2frequency_nv d rate = tab (x.length - 1)
      (fun i => nanUnless (g (i + 1) ∧ g i) (rate * (seq x (i + 1) - seq x i))) := by
    rw [hd]
    apply tab_ext
    · simp [phase2frequency_nv]
    · intro i hi
      unfold phase2frequency_nv
      rw [List.getElem?_map, List.getElem?_zipWith, List.getElem?_tail, tab_getElem?, tab_getElem?,
        if_pos (by omega), if_pos (by omega)]
      simp only [Option.map_some, nanUnless_nv2, nvScale_nan]
  have e' : phase2frequency x rate = tab (x.length - 1)
      (fun i => rate * (seq x (i + 1) - seq x i)) := by
    unfold phase2frequency
    conv_lhs => rw [hp]
    rw [npDiff_tab, vscale_tab]
  refine ⟨?_, fun i => ?_⟩
  · rw [e, e']
    unfold Completes
    rw [List.forall₂_iff_get]
    refine ⟨by simp, fun i h1 h2 => ?_⟩
    simp only [tab_length] at h1
    have a : (tab (x.length - 1) (fun i => nanUnless (g (i + 1) ∧ g i)
        (rate * (seq x (i + 1) - seq x i))))[i]? =
          some (nanUnless (g (i + 1) ∧ g i) (rate * (seq x (i + 1) - seq x i))) := by
      rw [tab_getElem?, if_pos h1]
    have b : (tab (x.length - 1) (fun i => rate * (seq x (i + 1) - seq x i)))[i]? =
          some (rate * (seq x (i + 1) - seq x i)) := by
      rw [tab_getElem?, if_pos h1]
    rw [List.getElem?_eq_some_iff] at a b
    obtain ⟨_, a⟩ := a
    obtain ⟨_, b⟩ := b
    simp only [List.get_eq_getElem, a, b]
    unfold nanUnless
    split_ifs <;> simp
  · rw [e, tab_getElem?, hg, hg]
    by_cases hi : i < x.length - 1
    · rw [if_pos hi]
      unfold nanUnless
      constructor
      · intro H _
        by_contra hc
        rw [if_neg (fun h => hc ⟨h.2, h.1⟩)] at H
        exact H rfl
      · intro H
        have := H (by omega)
        rw [if_pos ⟨this.2, this.1⟩]
        simp
    · rw [if_neg hi]
      exact ⟨fun _ h => absurd h (by omega), fun _ => by simp⟩

theorem totdev_extend_short (phase : List ℝ) (h : phase.length < 2) :
    totdev_extend phase = .error (if phase = [] then .indexError else .valueError) := by
  match phase, h with
  | [], _ => rfl
  | [a], _ =>
    simp [totdev_extend, pyGet, scaledOnes, ok_bind, error_bind]

theorem totdev_extend_nv_short (phase : List NV) (h : phase.length < 2) :
    totdev_extend_nv phase = .error (if phase = [] then .indexError else .valueError) := by
  match phase, h with
  | [], _ => rfl
  | [a], _ =>
    simp [totdev_extend_nv, pyGet, scaledOnes_nv, ok_bind, error_bind]

/-- C108: NaN in phase data. Replace the NaN by any numbers: the call raises the same exception,
or it returns the same averaging times and counts, and in each row the same deviation and error
if no sample used is NaN, and NaN for both otherwise. -/
theorem nan_dev_more (fn : NanFnMore) (d : List NV) (x : List ℝ) (h : Completes d x) (rate : ℝ)
    (taus : TausArg) :
    SameUpToNan rate (CleanMore fn d) (CleanMore fn d)
      (fn.run x rate "phase" taus) (fn.runNv d rate "phase" taus) := by
  have hl := h.length_eq
  have hmt : SameUpToNan rate (fun _ => ∀ i < d.length, d[i]? ≠ some none)
      (fun _ => ∀ i < d.length, d[i]? ≠ some none)
      (mtotdev x rate "phase" taus) (mtotdev_nv d rate "phase" taus) := by
    unfold mtotdev mtotdev_nv input_to_phase input_to_phase_nv
    simp only [if_true, ok_bind, hl]
    refine driver_nan_gen d x hl rate taus false _ (fun p _ _ m => calc_mtotdev_phase_nv p rate m)
      (fun p _ _ m => calc_mtotdev_phase p rate m) _ _ (fun _ ts i m hm0 _ hmx _ => ?_)
    exact mtotdev_row_nan h rate m hm0 (three_le_of_effMax _ _ hmx)
  cases fn with
  | pdev =>
    simp only [NanFnMore.run, NanFnMore.runNv]
    unfold pdev pdev_nv input_to_phase input_to_phase_nv
    simp only [if_true, ok_bind]
    refine driver_nan_gen d x hl rate taus false _ (fun p _ _ m => calc_pdev_phase_nv p rate m)
      (fun p _ _ m => calc_pdev_phase p rate m) _ _ (fun _ ts i m hm0 hmN _ _ => ?_)
    by_cases h1 : m = 1
    · subst h1
      have e : calc_pdev_phase_nv d rate 1 = calc_adev_phase_nv d rate 1 1 := by
        unfold calc_pdev_phase_nv; simp
      rw [e, calc_pdev_phase_one]
      have := adev_one_row_nan h rate hmN
      unfold CleanMore ReadsMore
      simpa only [if_true, hl] using this
    · have := pdev_row_nan h rate m h1 hm0
      unfold CleanMore ReadsMore
      simpa only [if_neg h1, hl] using this
  | totdev =>
    simp only [NanFnMore.run, NanFnMore.runNv]
    unfold totdev totdev_nv input_to_phase input_to_phase_nv
    simp only [if_true, ok_bind]
    rcases Nat.lt_or_ge x.length 2 with hs | hs
    · rw [tau_generator_eq, tau_generator_eq, hl]
      cases hf : factors x.length rate taus false (effMax x.length (-1)) with
      | error e => exact Or.inl ⟨e, rfl, rfl⟩
      | ok ms =>
        simp only [ok_bind]
        rw [totdev_extend_short x hs, totdev_extend_nv_short d (by omega)]
        refine Or.inl ⟨_, rfl, ?_⟩
        simp only [error_bind]
        congr 2
        rw [← List.length_eq_zero_iff, ← List.length_eq_zero_iff, hl]
    · obtain ⟨g, hg, hd⟩ := nan_tabs h
      have e1 : (do
          let r ← tau_generator x rate taus
          let q ← totdev_extend r.1
          runTaus r.2.2 r.2.1 (fun _ mj => totdev_body q.1 q.2 r.1.length rate mj)) =
          (do let r ← tau_generator x rate taus
              runTaus r.2.2 r.2.1 (fun _ m => totdev_body (extTab (seq x) x.length) (x.length - 2)
                x.length rate m)) := by
        rw [tau_generator_eq]
        cases factors x.length rate taus false (effMax x.length (-1)) with
        | error e => rfl
        | ok ms =>
          simp only [ok_bind]
          rw [totdev_extend_eq x hs]
          simp only [ok_bind]
      have e2 : (do
          let r ← tau_generator d rate taus
          let q ← totdev_extend_nv r.1
          runTausNv r.2.2 r.2.1 (fun _ mj => totdev_body_nv q.1 q.2 r.1.length rate mj)) =
          (do let r ← tau_generator d rate taus
              runTausNv r.2.2 r.2.1 (fun _ m => totdev_body_nv (tab (3 * x.length - 4)
                (fun k => nanUnless (reflectOk g x.length ((k : ℤ) - ((x.length : ℤ) - 2)))
                  (reflect (seq x) x.length ((k : ℤ) - ((x.length : ℤ) - 2))))) (x.length - 2)
                x.length rate m)) := by
        rw [tau_generator_eq]
        cases factors d.length rate taus false (effMax d.length (-1)) with
        | error e => rfl
        | ok ms =>
          simp only [ok_bind, hl]
          have e3 := totdev_extend_nv_eq g (seq x) _ hs
          rw [← hd] at e3
          rw [e3]
          simp only [ok_bind]
      refine (iff_of_eq (congrArg₂ (SameUpToNan rate _ _) e1 e2)).2 ?_
      refine driver_nan_gen d x hl rate taus false _
        (fun _ _ _ m => totdev_body_nv (tab (3 * x.length - 4)
                (fun k => nanUnless (reflectOk g x.length ((k : ℤ) - ((x.length : ℤ) - 2)))
                  (reflect (seq x) x.length ((k : ℤ) - ((x.length : ℤ) - 2))))) (x.length - 2)
                x.length rate m)
        (fun _ _ _ m => totdev_body (extTab (seq x) x.length) (x.length - 2) x.length rate m) _ _
        (fun _ ts i m hm0 hmN _ _ => ?_)
      have := totdev_row_nan g (seq x) x.length rate m hm0 hmN
      unfold CleanMore ReadsMore
      simpa only [hl, hg] using this
  | theo1 =>
    simp only [NanFnMore.run, NanFnMore.runNv]
    unfold theo1 theo1_nv input_to_phase input_to_phase_nv
    simp only [if_true, ok_bind]
    by_cases hr : rate = 0
    · rw [if_pos hr, if_pos hr]
      exact Or.inl ⟨_, rfl, rfl⟩
    rw [if_neg hr, if_neg hr]
    refine driver_nan_gen d x hl rate taus true _ (fun p _ _ m => theo1_body_nv p (1 / rate) m)
      (fun p _ _ m => theo1_body p (1 / rate) m) _ _ (fun _ ts i m hm0 hmN _ he => ?_)
    have := theo1_row_nan h (1 / rate) m (he rfl) hm0 hmN
    unfold CleanMore ReadsMore
    simpa only [hl] using this
  | mtotdev =>
    exact hmt
  | ttotdev =>
    simp only [NanFnMore.run, NanFnMore.runNv]
    unfold AT.ttotdev ttotdev_nv scaleToTdev
    rcases hmt with ⟨e, h1, h2⟩ | ⟨rows, h1, h2⟩
    · exact Or.inl ⟨e, by rw [h1]; rfl, by rw [h2]; rfl⟩
    · refine Or.inr ⟨rows.map (fun r => (r.1, r.1 / rate * r.2.1 / √3,
        r.1 / rate * r.2.1 / √3 / √(r.2.2.2 : ℝ), r.2.2.2)), ?_, ?_⟩
      · rw [h1]
        simp only [ok_bind, vmul, vop_map_map, List.map_map]
        rfl
      · rw [h2]
        simp only [ok_bind, vop_map_map, List.map_map]
        congr 2
        · apply List.map_congr_left
          intro r _
          by_cases hc : ∀ i < d.length, d[i]? ≠ some none
          · have hc' : CleanMore .ttotdev d r.1 := hc
            simp only [Function.comp, if_pos hc, if_pos hc', Option.map_some]
          · have hc' : ¬ CleanMore .ttotdev d r.1 := hc
            simp only [Function.comp, if_neg hc, if_neg hc', Option.map_none]
        · apply List.map_congr_left
          intro r _
          by_cases hc : ∀ i < d.length, d[i]? ≠ some none
          · have hc' : CleanMore .ttotdev d r.1 := hc
            simp only [Function.comp, if_pos hc, if_pos hc', Option.map_some]
          · have hc' : ¬ CleanMore .ttotdev d r.1 := hc
            simp only [Function.comp, if_neg hc, if_neg hc', Option.map_none]
  | htotdev =>
    simp only [NanFnMore.run, NanFnMore.runNv]
    unfold htotdev htotdev_nv
    simp only [if_true, ok_bind]
    obtain ⟨hf, hfc⟩ := phase2frequency_nan h rate
    have hfl := hf.length_eq
    have hxl : (phase2frequency x rate).length = x.length - 1 := by
      simp [phase2frequency, vscale, npDiff]
    rw [hfl]
    refine driver_nan_gen _ _ hfl rate taus false _
      (fun p _ _ m => if m = 1 then calc_hdev_phase_nv d rate m 1 else calc_htotdev_freq_nv p m)
      (fun p _ _ m => if m = 1 then calc_hdev_phase x rate m 1 else calc_htotdev_freq p m) _ _
      (fun hr ts i m hm0 hmN hmx _ => ?_)
    have h3 := three_le_of_effMax _ _ hmx
    unfold CleanMore ReadsMore
    simp only [hl]
    by_cases h1 : m = 1
    · subst h1
      simp only [if_true]
      exact hdev_one_row_nan h rate hr
    · simp only [if_neg h1]
      refine (htotdev_row_nan hf m hm0 h3).weaken (fun b _ _ => ?_)
      simp only [hfc]
      rw [hxl] at h3 ⊢
      constructor
      · intro H i hi
        rcases Nat.lt_or_ge (i + 1) x.length with c | c
        · exact (H i (by omega) c).1
        · have := (H (i - 1) (by omega) (by omega)).2
          rwa [show i - 1 + 1 = i by omega] at this
      · intro H i hi _
        exact ⟨H _ (by omega), H _ (by omega)⟩

/-- C108: data without NaN: the models that carry NaN agree with those of `Model/Dev.lean`. -/
theorem nan_more_free (fn : NanFnMore) (x : List ℝ) (rate : ℝ) (taus : TausArg) :
    fn.runNv (x.map some) rate "phase" taus =
      (fn.run x rate "phase" taus).map (fun o => ⟨o.taus, o.devs.map some,
        match o.errs with | .arr l => l.map some | .lst _ => [], o.ns⟩) := by
  have hc : Completes (x.map some) x := by
    unfold Completes
    rw [List.forall₂_map_left_iff, List.forall₂_same]
    exact fun v _ => Or.inr rfl
  have hcl : ∀ m, CleanMore fn (x.map some) m := by
    intro m i _
    rw [List.getElem?_map]
    cases x[i]? <;> simp
  rcases nan_dev_more fn _ x hc rate taus with ⟨e, h1, h2⟩ | ⟨rows, h1, h2⟩
  · rw [h1, h2]; rfl
  · rw [h1, h2]
    simp only [hcl, if_true, Except.map, List.map_map]
    rfl

/-- C108: a single NaN in the phase data makes every returned deviation and error bar NaN, at all
averaging times; for `pdev` a NaN before the last sample does. -/
theorem nan_more_spreads (fn : NanFnMore) (d : List NV) (j : ℕ) (hj : d[j]? = some none)
    (hfn : fn = .pdev → j + 1 < d.length) (rate : ℝ) (taus : TausArg) (o : NanOut)
    (ho : fn.runNv d rate "phase" taus = .ok o) :
    (∀ v ∈ o.devs, v = none) ∧ ∀ v ∈ o.errs, v = none := by
  have hjl : j < d.length := (List.getElem?_eq_some_iff.1 hj).1
  have hnc : ∀ m, ¬ CleanMore fn d m := by
    intro m hc
    refine hc j ?_ hj
    cases fn with
    | pdev =>
      have := hfn rfl
      simp only [ReadsMore]
      split_ifs <;> omega
    | _ => exact hjl
  rcases nan_dev_more fn d _ (completes_fill d) rate taus with ⟨e, _, h⟩ | ⟨rows, hx, h⟩
  · rw [ho] at h; cases h
  · rw [ho] at h
    injection h with h
    subst h
    simp only [hnc, if_false, List.mem_map]
    exact ⟨fun v ⟨_, _, h⟩ => h.symm, fun v ⟨_, _, h⟩ => h.symm⟩

/-- C108: `pdev` does not look at the last sample for `m ≥ 2`: with NaN there and nowhere else
the rows with `m ≥ 2` are those of any number in its place, and the row `m = 1` is NaN. -/
theorem nan_pdev_last (y : List ℝ) (a : ℝ) (rate : ℝ) (taus : TausArg) :
    SameUpToNan rate (fun m => m ≠ 1) (fun m => m ≠ 1) (pdev (y ++ [a]) rate "phase" taus)
      (pdev_nv (y.map some ++ [none]) rate "phase" taus) := by
  have hc : Completes (y.map some ++ [none]) (y ++ [a]) := by
    unfold Completes
    refine List.rel_append ?_ (by simp)
    rw [List.forall₂_map_left_iff, List.forall₂_same]
    exact fun v _ => Or.inr rfl
  have e : CleanMore .pdev (y.map some ++ [none]) = fun m => m ≠ 1 := by
    funext m
    apply propext
    constructor
    · rintro H rfl
      refine H y.length ?_ ?_
      · show y.length < _
        simp
      · rw [List.getElem?_append_right (by simp)]
        simp
    · intro hm i hi
      simp only [ReadsMore, if_neg hm] at hi
      have hi' : i < y.length := by simpa using hi
      rw [List.getElem?_append_left (by simpa using hi'), List.getElem?_map,
        List.getElem?_eq_getElem hi']
      simp
  have := nan_dev_more .pdev _ _ hc rate taus
  rw [e] at this
  exact this

theorem runNv_more_freq (fn : NanFnMore) (hfn : fn ≠ .htotdev) (y : List NV) (rate : ℝ)
    (taus : TausArg) :
    fn.runNv y rate "freq" taus =
      (do let x ← frequency2phase_nv y rate; fn.runNv x rate "phase" taus) := by
  have e : ("freq" = "phase") = False := by simp
  cases fn
  case htotdev => exact absurd rfl hfn
  case ttotdev =>
    simp only [NanFnMore.runNv, ttotdev_nv, mtotdev_nv, input_to_phase_nv, if_true, e, if_false,
      ok_bind, bind_assoc]
  all_goals
    simp only [NanFnMore.runNv, pdev_nv, totdev_nv, theo1_nv, mtotdev_nv, input_to_phase_nv, if_true,
      e, if_false, ok_bind]

/-- C108: frequency data with NaN at the ends only, or with NaN at the ends and inside: the NaN at
the ends do not matter, except for `htotdev`. -/
theorem nan_more_edge (fn : NanFnMore) (hfn : fn ≠ .htotdev) (y t : List NV)
    (ht : trim_data y = .ok t) (rate : ℝ) (taus : TausArg) :
    fn.runNv y rate "freq" taus = fn.runNv t rate "freq" taus := by
  rw [runNv_more_freq fn hfn, runNv_more_freq fn hfn]
  have : frequency2phase_nv y rate = frequency2phase_nv t rate := by
    unfold frequency2phase_nv
    rw [ht, trim_data_idem y t ht]
  rw [this]

/-- C108: the same for the functions of `nan_dev`. -/
theorem nan_edge (fn : NanFn) (y t : List NV) (ht : trim_data y = .ok t) (rate : ℝ)
    (taus : TausArg) : fn.runNv y rate "freq" taus = fn.runNv t rate "freq" taus := by
  rw [runNv_freq, runNv_freq]
  have : frequency2phase_nv y rate = frequency2phase_nv t rate := by
    unfold frequency2phase_nv
    rw [ht, trim_data_idem y t ht]
  rw [this]

/-- C108: frequency data with a NaN between two numbers: NaN for every averaging time. -/
theorem nan_more_freq (fn : NanFnMore) (hfn : fn ≠ .htotdev) (y : List NV) (i k j : ℕ)
    (a b : ℝ) (hik : i < k) (hkj : k < j) (hi : y[i]? = some (some a)) (hk : y[k]? = some none)
    (hj : y[j]? = some (some b)) (rate : ℝ) (taus : TausArg) (o : NanOut)
    (ho : fn.runNv y rate "freq" taus = .ok o) : (∀ v ∈ o.devs, v = none) ∧ ∀ v ∈ o.errs, v = none := by
  rw [runNv_more_freq fn hfn] at ho
  cases hx : frequency2phase_nv y rate with
  | error e => rw [hx] at ho; cases ho
  | ok x =>
    rw [hx, ok_bind] at ho
    have hr : rate ≠ 0 := by
      intro h0; unfold frequency2phase_nv at hx; rw [if_pos h0] at hx; cases hx
    cases ht : trim_data y with
    | error e =>
      unfold frequency2phase_nv at hx; rw [if_neg hr, ht] at hx; cases hx
    | ok t =>
      obtain ⟨⟨p, q, hy⟩, ⟨v, hv⟩, ⟨w, hw⟩⟩ := (trim_data_iff y t).1 ht
      have hyl : y.length = p + t.length + q := by rw [hy]; simp; omega
      have hpi : p ≤ i := by
        by_contra hlt
        rw [hy, List.getElem?_append_left (by simp; omega), List.getElem?_append_left (by simp; omega),
          List.getElem?_replicate, if_pos (by omega)] at hi
        cases hi
      have hjq : j < p + t.length := by
        by_contra hge
        have hjl : j < y.length := (List.getElem?_eq_some_iff.1 hj).1
        rw [hy, List.getElem?_append_right (by simp; omega), List.getElem?_replicate,
          if_pos (by simp; omega)] at hj
        cases hj
      have htk : t[k - p]? = some none := by
        rw [hy, List.getElem?_append_left (by simp; omega),
          List.getElem?_append_right (by simp; omega)] at hk
        simpa using hk
      have hxl : x.length = t.length + 1 := by
        rw [frequency2phase_nv_eq y t ht rate hr] at hx
        injection hx with hx
        rw [← hx, tab_length]
      exact nan_more_spreads fn x (k - p + 1)
        (frequency2phase_nv_gap y t x ht rate hr hx (k - p) htk _ (by omega) (by omega))
        (fun _ => by omega) rate taus o ho

/-- C108: `htotdev` of frequency data: the frequencies themselves are not trimmed, so that a
single NaN anywhere, also at the ends, makes every value with `m ≥ 2` NaN. -/
theorem nan_htotdev_freq (y : List NV) (j : ℕ) (hj : y[j]? = some none) (rate : ℝ) (taus : TausArg)
    (o : NanOut) (ho : htotdev_nv y rate "freq" taus = .ok o) (t : ℝ) (v : NV)
    (htv : (t, v) ∈ o.taus.zip o.devs) (ht : t ≠ 1 / rate) : v = none := by
  unfold htotdev_nv at ho
  have e : ("freq" = "phase") = False := by simp
  simp only [e, if_false, if_true] at ho
  cases hx : frequency2phase_nv y rate with
  | error e => rw [hx] at ho; cases ho
  | ok p =>
    rw [hx] at ho
    simp only [ok_bind] at ho
    have hc := completes_fill y
    have hp := completes_fill p
    have hl := hc.length_eq
    rw [hl] at ho
    have key := driver_nan_gen y _ hl rate taus false _
      (fun f _ _ m => if m = 1 then calc_hdev_phase_nv p rate m 1 else calc_htotdev_freq_nv f m)
      (fun f _ _ m => if m = 1 then calc_hdev_phase (p.map (fun v => v.getD 0)) rate m 1
        else calc_htotdev_freq f m)
      (fun m => if m = 1 then ∀ i < (p.map (fun v => v.getD 0)).length, p[i]? ≠ some none
        else ∀ i < (y.map (fun v => v.getD 0)).length, y[i]? ≠ some none)
      (fun m => if m = 1 then ∀ i < (p.map (fun v => v.getD 0)).length, p[i]? ≠ some none
        else ∀ i < (y.map (fun v => v.getD 0)).length, y[i]? ≠ some none)
      (fun hr ts i m hm0 hmN (hmx : (m : ℝ) ≤ effMax _ (((y.map (fun v => v.getD 0)).length : ℝ) / 3)) _ => by
        by_cases h1 : m = 1
        · subst h1
          simp only [if_true]
          exact hdev_one_row_nan hp rate hr
        · simp only [if_neg h1]
          exact htotdev_row_nan hc m hm0 (three_le_of_effMax _ _ hmx))
    rcases key with ⟨e, _, h⟩ | ⟨rows, _, h⟩
    · rw [ho] at h; cases h
    · rw [ho] at h
      injection h with h
      subst h
      simp only [List.zip_map', List.mem_map, Prod.mk.injEq] at htv
      obtain ⟨w, hw, rfl, rfl⟩ := htv
      have h1 : w.1 ≠ 1 := by
        intro h1
        apply ht
        rw [h1, Nat.cast_one]
      rw [if_neg]
      rw [if_neg h1]
      intro hcl
      have hjl : j < y.length := (List.getElem?_eq_some_iff.1 hj).1
      exact hcl j (by simpa using hjl) hj

/-- 5 samples with NaN at the end only: `pdev` uses every sample for `m = 1` and not the last for
`m = 2`; `theo1` uses it -/
example : CleanMore .pdev [some 0, some 1, some 5, some 3, none] 2 ∧
    ¬ CleanMore .pdev [some 0, some 1, some 5, some 3, none] 1 ∧
    ¬ CleanMore .theo1 [some 0, some 1, some 5, some 3, none] 2 := by
  refine ⟨?_, ?_, ?_⟩
  · intro i hi
    have : i < 4 := by
      have h' : i + 1 < 5 := by simpa [ReadsMore] using hi
      omega
    interval_cases i <;> simp
  · intro h
    exact h 4 (by simp [ReadsMore]) rfl
  · intro h
    exact h 4 (by simp [ReadsMore]) rfl

/-- 6 samples, the last NaN: `pdev` at `m = 2` returns the value of the first five -/
example : pdev_nv [some 0, some 1, some 5, some 3, some 2, none] 1 "phase" (.list [(2 : ℕ) / 1])
    = .ok ⟨[(2 : ℕ) / 1], [some (√(153 / 32))], [some (√(153 / 32) / √2)], [2]⟩ := by
  have hr : pdev ([0, 1, 5, 3, 2] ++ [7]) 1 "phase" (.list [(2 : ℕ) / 1]) =
      .ok ⟨[(2 : ℕ) / 1], [√(153 / 32)], .arr [√(153 / 32) / √2], [2]⟩ := by
    rw [pdev_phase_eq _ _ (by norm_num), table_single _ _ (by norm_num) _ _ _ _ _ 2
      (by norm_num) (by simp) (by norm_num) (by simp) (by norm_num)]
    simp [Spec.pdev, seq, Finset.sum_range_succ]
    norm_num
  have h := nan_pdev_last [0, 1, 5, 3, 2] 7 1 (.list [(2 : ℕ) / 1])
  rcases h with ⟨e, h1, _⟩ | ⟨rows, h1, h2⟩
  · rw [hr] at h1; cases h1
  · rw [hr] at h1
    injection h1 with h1
    injection h1 with ht hd he hn
    injection he with he
    obtain ⟨w, rfl⟩ : ∃ w, rows = [w] := by
      have hl := congrArg List.length ht
      simp only [List.length_map, List.length_cons, List.length_nil] at hl
      exact List.length_eq_one_iff.1 hl.symm
    simp only [List.map_cons, List.map_nil, List.cons.injEq, and_true] at ht hd he hn h2
    have hm : w.1 = 2 := by
      rw [div_one, div_one] at ht
      exact_mod_cast ht.symm
    have h3 : w.1 ≠ 1 := by omega
    rw [if_pos h3, if_pos h3, hm, ← hd, ← he, ← hn] at h2
    exact h2

end AT
