import Verif.Lemmas.Gradev
import Verif.Props.Shape

/-!
# C20, C21: gradev
-/

namespace AT

open Spec Finset Real

/-- the deviation that gradev has to report -/
noncomputable def Spec.gradevDev (x : List NV) (rate : ℝ) (m : ℕ) : ℝ :=
  rateSign rate * Spec.gradev (seqNV x) x.length m (m / rate)

/-- the call of gradev divides by zero: white phase noise (the default) is assumed, and at
some requested factor `m` with more than one complete second difference exactly `m` samples
are present -/
def gradevCrash (x : List NV) (ms : List ℕ) (nt : String) : Prop :=
  nt = "wp" ∧ ∃ m ∈ ms, 1 < (complete (seqNV x) x.length m).card ∧ present (seqNV x) x.length = m

/-- the error bars computed at factor `m`: `confidence_interval` called with the confidence
level in place of the degrees of freedom and vice versa -/
noncomputable def gradevBars (ppf : ℝ → ℝ → NV) (x : List NV) (rate c : ℝ) (nt : String) (m : ℕ) :
    NV × NV :=
  match edf_simple (present (seqNV x) x.length) m (gradev_alpha nt) with
  | .ok (some edf) => confidence_interval ppf (Spec.gradevDev x rate m) c edf
  | _ => (none, none)

theorem gradev_row (ppf : ℝ → ℝ → NV) (x : List NV) (rate : ℝ) (hr : rate ≠ 0) (m : ℕ) (hm : 0 < m)
    (c : ℝ) (nt : String) :
    (nt = "wp" ∧ 1 < (complete (seqNV x) x.length m).card ∧ present (seqNV x) x.length = m →
      calc_gradev_phase ppf x rate m 1 c nt = .error .zeroDivisionError) ∧
    (¬ (nt = "wp" ∧ 1 < (complete (seqNV x) x.length m).card ∧ present (seqNV x) x.length = m) →
      ∃ row, calc_gradev_phase ppf x rate m 1 c nt = .ok row ∧
        row.2.2 = (max 1 (complete (seqNV x) x.length m).card : ℕ) ∧
        (1 < (complete (seqNV x) x.length m).card →
          row = (Spec.gradevDev x rate m, gradevBars ppf x rate c nt m,
            ((complete (seqNV x) x.length m).card : ℤ)))) := by
  rw [calc_gradev_phase_eq]
  simp only
  constructor
  · rintro ⟨h1, h2, h3⟩
    have hP := present_ge _ _ m hm h2
    unfold gradev_err
    rw [if_pos (by omega), (edf_simple_gradev _ m hP hm nt).1 ⟨h1, h3⟩]
    rfl
  · intro h
    by_cases h2 : 1 < (complete (seqNV x) x.length m).card
    · have hP := present_ge _ _ m hm h2
      obtain ⟨v, hv⟩ := (edf_simple_gradev _ m hP hm nt).2 (fun hh => h ⟨hh.1, h2, hh.2⟩)
      have hmax : max 1 (complete (seqNV x) x.length m).card = (complete (seqNV x) x.length m).card := by
        omega
      have hdev : √((∑ i ∈ complete (seqNV x) x.length m, d2 (Spec.val (seqNV x)) m i ^ 2) /
          (2 * ((complete (seqNV x) x.length m).card : ℝ))) / m * rate = Spec.gradevDev x rate m := by
        rw [sqrt_norm _ 2 _ two_pos (by exact_mod_cast (by omega : 0 < (complete (seqNV x) x.length m).card))
          m hm rate hr]
        rfl
      unfold gradev_err
      rw [hmax, if_pos h2, hv, hdev]
      simp only [ok_bind]
      refine ⟨_, rfl, rfl, fun _ => ?_⟩
      unfold gradevBars
      rw [hv]
    · unfold gradev_err
      rw [if_neg (by omega)]
      exact ⟨_, rfl, rfl, fun hh => absurd hh h2⟩

theorem mapM_error {α β : Type} (l : List α) (f : α → Py β) (e : PyErr)
    (H : ∀ a ∈ l, (∃ b, f a = .ok b) ∨ f a = .error e) (H1 : ∃ a ∈ l, f a = .error e) :
    l.mapM f = .error e := by
  induction l with
  | nil => obtain ⟨a, ha, _⟩ := H1; cases ha
  | cons a l ih =>
    rw [List.mapM_cons]
    rcases H a (List.mem_cons_self ..) with ⟨b, hb⟩ | hb
    · rw [hb, ok_bind, ih (fun c hc => H c (List.mem_cons_of_mem _ hc))]
      · rfl
      · obtain ⟨c, hc, hc'⟩ := H1
        rcases List.mem_cons.1 hc with rfl | hc
        · rw [hb] at hc'; cases hc'
        · exact ⟨c, hc, hc'⟩
    · rw [hb]; rfl

theorem gradevTaus_eq (ms : List ℕ) (body : ℕ → Py (ℝ × (NV × NV) × ℤ)) (tau dev : ℕ → ℝ)
    (bars : ℕ → NV × NV) (n : ℕ → ℤ)
    (H : ∀ m ∈ ms, ∃ row, body m = .ok row ∧ (1 < row.2.2 ↔ 1 < n m) ∧
      (1 < n m → row = (dev m, bars m, n m))) :
    gradevTaus (ms.map tau) ms body =
      sweep2 ms tau dev (fun m => (bars m).1) (fun m => (bars m).2) n := by
  have H' : ∀ m : ℕ, ∃ row, m ∈ ms → (body m = .ok row ∧
      (1 < row.2.2 ↔ 1 < n m) ∧ (1 < n m → row = (dev m, bars m, n m))) := by
    intro p
    by_cases hp : p ∈ ms
    · obtain ⟨row, h⟩ := H p hp
      exact ⟨row, fun _ => h⟩
    · exact ⟨(0, (none, none), 0), fun h => absurd h hp⟩
  choose R hR using H'
  unfold gradevTaus
  rw [mapM_ok ms _ R (fun p hp => (hR p hp).1)]
  simp only [ok_bind, List.map_map]
  unfold remove_small_ns
  simp only [List.map_map, maskSel_map_map, ok_bind, List.length_cons, List.length_nil]
  have hg0 : ∀ a b : List NV, pyGet [a, b] 0 = .ok a := fun a b => rfl
  have hg1 : ∀ a b : List NV, pyGet [a, b] 1 = .ok b := fun a b => rfl
  rw [pyAssert_true (by norm_num)]
  simp only [ok_bind, hg0, hg1, maskSel_map_map]
  have e2 : ms.filter ((fun n : ℤ => decide (1 < n)) ∘ (fun r : ℝ × (NV × NV) × ℤ => r.2.2) ∘ R)
      = ms.filter (fun q => decide (1 < n q)) := by
    apply List.filter_congr
    intro p hp
    simp only [Function.comp]
    rw [decide_eq_decide]
    exact (hR p hp).2.1
  have e3 : ∀ {β : Type} (f : ℝ × (NV × NV) × ℤ → β),
      (ms.filter (fun q => decide (1 < n q))).map (f ∘ R)
        = (ms.filter (fun m => decide (1 < n m))).map (fun m => f (dev m, bars m, n m)) := by
    intro β f
    apply List.map_congr_left
    intro p hp
    simp only [List.mem_filter, decide_eq_true_eq] at hp
    simp only [Function.comp]
    rw [(hR p hp.1).2.2 hp.2]
  rw [e2, e3, e3, e3, e3]
  unfold sweep2
  simp only [List.length_map, List.length_eq_zero_iff]

/-- C20: the complete outcome of gradev on phase data with gaps.  At every requested factor
it averages exactly the squared second differences whose three samples are present and
reports their number; the one exception is the division by zero `gradevCrash`. -/
theorem gradev_phase_eq (ppf : ℝ → ℝ → NV) (x : List NV) (rate : ℝ) (taus : TausArg) (c : ℝ)
    (nt : String) (ms : List ℕ) (hms : factors x.length rate taus false x.length = .ok ms) :
    (gradevCrash x ms nt → gradev ppf x rate "phase" taus c nt = .error .zeroDivisionError) ∧
    (¬ gradevCrash x ms nt → gradev ppf x rate "phase" taus c nt =
      sweep2 ms (fun m => m / rate) (Spec.gradevDev x rate) (fun m => (gradevBars ppf x rate c nt m).1)
        (fun m => (gradevBars ppf x rate c nt m).2)
        (fun m => ((complete (seqNV x) x.length m).card : ℤ))) := by
  have hr := factors_ok_rate hms
  have hg : gradev ppf x rate "phase" taus c nt =
      gradevTaus (ms.map (fun (m : ℕ) => (m : ℝ) / rate)) ms
        (fun mj => calc_gradev_phase ppf x rate mj 1 c nt) := by
    simp only [gradev, input_to_phase_nv, if_true, ok_bind, tau_generator_eq, effMax_default, hms]
  rw [hg]
  constructor
  · rintro ⟨h1, m, hm, h2, h3⟩
    unfold gradevTaus
    rw [mapM_error ms _ .zeroDivisionError]
    · rfl
    · intro a ha
      have h0 := (factors_mem hms ha).1
      by_cases hc : nt = "wp" ∧ 1 < (complete (seqNV x) x.length a).card ∧ present (seqNV x) x.length = a
      · exact Or.inr ((gradev_row ppf x rate hr a h0 c nt).1 hc)
      · obtain ⟨row, hrow, _⟩ := (gradev_row ppf x rate hr a h0 c nt).2 hc
        exact Or.inl ⟨row, hrow⟩
    · exact ⟨m, hm, (gradev_row ppf x rate hr m (factors_mem hms hm).1 c nt).1 ⟨h1, h2, h3⟩⟩
  · intro hc
    apply gradevTaus_eq
    intro m hm
    have h0 := (factors_mem hms hm).1
    obtain ⟨row, h1, h2, h3⟩ := (gradev_row ppf x rate hr m h0 c nt).2
      (fun h => hc ⟨h.1, m, hm, h.2.1, h.2.2⟩)
    refine ⟨row, h1, ?_, fun hn => h3 (by exact_mod_cast hn)⟩
    rw [h2]
    push_cast
    omega

/-- without a legal list of factors gradev fails as every other function does -/
theorem gradev_phase_error (ppf : ℝ → ℝ → NV) (x : List NV) (rate : ℝ) (taus : TausArg) (c : ℝ)
    (nt : String) (e : PyErr) (h : factors x.length rate taus false x.length = .error e) :
    gradev ppf x rate "phase" taus c nt = .error e := by
  simp only [gradev, input_to_phase_nv, if_true, ok_bind, tau_generator_eq, effMax_default, h, error_bind]

/-- C20: what gradev returns, if it returns: aligned arrays, one entry for each requested factor
with more than one complete second difference. -/
theorem gradev_ok (ppf : ℝ → ℝ → NV) (x : List NV) (rate : ℝ) (taus : TausArg) (c : ℝ)
    (nt : String) (o : DevOut NV) (h : gradev ppf x rate "phase" taus c nt = .ok o) :
    ∃ kept : List ℕ, kept ≠ [] ∧ kept.Pairwise (· < ·) ∧
      (∀ m, m ∈ kept ↔ 0 < m ∧ m < x.length ∧ Requested x.length rate taus m ∧
        1 < (complete (seqNV x) x.length m).card) ∧
      o.taus = kept.map (fun (m : ℕ) => (m : ℝ) / rate) ∧
      o.devs = kept.map (fun m => rateSign rate * Spec.gradev (seqNV x) x.length m (m / rate)) ∧
      o.ns = kept.map (fun m => ((complete (seqNV x) x.length m).card : ℤ)) ∧
      o.errs = .lst [kept.map (fun m => (gradevBars ppf x rate c nt m).1),
        kept.map (fun m => (gradevBars ppf x rate c nt m).2)] := by
  rcases factors_cases (N := x.length) (rate := rate) (taus := taus) (even := false)
    (mx := x.length) with ⟨e, he⟩ | ⟨ms, hms⟩
  · rw [gradev_phase_error ppf x rate taus c nt e he] at h; cases h
  · by_cases hc : gradevCrash x ms nt
    · rw [(gradev_phase_eq ppf x rate taus c nt ms hms).1 hc] at h; cases h
    · rw [(gradev_phase_eq ppf x rate taus c nt ms hms).2 hc] at h
      unfold sweep2 at h
      simp only at h
      split_ifs at h with h0
      injection h with h
      subst h
      refine ⟨_, h0, (factors_sorted hms).filter _, ?_, rfl, rfl, rfl, rfl⟩
      intro m
      rw [List.mem_filter, factors_mem_iff hms]
      simp only [decide_eq_true_eq, Nat.one_lt_cast]
      constructor
      · rintro ⟨⟨a, b, _, _, e⟩, f⟩; exact ⟨a, b, e, f⟩
      · rintro ⟨a, b, e, f⟩
        exact ⟨⟨a, b, by exact_mod_cast b.le, by simp, e⟩, f⟩

/-! ### data without gaps -/

theorem seqNV_some (x : List ℝ) {i : ℕ} (h : i < x.length) : seqNV (x.map some) i = some (seq x i) := by
  unfold seqNV seq
  simp [h]

theorem complete_some (x : List ℝ) (m : ℕ) :
    complete (seqNV (x.map some)) x.length m = range (x.length - 2 * m) := by
  unfold complete
  apply Finset.filter_true_of_mem
  intro i hi
  rw [Finset.mem_range] at hi
  rw [seqNV_some x (by omega), seqNV_some x (by omega), seqNV_some x (by omega)]
  simp

theorem present_some (x : List ℝ) : present (seqNV (x.map some)) x.length = x.length := by
  unfold present
  rw [Finset.filter_true_of_mem, Finset.card_range]
  intro i hi
  rw [Finset.mem_range] at hi
  rw [seqNV_some x hi]; rfl

theorem gradev_some (x : List ℝ) (m : ℕ) (τ : ℝ) (h : 2 * m ≤ x.length) :
    Spec.gradev (seqNV (x.map some)) x.length m τ = Spec.oadev (seq x) x.length m τ := by
  unfold Spec.gradev Spec.oadev rms
  rw [complete_some, Finset.card_range, Nat.cast_sub h]
  push_cast
  congr 2
  apply Finset.sum_congr rfl
  intro i hi
  rw [Finset.mem_range] at hi
  unfold d2 Spec.val
  rw [seqNV_some x (by omega), seqNV_some x (by omega), seqNV_some x (by omega)]
  rfl

theorem gradev_no_crash (x : List ℝ) (ms : List ℕ) (nt : String) (h : ∀ m ∈ ms, m < x.length) :
    ¬ gradevCrash (x.map some) ms nt := by
  rintro ⟨_, m, hm, _, hP⟩
  rw [List.length_map, present_some] at hP
  have := h m hm
  omega

/-- the outcome `r` carries the taus, deviations and counts of the outcome `s` -/
def SameCurve {α β : Type} (r : Py (DevOut α)) (s : Py (DevOut β)) : Prop :=
  (∃ e, r = .error e ∧ s = .error e) ∨
  (∃ a b, r = .ok a ∧ s = .ok b ∧ a.taus = b.taus ∧ a.devs = b.devs ∧ a.ns = b.ns)

/-- C20: without gaps gradev gives the taus, deviations and counts of oadev, and fails exactly
when oadev fails. -/
theorem gradev_eq_oadev (ppf : ℝ → ℝ → NV) (x : List ℝ) (rate : ℝ) (taus : TausArg) (c : ℝ)
    (nt : String) :
    SameCurve (gradev ppf (x.map some) rate "phase" taus c nt) (oadev x rate "phase" taus) := by
  rcases factors_cases (N := x.length) (rate := rate) (taus := taus) (even := false)
    (mx := x.length) with ⟨e, he⟩ | ⟨ms, hms⟩
  · left
    refine ⟨e, gradev_phase_error ppf _ rate taus c nt e (by rwa [List.length_map]), ?_⟩
    rw [oadev_phase_any]; unfold table; rw [he]; rfl
  · have hc := gradev_no_crash x ms nt (fun m hm => (factors_mem hms hm).2.1)
    have h1 := (gradev_phase_eq ppf (x.map some) rate taus c nt ms (by rwa [List.length_map])).2 hc
    rw [h1, oadev_phase_any]
    unfold table
    rw [hms]
    simp only [ok_bind, List.length_map, sweep, sweep2]
    have hn : ∀ m : ℕ, decide (1 < ((complete (seqNV (x.map some)) x.length m).card : ℤ))
        = decide (1 < (x.length : ℤ) - 2 * m) := by
      intro m
      rw [complete_some, Finset.card_range, decide_eq_decide]
      omega
    simp only [hn]
    split_ifs with h0
    · exact Or.inl ⟨_, rfl, rfl⟩
    · right
      refine ⟨_, _, rfl, rfl, rfl, ?_, ?_⟩
      · apply List.map_congr_left
        intro m hm
        rw [List.mem_filter] at hm
        have hm2 := of_decide_eq_true hm.2
        simp only [Spec.gradevDev, List.length_map]
        rw [gradev_some x m _ (by omega)]
      · apply List.map_congr_left
        intro m hm
        rw [List.mem_filter] at hm
        have hm2 := of_decide_eq_true hm.2
        rw [complete_some, Finset.card_range]
        omega

/-- C20 for frequency data: gradev works on the integrated frequency. -/
theorem gradev_freq (ppf : ℝ → ℝ → NV) (y : List NV) (rate : ℝ) (taus : TausArg) (c : ℝ) (nt : String) :
    gradev ppf y rate "freq" taus c nt =
      (do let x ← frequency2phase_nv y rate; gradev ppf x rate "phase" taus c nt) := by
  simp [gradev, input_to_phase_nv]

/-- data with gaps on which gradev with its default noise type divides by zero: samples are
present at 0, 4, 8 and 12 only and the factor 4 is requested -/
def gapData : List NV :=
  [some 0, none, none, none, some 1, none, none, none, some 0, none, none, none, some 5]

/-- C20 (finding): gradev can divide by zero on data with gaps. -/
theorem gradev_crash_example (ppf : ℝ → ℝ → NV) (c : ℝ) :
    gradev ppf gapData 1 "phase" (.list [4]) c "wp" = .error .zeroDivisionError := by
  have hreq : Requested gapData.length 1 (.list [4]) 4 := by
    refine ⟨4, List.mem_singleton.2 rfl, ?_⟩
    unfold IsRound
    norm_num
  obtain ⟨ms, hms⟩ : ∃ ms, factors gapData.length 1 (.list [4]) false gapData.length = .ok ms := by
    unfold factors
    rw [if_neg one_ne_zero]
    exact ⟨_, rfl⟩
  refine (gradev_phase_eq ppf gapData 1 (.list [4]) c "wp" ms hms).1 ⟨rfl, 4, ?_, ?_, ?_⟩
  · rw [factors_mem_iff hms]
    refine ⟨by norm_num, by decide, by norm_num [gapData], by simp, hreq⟩
  · have : complete (seqNV gapData) gapData.length 4 = {0, 4} := by
      ext i
      unfold complete
      rw [Finset.mem_filter, Finset.mem_range]
      simp only [Finset.mem_insert, Finset.mem_singleton]
      have hl : gapData.length = 13 := rfl
      rw [hl]
      constructor
      · rintro ⟨h1, h2, _⟩
        have : i < 5 := by omega
        interval_cases i <;> simp [seqNV, gapData] at h2 ⊢
      · rintro (rfl | rfl) <;> simp [seqNV, gapData]
    rw [this]
    decide
  · have : (range gapData.length).filter (fun i => ((seqNV gapData) i).isSome = true) = {0, 4, 8, 12} := by
      ext i
      rw [Finset.mem_filter, Finset.mem_range]
      simp only [Finset.mem_insert, Finset.mem_singleton]
      have hl : gapData.length = 13 := rfl
      rw [hl]
      constructor
      · rintro ⟨h1, h2⟩
        interval_cases i <;> simp [seqNV, gapData] at h2 ⊢
      · rintro (rfl | rfl | rfl | rfl) <;> simp [seqNV, gapData]
    unfold present
    rw [this]
    rfl

/-! ## C21: error bars -/

/-- `scipy.stats.chi2.ppf` is NaN for a probability outside `[0,1]` -/
def PpfDomain (ppf : ℝ → ℝ → NV) : Prop := ∀ q df, q < 0 ∨ 1 < q → ppf q df = none

/-- `confidence_interval` with a "confidence level" above 3 is NaN -/
theorem confidence_interval_nan (ppf : ℝ → ℝ → NV) (hp : PpfDomain ppf) (dev edf c : ℝ) (hc : 3 < c) :
    confidence_interval ppf dev edf c = (none, none) := by
  have h1 : min |c| |c - 1| / 2 = (c - 1) / 2 := by
    rw [abs_of_pos (by linarith), abs_of_pos (by linarith), min_eq_right (by linarith)]
  unfold confidence_interval
  simp only [h1]
  rw [hp (1 - (c - 1) / 2) edf (Or.inl (by linarith)), hp ((c - 1) / 2) edf (Or.inr (by linarith))]
  rfl

/-- a routine that is not a number outside `[0, 1]` -/
example (dev edf : ℝ) :
    confidence_interval (fun q _ => if 0 ≤ q ∧ q ≤ 1 then some q else none) dev edf 4 = (none, none) :=
  confidence_interval_nan _ (by intro q k h; simp only; rw [if_neg]; rintro ⟨h1, h2⟩; rcases h with h | h <;> linarith)
    _ _ _ (by norm_num)

/-- C21 (finding): the full property "the bars are
`confidence_interval(dev, edf, ci)` with the edf of the requested noise type" is false.  The
arguments are swapped, so for white phase noise without gaps both bars are NaN whenever
there are more than three degrees of freedom, for any confidence level. -/
theorem gradev_bars_nan_partial (ppf : ℝ → ℝ → NV) (hp : PpfDomain ppf) (x : List ℝ) (rate c : ℝ)
    (m : ℕ) (hmN : m < x.length)
    (hedf : 3 < ((x.length : ℝ) + 1) * (x.length - 2 * m) / (2 * (x.length - m))) :
    gradevBars ppf (x.map some) rate c "wp" m = (none, none) := by
  unfold gradevBars
  have hne : (2 : ℝ) * ((x.length : ℝ) - m) ≠ 0 := by
    have : (m : ℝ) < x.length := by exact_mod_cast hmN
    have : (0 : ℝ) < 2 * ((x.length : ℝ) - m) := by linarith
    exact this.ne'
  have : edf_simple (present (seqNV (x.map some)) (x.map some).length) m (gradev_alpha "wp")
      = .ok (some (((x.length : ℝ) + 1) * (x.length - 2 * m) / (2 * (x.length - m)))) := by
    rw [List.length_map, present_some]
    simp [gradev_alpha, edf_simple, pyDiv_ne hne, ok_bind]
  rw [this]
  simp only
  exact confidence_interval_nan ppf hp _ c _ hedf

/-- the hypothesis on the degrees of freedom is met by 10 samples at `m = 1` -/
example : (3 : ℝ) < ((10 : ℝ) + 1) * (10 - 2 * (1 : ℕ)) / (2 * (10 - (1 : ℕ))) := by norm_num

/-- C21 (finding): flicker phase noise is given the exponent of random walk FM (should be 1),
flicker frequency and random walk FM are not recognised. -/
theorem gradev_alpha_wrong :
    gradev_alpha "wp" = some 2 ∧ gradev_alpha "wf" = some 0 ∧ gradev_alpha "fp" = some (-2) ∧
    gradev_alpha "ff" = none ∧ gradev_alpha "rf" = none := by decide

end AT
