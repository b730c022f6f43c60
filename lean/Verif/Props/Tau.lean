import Verif.Lemmas.Tau

/-!
# C01–C03, part of C05: the averaging factors chosen by `tau_generator`
-/

namespace AT

open Spec

theorem tau_generator_cases {α : Type} (data : List α) (rate : ℝ) (taus : TausArg) (even : Bool)
    (mx : ℝ) :
    tau_generator data rate taus even mx =
      if rate = 0 then .error .runtimeError
      else match tausError data.length taus with
        | some e => .error e
        | none => .ok (data, (List.range data.length).filter
            (admissible data.length rate taus even (effMax data.length mx)),
            ((List.range data.length).filter
            (admissible data.length rate taus even (effMax data.length mx))).map
              (fun (m : ℕ) => (m : ℝ) / rate)) := by
  rw [tau_generator_eq]
  unfold factors
  split_ifs
  · rfl
  · cases tausError data.length taus <;> simp only [ok_bind, error_bind]

/-- what a successful call returns -/
theorem tau_generator_ok {α : Type} {data d : List α} {rate : ℝ} {taus : TausArg} {even : Bool}
    {mx : ℝ} {ms : List ℕ} {ts : List ℝ}
    (h : tau_generator data rate taus even mx = .ok (d, ms, ts)) :
    rate ≠ 0 ∧ tausError data.length taus = none ∧ d = data ∧
      ms = (List.range data.length).filter
        (admissible data.length rate taus even (effMax data.length mx)) ∧
      ts = ms.map (fun (m : ℕ) => (m : ℝ) / rate) := by
  rw [tau_generator_cases] at h
  split_ifs at h with h0
  split at h
  · cases h
  · injection h with h
    simp only [Prod.mk.injEq] at h
    obtain ⟨a, b, c⟩ := h
    subst a b c
    exact ⟨h0, by assumption, rfl, rfl, rfl⟩

/-- C01: every successful call of `tau_generator` returns the data unchanged, a strictly
increasing list of averaging factors `m` with `1 ≤ m < len(data)` (not above `maximum_m`
when it is given, even when `even=True`), and the taus `m / rate` in the same order. -/
theorem tau_generator_sound {α : Type} (data d : List α) (rate : ℝ) (taus : TausArg) (even : Bool)
    (mx : ℝ) (ms : List ℕ) (ts : List ℝ)
    (h : tau_generator data rate taus even mx = .ok (d, ms, ts)) :
    d = data ∧ ms.Pairwise (· < ·) ∧ ts = ms.map (fun (m : ℕ) => (m : ℝ) / rate) ∧
      ∀ m ∈ ms, 1 ≤ m ∧ m < data.length ∧ (mx ≠ -1 → (m : ℝ) ≤ mx) ∧ (even = true → Even m) := by
  obtain ⟨h0, h1, h2, h3, h4⟩ := tau_generator_ok h
  refine ⟨h2, ?_, h4, ?_⟩
  · rw [h3]
    exact (List.pairwise_lt_range).filter _
  · intro m hm
    rw [h3, List.mem_filter, admissible_iff] at hm
    obtain ⟨_, a, b, c, d, _⟩ := hm
    refine ⟨a, b, fun hmx => ?_, d⟩
    unfold effMax at c
    rwa [if_neg hmx] at c

/-- the returned taus are strictly increasing for a positive rate (C01) -/
theorem tau_generator_taus_sorted {α : Type} (data d : List α) (rate : ℝ) (hr : 0 < rate)
    (taus : TausArg) (even : Bool) (mx : ℝ) (ms : List ℕ) (ts : List ℝ)
    (h : tau_generator data rate taus even mx = .ok (d, ms, ts)) : ts.Pairwise (· < ·) := by
  obtain ⟨_, h1, h2, _⟩ := tau_generator_sound data d rate taus even mx ms ts h
  rw [h2, List.pairwise_map]
  refine h1.imp (fun {a b} hab => ?_)
  have : (a : ℝ) < b := by exact_mod_cast hab
  exact div_lt_div_of_pos_right this hr

/-- C01/C05: a zero rate raises RuntimeError. -/
theorem tau_generator_zero_rate {α : Type} (data : List α) (taus : TausArg) (even : Bool) (mx : ℝ) :
    tau_generator data 0 taus even mx = .error .runtimeError := by
  rw [tau_generator_cases, if_pos rfl]

/-- C01: for a non-zero rate the call fails only on an unknown keyword, or on empty data
with the keywords (or default) that need a logarithm. -/
theorem tau_generator_fails_iff {α : Type} (data : List α) (rate : ℝ) (hr : rate ≠ 0)
    (taus : TausArg) (even : Bool) (mx : ℝ) :
    (∃ e, tau_generator data rate taus even mx = .error e) ↔
      (∃ s, taus = .str s ∧ s ≠ "all" ∧ s ≠ "octave" ∧ s ≠ "decade" ∧ s ≠ "log10") ∨
      (data = [] ∧ (taus = .none ∨ taus = .list [] ∨ taus = .str "octave" ∨ taus = .str "decade" ∨
        taus = .str "log10")) := by
  rw [tau_generator_cases, if_neg hr]
  rw [← List.length_eq_zero_iff]
  set N := data.length
  rcases taus with _ | s | l | l
  · by_cases h : N = 0 <;> simp [tausError, h]
  · by_cases h1 : s = "all"
    · subst h1; simp [tausError]
    · by_cases h2 : s = "octave" ∨ s = "decade" ∨ s = "log10"
      · rcases h2 with h2 | h2 | h2 <;> subst h2 <;> by_cases h : N = 0 <;> simp [tausError, h]
      · simp only [tausError, if_neg h1, if_neg h2]
        push Not at h2
        simp [h1, h2]
  · cases l <;> by_cases h : N = 0 <;> simp [tausError, h]
  · simp [tausError]

theorem effMax_cond {N m : ℕ} {mx : ℝ} (h : m < N) :
    (m : ℝ) ≤ effMax N mx ↔ (mx ≠ -1 → (m : ℝ) ≤ mx) := by
  unfold effMax
  split_ifs with h1
  · have : (m : ℝ) ≤ N := by exact_mod_cast h.le
    simp [h1, this]
  · simp [h1]

/-- membership in the returned list -/
theorem tau_generator_mem {α : Type} (data : List α) (rate : ℝ) (hr : rate ≠ 0)
    (taus : TausArg) (ht : tausError data.length taus = none) (even : Bool) (mx : ℝ) :
    ∃ ms ts, tau_generator data rate taus even mx = .ok (data, ms, ts) ∧
      ∀ m, m ∈ ms ↔ (1 ≤ m ∧ m < data.length ∧ (mx ≠ -1 → (m : ℝ) ≤ mx) ∧ (even = true → Even m) ∧
        Requested data.length rate taus m) := by
  refine ⟨_, _, by rw [tau_generator_cases, if_neg hr, ht], ?_⟩
  intro m
  rw [List.mem_filter, admissible_iff, List.mem_range]
  constructor
  · rintro ⟨_, a, b, c, d, e⟩
    exact ⟨a, b, (effMax_cond b).1 c, d, e⟩
  · rintro ⟨a, b, c, d, e⟩
    exact ⟨b, a, b, (effMax_cond b).2 c, d, e⟩

/-- C02: for an explicit, non-empty list or an array of taus, `m` is returned if and only if
it is in the admissible range and some requested tau rounds (half to even) to it. -/
theorem tau_generator_explicit_iff {α : Type} (data : List α) (rate : ℝ) (hr : rate ≠ 0)
    (taus : TausArg) (l : List ℝ) (hl : taus = .array l ∨ (taus = .list l ∧ l ≠ []))
    (even : Bool) (mx : ℝ) :
    ∃ ms ts, tau_generator data rate taus even mx = .ok (data, ms, ts) ∧
      ∀ m, m ∈ ms ↔ (1 ≤ m ∧ m < data.length ∧ (mx ≠ -1 → (m : ℝ) ≤ mx) ∧ (even = true → Even m) ∧
        ∃ t ∈ l, IsRound (t * rate) m) := by
  have hq : tausError data.length taus = none ∧
      ∀ m, Requested data.length rate taus m ↔ ∃ t ∈ l, IsRound (t * rate) m := by
    rcases hl with rfl | ⟨rfl, hl⟩
    · exact ⟨rfl, fun m => Iff.rfl⟩
    · cases l with
      | nil => exact absurd rfl hl
      | cons a l => exact ⟨rfl, fun m => Iff.rfl⟩
  obtain ⟨ms, ts, h1, h2⟩ := tau_generator_mem data rate hr taus hq.1 even mx
  refine ⟨ms, ts, h1, fun m => ?_⟩
  rw [h2, hq.2]

/-- two successful calls whose factor lists have the same members return the same lists -/
theorem tau_generator_ext {α : Type} {data : List α} {rate : ℝ} {t₁ t₂ : TausArg} {even : Bool}
    {mx : ℝ} {m₁ m₂ : List ℕ} {s₁ s₂ : List ℝ}
    (h₁ : tau_generator data rate t₁ even mx = .ok (data, m₁, s₁))
    (h₂ : tau_generator data rate t₂ even mx = .ok (data, m₂, s₂))
    (h : ∀ m, m ∈ m₁ ↔ m ∈ m₂) :
    tau_generator data rate t₁ even mx = tau_generator data rate t₂ even mx := by
  obtain ⟨_, a₁, b₁, _⟩ := tau_generator_sound _ _ _ _ _ _ _ _ h₁
  obtain ⟨_, a₂, b₂, _⟩ := tau_generator_sound _ _ _ _ _ _ _ _ h₂
  have : m₁ = m₂ := sorted_ext a₁ a₂ h
  rw [h₁, h₂, b₁, b₂, this]

/-- C02: order and duplicates in the request do not matter, nor whether it is a list or an
array: only the set of requested taus counts. -/
theorem tau_generator_set {α : Type} (data : List α) (rate : ℝ) (l₁ l₂ : List ℝ)
    (h : ∀ t, t ∈ l₁ ↔ t ∈ l₂) (t₁ t₂ : TausArg)
    (h₁ : t₁ = .array l₁ ∨ (t₁ = .list l₁ ∧ l₁ ≠ [])) (h₂ : t₂ = .array l₂ ∨ (t₂ = .list l₂ ∧ l₂ ≠ []))
    (even : Bool) (mx : ℝ) :
    tau_generator data rate t₁ even mx = tau_generator data rate t₂ even mx := by
  by_cases hr : rate = 0
  · subst hr
    rw [tau_generator_zero_rate, tau_generator_zero_rate]
  · obtain ⟨m₁, s₁, e₁, i₁⟩ := tau_generator_explicit_iff data rate hr t₁ l₁ h₁ even mx
    obtain ⟨m₂, s₂, e₂, i₂⟩ := tau_generator_explicit_iff data rate hr t₂ l₂ h₂ even mx
    refine tau_generator_ext e₁ e₂ (fun m => ?_)
    rw [i₁, i₂]
    simp only [h]

/-- order and repetition of the requested times do not matter -/
example : tau_generator [0, 1, 0, 1, 0, (1 : ℝ)] 10 (.list [0.3, 0.1, 0.3]) = tau_generator [0, 1, 0, 1, 0, 1] 10 (.array [0.1, 0.3]) :=
  tau_generator_set _ _ [0.3, 0.1, 0.3] [0.1, 0.3] (by intro t; simp; tauto) _ _ (by simp) (by simp) _ _

/-- C03: `taus="all"` yields exactly `1, 2, …, N-1`. -/
theorem tau_generator_all {α : Type} (data : List α) (rate : ℝ) (hr : rate ≠ 0) :
    tau_generator data rate (.str "all") =
      .ok (data, List.range' 1 (data.length - 1),
        (List.range' 1 (data.length - 1)).map (fun (m : ℕ) => (m : ℝ) / rate)) := by
  obtain ⟨ms, ts, h1, h2⟩ := tau_generator_mem data rate hr (.str "all") (by simp [tausError])
    false (-1)
  obtain ⟨_, a, b, _⟩ := tau_generator_sound _ _ _ _ _ _ _ _ h1
  have : ms = List.range' 1 (data.length - 1) := by
    refine sorted_ext a List.pairwise_lt_range' (fun m => ?_)
    rw [h2, List.mem_range'_1]
    simp [Requested]
    omega
  rw [h1, b, this]

/-- C03: `taus="octave"`, `taus=None` and `taus=[]` all yield exactly the powers of two
below `N`. -/
theorem tau_generator_octave {α : Type} (data : List α) (hd : data ≠ []) (rate : ℝ) (hr : rate ≠ 0)
    (taus : TausArg) (ht : taus = .none ∨ taus = .list [] ∨ taus = .str "octave") :
    ∃ ms ts, tau_generator data rate taus = .ok (data, ms, ts) ∧
      ∀ m, m ∈ ms ↔ (m < data.length ∧ ∃ k, m = 2 ^ k) := by
  have hN : data.length ≠ 0 := by simpa using hd
  have hq : tausError data.length taus = none ∧
      ∀ m, Requested data.length rate taus m ↔ ∃ k, m = 2 ^ k := by
    rcases ht with rfl | rfl | rfl
    · exact ⟨by simp [tausError, hd], fun m => Iff.rfl⟩
    · exact ⟨by simp [tausError, hd], fun m => Iff.rfl⟩
    · exact ⟨by simp [tausError, hd], fun m => by simp [Requested, IsOctave]⟩
  obtain ⟨ms, ts, h1, h2⟩ := tau_generator_mem data rate hr taus hq.1 false (-1)
  refine ⟨ms, ts, h1, fun m => ?_⟩
  rw [h2, hq.2]
  constructor
  · rintro ⟨_, a, _, _, b⟩; exact ⟨a, b⟩
  · rintro ⟨a, k, rfl⟩
    exact ⟨Nat.one_le_two_pow, a, by simp, by simp, k, rfl⟩

example : ∃ ms ts, tau_generator [0, 1, 0, 1, 0, (1 : ℝ)] 10 .none = .ok ([0, 1, 0, 1, 0, 1], ms, ts) ∧
    4 ∈ ms ∧ 3 ∉ ms ∧ 8 ∉ ms := by
  obtain ⟨ms, ts, h, hm⟩ := tau_generator_octave [0, 1, 0, 1, 0, (1 : ℝ)] (by simp) 10 (by norm_num) .none (by simp)
  refine ⟨ms, ts, h, (hm 4).2 ⟨by simp, 2, by norm_num⟩, fun h3 => ?_, fun h8 => ?_⟩
  · obtain ⟨-, k, hk⟩ := (hm 3).1 h3
    rcases k with - | k
    · norm_num at hk
    · rw [pow_succ] at hk; omega
  · have := ((hm 8).1 h8).1
    simp at this

/-- C03: `taus="decade"` yields exactly 1, 2 and 4 times the powers of ten below `N`. -/
theorem tau_generator_decade {α : Type} (data : List α) (hd : data ≠ []) (rate : ℝ) (hr : rate ≠ 0) :
    ∃ ms ts, tau_generator data rate (.str "decade") = .ok (data, ms, ts) ∧
      ∀ m, m ∈ ms ↔ (m < data.length ∧ ∃ k, m = 10 ^ k ∨ m = 2 * 10 ^ k ∨ m = 4 * 10 ^ k) := by
  obtain ⟨ms, ts, h1, h2⟩ := tau_generator_mem data rate hr (.str "decade")
    (by simp [tausError, hd]) false (-1)
  refine ⟨ms, ts, h1, fun m => ?_⟩
  rw [h2]
  simp only [Requested, IsDecade, String.reduceEq, false_or, false_and, or_false, true_and]
  constructor
  · rintro ⟨_, a, _, _, b⟩; exact ⟨a, b⟩
  · rintro ⟨a, b⟩
    refine ⟨?_, a, by simp, by simp, b⟩
    obtain ⟨k, hk⟩ := b
    have : 0 < 10 ^ k := by positivity
    omega

example : ∃ ms ts, tau_generator (List.replicate 30 (0 : ℝ)) 10 (.str "decade") = .ok (List.replicate 30 0, ms, ts) ∧
    4 ∈ ms ∧ 20 ∈ ms ∧ 40 ∉ ms := by
  obtain ⟨ms, ts, h, hm⟩ := tau_generator_decade (List.replicate 30 (0 : ℝ)) (by simp) 10 (by norm_num)
  refine ⟨ms, ts, h, (hm 4).2 ⟨by simp, 0, by norm_num⟩, (hm 20).2 ⟨by simp, 1, by norm_num⟩, fun h4 => ?_⟩
  have := ((hm 40).1 h4).1
  simp at this

/-- C03: `taus="log10"` yields exactly the rounded values of `N^(i/(K-1))`, `i < K`,
`K = int(10 log10 N)`, that are below `N`. -/
theorem tau_generator_log10 {α : Type} (data : List α) (hd : data ≠ []) (rate : ℝ) (hr : rate ≠ 0) :
    ∃ ms ts, tau_generator data rate (.str "log10") = .ok (data, ms, ts) ∧
      ∀ m, m ∈ ms ↔ (1 ≤ m ∧ m < data.length ∧ ∃ i : ℕ,
        i < (⌊10 * Real.logb 10 data.length⌋).toNat ∧
        IsRound ((data.length : ℝ) ^ ((i : ℝ) / (((⌊10 * Real.logb 10 data.length⌋).toNat : ℝ) - 1))) m) := by
  obtain ⟨ms, ts, h1, h2⟩ := tau_generator_mem data rate hr (.str "log10")
    (by simp [tausError, hd]) false (-1)
  refine ⟨ms, ts, h1, fun m => ?_⟩
  rw [h2]
  simp only [Requested, String.reduceEq, false_or, false_and, true_and, log10Count, ne_eq,
    not_true_eq_false, false_implies, Bool.false_eq_true]

/-- C03: with a keyword the rate does not influence the averaging factors. -/
theorem tau_generator_rate_free {α : Type} (data : List α) (r₁ r₂ : ℝ) (h₁ : r₁ ≠ 0) (h₂ : r₂ ≠ 0)
    (s : String) (even : Bool) (mx : ℝ) :
    (tau_generator data r₁ (.str s) even mx).map (fun o => o.2.1) =
      (tau_generator data r₂ (.str s) even mx).map (fun o => o.2.1) := by
  rw [tau_generator_cases, tau_generator_cases, if_neg h₁, if_neg h₂]
  cases tausError data.length (.str s) <;> rfl

/-! Concrete cases: the hypotheses above are met, and the rounding is half-to-even. -/

/-- 2.5 samples round to 2, 3.5 samples to 4; 0.4 rounds to 0 and is dropped, 9.9 is too long. -/
example : ∃ ms ts, tau_generator [0, 1, 0, 1, 0, (1 : ℝ)] 10
      (.list [0.35, 0.25, 0.04, 0.99, 0.2]) = .ok ([0, 1, 0, 1, 0, 1], ms, ts) ∧ 2 ∈ ms ∧ 4 ∈ ms ∧
      3 ∉ ms := by
  obtain ⟨ms, ts, h1, h2⟩ := tau_generator_explicit_iff [0, 1, 0, 1, 0, (1 : ℝ)] 10 (by norm_num)
    (.list [0.35, 0.25, 0.04, 0.99, 0.2]) [0.35, 0.25, 0.04, 0.99, 0.2]
    (Or.inr ⟨rfl, by simp⟩) false (-1)
  refine ⟨ms, ts, h1, ?_, ?_, ?_⟩
  · rw [h2]
    refine ⟨by norm_num, by simp, by simp, by simp, 0.25, by simp, ?_⟩
    constructor <;> norm_num [abs_of_pos]
  · rw [h2]
    refine ⟨by norm_num, by simp, by simp, by simp, 0.35, by simp, ?_⟩
    constructor <;> norm_num [abs_le]
    decide
  · rw [h2]
    rintro ⟨_, _, _, _, t, ht, hr⟩
    simp only [List.mem_cons, List.not_mem_nil, or_false] at ht
    rcases ht with rfl | rfl | rfl | rfl | rfl <;> unfold IsRound at hr <;>
      norm_num [abs_le, abs_of_pos, Int.even_iff] at hr

/-- `taus="all"` on five points at 2 Hz -/
example : tau_generator [3, 1, 4, 1, (5 : ℝ)] 2 (.str "all") =
    .ok ([3, 1, 4, 1, 5], [1, 2, 3, 4], [1 / 2, 2 / 2, 3 / 2, 4 / 2]) := by
  rw [tau_generator_all _ _ (by norm_num)]
  simp [List.range'_succ]

end AT
