import Verif.Spec.Tau
import Verif.Lemmas.Tab
import Mathlib.Data.List.Sort
import Mathlib.Tactic.Push
import Mathlib.Tactic.IntervalCases
import Mathlib.Tactic.FieldSimp

/-! # Lemmas about rounding, unique, masks and `tau_generator` -/

namespace AT

open Spec

theorem npRound_isRound (x : ℝ) : IsRound x (npRound x) := by
  have h1 := Int.floor_le x
  have h2 := Int.lt_floor_add_one x
  unfold npRound IsRound
  simp only
  split_ifs with a b c
  · refine ⟨by rw [abs_le]; constructor <;> linarith, fun h => ?_⟩
    rw [abs_of_nonneg (by linarith)] at h; linarith
  · push_cast
    refine ⟨by rw [abs_le]; constructor <;> linarith, fun h => ?_⟩
    rw [abs_of_nonpos (by linarith)] at h; linarith
  · refine ⟨by rw [abs_le]; constructor <;> linarith, fun _ => Int.even_iff.2 c⟩
  · push_cast
    refine ⟨by rw [abs_le]; constructor <;> linarith, fun _ => ?_⟩
    rw [Int.even_iff]; omega

theorem isRound_unique {x : ℝ} {j k : ℤ} (hj : IsRound x j) (hk : IsRound x k) : j = k := by
  have main : ∀ a b : ℤ, IsRound x a → IsRound x b → ¬ a < b := by
    intro a b ha hb hab
    have h1 := (abs_le.1 ha.1)
    have h2 := (abs_le.1 hb.1)
    have h3 : ((a : ℝ) + 1 ≤ b) := by exact_mod_cast hab
    have e1 : x - a = 1 / 2 := by linarith
    have e2 : x - b = - (1 / 2) := by linarith
    have e3 : (b : ℝ) = a + 1 := by linarith
    have e4 : b = a + 1 := by exact_mod_cast e3
    have p1 := ha.2 (by rw [e1, abs_of_pos]; norm_num)
    have p2 := hb.2 (by rw [e2, abs_neg, abs_of_pos]; norm_num)
    rw [Int.even_iff] at p1 p2
    omega
  rcases lt_trichotomy j k with h | h | h
  · exact absurd h (main _ _ hj hk)
  · exact h
  · exact absurd h (main _ _ hk hj)

theorem npRound_eq_iff (x : ℝ) (k : ℤ) : npRound x = k ↔ IsRound x k :=
  ⟨fun h => h ▸ npRound_isRound x, fun h => isRound_unique (npRound_isRound x) h⟩

theorem isRound_intCast (k : ℤ) : IsRound (k : ℝ) k := by
  constructor
  · simp
  · intro h; simp at h

theorem isRound_intCast_iff (j k : ℤ) : IsRound (j : ℝ) k ↔ j = k :=
  ⟨fun h => isRound_unique (isRound_intCast j) h, fun h => h ▸ isRound_intCast j⟩

theorem isRound_natCast_iff (j k : ℕ) : IsRound (j : ℝ) (k : ℤ) ↔ j = k := by
  have := isRound_intCast_iff (j : ℤ) (k : ℤ)
  push_cast at this
  rw [this]; exact_mod_cast Iff.rfl

theorem mem_npUnique (l : List ℤ) (k : ℤ) : k ∈ npUnique l ↔ k ∈ l := by
  simp [npUnique]

theorem npUnique_sorted (l : List ℤ) : (npUnique l).Pairwise (· < ·) := by
  have h1 : (l.mergeSort (fun a b => decide (a ≤ b))).Pairwise (fun a b => a ≤ b) := by
    have := List.pairwise_mergeSort (le := fun a b : ℤ => decide (a ≤ b))
      (by intro a b c; simp; omega) (by intro a b; simp; omega) l
    simpa using this
  have h2 : (npUnique l).Pairwise (· ≤ ·) := h1.sublist (List.dedup_sublist _)
  have h3 : (npUnique l).Nodup := List.nodup_dedup _
  exact (h2.and h3).imp (fun h => lt_of_le_of_ne h.1 h.2)

theorem sorted_ext {l₁ l₂ : List ℕ} (h1 : l₁.Pairwise (· < ·)) (h2 : l₂.Pairwise (· < ·))
    (h : ∀ a, a ∈ l₁ ↔ a ∈ l₂) : l₁ = l₂ := by
  have p : l₁.Perm l₂ := (List.perm_ext_iff_of_nodup (h1.imp (fun h => ne_of_lt h))
    (h2.imp (fun h => ne_of_lt h))).2 h
  exact p.eq_of_pairwise (le := (· < ·)) (fun a b _ _ hab hba => by omega) h1 h2

theorem maskSel_map {α : Type} (xs : List α) (p : α → Bool) :
    maskSel xs (xs.map p) = .ok (xs.filter p) := by
  unfold maskSel
  rw [if_pos (by simp)]
  congr 1
  induction xs with
  | nil => rfl
  | cons a xs ih =>
    by_cases h : p a
    · simp [h, ih]
    · simp [h, ih]

theorem maskSel_map_map {α β : Type} (xs : List α) (f : α → β) (p : α → Bool) :
    maskSel (xs.map f) (xs.map p) = .ok ((xs.filter p).map f) := by
  unfold maskSel
  rw [if_pos (by simp)]
  congr 1
  induction xs with
  | nil => rfl
  | cons a xs ih =>
    by_cases h : p a
    · simp [h, ih]
    · simp [h, ih]

/-! ### the expansion of `taus` -/

theorem linspace_one (N : ℕ) (i : ℕ) (hi : i < N) :
    (npLinspace 1 N N)[i]? = some ((i : ℝ) + 1) := by
  unfold npLinspace
  split_ifs with h
  · subst h
    have : i = 0 := by omega
    subst this; simp
  · rw [tab_getElem?, if_pos hi]
    have : (N : ℝ) - 1 ≠ 0 := by
      intro h0
      apply h
      have : (N : ℝ) = 1 := by linarith
      exact_mod_cast this
    rw [div_self this]
    congr 1; ring

theorem mem_linspace_one (N : ℕ) (t : ℝ) :
    t ∈ npLinspace 1 N N ↔ ∃ i < N, t = (i : ℝ) + 1 := by
  have hl : (npLinspace 1 N N).length = N := by
    unfold npLinspace; split_ifs with h
    · simp [h]
    · simp
  constructor
  · intro h
    obtain ⟨i, hi⟩ := List.mem_iff_getElem?.1 h
    have hlt : i < N := by
      by_contra hc
      rw [List.getElem?_eq_none (by omega)] at hi
      exact absurd hi (by simp)
    rw [linspace_one N i hlt] at hi
    exact ⟨i, hlt, (Option.some.inj hi).symm⟩
  · rintro ⟨i, hi, rfl⟩
    exact List.mem_iff_getElem?.2 ⟨i, linspace_one N i hi⟩

theorem mem_tab {α : Type} (n : ℕ) (g : ℕ → α) (a : α) : a ∈ tab n g ↔ ∃ i < n, g i = a := by
  simp [tab]

theorem logspace_octave (c : ℕ) (t : ℝ) :
    t ∈ npLogspace 0 (c : ℝ) (c + 1) 2 ↔ ∃ k ≤ c, t = (2 : ℝ) ^ k := by
  unfold npLogspace npLinspace
  rcases c with _ | c
  · simp
  · rw [if_neg (by omega), map_tab, mem_tab]
    have key : ∀ i : ℕ, (2 : ℝ) ^ ((0 : ℝ) + (i : ℝ) *
        ((((c + 1 : ℕ) : ℝ) - 0) / (((c + 1 + 1 : ℕ) : ℝ) - 1))) = (2 : ℝ) ^ i := by
      intro i
      have : (((c + 1 : ℕ) : ℝ) - 0) / (((c + 1 + 1 : ℕ) : ℝ) - 1) = 1 := by
        have h : (((c + 1 + 1 : ℕ) : ℝ) - 1) = ((c + 1 : ℕ) : ℝ) := by push_cast; ring
        rw [h, sub_zero, div_self]
        exact_mod_cast Nat.succ_ne_zero c
      rw [this]
      simp
    constructor
    · rintro ⟨i, hi, rfl⟩
      exact ⟨i, by omega, key i⟩
    · rintro ⟨k, hk, rfl⟩
      exact ⟨k, by omega, key k⟩

theorem floor_logb (b : ℕ) (hb : 1 < b) (N : ℕ) (hN : 0 < N) :
    ⌊Real.logb b N⌋ = (Nat.log b N : ℤ) := by
  have := Real.floor_logb_natCast (b := b) (r := (N : ℝ)) (by positivity)
  rw [this, Int.log_natCast]

/-- `t` rounds, after scaling by the rate, to an admissible factor `m` -/
theorem expand_octave (N : ℕ) (rate : ℝ) (hr : rate ≠ 0) (hN : 0 < N) :
    ∃ l, expand_taus.octave N rate = .ok l ∧
      ∀ m : ℕ, m < N → ((∃ t ∈ l, IsRound (t * rate) m) ↔ IsOctave m) := by
  unfold expand_taus.octave
  rw [if_neg (by omega)]
  refine ⟨_, rfl, ?_⟩
  intro m hm
  have hf : ⌊Real.logb 2 N⌋ = (Nat.log 2 N : ℤ) := by
    exact_mod_cast floor_logb 2 (by norm_num) N hN
  have e1 : (⌊Real.logb 2 N⌋ + 1).toNat = Nat.log 2 N + 1 := by rw [hf]; omega
  have e2 : ((⌊Real.logb 2 N⌋ : ℤ) : ℝ) = ((Nat.log 2 N : ℕ) : ℝ) := by rw [hf]; simp
  simp only [e1, e2, vscale, List.mem_map]
  constructor
  · rintro ⟨t, ⟨u, hu, rfl⟩, hr'⟩
    obtain ⟨k, hk, rfl⟩ := (logspace_octave _ _).1 hu
    have : 1 / rate * (2 : ℝ) ^ k * rate = ((2 ^ k : ℕ) : ℝ) := by
      push_cast; field_simp
    rw [this, isRound_natCast_iff] at hr'
    exact ⟨k, hr'.symm⟩
  · rintro ⟨k, rfl⟩
    refine ⟨1 / rate * 2 ^ k, ⟨2 ^ k, (logspace_octave _ _).2 ⟨k, ?_, rfl⟩, rfl⟩, ?_⟩
    · exact Nat.le_log_of_pow_le (by norm_num) hm.le
    · have : 1 / rate * (2 : ℝ) ^ k * rate = ((2 ^ k : ℕ) : ℝ) := by
        push_cast; field_simp
      rw [this, isRound_natCast_iff]

theorem octave_zero (rate : ℝ) : expand_taus.octave 0 rate = .error .overflowError := by
  simp [expand_taus.octave]

theorem expand_log10 (N : ℕ) (hN : 0 < N) (i : ℕ) (n : ℕ) (hn : n ≠ 1) :
    (10 : ℝ) ^ ((0 : ℝ) + (i : ℝ) * ((Real.logb 10 N - 0) / ((n : ℝ) - 1)))
      = (N : ℝ) ^ ((i : ℝ) / ((n : ℝ) - 1)) := by
  have h1 : (0 : ℝ) + (i : ℝ) * ((Real.logb 10 N - 0) / ((n : ℝ) - 1))
      = Real.logb 10 N * ((i : ℝ) / ((n : ℝ) - 1)) := by ring
  rw [h1, Real.rpow_mul (by norm_num), Real.rpow_logb (by norm_num) (by norm_num)]
  exact_mod_cast hN

theorem log10Count_ne_one (N : ℕ) : log10Count N ≠ 1 := by
  unfold log10Count
  intro h
  have h1 : ⌊10 * Real.logb 10 N⌋ = 1 := by omega
  rw [Int.floor_eq_iff] at h1
  push_cast at h1
  rcases Nat.lt_or_ge N 2 with h2 | h2
  · have : Real.logb 10 N ≤ 0 := by
      interval_cases N
      · simp
      · simp
    linarith
  · have h3 : Real.logb 10 2 ≤ Real.logb 10 N :=
      Real.logb_le_logb_of_le (by norm_num) (by norm_num) (by exact_mod_cast h2)
    have h4 : (1 : ℝ) / 5 ≤ Real.logb 10 2 := by
      rw [Real.le_logb_iff_rpow_le (by norm_num) (by norm_num)]
      have : (10 : ℝ) ≤ 2 ^ (5 : ℝ) := by
        rw [show (5 : ℝ) = ((5 : ℕ) : ℝ) by norm_num, Real.rpow_natCast]; norm_num
      calc (10 : ℝ) ^ ((1 : ℝ) / 5) ≤ ((2 : ℝ) ^ (5 : ℝ)) ^ ((1 : ℝ) / 5) :=
            Real.rpow_le_rpow (by norm_num) this (by norm_num)
        _ = 2 := by rw [← Real.rpow_mul (by norm_num)]; norm_num
    linarith

/-- Full characterisation of the expansion. -/
theorem expand_taus_spec (N : ℕ) (rate : ℝ) (hr : rate ≠ 0) (taus : TausArg) :
    (∃ e, tausError N taus = some e ∧ expand_taus N rate taus = .error e) ∨
    (tausError N taus = none ∧ ∃ l, expand_taus N rate taus = .ok l ∧
      ∀ m : ℕ, 0 < m → m < N → ((∃ t ∈ l, IsRound (t * rate) m) ↔ Requested N rate taus m)) := by
  have oct : ∀ taus : TausArg, (expand_taus N rate taus = expand_taus.octave N rate) →
      (tausError N taus = if N = 0 then some .overflowError else none) →
      (∀ m, Requested N rate taus m ↔ IsOctave m) →
      ((∃ e, tausError N taus = some e ∧ expand_taus N rate taus = .error e) ∨
      (tausError N taus = none ∧ ∃ l, expand_taus N rate taus = .ok l ∧
        ∀ m : ℕ, 0 < m → m < N → ((∃ t ∈ l, IsRound (t * rate) m) ↔ Requested N rate taus m))) := by
    intro taus h1 h2 h3
    rcases Nat.eq_zero_or_pos N with h0 | h0
    · left
      refine ⟨.overflowError, by rw [h2, if_pos h0], ?_⟩
      rw [h1, h0, octave_zero]
    · right
      refine ⟨by rw [h2, if_neg (by omega)], ?_⟩
      obtain ⟨l, hl, hm⟩ := expand_octave N rate hr h0
      exact ⟨l, by rw [h1, hl], fun m _ hN => by rw [hm m hN, h3]⟩
  match taus with
  | .none => exact oct _ rfl rfl (fun m => Iff.rfl)
  | .list [] => exact oct _ rfl rfl (fun m => Iff.rfl)
  | .list (t :: ts) => exact Or.inr ⟨rfl, _, rfl, fun m _ _ => Iff.rfl⟩
  | .array l => exact Or.inr ⟨rfl, _, rfl, fun m _ _ => Iff.rfl⟩
  | .str s =>
    by_cases h1 : s = "all"
    · subst h1
      right
      refine ⟨by simp [tausError], vscale (1 / rate) (npLinspace 1 N N), by simp [expand_taus], ?_⟩
      intro m h0 hm
      simp only [Requested, vscale, List.mem_map]
      refine ⟨fun _ => Or.inl trivial, fun _ => ?_⟩
      refine ⟨1 / rate * (((m - 1 : ℕ) : ℝ) + 1),
        ⟨_, (mem_linspace_one N _).2 ⟨m - 1, by omega, rfl⟩, rfl⟩, ?_⟩
      have : 1 / rate * (((m - 1 : ℕ) : ℝ) + 1) * rate = (m : ℝ) := by
        have h : ((m - 1 : ℕ) : ℝ) + 1 = (m : ℝ) := by
          rw [Nat.cast_sub (by omega)]; simp
        rw [h]; field_simp
      rw [this, isRound_natCast_iff]
    by_cases h2 : s = "octave"
    · subst h2
      apply oct
      · simp [expand_taus]
      · simp [tausError]
      · intro m; simp [Requested]
    by_cases h3 : s = "log10"
    · subst h3
      rcases Nat.eq_zero_or_pos N with h0 | h0
      · left
        exact ⟨.overflowError, by simp [tausError, h0], by simp [expand_taus, h0]⟩
      · right
        have hne : N ≠ 0 := by omega
        refine ⟨by simp [tausError, hne], vscale (1 / rate) (npLogspace 0 (Real.logb 10 N)
          (⌊10 * Real.logb 10 N⌋).toNat 10), by simp [expand_taus, hne], ?_⟩
        intro m _ hm
        have hK : (⌊10 * Real.logb 10 N⌋).toNat = log10Count N := rfl
        rw [hK]
        simp only [Requested, vscale, npLogspace, npLinspace, if_neg (log10Count_ne_one N),
          map_tab, mem_tab]
        constructor
        · rintro ⟨t, ⟨i, hi, rfl⟩, hr'⟩
          right; right; right
          refine ⟨trivial, i, hi, ?_⟩
          rw [expand_log10 N h0 i _ (log10Count_ne_one N)] at hr'
          convert hr' using 1
          field_simp
        · rintro (h | ⟨h, _⟩ | ⟨h, _⟩ | ⟨_, i, hi, hr'⟩)
          · exact absurd h (by decide)
          · exact absurd h (by decide)
          · exact absurd h (by decide)
          · refine ⟨_, ⟨i, hi, rfl⟩, ?_⟩
            rw [expand_log10 N h0 i _ (log10Count_ne_one N)]
            convert hr' using 1
            field_simp
    by_cases h4 : s = "decade"
    · subst h4
      rcases Nat.eq_zero_or_pos N with h0 | h0
      · left
        exact ⟨.overflowError, by simp [tausError, h0], by simp [expand_taus, h0]⟩
      · right
        have hne : N ≠ 0 := by omega
        refine ⟨by simp [tausError, hne], _, by simp [expand_taus, hne]; rfl, ?_⟩
        intro m hm0 hm
        have hf : ⌊Real.logb 10 N⌋ = (Nat.log 10 N : ℤ) := by
          exact_mod_cast floor_logb 10 (by norm_num) N h0
        have e1 : (⌊Real.logb 10 N⌋ + 1).toNat = Nat.log 10 N + 1 := by rw [hf]; omega
        have sc : ∀ c k : ℕ, (c : ℝ) * (1 / rate) * 10 ^ k * rate = ((c * 10 ^ k : ℕ) : ℝ) := by
          intro c k; push_cast; field_simp
        have s1 : ∀ k : ℕ, rate⁻¹ * 10 ^ k * rate = ((1 * 10 ^ k : ℕ) : ℝ) := by
          intro k; rw [← sc 1 k]; simp
        have s2 : ∀ k : ℕ, 2 * rate⁻¹ * 10 ^ k * rate = ((2 * 10 ^ k : ℕ) : ℝ) := by
          intro k; rw [← sc 2 k]; simp
        have s4 : ∀ k : ℕ, 4 * rate⁻¹ * 10 ^ k * rate = ((4 * 10 ^ k : ℕ) : ℝ) := by
          intro k; rw [← sc 4 k]; simp
        simp only [e1, Requested, List.mem_flatMap, List.mem_range]
        constructor
        · rintro ⟨t, ⟨k, hk, ht⟩, hr'⟩
          right; right; left
          refine ⟨trivial, k, ?_⟩
          simp only [List.mem_cons, List.not_mem_nil, or_false] at ht
          rcases ht with rfl | rfl | rfl
          · rw [s1, isRound_natCast_iff] at hr'; left; omega
          · rw [s2, isRound_natCast_iff] at hr'; right; left; omega
          · rw [s4, isRound_natCast_iff] at hr'; right; right; omega
        · rintro (h | ⟨h, _⟩ | ⟨_, k, hk⟩ | ⟨h, _⟩)
          · exact absurd h (by decide)
          · exact absurd h (by decide)
          · have hpos : 0 < 10 ^ k := by positivity
            have hk' : k < Nat.log 10 N + 1 := by
              have : 10 ^ k ≤ N := by omega
              have := Nat.le_log_of_pow_le (by norm_num) this
              omega
            rcases hk with h | h | h
            · refine ⟨_, ⟨k, hk', List.mem_cons_self ..⟩, ?_⟩
              rw [s1, isRound_natCast_iff]; omega
            · refine ⟨_, ⟨k, hk', List.mem_cons_of_mem _ (List.mem_cons_self ..)⟩, ?_⟩
              rw [s2, isRound_natCast_iff]; omega
            · refine ⟨_, ⟨k, hk', List.mem_cons_of_mem _ (List.mem_cons_of_mem _
                (List.mem_cons_self ..))⟩, ?_⟩
              rw [s4, isRound_natCast_iff]; omega
          · exact absurd h (by decide)
    · left
      refine ⟨.typeError, by simp [tausError, h1, h2, h3, h4], by simp [expand_taus, h1, h2, h3, h4]⟩

theorem admissible_iff (N : ℕ) (rate : ℝ) (taus : TausArg) (even : Bool) (maxM : ℝ) (m : ℕ) :
    admissible N rate taus even maxM m = true ↔ (0 < m ∧ m < N ∧ (m : ℝ) ≤ maxM ∧
      (even = true → Even m) ∧ Requested N rate taus m) := by
  unfold admissible
  simp only [decide_eq_true_eq]

/-- the effective upper limit on the averaging factor -/
noncomputable def effMax (N : ℕ) (mx : ℝ) : ℝ := if mx = -1 then N else mx

theorem tau_generator_eq {α : Type} (data : List α) (rate : ℝ) (taus : TausArg) (even : Bool)
    (mx : ℝ) :
    tau_generator data rate taus even mx =
      (factors data.length rate taus even (effMax data.length mx) >>= fun ms =>
        .ok (data, ms, ms.map (fun (m : ℕ) => (m : ℝ) / rate))) := by
  unfold tau_generator factors
  by_cases hr : rate = 0
  · simp [hr]
  simp only [if_neg hr]
  rcases expand_taus_spec data.length rate hr taus with ⟨e, h1, h2⟩ | ⟨h1, l, h2, h3⟩
  · rw [h1, h2]; rfl
  · rw [h1, h2]
    simp only [ok_bind, maskSel_map]
    have hmx : (if mx = -1 then (data.length : ℝ) else mx) = effMax data.length mx := rfl
    simp only [hmx]
    set u := npUnique _ with hu
    have humem : ∀ k : ℤ, k ∈ u ↔ (∃ t ∈ l, IsRound (t * rate) k) ∧ k < (data.length : ℤ) ∧ 0 < k ∧
        (k : ℝ) ≤ effMax data.length mx := by
      intro k
      rw [hu, mem_npUnique]
      simp only [List.mem_filter, List.mem_map, Bool.and_eq_true, decide_eq_true_eq, npRound_eq_iff]
      constructor
      · rintro ⟨⟨h1, ⟨h2, h3⟩, h4⟩, h5⟩; exact ⟨h1, h2, h3, h4⟩
      · rintro ⟨h1, h2, h3, h4⟩; exact ⟨⟨h1, ⟨h2, h3⟩, h4⟩, by omega⟩
    have husort := npUnique_sorted
    have hus : u.Pairwise (· < ·) := npUnique_sorted _
    clear_value u
    -- the sorted list of naturals
    have main : ∀ p : ℤ → Bool, (∀ k : ℕ, p k = true ↔ (even = true → Even k)) →
        (u.filter p).map Int.toNat = (List.range data.length).filter
          (admissible data.length rate taus even (effMax data.length mx)) := by
      intro p hp
      apply sorted_ext
      · rw [List.pairwise_map]
        refine List.Pairwise.imp_of_mem ?_ (hus.filter p)
        intro a b ha hb hab
        have := ((humem a).1 (List.mem_filter.1 ha).1).2.2.1
        omega
      · exact List.Pairwise.filter _ List.pairwise_lt_range
      · intro a
        simp only [List.mem_map, List.mem_filter, List.mem_range, admissible_iff]
        constructor
        · rintro ⟨k, ⟨hk, hpk⟩, rfl⟩
          obtain ⟨b1, b2, b3, b4⟩ := (humem k).1 hk
          have hk' : ((k.toNat : ℕ) : ℤ) = k := Int.toNat_of_nonneg b3.le
          rw [← hk'] at b1 b2 b3 b4 hpk
          refine ⟨by exact_mod_cast b2, by exact_mod_cast b3, by exact_mod_cast b2, by exact_mod_cast b4,
            (hp _).1 hpk, (h3 _ (by exact_mod_cast b3) (by exact_mod_cast b2)).1 b1⟩
        · rintro ⟨b1, b2, _, b3, b4, b5⟩
          refine ⟨(a : ℤ), ⟨(humem _).2 ⟨(h3 a b2 b1).2 b5, by exact_mod_cast b1,
            by exact_mod_cast b2, by exact_mod_cast b3⟩, (hp a).2 b4⟩, by simp⟩
    have hcast : ∀ v : List ℤ, (∀ k ∈ v, 0 < k) →
        v.map (fun k : ℤ => (k : ℝ) / rate) = (v.map Int.toNat).map (fun m : ℕ => (m : ℝ) / rate) := by
      intro v hv
      rw [List.map_map]
      apply List.map_congr_left
      intro k hk
      have := hv k hk
      simp only [Function.comp]
      congr 1
      have h : ((k.toNat : ℕ) : ℤ) = k := Int.toNat_of_nonneg this.le
      exact_mod_cast h.symm
    have hupos : ∀ k ∈ u, 0 < k := fun k hk => ((humem k).1 hk).2.2.1
    cases even with
    | true =>
      simp only [if_true, maskSel_map_map, maskSel_map, ok_bind]
      have hm := main (fun k => decide (k % 2 = 0)) (by
        intro k
        simp only [decide_eq_true_eq, forall_const, Nat.even_iff]; omega)
      rw [hcast _ (fun k hk => hupos k (List.mem_filter.1 hk).1), hm]
    | false =>
      simp only [Bool.false_eq_true, if_false]
      have hm := main (fun _ => true) (by intro k; simp)
      rw [List.filter_true] at hm
      rw [hcast _ hupos, hm]

theorem factors_mem {N : ℕ} {rate : ℝ} {taus : TausArg} {even : Bool} {mx : ℝ} {ms : List ℕ}
    (h : factors N rate taus even mx = .ok ms) {m : ℕ} (hm : m ∈ ms) :
    0 < m ∧ m < N ∧ (m : ℝ) ≤ mx ∧ (even = true → Even m) ∧ Requested N rate taus m := by
  unfold factors at h
  split_ifs at h
  split at h
  · cases h
  · cases h
    simp only [List.mem_filter, List.mem_range, admissible_iff] at hm
    exact hm.2

end AT
