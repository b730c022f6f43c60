import Verif.Props.Api

/-! # How the specified statistics depend on the data -/

namespace AT

open Spec Finset Real

/-- `m` is a factor at which `fn` reports a value for `N` points -/
def Usable (fn : DevName) (N m : ℕ) : Prop :=
  0 < m ∧ m < lenOf fn N ∧ (m : ℝ) ≤ maxOf fn N ∧ (fn = .theo1 → Even m) ∧ 1 < count fn N m

theorem rms_congr {n : ℕ} {f g : ℕ → ℝ} (c : ℝ) (h : ∀ i < n, f i ^ 2 = g i ^ 2) :
    rms n f c = rms n g c := by
  unfold rms
  rw [Finset.sum_congr rfl (fun i hi => h i (Finset.mem_range.1 hi))]

theorem d2_congr {x y : ℕ → ℝ} {N m i : ℕ} (h : ∀ i < N, x i = y i) (hi : i + 2 * m < N) :
    d2 x m i = d2 y m i := by
  unfold d2; rw [h _ hi, h _ (by omega), h _ (by omega)]

theorem d3_congr {x y : ℕ → ℝ} {N m i : ℕ} (h : ∀ i < N, x i = y i) (hi : i + 3 * m < N) :
    d3 x m i = d3 y m i := by
  unfold d3; rw [h _ hi, h _ (by omega), h _ (by omega), h _ (by omega)]

theorem decimated_lt {N m k : ℕ} (hm : 0 < m) (hN : 0 < N) (h : k < decimated N m) : k * m < N := by
  unfold decimated at h
  have h1 : k ≤ (N - 1) / m := by omega
  have := (Nat.le_div_iff_mul_le hm).1 h1
  omega

theorem oadev_congr {x y : ℕ → ℝ} {N m : ℕ} (τ : ℝ) (h : ∀ i < N, x i = y i) :
    Spec.oadev x N m τ = Spec.oadev y N m τ :=
  rms_congr _ (fun i hi => by rw [d2_congr h (by omega)])

theorem ohdev_congr {x y : ℕ → ℝ} {N m : ℕ} (τ : ℝ) (h : ∀ i < N, x i = y i) :
    Spec.ohdev x N m τ = Spec.ohdev y N m τ :=
  rms_congr _ (fun i hi => by rw [d3_congr h (by omega)])

theorem reflect_congr {x y : ℕ → ℝ} {N : ℕ} {j : ℤ} (h : ∀ i < N, x i = y i)
    (h1 : -(N : ℤ) < j) (h2 : j < 2 * N - 1) : reflect x N j = reflect y N j := by
  unfold reflect
  split_ifs
  · rw [h _ (by omega), h _ (by omega)]
  · rw [h _ (by omega)]
  · rw [h _ (by omega), h _ (by omega)]

/-- the statistics only look at the first `N` samples -/
theorem value_congr (fn : DevName) {x y : ℕ → ℝ} {N m : ℕ} (rate : ℝ) (hu : Usable fn N m)
    (h : ∀ i < N, x i = y i) : value fn x N rate m = value fn y N rate m := by
  obtain ⟨hm, hl, hx, he, hc⟩ := hu
  have hN : 0 < N := by
    unfold lenOf at hl; split_ifs at hl <;> omega
  have hmdev : 1 < (N : ℤ) - 3 * m + 1 → ∀ τ, Spec.mdev x N m τ = Spec.mdev y N m τ := by
    intro hc τ
    refine rms_congr _ (fun i hi => ?_)
    rw [Finset.sum_congr rfl (fun k hk => ?_)]
    rw [Finset.mem_range] at hk
    exact d2_congr h (by omega)
  have hmtot : (m : ℝ) ≤ (N : ℝ) / 3 → ∀ τ, Spec.mtotdev x N m τ = Spec.mtotdev y N m τ := by
    intro hx τ
    have := third_le hx
    unfold Spec.mtotdev
    congr 2
    apply Finset.sum_congr rfl
    intro i hi
    rw [Finset.mem_range] at hi
    exact totTerm_congr _ _ m hm (fun k hk => h _ (by omega))
  unfold value
  cases fn <;> simp only [count, lenOf, maxOf, reduceCtorEq, if_false, if_true] at *
  case adev =>
    refine rms_congr _ (fun i hi => ?_)
    have h1 := decimated_lt (k := i + 2) hm hN (by omega)
    have h2 := decimated_lt (k := i + 1) hm hN (by omega)
    have h3 := decimated_lt (k := i) hm hN (by omega)
    unfold d2
    simp only [mul_one]
    rw [h _ h1, h _ h2, h _ h3]
  case oadev => exact oadev_congr _ h
  case mdev => exact hmdev hc _
  case tdev => unfold Spec.tdev; rw [hmdev hc]
  case hdev =>
    refine rms_congr _ (fun i hi => ?_)
    have h0 := decimated_lt (k := i + 3) hm hN (by omega)
    have h1 := decimated_lt (k := i + 2) hm hN (by omega)
    have h2 := decimated_lt (k := i + 1) hm hN (by omega)
    have h3 := decimated_lt (k := i) hm hN (by omega)
    unfold d3
    simp only [mul_one]
    rw [h _ h0, h _ h1, h _ h2, h _ h3]
  case ohdev => exact ohdev_congr _ h
  case pdev =>
    unfold Spec.pdev
    split_ifs with h1
    · exact oadev_congr _ h
    · congr 3
      apply Finset.sum_congr rfl
      intro i hi
      rw [Finset.mem_range] at hi
      congr 1
      apply Finset.sum_congr rfl
      intro k hk
      rw [Finset.mem_range] at hk
      rw [h _ (by omega), h _ (by omega)]
  case totdev =>
    refine rms_congr _ (fun i hi => ?_)
    rw [reflect_congr h (by omega) (by omega), reflect_congr h (by omega) (by omega),
      reflect_congr h (by omega) (by omega)]
  case mtotdev => exact hmtot hx _
  case ttotdev => rw [hmtot hx]
  case htotdev =>
    unfold htotdev'
    split_ifs with h1
    · exact ohdev_congr _ h
    · exact htotdev_congr _ _ _ _ hm (third_le hx) (fun i hi => by
        unfold freqOf; rw [h _ (by omega), h _ (by omega)])
  case theo1 =>
    unfold Spec.theo1
    congr 2
    apply Finset.sum_congr rfl
    intro i hi
    rw [Finset.mem_range] at hi
    apply Finset.sum_congr rfl
    intro d hd
    rw [Finset.mem_range] at hd
    rw [h _ (by omega), h _ (by omega), h _ (by omega), h _ (by omega)]
  case tierms =>
    refine rms_congr _ (fun i hi => ?_)
    rw [h _ (by omega), h _ (by omega)]
  case mtie =>
    unfold Spec.mtie
    congr 1
    ext d
    constructor
    · rintro ⟨i, j, a, b, c, rfl⟩
      exact ⟨i, j, a, b, c, by rw [h _ c, h _ (by omega)]⟩
    · rintro ⟨i, j, a, b, c, rfl⟩
      exact ⟨i, j, a, b, c, by rw [h _ c, h _ (by omega)]⟩

/-- two tables agree if the statistics agree at every factor they report -/
theorem table_congr {N : ℕ} {rate : ℝ} {taus : TausArg} {even : Bool} {maxM : ℝ}
    {dev err dev' err' : ℕ → ℝ} {n n' : ℕ → ℤ}
    (H : ∀ m, 0 < m → m < N → (m : ℝ) ≤ maxM → (even = true → Even m) →
      n m = n' m ∧ (1 < n m → dev m = dev' m ∧ err m = err' m)) :
    table N rate taus even maxM dev err n = table N rate taus even maxM dev' err' n' := by
  unfold table
  cases h : factors N rate taus even maxM with
  | error e => rfl
  | ok ms =>
    simp only [ok_bind]
    have hm : ∀ m ∈ ms, n m = n' m ∧ (1 < n m → dev m = dev' m ∧ err m = err' m) := by
      intro m hm
      obtain ⟨h1, h2, h3, h4, _⟩ := factors_mem h hm
      exact H m h1 h2 h3 h4
    have hf : ms.filter (fun m => decide (1 < n m)) = ms.filter (fun m => decide (1 < n' m)) :=
      List.filter_congr (fun m h => by rw [(hm m h).1])
    unfold sweep
    rw [← hf]
    simp only
    split_ifs with h0
    · rfl
    · have hk : ∀ m ∈ ms.filter (fun m => decide (1 < n m)),
          n m = n' m ∧ dev m = dev' m ∧ err m = err' m := by
        intro m h
        rw [List.mem_filter] at h
        exact ⟨(hm m h.1).1, (hm m h.1).2 (by simpa using h.2)⟩
      rw [List.map_congr_left (fun m h => (hk m h).1),
        List.map_congr_left (fun m h => (hk m h).2.1),
        List.map_congr_left (fun m h => (hk m h).2.2)]

/-- two data sets of the same length with the same statistics give the same result -/
theorem result_congr (fn : DevName) {x y : List ℝ} (hl : x.length = y.length) (rate : ℝ)
    (taus : TausArg)
    (H : rate ≠ 0 → ∀ m, Usable fn x.length m →
      value fn (seq x) x.length rate m = value fn (seq y) x.length rate m) :
    result fn x rate taus = result fn y rate taus := by
  have hnil : x = [] ↔ y = [] := by
    rw [← List.length_eq_zero_iff, ← List.length_eq_zero_iff, hl]
  unfold result
  simp only [hl, hnil]
  split_ifs
  · rfl
  · rfl
  · rfl
  · by_cases hr : rate = 0
    · simp [Stat.table, table, factors, hr]
    unfold Stat.table stat
    refine table_congr (fun m h1 h2 h3 h4 => ⟨rfl, fun h5 => ?_⟩)
    have : value fn (seq x) y.length rate m = value fn (seq y) y.length rate m := by
      have := H hr m
      rw [hl] at this
      exact this ⟨h1, h2, h3, by simpa using h4, h5⟩
    simp only [this, and_self]

/-- the result of scaling all deviations and error bars -/
noncomputable def DevOut.scale (c : ℝ) (o : DevOut ℝ) : DevOut ℝ :=
  ⟨o.taus, o.devs.map (c * ·), (match o.errs with
    | .arr l => .arr (l.map (c * ·))
    | .lst ls => .lst (ls.map (fun l => l.map (c * ·)))), o.ns⟩

theorem table_scale (N : ℕ) (rate : ℝ) (taus : TausArg) (even : Bool) (maxM : ℝ)
    (dev err : ℕ → ℝ) (n : ℕ → ℤ) (c : ℝ) :
    table N rate taus even maxM (fun m => c * dev m) (fun m => c * err m) n
      = (table N rate taus even maxM dev err n).map (DevOut.scale c) := by
  unfold table
  cases h : factors N rate taus even maxM with
  | error e => rfl
  | ok ms =>
    simp only [ok_bind]
    unfold sweep
    simp only
    split_ifs with h0
    · rfl
    · simp [Except.map, DevOut.scale, Function.comp_def]

theorem result_scale (fn : DevName) {x y : List ℝ} (hl : x.length = y.length) (rate : ℝ)
    (taus : TausArg) (c : ℝ)
    (H : rate ≠ 0 → ∀ m, Usable fn x.length m →
      value fn (seq x) x.length rate m = c * value fn (seq y) x.length rate m) :
    result fn x rate taus = (result fn y rate taus).map (DevOut.scale c) := by
  have hnil : x = [] ↔ y = [] := by
    rw [← List.length_eq_zero_iff, ← List.length_eq_zero_iff, hl]
  unfold result
  simp only [hl, hnil]
  split_ifs
  · rfl
  · cases factors y.length rate taus false y.length <;> rfl
  · cases factors y.length rate taus false y.length <;> rfl
  · by_cases hr : rate = 0
    · simp [Stat.table, table, factors, hr, Except.map]
    unfold Stat.table stat
    rw [← table_scale]
    refine table_congr (fun m h1 h2 h3 h4 => ⟨rfl, fun h5 => ?_⟩)
    have : value fn (seq x) y.length rate m = c * value fn (seq y) y.length rate m := by
      have := H hr m
      rw [hl] at this
      exact this ⟨h1, h2, h3, by simpa using h4, h5⟩
    simp only [this]
    refine ⟨by ring, ?_⟩
    unfold errOf
    cases errCount fn y.length m <;> simp only <;> ring

end AT
